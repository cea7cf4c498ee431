/-
What the captures of a glob pattern without braces should be (C73).  Written from the documentation of captures; shares nothing with the model.
-/
import Verif.Spec.GlobStars

namespace Mitex
namespace GlobSpec

/-- The pattern matches the bytes that begin at place `p` of the path, and the captures are the places of what the wildcards stand for:
one byte for each `?` and each class, any bytes but the separator for each star, in the order of the pattern.  Literal bytes capture nothing. -/
inductive Captures : List Bit → Nat → List Nat → List (Nat × Nat) → Prop
  | nil {p : Nat} : Captures [] p [] []
  | lit {s : Sym} {ps : List Bit} {p : Nat} {r : List Nat} {cs : List (Nat × Nat)} (h : Captures ps (p + 1) r cs) :
      Captures (.atom (.lit s) :: ps) p (s.val :: r) cs
  | any {c : Nat} {ps : List Bit} {p : Nat} {r : List Nat} {cs : List (Nat × Nat)} (hc : c ≠ '/'.toNat) (h : Captures ps (p + 1) r cs) :
      Captures (.atom .any :: ps) p (c :: r) ((p, p + 1) :: cs)
  | cls {neg : Option Nat} {items : List Item} {c : Nat} {ps : List Bit} {p : Nat} {r : List Nat} {cs : List (Nat × Nat)}
      (hc : (Atom.cls neg items).has c = true) (h : Captures ps (p + 1) r cs) :
      Captures (.atom (.cls neg items) :: ps) p (c :: r) ((p, p + 1) :: cs)
  | star {d : Bool} {x : List Nat} {ps : List Bit} {p : Nat} {r : List Nat} {cs : List (Nat × Nat)} (hx : '/'.toNat ∉ x)
      (h : Captures ps (p + x.length) r cs) : Captures (.star d :: ps) p (x ++ r) ((p, p + x.length) :: cs)

/-- Where two lists of captures differ first, a wildcard of the second ends later. -/
def Later (cs cs' : List (Nat × Nat)) : Prop :=
  ∃ pre p e e' t t', cs = pre ++ (p, e) :: t ∧ cs' = pre ++ (p, e') :: t' ∧ e < e'

/-- Does the atom capture? -/
def Atom.wild : Atom → Bool
  | .lit _ => false
  | _ => true

/-- Where in the pattern: before the first star, directly behind a star, or later. -/
inductive Since where
  | start | star | later
  deriving DecidableEq, Repr

/-- The patterns whose captures are right: stars do not touch, and after a star there is at most one `?` or class before the next star, directly
behind the star. -/
def steady : Since → List Bit → Bool
  | _, [] => true
  | w, .star _ :: ps => w != .star && steady .star ps
  | w, .atom a :: ps => (!a.wild || w != .later) && steady (if w = .start then .start else .later) ps

end GlobSpec
end Mitex
