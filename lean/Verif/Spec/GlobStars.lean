/-
What a glob pattern with stars, but without braces, means (C69).  Written from the syntax of glob patterns; shares nothing with the model of
the matcher.
-/
import Verif.Spec.Glob

namespace Mitex
namespace GlobSpec

/-- One piece of a pattern: an atom, `*`, or `**`. -/
inductive Bit where
  | atom (a : Atom)
  | star (double : Bool)
  deriving DecidableEq, Repr

/-- How it is written. -/
def Bit.bytes : Bit → List Nat
  | .atom a => a.bytes
  | .star double => if double then ['*'.toNat, '*'.toNat] else ['*'.toNat]

/-- How a pattern is written: the number of negating `!` first. -/
def starBytes (bangs : Nat) (ps : List Bit) : List Nat := List.replicate bangs '!'.toNat ++ ps.flatMap Bit.bytes

/-- What the pattern matches: every atom one byte, every star any bytes but the separator. -/
inductive Matches : List Bit → List Nat → Prop
  | nil : Matches [] []
  | atom {a : Atom} {c : Nat} {ps : List Bit} {r : List Nat} (ha : a.has c = true) (h : Matches ps r) : Matches (.atom a :: ps) (c :: r)
  | star {d : Bool} {x : List Nat} {ps : List Bit} {r : List Nat} (hx : '/'.toNat ∉ x) (h : Matches ps r) : Matches (.star d :: ps) (x ++ r)

/-- In prefix mode: a beginning of the pattern matches the text. -/
def MatchesStart (ps : List Bit) (r : List Nat) : Prop := ∃ ps', ps' <+: ps ∧ Matches ps' r

/-- Well-written: atoms are, and an atom that matches the separator matches nothing else; stars are paired from the left. -/
def bitsOk : List Bit → Prop
  | [] => True
  | .atom a :: ps => a.ok ∧ (a.has '/'.toNat = true → ∀ c, a.has c = true → c = '/'.toNat) ∧ bitsOk ps
  | .star d :: ps => (d = false → ∀ e, ps.head? ≠ some (.star e)) ∧ bitsOk ps

/-- A doubled star may stand for more than a star if there are separators; they are excluded then. -/
def plainDoubles (ps : List Bit) (r : List Nat) : Prop :=
  .star true ∈ ps → '/'.toNat ∉ ps.flatMap Bit.bytes ∧ '/'.toNat ∉ r

end GlobSpec
end Mitex
