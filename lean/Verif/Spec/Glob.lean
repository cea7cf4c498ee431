/-
What a glob pattern without `*` means (C64).  Written from the syntax of glob patterns; shares nothing with the model of the matcher.
Patterns and texts are sequences of bytes, as in crates/mitex-glob.
-/

namespace Mitex
namespace GlobSpec

/-- A byte, as written in a pattern: itself, or behind a backslash. -/
inductive Sym where
  | plain (b : Nat)
  | esc (b : Nat)
  deriving DecidableEq, Repr

/-- How it is written. -/
def Sym.bytes : Sym → List Nat
  | .plain b => [b]
  | .esc b => ['\\'.toNat, b]

/-- Which byte it stands for: `\b`, `\n`, `\r` and `\t` are the usual control characters, everything else stands for itself. -/
def Sym.val : Sym → Nat
  | .plain b => b
  | .esc b => if b = 'b'.toNat then 8 else if b = 'n'.toNat then 10 else if b = 'r'.toNat then 13 else if b = 't'.toNat then 9 else b

/-- An element of a class. -/
inductive Item where
  | one (s : Sym)
  | range (lo hi : Sym)
  deriving DecidableEq, Repr

def Item.bytes : Item → List Nat
  | .one s => s.bytes
  | .range lo hi => lo.bytes ++ '-'.toNat :: hi.bytes

/-- Ranges include both ends. -/
def Item.has (c : Nat) : Item → Bool
  | .one s => decide (c = s.val)
  | .range lo hi => decide (lo.val ≤ c ∧ c ≤ hi.val)

/-- What matches exactly one byte: a byte, `?`, or a class, which is negated by `^` or `!`. -/
inductive Atom where
  | lit (s : Sym)
  | any
  | cls (neg : Option Nat) (items : List Item)
  deriving DecidableEq, Repr

def Atom.bytes : Atom → List Nat
  | .lit s => s.bytes
  | .any => ['?'.toNat]
  | .cls neg items => '['.toNat :: (neg.toList ++ (items.flatMap Item.bytes ++ [']'.toNat]))

/-- Which bytes it matches: `?` matches everything but the separator. -/
def Atom.has (c : Nat) : Atom → Bool
  | .lit s => decide (c = s.val)
  | .any => decide (c ≠ '/'.toNat)
  | .cls none items => items.any (Item.has c)
  | .cls (some _) items => !items.any (Item.has c)

/-- One piece of a pattern: an atom, or alternatives in braces. -/
inductive Piece where
  | atom (a : Atom)
  | group (o : List Atom) (os : List (List Atom))
  deriving DecidableEq, Repr

/-- How a list of atoms is written. -/
def atomBytes (as : List Atom) : List Nat := as.flatMap Atom.bytes

def Piece.bytes : Piece → List Nat
  | .atom a => a.bytes
  | .group o os => '{'.toNat :: atomBytes o ++ os.flatMap (fun o => ','.toNat :: atomBytes o) ++ ['}'.toNat]

/-- How a pattern is written: the number of negating `!` first. -/
def patBytes (bangs : Nat) (ps : List Piece) : List Nat := List.replicate bangs '!'.toNat ++ ps.flatMap Piece.bytes

/-! ### Which of these are written so that they are read as meant -/

/-- The first symbol of an element of a class. -/
def Item.start : Item → Sym
  | .one s => s
  | .range lo _ => lo

/-- A byte written as itself in a class: no backslash, and no closing bracket except as the first one. -/
def symOk (first : Bool) (s : Sym) : Prop := s ≠ .plain '\\'.toNat ∧ (first = false → s ≠ .plain ']'.toNat)

/-- The elements of a class: a `-` is an element only where it cannot be read as a range. -/
def itemsOk : Bool → List Item → Prop
  | _, [] => True
  | first, .one s :: rest => symOk first s ∧
      (match rest with
        | [] => True
        | r :: rs => r.start = .plain '-'.toNat → r = .one (.plain '-'.toNat) ∧ rs = []) ∧ itemsOk false rest
  | first, .range lo hi :: rest => symOk first lo ∧ symOk false hi ∧ itemsOk false rest

/-- Well-written atoms outside of braces. -/
def Atom.ok : Atom → Prop
  | .lit (.plain b) => b ≠ '*'.toNat ∧ b ≠ '?'.toNat ∧ b ≠ '['.toNat ∧ b ≠ '{'.toNat ∧ b ≠ '\\'.toNat
  | .lit (.esc _) => True
  | .any => True
  | .cls neg items => items ≠ [] ∧ itemsOk true items ∧
      match neg with
      | none => ∀ i ∈ items.head?, i.start ≠ .plain '^'.toNat ∧ i.start ≠ .plain '!'.toNat
      | some n => n = '^'.toNat ∨ n = '!'.toNat

/-- Well-written atoms within braces: moreover no commas and closing braces outside of classes; an escaped byte is not one of
`{`, `}`, `,`, `[`, `*` and the backslash; and a class does not begin with a closing bracket. -/
def Atom.okInside : Atom → Prop
  | .lit (.plain b) => Atom.ok (.lit (.plain b)) ∧ b ≠ ','.toNat ∧ b ≠ '}'.toNat
  | .lit (.esc b) => b ≠ '{'.toNat ∧ b ≠ '}'.toNat ∧ b ≠ ','.toNat ∧ b ≠ '['.toNat ∧ b ≠ '*'.toNat ∧ b ≠ '\\'.toNat
  | .any => True
  | .cls neg items => Atom.ok (.cls neg items) ∧ itemsOk false items

def Piece.ok : Piece → Prop
  | .atom a => a.ok
  | .group o os => (∀ a ∈ o, a.okInside) ∧ ∀ o ∈ os, ∀ a ∈ o, a.okInside

/-- A well-written pattern: its first byte after the negations is not one more negation. -/
def patOk (ps : List Piece) : Prop := (∀ p ∈ ps, p.ok) ∧ ps.head? ≠ some (.atom (.lit (.plain '!'.toNat)))

/-- The inside of an alternative, however deeply nested: atoms and balanced braces; commas only inside of braces. -/
inductive Nested : Bool → List Nat → Prop
  | nil {inner} : Nested inner []
  | atom {inner} {a : Atom} {x : List Nat} (ha : a.okInside) (h : Nested inner x) : Nested inner (a.bytes ++ x)
  | comma {x} (h : Nested true x) : Nested true (','.toNat :: x)
  | braces {inner x y} (h1 : Nested true x) (h2 : Nested inner y) : Nested inner ('{'.toNat :: (x ++ '}'.toNat :: y))

/-! ### What they match -/

/-- The atoms match the bytes, one by one. -/
def fits : List Atom → List Nat → Bool
  | [], [] => true
  | a :: as, c :: cs => a.has c && fits as cs
  | _, _ => false

/-- The alternatives that match a beginning of the text. -/
def matching (os : List (List Atom)) (r : List Nat) : List (List Atom) := os.filter fun o => fits o (r.take o.length)

/-- The longest of them decides how much of the text is taken. -/
def longestOf (os : List (List Atom)) : Option Nat := (os.map List.length).max?

/-- Does the pattern match the text (or, in prefix mode, can the text be continued to a match)?  Alternatives must match as a whole, and
the longest one is taken, without going back. -/
def accepts (isPrefix : Bool) : List Piece → List Nat → Bool
  | [], r => r.isEmpty
  | _ :: _, [] => isPrefix
  | .atom a :: ps, c :: r => a.has c && accepts isPrefix ps r
  | .group o os :: ps, c :: r =>
    match longestOf (matching (o :: os) (c :: r)) with
    | none => false
    | some n => accepts isPrefix ps ((c :: r).drop n)

/-! ### Stars outside of braces -/

/-- Reading a pattern from the left, with `k` braces open: no `*` while a brace is open.  Braces are counted as they are written; but a group
which contains a class or an escape counts as never closed (`m`: this has happened), because what a `}` in or after a class means depends on
how the matcher got there. -/
def starsOutside : Nat → Bool → List Char → Bool
  | _, _, [] => true
  | k, m, c :: cs =>
    if c = '*' then k == 0 && starsOutside k m cs
    else if c = '{' then starsOutside (k + 1) m cs
    else if c = '}' then starsOutside (if m then k else k - 1) m cs
    else if c = '[' ∨ c = '\\' then starsOutside k (m || decide (0 < k)) cs
    else starsOutside k m cs

end GlobSpec
end Mitex
