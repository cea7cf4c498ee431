import Verif.Spec.Formula

/-!
# Braces that are not needed

What it is to remove braces from a formula that are not needed: those around a part, around several parts in a row, and around a script
of a single character or symbol or an argument of a single character; and so are blanks before arguments.  Then two runs of text may stand next to each other, which are one run of text (in the same letters).
Property C92 says that all of this leaves the output as it is.
-/

namespace Mitex

/-- The parts `xs`, then `n` blanks, then the parts `as`. -/
def Atoms.followedBy (n : Nat) (as : Atoms) : Atoms → Atoms
  | .nil => as
  | .cons a sp .nil => .cons a (sp + n) as
  | .cons a sp (.cons b sp' xs) => .cons a sp (followedBy n as (.cons b sp' xs))

/-- Does the part start with a run of text, perhaps with primes and scripts?  (A command after its argument, like `\limits`, takes the whole
run: there the braces do make a difference.) -/
def Atom.joins : Atom → Bool
  | .text _ => true
  | .prime base => base.joins
  | .script base _ _ => base.joins
  | _ => false

/-- The part with some text before it: only for parts that start with text. -/
def Atom.after (ps : List TextPart) : Atom → Atom
  | .text qs => .text (ps ++ qs)
  | .prime base => .prime (base.after ps)
  | .script base super s => .script (base.after ps) super s
  | a => a

/-- The blanks between two words of a run, if there are any. -/
def wordGap : Nat → List TextPart
  | 0 => []
  | n + 1 => [.blank (n + 1)]

mutual
/-- One pair of braces less, or no blanks before an argument, or two runs of text taken as one. -/
inductive Atom.Drops : Atom → Atom → Prop
  /-- `{a}` becomes `a` -/
  | braces (a : Atom) : Atom.Drops (.group (.mk 0 (.cons a 0 .nil))) a
  /-- two words without blanks between them are one word -/
  | word (ps : List TextPart) (v w : Text) (qs : List TextPart) :
    Atom.Drops (.text (ps ++ .word v :: .word w :: qs)) (.text (ps ++ .word (v ++ w) :: qs))
  | group {f g : Formula} : Formula.Drops f g → Atom.Drops (.group f) (.group g)
  | command {name : Text} {as bs : Arguments} : Arguments.Drops as bs → Atom.Drops (.command name as) (.command name bs)
  | postfix {a b : Atom} {name : Text} : Atom.Drops a b → Atom.Drops (.postfix a name) (.postfix b name)
  | prime {a b : Atom} : Atom.Drops a b → Atom.Drops (.prime a) (.prime b)
  | base {a b : Atom} {super : Bool} {s : Script} : Atom.Drops a b → Atom.Drops (.script a super s) (.script b super s)
  | script {a : Atom} {super : Bool} {s t : Script} : Script.Drops s t → Atom.Drops (.script a super s) (.script a super t)
  | delimited {l r : Delim} {f g : Formula} : Formula.Drops f g → Atom.Drops (.delimited l f r) (.delimited l g r)
  | over {l l' r : Formula} {name : Text} : Formula.Drops l l' → Atom.Drops (.over l name r) (.over l' name r)
  | under {l r r' : Formula} {name : Text} : Formula.Drops r r' → Atom.Drops (.over l name r) (.over l name r')
  | argument {name : Text} {as bs : Arguments} {body : Cells} : Arguments.Drops as bs → Atom.Drops (.environment name as body) (.environment name bs body)
  | body {name : Text} {as : Arguments} {r r' : Cells} : Cells.Drops r r' → Atom.Drops (.environment name as r) (.environment name as r')
inductive Script.Drops : Script → Script → Prop
  /-- `^{2}` becomes `^2` -/
  | char (c : Char) : Script.Drops (.braces (.mk 0 (.cons (.text [.word [c]]) 0 .nil))) (.char c)
  /-- `^{\alpha}` becomes `^\alpha` -/
  | symbol (name : Text) : Script.Drops (.braces (.mk 0 (.cons (.symbol name) 0 .nil))) (.symbol name)
  | braces {f g : Formula} : Formula.Drops f g → Script.Drops (.braces f) (.braces g)
inductive Formula.Drops : Formula → Formula → Prop
  | mk {n : Nat} {as bs : Atoms} : Atoms.Drops as bs → Formula.Drops (.mk n as) (.mk n bs)
inductive Atoms.Drops : Atoms → Atoms → Prop
  /-- `{a b c} d` becomes `a b c d` -/
  | braces (a : Atom) (n : Nat) (xs : Atoms) (sp : Nat) (as : Atoms) :
    Atoms.Drops (.cons (.group (.mk 0 (.cons a n xs))) sp as) (.followedBy sp as (.cons a n xs))
  /-- two runs of text are one -/
  | text (ps : List TextPart) (n : Nat) (a : Atom) (sp : Nat) (as : Atoms) : a.joins = true →
    Atoms.Drops (.cons (.text ps) n (.cons a sp as)) (.cons (a.after (ps ++ wordGap n)) sp as)
  | first {a b : Atom} {sp : Nat} {as : Atoms} : Atom.Drops a b → Atoms.Drops (.cons a sp as) (.cons b sp as)
  | later {a : Atom} {sp : Nat} {as bs : Atoms} : Atoms.Drops as bs → Atoms.Drops (.cons a sp as) (.cons a sp bs)
inductive Arguments.Drops : Arguments → Arguments → Prop
  | first {square : Bool} {f g : Formula} {as : Arguments} : Formula.Drops f g → Arguments.Drops (.cons square f as) (.cons square g as)
  | later {square : Bool} {f : Formula} {as bs : Arguments} : Arguments.Drops as bs → Arguments.Drops (.cons square f as) (.cons square f bs)
  /-- `\frac{1}…` becomes `\frac1…` -/
  | char (c : Char) (as : Arguments) : Arguments.Drops (.cons false (.mk 0 (.cons (.text [.word [c]]) 0 .nil)) as) (.bare c as)
  /-- `\hat{\alpha}` becomes `\hat\alpha` -/
  | symbol (name : Text) (as : Arguments) : Arguments.Drops (.cons false (.mk 0 (.cons (.symbol name) 0 .nil)) as) (.symbol name as)
  /-- `\frac {1}` becomes `\frac{1}` -/
  | blanks (n : Nat) (as : Arguments) : Arguments.Drops (.spaced n as) as
  | afterChar {c : Char} {as bs : Arguments} : Arguments.Drops as bs → Arguments.Drops (.bare c as) (.bare c bs)
  | afterSymbol {name : Text} {as bs : Arguments} : Arguments.Drops as bs → Arguments.Drops (.symbol name as) (.symbol name bs)
  | afterBlanks {n : Nat} {as bs : Arguments} : Arguments.Drops as bs → Arguments.Drops (.spaced n as) (.spaced n bs)
inductive Cells.Drops : Cells → Cells → Prop
  | last {f g : Formula} : Formula.Drops f g → Cells.Drops (.last f) (.last g)
  | first {f g : Formula} {e : Bool} {r : Cells} : Formula.Drops f g → Cells.Drops (.cons f e r) (.cons g e r)
  | later {f : Formula} {e : Bool} {r r' : Cells} : Cells.Drops r r' → Cells.Drops (.cons f e r) (.cons f e r')
end

/-- Two formulas that differ in unneeded braces only: one becomes the other by removing and adding them, again and again. -/
inductive Formula.SameButBraces : Formula → Formula → Prop
  | refl (f : Formula) : SameButBraces f f
  | drop {f g h : Formula} : SameButBraces f g → g.Drops h → SameButBraces f h
  | add {f g h : Formula} : SameButBraces f g → h.Drops g → SameButBraces f h

end Mitex
