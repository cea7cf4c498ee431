/-
Vocabulary for C84: texts and trees that differ only in what their blanks and comments say.
-/
import Verif.Spec.Tree

namespace Mitex

/-- The two lists have the same length, and their entries are related one by one. -/
inductive Both {α β : Type} (R : α → β → Prop) : List α → List β → Prop
  | nil : Both R [] []
  | cons {a b as bs} (h : R a b) (hs : Both R as bs) : Both R (a :: as) (b :: bs)

/-- White space, ends of lines, and line comments. -/
def blankTokens : List Token := [.whitespace, .lineBreak, .lineComment]

/-- The leaves that stand for them. -/
def blankLeaves : List Kind := [.tokenWhiteSpace, .tokenLineBreak, .tokenComment]

/-- The tokens are of the same kind, and they have the same text, or they are blanks with texts related by `Q`. -/
def AlikeTok (Q : Kind → Text → Text → Prop) (t t' : Tok) : Prop :=
  t.1 = t'.1 ∧ (t.2 = t'.2 ∨ t.1 ∈ blankTokens ∧ Q t.1.kind t.2 t'.2)

/-- The same for trees: they have the same shape, and the leaves are alike. -/
inductive Alike (Q : Kind → Text → Text → Prop) : Elem → Elem → Prop
  | token (k : Kind) {t t' : Text} (h : t = t' ∨ k ∈ blankLeaves ∧ Q k t t') : Alike Q (.token k t) (.token k t')
  | node (k : Kind) {cs cs' : List Elem} (h : Both (Alike Q) cs cs') : Alike Q (.node k cs) (.node k cs')

end Mitex
