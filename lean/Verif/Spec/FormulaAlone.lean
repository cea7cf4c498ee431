/-
Vocabulary for "a formula in a document is the formula converted alone" (C77).
-/
import Verif.Spec.Local
import Verif.Spec.Document

namespace Mitex

/-- The marks of a formula in the tree. -/
def Marks.opening : Marks → Elem
  | .dollar => .token .tokenDollar t!"$"
  | .dollars => .token .tokenDollar t!"$$"
  | .parens => .token .tokenBeginMath t!"\\("
  | .brackets => .token .tokenBeginMath t!"\\["

def Marks.closing : Marks → Elem
  | .dollar => .token .tokenDollar t!"$"
  | .dollars => .token .tokenDollar t!"$$"
  | .parens => .token .tokenEndMath t!"\\)"
  | .brackets => .token .tokenEndMath t!"\\]"

/-- The scope of a formula. -/
def Marks.scope : Marks → Scope
  | .dollar | .dollars => .dollarFormula
  | .parens | .brackets => .cmdFormula

/-- The text `x`, with the tokens `tx`, stands as a formula between the marks. -/
structure FormulaText (spec : CommandSpec) (m : Marks) (x : Text) (tx : List Tok) (B : List Elem) : Prop where
  /-- the tokens -/
  tokens : tokensOf spec x = .ok tx
  /-- every `\begin` and `\end` has its name, and the closing mark does not continue the last token; after a single dollar sign there is no
  other one -/
  named : ∀ t ∈ tx, t.1 ≠ .cmd .errorBeginEnv ∧ t.1 ≠ .cmd .errorEndEnv
  separate : ∀ t, tx.getLast? = some t → Separate t m.right
  single : m = .dollar → NoMore (· = '$') (x ++ m.right)
  /-- the tree of the text between the marks is one formula, from the opening mark to the closing mark -/
  tree : parse 0 ⟨spec, globPrefix⟩ false (m.left ++ x ++ m.right) = .ok (.node .scopeRoot [.node .itemFormula (m.opening :: (B ++ [m.closing]))])
  /-- environments have their arguments -/
  given : Grammar.ArgsGiven ⟨spec, globPrefix⟩ m.scope tx

end Mitex
