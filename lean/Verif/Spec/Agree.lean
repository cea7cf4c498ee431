/-
Vocabulary for C76: which entries of a command specification can matter for a text.
-/
import Verif.Model.Spec

namespace Mitex

/-- The name is mentioned in the text: after a backslash, or somewhere after `\begin`. -/
def Mentioned (n s : Text) : Prop := ('\\' :: n) <:+: s ∨ ∃ a, (t!"\\begin" ++ a ++ n) <:+: s

/-- The two specifications have the same entries for the names mentioned in the text. -/
def AgreeOn (a b : CommandSpec) (s : Text) : Prop := ∀ n, Mentioned n s → a n = b n

end Mitex
