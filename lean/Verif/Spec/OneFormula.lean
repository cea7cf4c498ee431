/-
Vocabulary for C81: a text between dollar signs is one formula.  packages/mitex/mitex.typ, `mimath`: the answer of `convert_math` is
evaluated as Typst code after a dollar sign is put before and after it.
-/
import Verif.Spec.Nesting

namespace Mitex

/-- Read by Typst between dollar signs, the text is one formula: the marks are closed in the right order, and the formula opened by the
first dollar sign is closed by the last one, and not before. -/
def OneFormula (t : Text) : Prop :=
  WellNested ('$' :: t ++ ['$']) ∧ ∀ p, p <+: '$' :: t ++ ['$'] → p ≠ [] → WellNested p → p = '$' :: t ++ ['$']

end Mitex
