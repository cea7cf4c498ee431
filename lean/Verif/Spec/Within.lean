/-
Vocabulary for C82: the parts of an element that are converted within math.
-/
import Verif.Spec.Template

namespace Mitex

/-- `Within spec x e y d`: when `e` is converted in the place `x`, `d` is converted in the place `y`, and all that is around `d` is math. -/
inductive Within (spec : CommandSpec) : Place → Elem → Place → Elem → Prop
  | here (x : Place) (e : Elem) : Within spec x e x e
  | part {x y z : Place} {e c d : Elem} {ps : List Piece} (hm : x.mode = .math) (ht : template spec x e = .ok ps) (hc : .part y c ∈ ps)
      (h : Within spec y c z d) : Within spec x e z d

end Mitex
