/-
Vocabulary for C85: texts and trees that differ in white space.
-/
import Verif.Spec.Blank
import Verif.Spec.Conversion

namespace Mitex

/-- A stretch of white space, of at least one character. -/
def Space (t : Text) : Prop := t ≠ [] ∧ ∀ c ∈ t, isWs c = true

/-- The two texts are the same but for the lengths and the kinds of the stretches of white space in them.  (A stretch is not left out, and none is
put in: words are neither joined nor split.) -/
inductive Respaced : Text → Text → Prop
  | nil : Respaced [] []
  | char (c : Char) {s s' : Text} (h : Respaced s s') : Respaced (c :: s) (c :: s')
  | space {w w' s s' : Text} (hw : Space w) (hw' : Space w') (h : Respaced s s') : Respaced (w ++ s) (w' ++ s')

/-- Every stretch of white space is written as one space. -/
def squeezed : Text → Text
  | [] => []
  | c :: s => if isWs c then (if s.head?.any isWs then squeezed s else ' ' :: squeezed s) else c :: squeezed s

/-- The text of a comment does not matter; the text of other blanks is white space. -/
def SpaceOrComment (k : Kind) (t t' : Text) : Prop := k = .tokenComment ∨ Space t ∧ Space t'

/-- The tokens are the same, but for the texts of comments, blanks and ends of lines. -/
def SameButSpace : List Tok → List Tok → Prop := Both (AlikeTok SpaceOrComment)

/-- The parts that are read as they are (labels, image names, column specifications, …) are the same in both trees. -/
def SameVerbatim (e e' : Elem) : Prop := e.descendants.map verbatim = e'.descendants.map verbatim

/-- No blank and no comment stands within a part of the document that is read as it is. -/
def NoSpaceQuoted (e : Elem) : Prop := e.Forall fun x => ∀ p ∈ verbatim x, ∀ l ∈ p, l.1 ∉ blankLeaves

/-- The outcomes are the same but for white space in the output: both texts are converted, or both fail in the same way. -/
inductive SameOutcome : Res Text → Res Text → Prop
  | ok {t t' : Text} (h : Respaced t t') : SameOutcome (.ok t) (.ok t')
  | error (f : Stop) : SameOutcome (.error f) (.error f)

end Mitex
