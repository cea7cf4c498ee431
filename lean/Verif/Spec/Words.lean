/-
Vocabulary for C82: the words of a text.
-/
import Verif.Model.Basic

namespace Mitex

/-- Letters, digits, the dot (it selects from a name), and all characters beyond ASCII but white space: if two of them stand side by side in a formula, Typst may
read them as one name, one number, or one field of a name. -/
def inWord (c : Char) : Bool := (c.isAlphanum || c == '.' || decide (128 ≤ c.val)) && !isWs c

/-- The words of a text: the longest runs of such characters. -/
def wordsOf : Text → List Text
  | [] => []
  | c :: t =>
    if inWord c then
      if t.head?.any inWord then
        match wordsOf t with
        | w :: ws => (c :: w) :: ws
        | [] => [[c]]
      else [c] :: wordsOf t
    else wordsOf t

example : wordsOf t!"alpha  b frac(1 2 ,x )_(space.nobreak )" = [t!"alpha", t!"b", t!"frac", t!"1", t!"2", t!"x", t!"space.nobreak"] := by decide
example : wordsOf t!"alphab" ≠ wordsOf t!"alpha" ++ wordsOf t!"b" := by decide

end Mitex
