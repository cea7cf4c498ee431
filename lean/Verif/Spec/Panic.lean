/-
Vocabulary for the property that the converter does not crash (C46).
-/
import Verif.Spec.Conversion

namespace Mitex

/-- A text of at least two characters, with one-byte characters (such as braces) at both ends. -/
def Delimited (t : Text) : Prop := ∃ a inner b, t = a :: (inner ++ [b]) ∧ utf8Len a = 1 ∧ utf8Len b = 1

/-- The arguments without which the converter crashes are there:
* `\label` has an argument, with delimiters;
* every argument of `\includegraphics` has delimiters and contains a group, and one of them is a curly group;
* a `\caption` directly inside of a figure has an argument;
* a table has its column specification, with delimiters. -/
def ArgsPresent (spec : CommandSpec) (e : Elem) : Prop :=
  (isCommand t!"\\label" e = true → ∃ a as, e.arguments = a :: as ∧ Delimited a.text) ∧
  (isCommand t!"\\includegraphics" e = true →
    (∀ a ∈ e.arguments, Delimited a.text ∧ a.childNodes ≠ []) ∧
    ∃ a ∈ e.arguments, ∃ c cs, a.childNodes = c :: cs ∧ c.kind = .itemCurly) ∧
  (∀ n sh, e.kind = .itemEnv → e.envName = some n → getEnv spec (trim n) = some sh →
    (sh.ctx = .isFigure → ∀ c ∈ e.children, isCommand t!"\\caption" c = true → c.arguments ≠ []) ∧
    (sh.ctx = .isTable → ∃ a as, e.envArguments = a :: as ∧ Delimited a.text))

/-- The specification used for parsing gives every command an argument that the one used for conversion expects to have a
greedy argument, and `\color` as well. -/
def GreedyAgree (parse conv : CommandSpec) : Prop :=
  (∀ name sh, getCmd conv name = some sh → sh.args = .right .greedy →
    ∃ sh', getCmd parse name = some sh' ∧ sh'.args = .right .greedy) ∧
  ∃ sh, getCmd parse t!"color" = some sh ∧ sh.args = .right .greedy

end Mitex
