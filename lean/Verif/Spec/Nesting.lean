import Verif.Spec.Template

/-!
# Nesting of the marks in the Typst text

A Typst text is read from left to right; `open` is the list of the marks that are open, the innermost one first, each named by the
character that closes it.  Parentheses, square brackets, dollar signs and quotes are marks, unless a backslash stands before them;
between quotes nothing else counts.  The text is well nested if every mark is closed by its own kind, in the right order.

The letter `F` at the end of `open` says that the text stands in a formula that is not closed by the text: a dollar sign that would close it
is not allowed.
-/

namespace Mitex

/-- One character. -/
def nestStep (opened : List Char) (c : Char) : Option (List Char) :=
  match opened with
  | '\\' :: st => some st
  | '"' :: st => if c = '"' then some st else if c = '\\' then some ('\\' :: '"' :: st) else some ('"' :: st)
  | st =>
    if c = '\\' then some ('\\' :: st)
    else if c = '"' then some ('"' :: st)
    else if c = '(' then some (')' :: st)
    else if c = '[' then some (']' :: st)
    else if c = '$' then (if st.head? = some '$' then some st.tail else if st.head? = some 'F' then none else some ('$' :: st))
    else if c = ')' ∨ c = ']' then (if st.head? = some c then some st.tail else none)
    else some st

/-- The marks that are open after the text; `none` if a mark is closed that is not the innermost open one. -/
def nest (opened : List Char) (t : Text) : Option (List Char) := t.foldlM nestStep opened

/-- All marks are closed, in the right order. -/
def WellNested (t : Text) : Prop := nest [] t = some []

instance (t : Text) : Decidable (WellNested t) := inferInstanceAs (Decidable (_ = _))

/-- Wherever the text stands (but between quotes and after a backslash), it leaves open what was open before. -/
def Neutral (t : Text) : Prop := ∀ st : List Char, st.head? ≠ some '\\' → st.head? ≠ some '"' → nest st t = some st

/-- The names written for the commands and environments of the specification are neutral.  A command without arguments is always
followed by a space, which counts as part of it: `\newline` is written as a backslash and a space. -/
def NamesNeutral (spec : CommandSpec) : Prop :=
  (∀ name sh, spec name = some (.cmd sh) →
    if sh.args = .right .none ∧ ¬ isColorCommand name then Neutral (sh.alias.getD name ++ t!" ") else Neutral (sh.alias.getD name)) ∧
  (∀ name sh, spec name = some (.env sh) → Neutral (sh.alias.getD name))

/-- The text has none of these characters. -/
def Without (bad : List Char) (t : Text) : Prop := ∀ c ∈ t, c ∉ bad

instance (bad : List Char) (t : Text) : Decidable (Without bad t) := inferInstanceAs (Decidable (∀ c ∈ t, c ∉ bad))

/-- The marks. -/
def marks : List Char := ['(', ')', '[', ']', '$', '"']

/-- `\left` has its `\right`: the last child is another delimiter clause. -/
def HasRight (e : Elem) : Prop := ∃ l es r, e.children = l :: (es ++ [r]) ∧ r.kind = .clauseLR

/-- What must hold of the elements of a document, so that the output is well nested: what is copied or left open is harmless. -/
structure Tidy (spec : CommandSpec) (e : Elem) : Prop where
  /-- every `\left` has its `\right` -/
  delimiters : e.kind = .itemLR → HasRight e
  /-- Typst code is neutral -/
  code : e.kind = .itemTypstCode → Neutral e.text
  /-- labels contain neither marks nor backslashes -/
  label : e.kind = .itemCmd → bareName e = some t!"label" → ∀ a ∈ e.arguments.head?, ∀ l ∈ undelimited a.text, Without ('\\' :: marks) l
  /-- the options of images contain no marks, the names of the files neither quotes nor backslashes -/
  image : e.kind = .itemCmd → bareName e = some t!"includegraphics" → ∀ a ∈ e.arguments, ∀ l ∈ undelimited a.text,
    (∀ c ∈ a.childNodes.head?, c.kind = .itemBracket → Without marks l) ∧
    (∀ c ∈ a.childNodes.head?, c.kind = .itemCurly → Without ['\\', '"'] l)
  /-- the models of colors contain neither marks nor backslashes -/
  color : e.kind = .itemCmd → ∀ full ∈ e.cmdName, ∀ name ∈ bareName e, isColorCommand name → ∀ m ∈ colorModel full e, Without ('\\' :: marks) m
  /-- the last row of a table is ended by `\\` -/
  table : e.kind = .itemEnv → ∀ n ∈ e.envName, ∀ sh, spec (trim n) = some (.env sh) → sh.ctx = .isTable →
    cellContent (cellsOf (between e)).2 = []

end Mitex
