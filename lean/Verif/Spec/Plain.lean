/-
Vocabulary for the conversion of plain text (C39, C40): what is written for a text without commands and groups, character
by character.  Written from the documentation of the converter, without using its functions.
-/
import Verif.Model.Convert

namespace Mitex

/-- What is written for a character that is neither whitespace nor starts a comment.  Characters with a meaning in Typst
are escaped; in math mode every other character is followed by a space, so that Typst does not read identifiers. -/
def escape (m : Mode) (c : Char) : Text :=
  if c ∈ [',', '/', '^', '_', '#', '*', '@', '"', ';', '(', ')', '[', ']'] then ['\\', c]
  else if c = '\'' ∨ c = '&' then [c]
  else if c = '~' then (if m = .math then t!"space.nobreak " else t!"\\~")
  else if m = .math then [c, ' ']
  else [c]

/-- The position in a line: behind a line break and possibly some indentation, inside of a comment, or elsewhere. -/
inductive Where
  | start | inside | comment
  deriving DecidableEq

/-- What is written for a text: line breaks are kept, the indentation of a line (but not of the first line) and comments are
dropped, other whitespace is kept, all other characters are escaped. -/
def plainOut (m : Mode) : Where → Text → Text
  | _, [] => []
  | w, c :: cs =>
    if c = '\n' ∨ c = '\r' then c :: plainOut m .start cs
    else if w = .comment ∨ c = '%' then plainOut m .comment cs
    else if isWs c then
      if w = .start then plainOut m .start cs else c :: plainOut m .inside cs
    else escape m c ++ plainOut m .inside cs

/-- A text without commands, groups and formulas; in math mode, also without scripts. -/
def Plain (m : Mode) (s : Text) : Prop :=
  ∀ c ∈ s, c ∉ ['\\', '{', '}', '$'] ∧ (m = .math → c ∉ ['_', '^'])

end Mitex
