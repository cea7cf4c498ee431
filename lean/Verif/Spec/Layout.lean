/-
Vocabulary for C86: texts with another layout.
-/
import Verif.Spec.Clause
import Verif.Spec.Respaced

namespace Mitex

/-- A blank within a line. -/
def isBlankChar (c : Char) : Bool := isWs c && !isNl c

/-- Two texts that differ in layout only: every stretch of blanks is some other stretch of blanks, every stretch of line ends (`\n` and `\r`) is
some other stretch of line ends, and the other characters are the same. -/
inductive SameLines : Text → Text → Prop
  | nil : SameLines [] []
  | char {c : Char} {s s' : Text} (hc : isWs c = false) (h : SameLines s s') : SameLines (c :: s) (c :: s')
  | blanks {w w' s s' : Text} (hn : w ≠ [] ∧ w' ≠ []) (hw : ∀ c ∈ w ++ w', isBlankChar c = true) (h : SameLines s s') : SameLines (w ++ s) (w' ++ s')
  | ends {w w' s s' : Text} (hn : w ≠ [] ∧ w' ≠ []) (hw : ∀ c ∈ w ++ w', isNl c = true) (h : SameLines s s') : SameLines (w ++ s) (w' ++ s')

/-- No comment stands between `\begin` or `\end` and the brace after it, or within the braces.  (There the lexer loses a character per comment.) -/
def PlainClauses (s : Text) : Prop :=
  ∀ p b after, b = t!"\\begin" ∨ b = t!"\\end" → s = p ++ b ++ after →
    (∀ sp k r, Spaces sp k → after = sp ++ '{' :: r → k = 0) ∧
    (∀ sp name sp' k r, Spaces sp 0 → EnvName name → Spaces sp' k → after = sp ++ '{' :: name ++ sp' ++ '}' :: r → k = 0)

/-- Line ends as on Windows. -/
def crlf (s : Text) : Text := s.flatMap fun c => if c = '\n' then ['\r', '\n'] else [c]

end Mitex
