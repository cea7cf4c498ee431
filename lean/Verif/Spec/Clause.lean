/-
The clause `{name}` after `\begin` and `\end`, as the lexer reads it: blanks and comments are allowed before the
braces and after the name, but every comment read makes the lexer slip back one byte (the line end that closes
the comment is read, but not counted, token.rs:376-381).
-/
import Verif.Spec.Lexical

namespace Mitex

/-- The first character of `rest` (if any) is not in the class. -/
def NoMore (p : Char → Prop) (rest : Text) : Prop := ∀ c, rest.head? = some c → ¬ p c

/-- Blanks and comments, `k` comments among them; each comment is closed by a line end. -/
inductive Spaces : Text → Nat → Prop
  | nil : Spaces [] 0
  | blank {c t k} (hc : isWs c = true) (h : Spaces t k) : Spaces (c :: t) k
  | comment {body nl t k} (hb : ∀ c ∈ body, c ≠ '\n' ∧ c ≠ '\r') (hn : nl = '\n' ∨ nl = '\r') (h : Spaces t k) :
      Spaces ('%' :: body ++ nl :: t) (k + 1)

/-- Having read `read`, with `rest` to follow, slip back `k` bytes: reading goes on at `rest'`. Impossible if
that is inside a character. -/
def SlipsBack (k : Nat) (read rest rest' : Text) : Prop :=
  ∃ p x, read = p ++ x ∧ byteLen x = k ∧ rest' = x ++ rest

/-- An environment name that `rest` does not continue. -/
def WholeName (name rest : Text) : Prop :=
  EnvName name ∧ ('*' ∉ name → NoMore (fun c => NameChar c ∨ c = '*') rest)

/-- `Brace b s at_`: blanks and comments, then the brace `b`; reading goes on at `at_`. -/
def Brace (b : Char) (s at_ : Text) : Prop :=
  ∃ sp k rest, Spaces sp k ∧ s = sp ++ b :: rest ∧ SlipsBack k (sp ++ [b]) rest at_

/-- The same, but the lexer would go on inside of a character. -/
def TornBrace (b : Char) (s : Text) : Prop :=
  ∃ sp k rest, Spaces sp k ∧ s = sp ++ b :: rest ∧ ∀ r, ¬ SlipsBack k (sp ++ [b]) rest r

/-- A clause `{name}` at the start of `after`; lexing goes on at `rest`. -/
def Clause (after name rest : Text) : Prop :=
  ∃ t, Brace '{' after (name ++ t) ∧ WholeName name t ∧ Brace '}' t rest

/-- A clause in which the lexer gets inside of a character, and panics. -/
def TornClause (after : Text) : Prop :=
  TornBrace '{' after ∨ ∃ name t, Brace '{' after (name ++ t) ∧ WholeName name t ∧ TornBrace '}' t

end Mitex
