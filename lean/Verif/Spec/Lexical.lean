/-
Lexical vocabulary for stating properties: what the text of a token of each kind looks like.
Written from the documentation of the tokens (crates/mitex-lexer/src/token.rs doc comments), not from the
lexer functions.
-/
import Verif.Model.Token

namespace Mitex

/-- The TeX special characters that end a word. -/
def specials : List Char := "\\%{},$[]()~/_*@'\";&^#".toList

/-- A letter of a command name. -/
def NameChar (c : Char) : Prop := isAsciiAlpha c = true ∨ c = '@'

instance (c : Char) : Decidable (NameChar c) := by unfold NameChar; infer_instance

/-- An environment name: letters and `@`, with an optional final star. -/
def EnvName (t : Text) : Prop := ∃ l : Text, (∀ c ∈ l, NameChar c) ∧ (t = l ∨ t = l ++ ['*'])

/-- The name written for a conditional. -/
def IfName.text : IfName → Text
  | .if_ => "\\if".toList
  | .ifTypst => "\\iftypst".toList
  | .ifFalse => "\\iffalse".toList
  | .ifTrue => "\\iftrue".toList
  | .ifCase => "\\ifcase".toList
  | .ifNum => "\\ifnum".toList
  | .ifCat => "\\ifcat".toList
  | .ifX => "\\ifx".toList
  | .ifVoid => "\\ifvoid".toList
  | .ifHBox => "\\ifhbox".toList
  | .ifVBox => "\\ifvbox".toList
  | .ifHMode => "\\ifhmode".toList
  | .ifMMode => "\\ifmmode".toList
  | .ifVMode => "\\ifvmode".toList
  | .ifInner => "\\ifinner".toList
  | .ifDim => "\\ifdim".toList
  | .ifEof => "\\ifeof".toList
  | .ifStar => "\\@ifstar".toList

/-- The text a token of a kind may have, when it comes from the source. -/
def TokShape : Token → Text → Prop
  | .lineBreak, t => t ≠ [] ∧ ∀ c ∈ t, c = '\n' ∨ c = '\r'
  | .whitespace, t => t ≠ [] ∧ ∀ c ∈ t, isWs c = true ∧ c ≠ '\n' ∧ c ≠ '\r'
  | .lineComment, t => t.head? = some '%' ∧ ∀ c ∈ t, c ≠ '\n' ∧ c ≠ '\r'
  | .left .curly, t => t = ['{']
  | .left .bracket, t => t = ['[']
  | .left .paren, t => t = ['(']
  | .right .curly, t => t = ['}']
  | .right .bracket, t => t = [']']
  | .right .paren, t => t = [')']
  | .comma, t => t = [',']
  | .tilde, t => t = ['~']
  | .slash, t => t = ['/']
  | .ampersand, t => t = ['&']
  | .caret, t => t = ['^']
  | .apostrophe, t => t = ['\'']
  | .ditto, t => t = ['"']
  | .semicolon, t => t = [';']
  | .hash, t => t = ['#']
  | .asterisk, t => t = ['*']
  | .atSign, t => t = ['@']
  | .underscore, t => t = ['_']
  | .word, t => t ≠ [] ∧ ∀ c ∈ t, isWs c = false ∧ c ∉ specials
  | .dollar, t => t = ['$'] ∨ t = ['$', '$']
  | .newLine, t => t = ['\\', '\\']
  | .cmd .generic, t => t.head? = some '\\' ∧ t ≠ ['\\', '\\']
  | .cmd .beginEnv, t => EnvName t
  | .cmd .endEnv, t => EnvName t
  | .cmd .beginMath, t => t = ['\\', '('] ∨ t = ['\\', '[']
  | .cmd .endMath, t => t = ['\\', ')'] ∨ t = ['\\', ']']
  | .cmd .errorBeginEnv, t => t = "\\begin".toList
  | .cmd .errorEndEnv, t => t = "\\end".toList
  | .cmd (.cif i), t => t = i.text
  | .cmd .celse, t => t = "\\else".toList
  | .cmd .endIf, t => t = "\\fi".toList
  | .cmd .left, t => t = "\\left".toList
  | .cmd .right, t => t = "\\right".toList
  | .error, _ => False
  | .macroArg _, _ => False

/-- A token is as long as possible: the text after it does not continue it. -/
def Maximal (k : Token) (rest : Text) : Prop :=
  match k, rest with
  | .lineBreak, c :: _ => c ≠ '\n' ∧ c ≠ '\r'
  | .whitespace, c :: _ => isWs c = false ∨ c = '\n' ∨ c = '\r'
  | .lineComment, c :: _ => c = '\n' ∨ c = '\r'
  | .word, c :: _ => isWs c = true ∨ c ∈ specials
  | _, _ => True

/-- The part of the source a token stands for: its text, except for environment clauses, whose text is the
name found in the clause. -/
def SpanOf (k : Token) (text span : Text) : Prop :=
  match k with
  | .cmd .beginEnv => ∃ a b, span = "\\begin".toList ++ a ++ text ++ b
  | .cmd .endEnv => ∃ a b, span = "\\end".toList ++ a ++ text ++ b
  | _ => span = text

end Mitex
