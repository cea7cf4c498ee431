/-
The lexical grammar, as rules: which token stands at the start of a text, and what remains.
Written from the doc comments of crates/mitex-lexer/src/token.rs, without the functions of the lexer.
-/
import Verif.Spec.Clause

namespace Mitex

/-- The characters that are tokens by themselves. -/
def punctuation : List (Char × Token) := [
  ('{', .left .curly), ('}', .right .curly), ('[', .left .bracket), (']', .right .bracket),
  ('(', .left .paren), (')', .right .paren), (',', .comma), ('~', .tilde), ('/', .slash),
  ('&', .ampersand), ('^', .caret), ('_', .underscore), ('\'', .apostrophe), ('"', .ditto),
  (';', .semicolon), ('#', .hash), ('*', .asterisk), ('@', .atSign)]

/-- The commands with a kind of their own, by name. -/
def builtinCommands : List (Text × CommandName) := [
  (t!"if", .cif .if_), (t!"iftypst", .cif .ifTypst), (t!"iffalse", .cif .ifFalse),
  (t!"iftrue", .cif .ifTrue), (t!"ifcase", .cif .ifCase), (t!"ifnum", .cif .ifNum),
  (t!"ifcat", .cif .ifCat), (t!"ifx", .cif .ifX), (t!"ifvoid", .cif .ifVoid),
  (t!"ifhbox", .cif .ifHBox), (t!"ifvbox", .cif .ifVBox), (t!"ifhmode", .cif .ifHMode),
  (t!"ifmmode", .cif .ifMMode), (t!"ifvmode", .cif .ifVMode), (t!"ifinner", .cif .ifInner),
  (t!"ifdim", .cif .ifDim), (t!"ifeof", .cif .ifEof), (t!"@ifstar", .cif .ifStar),
  (t!"else", .celse), (t!"fi", .endIf), (t!"left", .left), (t!"right", .right)]

/-- The kind of a command is the one of the table, and generic for every other name. -/
def KindOf (name : Text) (k : CommandName) : Prop :=
  (name, k) ∈ builtinCommands ∨ (k = .generic ∧ ∀ b, (name, b) ∉ builtinCommands)

/-- `TokenAt spec s k t rest`: at the start of the text `s` there is a token of kind `k` with text `t`, and
`rest` is what follows it. -/
inductive TokenAt (spec : CommandSpec) : Text → Token → Text → Text → Prop where
  | lineBreak (t rest : Text) : t ≠ [] → (∀ c ∈ t, c = '\n' ∨ c = '\r') →
      NoMore (fun c => c = '\n' ∨ c = '\r') rest → TokenAt spec (t ++ rest) .lineBreak t rest
  | whitespace (t rest : Text) : t ≠ [] → (∀ c ∈ t, isWs c = true ∧ c ≠ '\n' ∧ c ≠ '\r') →
      NoMore (fun c => isWs c = true ∧ c ≠ '\n' ∧ c ≠ '\r') rest →
      TokenAt spec (t ++ rest) .whitespace t rest
  | word (t rest : Text) : t ≠ [] → (∀ c ∈ t, isWs c = false ∧ c ∉ specials) →
      NoMore (fun c => isWs c = false ∧ c ∉ specials) rest → TokenAt spec (t ++ rest) .word t rest
  | comment (t rest : Text) : (∀ c ∈ t, c ≠ '\n' ∧ c ≠ '\r') →
      NoMore (fun c => c ≠ '\n' ∧ c ≠ '\r') rest →
      TokenAt spec ('%' :: t ++ rest) .lineComment ('%' :: t) rest
  | punct (c : Char) (k : Token) (rest : Text) : (c, k) ∈ punctuation → TokenAt spec (c :: rest) k [c] rest
  | dollars (rest : Text) : TokenAt spec ('$' :: '$' :: rest) .dollar ['$', '$'] rest
  | dollar (rest : Text) : NoMore (· = '$') rest → TokenAt spec ('$' :: rest) .dollar ['$'] rest
  | newLine (rest : Text) : TokenAt spec ('\\' :: '\\' :: rest) .newLine ['\\', '\\'] rest
  | backslash (rest : Text) : NoMore (fun c => isWs c = false) rest →
      TokenAt spec ('\\' :: rest) (.cmd .generic) ['\\'] rest
  | beginMath (c : Char) (rest : Text) : c = '(' ∨ c = '[' →
      TokenAt spec ('\\' :: c :: rest) (.cmd .beginMath) ['\\', c] rest
  | endMath (c : Char) (rest : Text) : c = ')' ∨ c = ']' →
      TokenAt spec ('\\' :: c :: rest) (.cmd .endMath) ['\\', c] rest
  | symbol (c : Char) (rest : Text) : isWs c = false → ¬ NameChar c →
      c ∉ ['\\', '(', ')', '[', ']'] → TokenAt spec ('\\' :: c :: rest) (.cmd .generic) ['\\', c] rest
  | starred (name rest : Text) : name ≠ [] → (∀ c ∈ name, NameChar c) → (spec (name ++ ['*'])).isSome →
      TokenAt spec ('\\' :: name ++ '*' :: rest) (.cmd .generic) ('\\' :: name ++ ['*']) rest
  | command (name rest : Text) (k : CommandName) : name ≠ [] → (∀ c ∈ name, NameChar c) →
      NoMore NameChar rest → ¬ (rest.head? = some '*' ∧ (spec (name ++ ['*'])).isSome) →
      name ≠ t!"begin" → name ≠ t!"end" → KindOf name k →
      TokenAt spec ('\\' :: name ++ rest) (.cmd k) ('\\' :: name) rest
  | beginEnv (after name rest : Text) : Clause after name rest →
      TokenAt spec (t!"\\begin" ++ after) (.cmd .beginEnv) name rest
  | endEnv (after name rest : Text) : Clause after name rest →
      TokenAt spec (t!"\\end" ++ after) (.cmd .endEnv) name rest
  | badBegin (rest : Text) : ¬ TornClause rest → NoMore NameChar rest →
      ¬ (rest.head? = some '*' ∧ (spec t!"begin*").isSome) → (∀ name r, ¬ Clause rest name r) →
      TokenAt spec (t!"\\begin" ++ rest) (.cmd .errorBeginEnv) t!"\\begin" rest
  | badEnd (rest : Text) : ¬ TornClause rest → NoMore NameChar rest →
      ¬ (rest.head? = some '*' ∧ (spec t!"end*").isSome) → (∀ name r, ¬ Clause rest name r) →
      TokenAt spec (t!"\\end" ++ rest) (.cmd .errorEndEnv) t!"\\end" rest

/-- A text, cut into tokens. -/
inductive Tokenized (spec : CommandSpec) : Text → List Tok → Prop where
  | nil : Tokenized spec [] []
  | cons (s : Text) (k : Token) (t rest : Text) (toks : List Tok) :
      TokenAt spec s k t rest → Tokenized spec rest toks → Tokenized spec s ((k, t) :: toks)

/-- A text at whose start there is no token: a `\begin` or `\end` with a torn clause. The lexer panics there. -/
def NoToken (s : Text) : Prop := ∃ after, (s = t!"\\begin" ++ after ∨ s = t!"\\end" ++ after) ∧ TornClause after

/-- Cutting a text into tokens gets stuck at such a place. -/
inductive Stuck (spec : CommandSpec) : Text → Prop where
  | here (s : Text) : NoToken s → Stuck spec s
  | later (s : Text) (k : Token) (t rest : Text) : TokenAt spec s k t rest → Stuck spec rest → Stuck spec s

end Mitex
