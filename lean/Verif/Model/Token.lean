/-
Model of crates/mitex-lexer/src/token.rs (token kinds and logos rules) and of
`StreamContext::lex_one` (crates/mitex-lexer/src/stream.rs:76-90).
-/
import Verif.Model.Spec

namespace Mitex

/-- token.rs:4-13 `BraceKind`. -/
inductive BraceKind where
  | curly | bracket | paren
  deriving DecidableEq, Repr

/-- token.rs:141-180 `IfCommandName`. -/
inductive IfName where
  | if_ | ifTypst | ifFalse | ifTrue | ifCase | ifNum | ifCat | ifX | ifVoid | ifHBox | ifVBox
  | ifHMode | ifMMode | ifVMode | ifInner | ifDim | ifEof | ifStar
  deriving DecidableEq, Repr

/-- token.rs:182-209 `CommandName`. -/
inductive CommandName where
  | generic | beginEnv | endEnv | beginMath | endMath | errorBeginEnv | errorEndEnv
  | cif (i : IfName) | celse | endIf | left | right
  deriving DecidableEq, Repr

/-- token.rs:15-131 `Token`. -/
inductive Token where
  | lineBreak | whitespace | lineComment
  | left (b : BraceKind) | right (b : BraceKind)
  | comma | tilde | slash | ampersand | caret | apostrophe | ditto | semicolon | hash | asterisk
  | atSign | underscore | word | dollar | newLine
  | cmd (n : CommandName)
  | error
  | macroArg (n : Nat)
  deriving DecidableEq, Repr

/-- token.rs:133-139 `Token::is_trivia`. -/
def Token.isTrivia : Token → Bool
  | .lineBreak | .whitespace | .lineComment => true
  | _ => false

/-- lib.rs:30-32 `Tok`: a token kind and its text. -/
abbrev Tok := Token × Text

/-- The characters excluded from `Word` besides `\s`, token.rs:105-107:
`[^\s\\%\{\},\$\[\]\(\)\~/_\*@'";&^#]+`. -/
def isWordStop (c : Char) : Bool :=
  ['\\', '%', '{', '}', ',', '$', '[', ']', '(', ')', '~', '/', '_', '*', '@', '\'', '"', ';',
   '&', '^', '#'].contains c

/-- token.rs:105-107, the character class of `Word`. -/
def isWordChar (c : Char) : Bool := !isWs c && !isWordStop c

/-- The one-character rules, token.rs:41-103 (`#[token(...)]`). -/
def singleTok : Char → Option Token
  | '{' => some (.left .curly)
  | '[' => some (.left .bracket)
  | '(' => some (.left .paren)
  | '}' => some (.right .curly)
  | ']' => some (.right .bracket)
  | ')' => some (.right .paren)
  | ',' => some .comma
  | '~' => some .tilde
  | '/' => some .slash
  | '&' => some .ampersand
  | '^' => some .caret
  | '\'' => some .apostrophe
  | '"' => some .ditto
  | ';' => some .semicolon
  | '#' => some .hash
  | '*' => some .asterisk
  | '@' => some .atSign
  | '_' => some .underscore
  | _ => none

/-- token.rs:301-344 `advance_ascii_name`.  `star n` says whether the name `n` (ending in `*`) is
accepted: a lookup in the spec for commands, always true inside `\begin{..}`.  `pre` is the name read
so far.  Returns the characters bumped over and the rest.  The Rust loop walks over bytes; bytes of
non-ASCII characters are never letters, so walking over characters is the same. -/
def advanceName (star : Text → Bool) (pre : Text) : Text → Text × Text
  | [] => ([], [])
  | c :: cs =>
    if c == '*' then
      if star (pre ++ ['*']) then (['*'], cs) else ([], c :: cs)
    else if isAsciiAlpha c || c == '@' then
      let r := advanceName star (pre ++ [c]) cs
      (c :: r.1, r.2)
    else ([], c :: cs)

/-- token.rs:362-388 `LexTask::next_non_trivia`: skip whitespace and comments; returns the character
found, the remaining characters and the updated byte counter `collected`.  As in the code the line
end closing a comment is consumed but *not* counted.  `inComment` is the position inside the inner
`for` loop of lines 376-381. -/
def nextNonTrivia (inComment : Bool) : Text → Nat → Option (Char × Text × Nat)
  | [], _ => none
  | c :: cs, n =>
    if inComment then
      if isNl c then nextNonTrivia false cs n else nextNonTrivia true cs (n + utf8Len c)
    else if isWs c then nextNonTrivia false cs (n + utf8Len c)
    else if c == '%' then nextNonTrivia true cs (n + utf8Len c)
    else some (c, cs, n + utf8Len c)

/-- Outcome of `LexTask::work`: `none` = malformed clause, `some (name, rest)` = clause read, the lexer
continues at `rest`. -/
abbrev BeginEnd := Option (Text × Text)

/-- token.rs:390-411 `LexTask::work`, on the text after `\begin` / `\end`.
`self.lexer.source()[ns + bump_size..]` (line 403) and `self.lexer.bump` (line 410; logos asserts
a char boundary) panic off a char boundary.  If `ns` is not a boundary the byte at `ns` is a
continuation byte, so `advance_ascii_name` bumps 0 and line 403 panics. -/
def beginEndWork (after : Text) : Res BeginEnd :=
  match nextNonTrivia false after 0 with
  | none => .ok none
  | some (c, _, n1) =>
    if c ≠ '{' then .ok none else
    match dropBytes n1 after with
    | none => .error .panic
    | some rest1 =>
      let r := advanceName (fun _ => true) [] rest1
      match nextNonTrivia false r.2 (n1 + byteLen r.1) with
      | none => .ok none
      | some (c2, _, n2) =>
        if c2 ≠ '}' then .ok none else
        match dropBytes n2 after with
        | none => .error .panic
        | some rest => .ok (some (r.1, rest))

/-- The table of built-in names, token.rs:268-297. `begin`/`end` are handled by the caller. -/
def builtinName (name : Text) : CommandName :=
  if name = "if".toList then .cif .if_
  else if name = "iftypst".toList then .cif .ifTypst
  else if name = "iffalse".toList then .cif .ifFalse
  else if name = "iftrue".toList then .cif .ifTrue
  else if name = "ifcase".toList then .cif .ifCase
  else if name = "ifnum".toList then .cif .ifNum
  else if name = "ifcat".toList then .cif .ifCat
  else if name = "ifx".toList then .cif .ifX
  else if name = "ifvoid".toList then .cif .ifVoid
  else if name = "ifhbox".toList then .cif .ifHBox
  else if name = "ifvbox".toList then .cif .ifVBox
  else if name = "ifhmode".toList then .cif .ifHMode
  else if name = "ifmmode".toList then .cif .ifMMode
  else if name = "ifvmode".toList then .cif .ifVMode
  else if name = "ifinner".toList then .cif .ifInner
  else if name = "ifdim".toList then .cif .ifDim
  else if name = "ifeof".toList then .cif .ifEof
  else if name = "@ifstar".toList then .cif .ifStar
  else if name = "else".toList then .celse
  else if name = "fi".toList then .endIf
  else if name = "left".toList then .left
  else if name = "right".toList then .right
  else .generic

/-- What the lexer found: kind, text handed out, and the rest of the source after the token. -/
structure Lexed where
  tok : Token
  text : Text
  rest : Text
  deriving DecidableEq, Repr

/-- token.rs:412-423 end of `lex_begin_end` together with the text selection of
stream.rs:80-85 `lex_one`: well-formed clauses carry the environment name, malformed ones the
command itself (`full` = `\begin` or `\end`). -/
def lexBeginEnd (full : Text) (after : Text) (ok err : CommandName) : Res Lexed :=
  match beginEndWork after with
  | .error e => .error e
  | .ok none => .ok ⟨.cmd err, full, after⟩
  | .ok (some (name, rest)) => .ok ⟨.cmd ok, name, rest⟩

/-- token.rs:235-299 `lex_command_name`, on the text `cs` after the backslash. -/
def lexCommandName (spec : CommandSpec) (cs : Text) : Res Lexed :=
  match cs with
  | [] => .ok ⟨.cmd .generic, ['\\'], []⟩
  | c :: cs' =>
    if isWs c then .ok ⟨.cmd .generic, ['\\'], cs⟩
    else if c == '(' || c == '[' then .ok ⟨.cmd .beginMath, ['\\', c], cs'⟩
    else if c == ')' || c == ']' then .ok ⟨.cmd .endMath, ['\\', c], cs'⟩
    else if c != '@' && !isAsciiAlpha c then .ok ⟨.cmd .generic, ['\\', c], cs'⟩
    else
      let r := advanceName (fun n => (spec n).isSome) [c] cs'
      let name := c :: r.1
      if name = "begin".toList then lexBeginEnd ('\\' :: name) r.2 .beginEnv .errorBeginEnv
      else if name = "end".toList then lexBeginEnd ('\\' :: name) r.2 .endEnv .errorEndEnv
      else .ok ⟨.cmd (builtinName name), '\\' :: name, r.2⟩

/-- A maximal run of characters satisfying `p`, starting with `c`. -/
def lexRun (t : Token) (p : Char → Bool) (c : Char) (cs : Text) : Lexed :=
  ⟨t, c :: cs.takeWhile p, cs.dropWhile p⟩

/-- One token: the logos rules of token.rs:20-131 by longest match, and stream.rs:76-90 `lex_one`.
`none` = end of input. The last branch is the `Err` of logos, unwrapped by `lex_one`. -/
def lexOne (spec : CommandSpec) : Text → Option (Res Lexed)
  | [] => none
  | c :: cs =>
    if isNl c then some (.ok (lexRun .lineBreak isNl c cs))
    else if isWs c then some (.ok (lexRun .whitespace (fun c => isWs c && !isNl c) c cs))
    else if isWordChar c then some (.ok (lexRun .word isWordChar c cs))
    else if c == '%' then some (.ok (lexRun .lineComment (fun c => !isNl c) c cs))
    else if c == '$' then
      match cs with
      | '$' :: cs' => some (.ok ⟨.dollar, ['$', '$'], cs'⟩)
      | _ => some (.ok ⟨.dollar, ['$'], cs⟩)
    else if c == '\\' then
      match cs with
      | '\\' :: cs' => some (.ok ⟨.newLine, ['\\', '\\'], cs'⟩)
      | _ => some (lexCommandName spec cs)
    else match singleTok c with
      | some t => some (.ok ⟨t, [c], cs⟩)
      | none => some (.error .panic)

/-- Lex a text completely by iterating `lex_one`; `fuel` bounds the number of tokens. -/
def lexFuel (spec : CommandSpec) : Nat → Text → Res (List Lexed)
  | 0, s => if s = [] then .ok [] else .error .fuel
  | n + 1, s =>
    match lexOne spec s with
    | none => .ok []
    | some (.error e) => .error e
    | some (.ok l) =>
      match lexFuel spec n l.rest with
      | .error e => .error e
      | .ok ls => .ok (l :: ls)

/-- All tokens of a text, with the rest of the source after each. One character per token is enough
fuel (theorem `lexAll_ne_fuel`). -/
def lexAll (spec : CommandSpec) (s : Text) : Res (List Lexed) := lexFuel spec s.length s

/-- The token handed to the consumers. -/
def Lexed.toTok (l : Lexed) : Tok := (l.tok, l.text)

/-- The token stream of a text. -/
def tokensOf (spec : CommandSpec) (s : Text) : Res (List Tok) :=
  match lexAll spec s with
  | .error e => .error e
  | .ok ls => .ok (ls.map Lexed.toTok)

end Mitex
