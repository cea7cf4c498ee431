/-
Model of crates/mitex-lexer/src/stream.rs and of the plain `Lexer` of crates/mitex-lexer/src/lib.rs.
-/
import Verif.Model.Token

namespace Mitex

/-! ## Plain lexer: `Lexer<'a, ()>` -/

/-- stream.rs:5-12 `LexCache` (`peek_outer`) together with the tokens the inner logos lexer has not
delivered yet.  `buf` is the `Vec` used as a stack, top first.  Lexing itself does not depend on
the consumer, so the inner lexer is represented by the list of tokens it will deliver. -/
structure PlainLexer where
  peeked : Option Tok
  buf : List Tok
  rest : List Tok
  deriving DecidableEq, Repr

namespace PlainLexer

/-- stream.rs:44-63 `LexCache::bump` through lib.rs:34-42 `TokenStream::bump`, with page size `N`
(`PEEK_CACHE_SIZE`, 170 for a 24-byte token).  Take a page, reverse it into a stack, pop the top. -/
def bump (N : Nat) (l : PlainLexer) : Res PlainLexer :=
  if l.buf ≠ [] then .error .panic            -- the `assert!`
  else
    let page := l.rest.take N
    .ok { peeked := page.head?, buf := page.tail, rest := l.rest.drop N }

/-- lib.rs:103-113 `Lexer::next`. -/
def next (N : Nat) (l : PlainLexer) : Res PlainLexer :=
  match l.buf with
  | p :: buf => .ok { l with peeked := some p, buf := buf }
  | [] => bump N l

/-- lib.rs:84-101 `Lexer::new_with_bumper` on the tokens of the input. -/
def new (N : Nat) (toks : List Tok) : Res PlainLexer :=
  next N { peeked := none, buf := [], rest := toks }

/-- lib.rs:115-123 `Lexer::peek` and `peek_text`. -/
def peek (l : PlainLexer) : Option Tok := l.peeked

/-- lib.rs:142-147 `Lexer::eat`. -/
def eat (N : Nat) (l : PlainLexer) : Res (Option Tok × PlainLexer) :=
  match l.peeked with
  | none => .ok (none, l)
  | some p =>
    match next N { l with peeked := none } with
    | .error e => .error e
    | .ok l' => .ok (some p, l')

/-- lib.rs:130-140 `Lexer::consume_utf8_bytes`. -/
def consumeBytes (N : Nat) (cnt : Nat) (l : PlainLexer) : Res PlainLexer :=
  match l.peeked with
  | none => .ok l
  | some (k, t) =>
    if byteLen t ≤ cnt then next N l
    else match dropBytes cnt t with
      | none => .error .panic
      | some t' => .ok { l with peeked := some (k, t') }

end PlainLexer

/-! ## Streams used by the macro engine

The functions of `StreamContext` and of the macro engine are written once, over the interface
`TokStream`; it is instantiated by the buffered context of the code (`Ctx`) and by a bare token list
(`LCtx`), and the two instances are proved equivalent (property C08). -/

/-- The primitive operations on the inner stream (`peek_inner` + logos lexer) and the output. -/
class TokStream (σ : Type) where
  /-- stream.rs:111-114 `peek_full`. -/
  peek : σ → Option Tok
  /-- stream.rs:94-103 `next_token`. -/
  next : σ → σ
  /-- Put tokens in front of the stream: macro_engine.rs:622-628 `extend_inner(..rev())` and reload. -/
  pushFront : List Tok → σ → σ
  /-- macro_engine.rs:800: replace the text of the peeked token. -/
  setPeek : Tok → σ → σ
  /-- stream.rs:144-146 `push_outer`. -/
  emit : Tok → σ → σ
  /-- An upper bound for the number of tokens left, used as fuel for the scanning loops. -/
  bound : σ → Nat

/-- stream.rs:66-78 `StreamContext`: `peek_inner` = (`peeked`, `buf`), the logos lexer = `rest`,
`peek_outer.buf` while it is being filled = `out` (in push order). -/
structure Ctx where
  peeked : Option Tok
  buf : List Tok
  rest : List Tok
  out : List Tok
  deriving DecidableEq, Repr

namespace Ctx

/-- stream.rs:94-103 `next_token`. -/
def next (c : Ctx) : Ctx :=
  match c.buf with
  | b :: bs => { c with peeked := some b, buf := bs }
  | [] =>
    match c.rest with
    | r :: rs => { c with peeked := some r, rest := rs }
    | [] => { c with peeked := none }

/-- stream.rs:24-42 `LexCache::extend`: push the peeked token, push the items of `it` one by one
(so the last one is on top), pop the top again. -/
def extend (it : List Tok) (c : Ctx) : Ctx :=
  match c.peeked with
  | some p =>
    match it.reverse ++ p :: c.buf with
    | b :: bs => { c with peeked := some b, buf := bs }
    | [] => c
  | none => { c with buf := it.reverse ++ c.buf }

/-- macro_engine.rs:622-628 and 641-653: `extend_inner` with the reversed tokens, then `next_token`
if nothing is peeked. -/
def pushFront (l : List Tok) (c : Ctx) : Ctx :=
  let c := c.extend l.reverse
  match c.peeked with
  | none => c.next
  | some _ => c

end Ctx

instance : TokStream Ctx where
  peek c := c.peeked
  next := Ctx.next
  pushFront := Ctx.pushFront
  setPeek t c := { c with peeked := some t }
  emit t c := { c with out := c.out ++ [t] }
  bound c := c.peeked.toList.length + c.buf.length + c.rest.length + 1

/-- The unbuffered stream: the tokens still to be read (head = peeked) and the tokens delivered. -/
structure LCtx where
  inp : List Tok
  out : List Tok
  deriving DecidableEq, Repr

instance : TokStream LCtx where
  peek c := c.inp.head?
  next c := { c with inp := c.inp.tail }
  pushFront l c := { c with inp := l ++ c.inp }
  setPeek t c := { c with inp := t :: c.inp.tail }
  emit t c := { c with out := c.out ++ [t] }
  bound c := c.inp.length + 1

section
variable {σ : Type} [TokStream σ]
open TokStream

/-- stream.rs:130-132 `next_not_trivia`: advance at least once, then over trivia. -/
def nextNotTriviaN : Nat → σ → Option Token × σ
  | 0, c => (none, c)
  | n + 1, c =>
    let c := next c
    match peek c with
    | none => (none, c)
    | some t => if t.1.isTrivia then nextNotTriviaN n c else (some t.1, c)

/-- stream.rs:130-132. -/
def nextNotTrivia (c : σ) : Option Token × σ := nextNotTriviaN (bound c) c

/-- stream.rs:134-136 `peek_not_trivia`. -/
def peekNotTrivia (c : σ) : Option Token × σ :=
  match peek c with
  | none => nextNotTrivia c       -- `chain(next_stream())` still pulls from the stream
  | some t => if t.1.isTrivia then nextNotTrivia c else (some t.1, c)

/-- stream.rs:138-142 `eat_if`. -/
def eatIf (tk : Token) (c : σ) : σ :=
  match peek c with
  | some t => if t.1 = tk then next c else c
  | none => c

/-- Decimal value of a digit string. -/
def decValue : Text → Nat → Nat
  | [], n => n
  | c :: cs, n => decValue cs (n * 10 + (c.toNat - 48))

/-- `str::parse::<u8>().ok()` of the standard library: an optional `+`, at least one digit, at most 255. -/
def parseU8 (t : Text) : Option Nat :=
  let d := match t with
    | '+' :: d => d
    | d => d
  if d ≠ [] ∧ d.all isAsciiDigit ∧ decValue d 0 ≤ 255 then some (decValue d 0) else none

/-- stream.rs:152-162 `peek_u8_opt`. -/
def peekU8Opt (bk : BraceKind) (c : σ) : Option Nat × σ :=
  let res := match peek c with
    | some (.word, text) => parseU8 text
    | _ => none
  match nextNotTrivia c with
  | (none, c) => (none, c)
  | (some _, c) => (res, eatIf (.right bk) c)

/-- stream.rs:164-171 `peek_word_opt`. -/
def peekWordOpt (bk : BraceKind) (c : σ) : Option Tok × σ :=
  let res := match peek c with
    | some (.word, text) => some (Token.word, text)
    | _ => none
  match nextNotTrivia c with
  | (none, c) => (none, c)
  | (some _, c) => (res, eatIf (.right bk) c)

/-- stream.rs:173-182 `peek_cmd_name_opt`. -/
def peekCmdNameOpt (bk : BraceKind) (c : σ) : Option Tok × σ :=
  let res := match peek c with
    | some (.cmd n, text) => some (Token.cmd n, text)
    | _ => none
  match nextNotTrivia c with
  | (none, c) => (none, c)
  | (some _, c) => (res, eatIf (.right bk) c)

/-- stream.rs:193-197, the bookkeeping of `curly_level`. -/
def bumpLevel (lvl : Int) (t : Token) : Int :=
  match t with
  | .left .curly => lvl + 1
  | .right .curly => lvl - 1
  | _ => lvl

/-- stream.rs:184-205 the `take_while` of `read_until_balanced`; `lvl` is `curly_level`. -/
def takeBalanced (bk : BraceKind) : Nat → Int → σ → List Tok × σ
  | 0, _, c => ([], c)
  | n + 1, lvl, c =>
    match peek c with
    | none => ([], c)
    | some t =>
      if lvl = 0 ∧ t.1 = .right bk then ([], c)
      else
        let r := takeBalanced bk n (bumpLevel lvl t.1) (next c)
        (t :: r.1, r.2)

/-- stream.rs:184-209 `read_until_balanced`.  (`peek_stream` yields the peeked token first.) -/
def readUntilBalanced (bk : BraceKind) (c : σ) : List Tok × σ :=
  let r := takeBalanced bk (bound c) 0 c
  (r.1, eatIf (.right bk) r.2)

end

end Mitex
