/-
The stages as they really run: the parser pulls tokens from the lexer while it parses, the lexer fills its pages when
they run empty, and logos reads the source when a page is filled.  (The other files model the stages one after the other
on complete token lists; C72 relates the two.)
-/
import Verif.Model.Parser
import Verif.Model.Stream
import Verif.Model.Engine
import Verif.Model.Convert

namespace Mitex
namespace Lazy

/-! ### The source -/

/-- What the logos lexer will deliver: tokens, and whether `lex_one` panics when it is called after them (stream.rs:81-92,
the `unwrap`).  What it delivers does not depend on when it is asked. -/
structure Raw where
  toks : List Tok
  stuck : Bool
  deriving DecidableEq, Repr

/-- stream.rs:81-92 `lex_one`, called again and again; the number bounds the calls. -/
def rawFuel (spec : CommandSpec) : Nat → Text → Raw
  | 0, _ => ⟨[], false⟩
  | n + 1, s =>
    match lexOne spec s with
    | none => ⟨[], false⟩
    | some (.error _) => ⟨[], true⟩
    | some (.ok l) => ⟨l.toTok :: (rawFuel spec n l.rest).toks, (rawFuel spec n l.rest).stuck⟩

/-- The deliveries of logos for a text. -/
def rawOf (spec : CommandSpec) (s : Text) : Raw := rawFuel spec s.length s

/-! ### The two lexers -/

/-- `Lexer<'a, S>` as the parser uses it: lib.rs:115-123 `peek` and `peek_text`, lib.rs:142-147 `eat`, lib.rs:130-140
`consume_utf8_bytes`. -/
structure LexerFns (σ : Type) where
  peek : σ → Option Tok
  eat : σ → Res (Option Tok × σ)
  consumeBytes : Nat → σ → Res σ

/-- lib.rs:60-71 `Lexer<'a, ()>`: the cache and the source. -/
structure PlainSrc where
  lex : PlainLexer
  stuck : Bool

namespace PlainSrc

/-- lib.rs:103-113 `Lexer::next` with stream.rs:44-63 `LexCache::bump`: a page of `N` tokens asks `lex_one` `N` times, or
until the end. -/
def next (N : Nat) (l : PlainSrc) : Res PlainSrc :=
  match l.lex.buf with
  | _ :: _ => (l.lex.next N).map (⟨·, l.stuck⟩)
  | [] => if l.stuck ∧ l.lex.rest.length < N then .error .panic else (l.lex.next N).map (⟨·, l.stuck⟩)

/-- lib.rs:84-101 `Lexer::new`. -/
def new (N : Nat) (r : Raw) : Res PlainSrc := next N ⟨⟨none, [], r.toks⟩, r.stuck⟩

/-- lib.rs:115-123, 130-147. -/
def fns (N : Nat) : LexerFns PlainSrc where
  peek l := l.lex.peeked
  eat l :=
    match l.lex.peeked with
    | none => .ok (none, l)
    | some p =>
      match next N { l with lex := { l.lex with peeked := none } } with
      | .error e => .error e
      | .ok l' => .ok (some p, l')
  consumeBytes cnt l :=
    match l.lex.peeked with
    | none => .ok l
    | some (k, t) =>
      if byteLen t ≤ cnt then next N l
      else match dropBytes cnt t with
        | none => .error .panic
        | some t' => .ok { l with lex := { l.lex with peeked := some (k, t') } }

end PlainSrc

/-- stream.rs:66-78 `StreamContext` with a source that may panic.  `dead`: `lex_one` has panicked. -/
structure SCtx where
  ctx : Ctx
  stuck : Bool
  dead : Bool

namespace SCtx

/-- stream.rs:94-103 `next_token`. -/
def next (c : SCtx) : SCtx :=
  { c with ctx := c.ctx.next, dead := c.dead || (c.stuck && c.ctx.buf.isEmpty && c.ctx.rest.isEmpty) }

/-- macro_engine.rs:622-628 and 641-653, as `Ctx.pushFront`. -/
def pushFront (l : List Tok) (c : SCtx) : SCtx :=
  match (c.ctx.extend l.reverse).peeked with
  | none => { c with ctx := c.ctx.extend l.reverse }.next
  | some _ => { c with ctx := c.ctx.extend l.reverse }

end SCtx

instance : TokStream SCtx where
  peek c := c.ctx.peeked
  next := SCtx.next
  pushFront := SCtx.pushFront
  setPeek t c := { c with ctx := { c.ctx with peeked := some t } }
  emit t c := { c with ctx := { c.ctx with out := c.ctx.out ++ [t] } }
  bound c := c.ctx.peeked.toList.length + c.ctx.buf.length + c.ctx.rest.length + 1

/-- macro_engine.rs:404-440, the `while` loop of `do_bump`.  Simplified: a panic of `lex_one` in the middle of a round is
noticed at the end of the round (rounds always end, and can only fail by a panic themselves). -/
def fill (cap : Nat) : Nat → Eng → SCtx → Res (Eng × SCtx)
  | 0, e, c =>
    if c.dead then .error .panic
    else if c.ctx.out.length < cap ∧ c.ctx.peeked.isSome then .error .fuel else .ok (e, c)
  | n + 1, e, c =>
    if c.dead then .error .panic
    else if c.ctx.out.length < cap then
      match c.ctx.peeked with
      | none => .ok (e, c)
      | some t =>
        match engStep e c t with
        | .error x => .error x
        | .ok (e, c) => fill cap n e c
    else .ok (e, c)

/-- lib.rs:60-71 `Lexer<'a, MacroEngine>`. -/
structure MacroSrc where
  eng : Eng
  ctx : SCtx
  peeked : Option Tok
  buf : List Tok

namespace MacroSrc

/-- macro_engine.rs:389-446 `do_bump`; `fuel` bounds the rounds for one page. -/
def bump (cap fuel : Nat) (l : MacroSrc) : Res MacroSrc :=
  let c : SCtx := { l.ctx with ctx := { l.ctx.ctx with out := l.buf } }
  match fill cap fuel l.eng (if c.ctx.peeked.isNone then c.next else c) with
  | .error x => .error x
  | .ok (e, c) => .ok { eng := e, ctx := { c with ctx := { c.ctx with out := [] } }, peeked := c.ctx.out.head?, buf := c.ctx.out.tail }

/-- lib.rs:103-113 `Lexer::next`. -/
def next (cap fuel : Nat) (l : MacroSrc) : Res MacroSrc :=
  match l.buf with
  | p :: buf => .ok { l with peeked := some p, buf := buf }
  | [] => bump cap fuel l

/-- lib.rs:84-101 `Lexer::new_with_bumper` with `MacroEngine::new`. -/
def new (cap fuel : Nat) (r : Raw) : Res MacroSrc :=
  next cap fuel ⟨Eng.new, ⟨⟨none, [], r.toks, []⟩, r.stuck, false⟩, none, []⟩

/-- lib.rs:115-123, 130-147. -/
def fns (cap fuel : Nat) : LexerFns MacroSrc where
  peek l := l.peeked
  eat l :=
    match l.peeked with
    | none => .ok (none, l)
    | some p =>
      match next cap fuel { l with peeked := none } with
      | .error e => .error e
      | .ok l' => .ok (some p, l')
  consumeBytes cnt l :=
    match l.peeked with
    | none => .ok l
    | some (k, t) =>
      if byteLen t ≤ cnt then next cap fuel l
      else match dropBytes cnt t with
        | none => .error .panic
        | some t' => .ok { l with peeked := some (k, t') }

end MacroSrc

/-! ### The parser on a lexer -/

/-- parser.rs:107-125 `Parser`: the lexer, and the rest of its state (a `PState`, whose token list is not used here). -/
structure LState (σ : Type) where
  lex : σ
  st : PState

section
variable {σ : Type} (L : LexerFns σ)

/-- An operation on the rest of the state. -/
def LState.map (f : PState → PState) (s : LState σ) : LState σ := { s with st := f s.st }

/-- An operation on the rest of the state that can panic. -/
def LState.try (f : PState → Res PState) (s : LState σ) : Res (LState σ) :=
  match f s.st with
  | .error e => .error e
  | .ok st => .ok { s with st := st }

/-- parser.rs:184-188 `peek`. -/
def peek (s : LState σ) : Option Token := (L.peek s.lex).map Prod.fst

/-- parser.rs:190-196 `eat`. -/
def eat (s : LState σ) : Res (LState σ) :=
  match L.eat s.lex with
  | .error e => .error e
  | .ok (none, _) => .error .panic
  | .ok (some (k, t), lex) => .ok ⟨lex, s.st.token k.kind t⟩

/-- parser.rs:198-202 `drop`. -/
def drop (s : LState σ) : Res (LState σ) :=
  match L.eat s.lex with
  | .error e => .error e
  | .ok (_, lex) => .ok { s with lex := lex }

/-- parser.rs:204-210 `eat_as`. -/
def eatAs (k : Kind) (s : LState σ) : Res (LState σ) :=
  match L.eat s.lex with
  | .error e => .error e
  | .ok (none, _) => .error .panic
  | .ok (some (_, t), lex) => .ok ⟨lex, s.st.token k t⟩

/-- parser.rs:212-218 `eat_if`. -/
def eatIf (k : Token) (s : LState σ) : Res (LState σ) := if peek L s = some k then eat L s else .ok s

/-- parser.rs:220-224 `hold_trivia`. -/
def holdTrivia (s : LState σ) : Res (LState σ) :=
  match L.eat s.lex with
  | .error e => .error e
  | .ok (none, _) => .error .panic
  | .ok (some t, lex) => .ok ⟨lex, { s.st with hold := s.st.hold ++ [t] }⟩

/-- lib.rs:130-140, from the parser. -/
def consumeBytes (cnt : Nat) (s : LState σ) : Res (LState σ) :=
  match L.consumeBytes cnt s.lex with
  | .error e => .error e
  | .ok lex => .ok { s with lex := lex }

/-- parser.rs:239-247 `single_char`. -/
def singleChar (s : LState σ) : Res (LState σ) :=
  match L.peek s.lex with
  | none => .ok s
  | some (_, []) => .ok s
  | some (_, c :: _) => consumeBytes L (utf8Len c) (s.map (PState.token .tokenWord [c]))

/-- The loops `while peek() is p { eat() }`: parser.rs:249-255 `trivia`, parser.rs:463-467. -/
def eatWhile (p : Token → Bool) : Nat → LState σ → Res (LState σ)
  | 0, _ => .error .fuel
  | n + 1, s =>
    match peek L s with
    | none => .ok s
    | some k => if p k then do eatWhile p n (← eat L s) else .ok s

/-- The type of `content`. -/
abbrev Content (σ : Type) := Bool → LState σ → Res (Bool × LState σ)

/-- parser.rs:319-328, the loop of `item_list`. -/
def itemListLoop (C : Content σ) : Nat → Nat → LState σ → Res (LState σ)
  | 0, _, _ => .error .fuel
  | n + 1, cur, s =>
    match peek L s with
    | none => .ok s
    | some k =>
      if stopByScope s.st.scope k then .ok s
      else do
        let (attachable, s) ← C true s
        let s := if attachable then s.map (fun st => { st with last := some cur }) else s
        itemListLoop C n s.st.checkpoint s

/-- parser.rs:308-331 `item_list`. -/
def itemList (C : Content σ) (n : Nat) (scope : Scope) (s : LState σ) : Res (LState σ) := do
  let s' ← itemListLoop L C n s.st.checkpoint
    (s.map fun st => { st with start := some st.checkpoint, last := none, scope := scope })
  .ok (s'.map fun st => { st with start := s.st.start, last := s.st.last, scope := s.st.scope })

/-- parser.rs:333-361 `item_group`. -/
def itemGroup (C : Content σ) (n : Nat) (scope : Scope) (s : LState σ) : Res (LState σ) :=
  match groupInfo scope with
  | none => .error .panic
  | some (endTok, kind) => do
    let s ← eat L (s.map (·.startNode kind))
    let s ← itemList L C n scope s
    let s ← eatIf L endTok s
    s.try PState.finishNode

/-- parser.rs:457-469 `text`. -/
def textItem (K : Nat) (s : LState σ) : Res (LState σ) := do
  let s ← eat L (s.map (·.startNode .itemText))
  let s ← eatWhile L isTextComponent K s
  s.try PState.finishNode

/-- parser.rs:704-719: the characters of a word taken as arguments; they touch the tree only. -/
def robChars (g : GlobFn) : Text → ArgMatcher → Nat → LState σ → Res (Bool × ArgMatcher × Nat × LState σ)
  | [], m, cnt, s => .ok (false, m, cnt, s)
  | c :: cs, m, cnt, s =>
    let (ok, m) := m.tryMatch g .term
    if !ok then .ok (true, m, cnt, s)
    else do
      let s ← s.try fun st => argClose false ((argOpen false st).token .tokenWord [c])
      robChars g cs m (cnt + utf8Len c) s

/-- parser.rs:709-711, 727-729. -/
def consumeIf (cnt : Nat) (s : LState σ) : Res (LState σ) :=
  if 0 < cnt then consumeBytes L cnt s else .ok s

/-- parser.rs:673-779, the `while` loop of `match_arguments_`. -/
def matchLoop (g : GlobFn) (C : Content σ) (lim : Nat) (greedy : Bool) :
    Nat → ArgMatcher → LState σ → Res (LState σ)
  | 0, _, _ => .error .fuel
  | n + 1, m, s =>
    match L.peek s.lex with
    | none => .ok s
    | some (k, text) =>
      if k.isTrivia then do
        let s ← if greedy then eat L s else holdTrivia L s
        matchLoop g C lim greedy n m s
      else if k = .newLine ∧ greedy ∧ s.st.scope = .environment then .ok s
      else if k = .ampersand then .ok s
      else if (k = .caret ∨ k = .underscore) ∧ !greedy then .ok s
      else if k = .word ∧ !greedy then do
        let (stopped, m, cnt, s) ← robChars g text m 0 s
        let s ← consumeIf L cnt s
        if stopped then .ok s else matchLoop g C lim greedy n m s
      else match k with
        | .left bk =>
          match m.matchAsTerm g (braceKind bk).1 with
          | (none, _) => .ok s
          | (some asTerm, m) => do
            let cur := s.st.checkpoint
            let s := s.map (argOpen greedy)
            let s ← if asTerm then eat L s else itemGroup L C lim (braceKind bk).2 s
            let s ← s.try (argClose greedy)
            let s := if greedy then s.map (fun st => { st with last := some cur }) else s
            matchLoop g C lim greedy n m s
        | k =>
          if stopByScope s.st.scope k then .ok s
          else
            let (ok, m) := m.tryMatch g .term
            if !ok then .ok s
            else do
              let cur := s.st.checkpoint
              let (attachable, s) ← C true (s.map (argOpen greedy))
              let s ← s.try (argClose greedy)
              let s := if greedy ∧ attachable then s.map (fun st => { st with last := some cur }) else s
              matchLoop g C lim greedy n m s

/-- parser.rs:643, 782-794 `match_arguments`. -/
def matchArguments (g : GlobFn) (C : Content σ) (n : Nat) (greedy : Bool) (m : ArgMatcher)
    (s : LState σ) : Res (LState σ) :=
  if greedy ≠ m.isGreedy then .error .panic
  else do
    let s' ← matchLoop L g C n greedy n m
      (s.map fun st => { st with last := none, start := if greedy then some st.checkpoint else none })
    .ok (s'.map fun st => { st with start := s.st.start, last := none })

/-- parser.rs:518-535. -/
def commandTail (g : GlobFn) (C : Content σ) (n : Nat) (m : ArgMatcher) (s : LState σ) : Res (Bool × LState σ) := do
  let s ← eat L s
  let s ← if m.isGreedy then do
      let s ← matchArguments L g C n true m (s.map (·.startNode .clauseArgument))
      s.try PState.finishNode
    else matchArguments L g C n false m s
  let s ← s.try PState.finishNode
  .ok (!m.isGreedy, s.map PState.extractHold)

/-- parser.rs:483-536 `command`. -/
def command (env : PEnv) (C : Content σ) (n : Nat) (s : LState σ) : Res (Bool × LState σ) :=
  match L.peek s.lex with
  | none => .error .panic
  | some (_, text) => do
    let name ← stripBackslash text
    match (getCmd env.spec name).map CmdShape.args with
    | none | some (.right .none) | some (.right (.fixedLen 0)) => do
      let s ← eat L (s.map (·.startNode .itemCmd))
      let s ← s.try PState.finishNode
      .ok (true, s)
    | some .left1 => do
      let s ← s.try (startCommandAt (s.st.last.or s.st.start))
      let s ← eat L s
      let s ← s.try PState.finishNode
      .ok (false, s)
    | some (.right p) => commandTail L env.glob C n (startMatch p) (s.map (·.startNode .itemCmd))
    | some .infixGreedy => do
      let s ← (s.map fun st => { st with start := none }).try (startCommandAt s.st.start)
      commandTail L env.glob C n (startMatch .greedy) s

/-- parser.rs:538-575 `environment`. -/
def environment (env : PEnv) (C : Content σ) (n : Nat) (s : LState σ) : Res (LState σ) :=
  match L.peek s.lex with
  | none => .error .panic
  | some (_, name) => do
    let s ← eat L (s.map fun st => (st.startNode .itemEnv).startNode .itemBegin)
    let s ← match envPattern env.spec name with
      | none => .ok s
      | some p => matchArguments L env.glob C n false (startMatch p) s
    let s ← s.try PState.finishNode
    let s ← itemList L C n .environment (s.map PState.extractHold)
    let s ← if peek L s = some (.cmd .endEnv) then do
        let s ← eat L (s.map (·.startNode .itemEnd))
        s.try PState.finishNode
      else .ok s
    s.try PState.finishNode

/-- parser.rs:821-841 `clause_lr`. -/
def clauseLR (K : Nat) (s : LState σ) : Res (LState σ) := do
  let s ← eat L (s.map (·.startNode .clauseLR))
  let s ← eatWhile L Token.isTrivia K s
  let s ← match peek L s with
    | some (.cmd .generic) => eatAs L .tokenCommandSym s
    | some (.cmd _) | some .dollar | none => .ok s
    | some .word => singleChar L s
    | _ => eat L s
  s.try PState.finishNode

/-- parser.rs:577-591 `item_lr`. -/
def itemLR (K : Nat) (C : Content σ) (n : Nat) (s : LState σ) : Res (LState σ) := do
  let s ← clauseLR L K (s.map (·.startNode .itemLR))
  let s ← itemList L C n .lr s
  let s ← if peek L s = some (.cmd .right) then clauseLR L K s else .ok s
  s.try PState.finishNode

/-- parser.rs:609-632 `eat_body_of_ifs`. -/
def eatBodyOfIfs : Nat → Nat → LState σ → Res (LState σ)
  | 0, _, _ => .error .fuel
  | n + 1, nested, s =>
    match peek L s with
    | none => .ok s
    | some (.cmd (.cif _)) => do eatBodyOfIfs n (nested + 1) (← eat L s)
    | some (.cmd .endIf) => if nested = 0 then drop L s else do eatBodyOfIfs n (nested - 1) (← eat L s)
    | some _ => do eatBodyOfIfs n nested (← eat L s)

/-- parser.rs:593-607 `block_comment`, `typst_code`. -/
def ifBlock (K : Nat) (kind : Kind) (s : LState σ) : Res (LState σ) := do
  let s ← drop L (s.map (·.startNode kind))
  let s ← eatBodyOfIfs L K 0 s
  s.try PState.finishNode

/-- parser.rs:796-819 `attach_component`, after the node has been opened. -/
def attachFinish (K : Nat) (C : Content σ) (hasScript : Bool) (s : LState σ) : Res (LState σ) := do
  let s ← eat L s
  let s ← if hasScript then do
      let s ← eatWhile L Token.isTrivia K s
      let (_, s) ← C false s
      .ok s
    else .ok s
  s.try PState.finishNode

/-- parser.rs:796-819 `attach_component`. -/
def attachComponent (K : Nat) (C : Content σ) (hasScript : Bool) (s : LState σ) : Res (LState σ) :=
  match s.st.last with
  | some l => do
    let s ← s.try (PState.startNodeAt l .itemAttachComponent)
    let s ← s.try (PState.startNodeAt l .clauseArgument)
    let s ← s.try PState.finishNode
    attachFinish L K C hasScript s
  | none => if !hasScript then eat L s else attachFinish L K C hasScript (s.map (·.startNode .itemAttachComponent))

/-- A single token wrapped in an error node (parser.rs:396-400, 444-448). -/
def errorItem (s : LState σ) : Res (LState σ) := do
  let s ← eat L (s.map (·.startNode .tokenError))
  s.try PState.finishNode

/-- Pair the result with the flag returned by `content`. -/
def withFlag (b : Bool) (r : Res (LState σ)) : Res (Bool × LState σ) := r.map fun s => (b, s)

/-- parser.rs:363-453 `content`. -/
def contentBody (env : PEnv) (K : Nat) (C : Content σ) (n : Nat) (notSingle : Bool) (s : LState σ) : Res (Bool × LState σ) :=
  match peek L s with
  | none => .ok (true, s)
  | some c =>
    match c with
    | .ampersand | .newLine | .lineBreak | .whitespace | .lineComment | .hash | .asterisk
    | .atSign | .error => withFlag false (eat L s)
    | .apostrophe => withFlag false (attachComponent L K C false s)
    | .underscore | .caret => withFlag false (attachComponent L K C true s)
    | .left .curly => withFlag true (itemGroup L C n .curlyItem s)
    | .right .curly | .macroArg _ => withFlag true (errorItem L s)
    | .left _ | .right _ | .tilde | .slash | .ditto | .semicolon => withFlag true (eat L s)
    | .word => withFlag true (if notSingle then textItem L K s else singleChar L s)
    | .comma => withFlag true (textItem L K s)
    | .dollar => withFlag false (itemGroup L C n .dollarFormula s)
    | .cmd name =>
      match name with
      | .generic => command L env C n s
      | .beginEnv => withFlag true (environment L env C n s)
      | .beginMath => withFlag false (itemGroup L C n .cmdFormula s)
      | .cif .ifFalse => withFlag true (ifBlock L K .itemBlockComment s)
      | .cif .ifTypst => withFlag true (ifBlock L K .itemTypstCode s)
      | .cif _ | .celse | .endIf => command L env C n s
      | .left => withFlag true (itemLR L K C n s)
      | .right => command L env C n s
      | .errorBeginEnv | .errorEndEnv => withFlag true (eat L s)
      | .endEnv | .endMath => withFlag true (errorItem L s)

/-- parser.rs:363-453 `content`; `K` bounds the rounds of the loops over tokens, `n` the depth and the other loops. -/
def content (env : PEnv) (K : Nat) : Nat → Content σ
  | 0 => fun _ _ => .error .fuel
  | n + 1 => contentBody L env K (content env K n) n

/-- parser.rs:257-264 `parse`, on a lexer that has been created. -/
def parseFrom (env : PEnv) (fuel : Nat) (lex : σ) : Res Elem := do
  let s ← itemList L (content L env fuel fuel) fuel .root ⟨lex, (PState.init []).startNode .scopeRoot⟩
  let s ← s.try PState.finishNode
  finishTree s.st

end

/-- crates/mitex-parser/src/lib.rs:32-41 `parse` and `parse_without_macro`, run lazily with pages of `N` tokens (`cap` for
the macro lexer). -/
def parse (N cap fuel : Nat) (env : PEnv) (macros : Bool) (s : Text) : Res Elem :=
  if macros then do
    let l ← MacroSrc.new cap fuel (rawOf env.spec s)
    parseFrom (MacroSrc.fns cap fuel) env fuel l
  else do
    let l ← PlainSrc.new N (rawOf env.spec s)
    parseFrom (PlainSrc.fns N) env fuel l

/-- converter.rs:1211-1232 `convert_inner`, with the lazy parser. -/
def convertInner (N cap fuel : Nat) (dflt : CommandSpec) (input : Text) (m : Mode) (spec : Option CommandSpec)
    (macros : Bool) : Res Text := do
  let tree ← parse N cap fuel ⟨spec.getD dflt, globPrefix⟩ macros input
  convertTree dflt m tree

end Lazy
end Mitex
