/-
Model of crates/mitex-parser/src/parser.rs.

The parser reads the tokens delivered by the lexer (the list `toks`, head = peeked token; property
C03/C08 justify the list view).  Recursive functions take the item parser `content` as an argument
`C` and a number `n` of loop rounds; `content` itself is tied by recursion on fuel at the end.  The
fuel is shown to be always sufficient (property C28).
-/
import Verif.Model.Syntax
import Verif.Model.ArgMatch

namespace Mitex

/-- parser.rs:9-28 `ParseScope`. -/
inductive Scope where
  | root | dollarFormula | cmdFormula | environment | lr | curlyItem | bracketItem | parenItem
  deriving DecidableEq, Repr

/-- parser.rs:107-125 `Parser` and parser.rs:35-45 `ListState`.
rowan's `GreenNodeBuilder` is `parents` (open nodes with the index of their first child, innermost
first) and `children`; a `Checkpoint` is a length of `children`. -/
structure PState where
  toks : List Tok
  parents : List (Kind × Nat)
  children : List Elem
  hold : List Tok
  start : Option Nat
  last : Option Nat
  scope : Scope

/-- The read-only part of the parser: the spec and the glob matcher. -/
structure PEnv where
  spec : CommandSpec
  glob : GlobFn

/-! ### rowan `GreenNodeBuilder` (rowan/src/green/builder.rs) -/

/-- The leaf for a token: `builder.token(kind.into(), text)`. -/
def leafOf (t : Tok) : Elem := .token t.1.kind t.2

namespace PState

/-- `GreenNodeBuilder::token`. -/
def token (k : Kind) (t : Text) (s : PState) : PState :=
  { s with children := s.children ++ [.token k t] }

/-- `GreenNodeBuilder::checkpoint`. -/
def checkpoint (s : PState) : Nat := s.children.length

/-- `GreenNodeBuilder::start_node`. -/
def startNode (k : Kind) (s : PState) : PState :=
  { s with parents := (k, s.children.length) :: s.parents }

/-- Index of the first child of the innermost open node. -/
def top (s : PState) : Nat :=
  match s.parents with
  | [] => 0
  | (_, f) :: _ => f

/-- `GreenNodeBuilder::start_node_at`: panics on a checkpoint past the children or before the
innermost open node. -/
def startNodeAt (cp : Nat) (k : Kind) (s : PState) : Res PState :=
  if cp ≤ s.children.length ∧ s.top ≤ cp then .ok { s with parents := (k, cp) :: s.parents }
  else .error .panic

/-- `GreenNodeBuilder::finish_node`. -/
def finishNode (s : PState) : Res PState :=
  match s.parents with
  | [] => .error .panic
  | (k, f) :: ps =>
    .ok { s with parents := ps, children := s.children.take f ++ [.node k (s.children.drop f)] }

/-! ### Lexer interface -/

/-- parser.rs:184-188 `peek`. -/
def peek (s : PState) : Option Token := s.toks.head?.map Prod.fst

/-- parser.rs:190-196 `eat`. -/
def eat (s : PState) : Res PState :=
  match s.toks with
  | [] => .error .panic
  | (k, t) :: r => .ok { s with toks := r, children := s.children ++ [.token k.kind t] }

/-- parser.rs:198-202 `drop`. -/
def drop (s : PState) : PState := { s with toks := s.toks.tail }

/-- parser.rs:204-210 `eat_as`. -/
def eatAs (k : Kind) (s : PState) : Res PState :=
  match s.toks with
  | [] => .error .panic
  | (_, t) :: r => .ok { s with toks := r, children := s.children ++ [.token k t] }

/-- parser.rs:212-218 `eat_if`. -/
def eatIf (k : Token) (s : PState) : Res PState :=
  if s.peek = some k then s.eat else .ok s

/-- parser.rs:220-224 `hold_trivia`. -/
def holdTrivia (s : PState) : Res PState :=
  match s.toks with
  | [] => .error .panic
  | t :: r => .ok { s with toks := r, hold := s.hold ++ [t] }

/-- parser.rs:226-229 `ignore_holding_trivia`. -/
def ignoreHold (s : PState) : PState := { s with hold := [] }

/-- parser.rs:231-237 `extract_holding_trivia`. -/
def extractHold (s : PState) : PState :=
  { s with children := s.children ++ s.hold.map leafOf, hold := [] }

/-- crates/mitex-lexer/src/lib.rs:131-140 `consume_utf8_bytes` on the delivered tokens. -/
def consumeBytes (cnt : Nat) (s : PState) : Res PState :=
  match s.toks with
  | [] => .ok s
  | (k, t) :: r =>
    if byteLen t ≤ cnt then .ok { s with toks := r }
    else match dropBytes cnt t with
      | none => .error .panic
      | some t' => .ok { s with toks := (k, t') :: r }

/-- parser.rs:239-247 `single_char`. -/
def singleChar (s : PState) : Res PState :=
  match s.toks with
  | [] => .ok s
  | (_, []) :: _ => .ok s
  | (_, c :: _) :: _ => (s.token .tokenWord [c]).consumeBytes (utf8Len c)

/-- A loop `while peek() is p { eat() }` in closed form. -/
def eatWhile (p : Token → Bool) (s : PState) : PState :=
  { s with
    toks := s.toks.dropWhile fun t => p t.1
    children := s.children ++ (s.toks.takeWhile fun t => p t.1).map leafOf }

/-- parser.rs:249-255 `trivia`. -/
def trivia (s : PState) : PState := s.eatWhile Token.isTrivia

end PState

/-! ### Parsing helpers -/

/-- parser.rs:266-306 `stop_by_scope`. -/
def stopByScope (scope : Scope) (k : Token) : Bool :=
  match scope with
  | .root => false
  | .dollarFormula =>
    match k with
    | .right .curly | .cmd .endEnv | .cmd .right | .dollar => true
    | _ => false
  | .cmdFormula =>
    match k with
    | .right .curly | .cmd .endEnv | .cmd .right | .cmd .endMath => true
    | _ => false
  | .environment =>
    match k with
    | .right .curly | .cmd .endEnv => true
    | _ => false
  | .curlyItem =>
    match k with
    | .right .curly => true
    | _ => false
  | .bracketItem =>
    match k with
    | .right .curly | .right .bracket | .cmd .endEnv | .cmd .right => true
    | _ => false
  | .parenItem =>
    match k with
    | .right .curly | .right .paren | .cmd .endEnv | .cmd .right => true
    | _ => false
  | .lr =>
    match k with
    | .right .curly | .cmd .endEnv | .cmd .right => true
    | _ => false

/-- The type of the item parser `content`. -/
abbrev ContentFn := Bool → PState → Res (Bool × PState)

/-- parser.rs:319-328, the loop of `item_list`; `cur` is `current`. -/
def itemListLoop (C : ContentFn) : Nat → Nat → PState → Res PState
  | 0, _, _ => .error .fuel
  | n + 1, cur, s =>
    match s.peek with
    | none => .ok s
    | some k =>
      if stopByScope s.scope k then .ok s
      else do
        let (attachable, s) ← C true s
        let s := if attachable then { s with last := some cur } else s
        itemListLoop C n s.checkpoint s

/-- parser.rs:308-331 `item_list`. -/
def itemList (C : ContentFn) (n : Nat) (scope : Scope) (s : PState) : Res PState := do
  let s' ← itemListLoop C n s.checkpoint
    { s with start := some s.checkpoint, last := none, scope := scope }
  .ok { s' with start := s.start, last := s.last, scope := s.scope }

/-- The scopes accepted by `item_group`, with closing token and node kind (parser.rs:337-353). -/
def groupInfo : Scope → Option (Token × Kind)
  | .curlyItem => some (.right .curly, .itemCurly)
  | .bracketItem => some (.right .bracket, .itemBracket)
  | .parenItem => some (.right .paren, .itemParen)
  | .dollarFormula => some (.dollar, .itemFormula)
  | .cmdFormula => some (.cmd .endMath, .itemFormula)
  | _ => none

/-- parser.rs:333-361 `item_group`; other scopes are the `assert!`. -/
def itemGroup (C : ContentFn) (n : Nat) (scope : Scope) (s : PState) : Res PState :=
  match groupInfo scope with
  | none => .error .panic
  | some (endTok, kind) => do
    let s ← (s.startNode kind).eat
    let s ← itemList C n scope s
    let s ← s.eatIf endTok
    s.finishNode

/-- parser.rs:458-461 `is_text_component`. -/
def isTextComponent : Token → Bool
  | .lineBreak | .whitespace | .lineComment | .word | .comma => true
  | _ => false

/-- parser.rs:457-469 `text`. -/
def textItem (s : PState) : Res PState := do
  let s ← (s.startNode .itemText).eat
  (s.eatWhile isTextComponent).finishNode

/-- parser.rs:472-481 `start_command_at`. -/
def startCommandAt (pos : Option Nat) (s : PState) : Res PState :=
  match pos with
  | some p => do
    let s ← s.startNodeAt p .itemCmd
    let s ← s.startNodeAt p .clauseArgument
    s.finishNode
  | none => .ok (s.startNode .itemCmd)

/-- The encoding of a brace as argument kind and the scope of its group (parser.rs:735-739). -/
def braceKind : BraceKind → ArgKind × Scope
  | .curly => (.term, .curlyItem)
  | .bracket => (.bracket, .bracketItem)
  | .paren => (.paren, .parenItem)

/-- parser.rs:652-666, the helper `arg` before calling `f`. -/
def argOpen (greedy : Bool) (s : PState) : PState :=
  if greedy then s else (s.ignoreHold).startNode .clauseArgument

/-- parser.rs:659-662, the helper `arg` after calling `f`. -/
def argClose (greedy : Bool) (s : PState) : Res PState :=
  if greedy then .ok s else s.finishNode

/-- parser.rs:704-719: characters of a word taken as arguments.  The result says whether the matcher
refused a character, and the number of bytes taken. -/
def robChars (g : GlobFn) : Text → ArgMatcher → Nat → PState → Res (Bool × ArgMatcher × Nat × PState)
  | [], m, cnt, s => .ok (false, m, cnt, s)
  | c :: cs, m, cnt, s =>
    let (ok, m) := m.tryMatch g .term
    if !ok then .ok (true, m, cnt, s)
    else do
      let s ← argClose false ((argOpen false s).token .tokenWord [c])
      robChars g cs m (cnt + utf8Len c) s

/-- parser.rs:709-711, 727-729: `if split_cnt > 0 { consume }`. -/
def consumeIf (cnt : Nat) (s : PState) : Res PState :=
  if 0 < cnt then s.consumeBytes cnt else .ok s

/-- parser.rs:673-779, the `while` loop of `match_arguments_`.  (`current` is only read right after it
is set to the checkpoint.) -/
def matchLoop (g : GlobFn) (C : ContentFn) (lim : Nat) (greedy : Bool) :
    Nat → ArgMatcher → PState → Res PState
  | 0, _, _ => .error .fuel
  | n + 1, m, s =>
    match s.toks with
    | [] => .ok s
    | (k, text) :: _ =>
      if k.isTrivia then do
        let s ← if greedy then s.eat else s.holdTrivia
        matchLoop g C lim greedy n m s
      else if k = .newLine ∧ greedy ∧ s.scope = .environment then .ok s
      else if k = .ampersand then .ok s
      else if (k = .caret ∨ k = .underscore) ∧ !greedy then .ok s
      else if k = .word ∧ !greedy then do
        let (stopped, m, cnt, s) ← robChars g text m 0 s
        let s ← consumeIf cnt s
        if stopped then .ok s else matchLoop g C lim greedy n m s
      else match k with
        | .left bk =>
          match m.matchAsTerm g (braceKind bk).1 with
          | (none, _) => .ok s
          | (some asTerm, m) => do
            let cur := s.checkpoint
            let s := argOpen greedy s
            let s ← if asTerm then s.eat else itemGroup C lim (braceKind bk).2 s
            let s ← argClose greedy s
            let s := if greedy then { s with last := some cur } else s
            matchLoop g C lim greedy n m s
        | k =>
          if stopByScope s.scope k then .ok s
          else
            let (ok, m) := m.tryMatch g .term
            if !ok then .ok s
            else do
              let cur := s.checkpoint
              let (attachable, s) ← C true (argOpen greedy s)
              let s ← argClose greedy s
              let s := if greedy ∧ attachable then { s with last := some cur } else s
              matchLoop g C lim greedy n m s

/-- parser.rs:643 the `assert!`, and parser.rs:782-794 `match_arguments`: `last` is cleared *before*
it is saved, so it is always `None` afterwards. -/
def matchArguments (g : GlobFn) (C : ContentFn) (n : Nat) (greedy : Bool) (m : ArgMatcher)
    (s : PState) : Res PState :=
  if greedy ≠ m.isGreedy then .error .panic
  else do
    let start := s.start
    let s' ← matchLoop g C n greedy n m
      { s with last := none, start := if greedy then some s.checkpoint else none }
    .ok { s' with start := start, last := none }

/-- parser.rs:518-535, the part of `command` after the name has been identified. -/
def commandTail (g : GlobFn) (C : ContentFn) (n : Nat) (m : ArgMatcher) (s : PState) :
    Res (Bool × PState) := do
  let s ← s.eat
  let s ← if m.isGreedy then do
      let s ← matchArguments g C n true m (s.startNode .clauseArgument)
      s.finishNode
    else matchArguments g C n false m s
  let s ← s.finishNode
  .ok (!m.isGreedy, s.extractHold)

/-- parser.rs:483-536 `command`. -/
def command (env : PEnv) (C : ContentFn) (n : Nat) (s : PState) : Res (Bool × PState) :=
  match s.toks with
  | [] => .error .panic
  | (_, text) :: _ => do
    let name ← stripBackslash text
    match (getCmd env.spec name).map CmdShape.args with
    | none | some (.right .none) | some (.right (.fixedLen 0)) => do
      let s ← (s.startNode .itemCmd).eat
      let s ← s.finishNode
      .ok (true, s)
    | some .left1 => do
      let s ← startCommandAt (s.last.or s.start) s
      let s ← s.eat
      let s ← s.finishNode
      .ok (false, s)
    | some (.right p) => commandTail env.glob C n (startMatch p) (s.startNode .itemCmd)
    | some .infixGreedy => do
      let s ← startCommandAt s.start { s with start := none }
      commandTail env.glob C n (startMatch .greedy) s

/-- parser.rs:550-554: the pattern used for the arguments of an environment. -/
def envPattern (spec : CommandSpec) (name : Text) : Option ArgPattern :=
  match (getEnv spec name).map EnvShape.args with
  | none | some .none | some (.fixedLen 0) => none
  | some p => some p

/-- parser.rs:538-575 `environment`. -/
def environment (env : PEnv) (C : ContentFn) (n : Nat) (s : PState) : Res PState :=
  match s.toks with
  | [] => .error .panic
  | (_, name) :: _ => do
    let s ← ((s.startNode .itemEnv).startNode .itemBegin).eat
    let s ← match envPattern env.spec name with
      | none => .ok s
      | some p => matchArguments env.glob C n false (startMatch p) s
    let s ← s.finishNode
    let s ← itemList C n .environment s.extractHold
    let s ← if s.peek = some (.cmd .endEnv) then do
        let s ← (s.startNode .itemEnd).eat
        s.finishNode
      else .ok s
    s.finishNode

/-- parser.rs:821-841 `clause_lr`. -/
def clauseLR (s : PState) : Res PState := do
  let s ← (s.startNode .clauseLR).eat
  let s := s.trivia
  let s ← match s.peek with
    | some (.cmd .generic) => s.eatAs .tokenCommandSym
    | some (.cmd _) | some .dollar | none => .ok s
    | some .word => s.singleChar
    | _ => s.eat
  s.finishNode

/-- parser.rs:577-591 `item_lr`. -/
def itemLR (C : ContentFn) (n : Nat) (s : PState) : Res PState := do
  let s ← clauseLR (s.startNode .itemLR)
  let s ← itemList C n .lr s
  let s ← if s.peek = some (.cmd .right) then clauseLR s else .ok s
  s.finishNode

/-- parser.rs:609-632 `eat_body_of_ifs`; structural on the tokens left. -/
def eatBodyOfIfs : List Tok → Nat → PState → PState
  | [], _, s => { s with toks := [] }
  | (k, t) :: rest, nested, s =>
    match k with
    | .cmd (.cif _) => eatBodyOfIfs rest (nested + 1) (s.token k.kind t)
    | .cmd .endIf =>
      if nested = 0 then { s with toks := rest }
      else eatBodyOfIfs rest (nested - 1) (s.token k.kind t)
    | _ => eatBodyOfIfs rest nested (s.token k.kind t)

/-- parser.rs:593-607 `block_comment`, `typst_code`. -/
def ifBlock (kind : Kind) (s : PState) : Res PState :=
  let s := (s.startNode kind).drop
  (eatBodyOfIfs s.toks 0 s).finishNode

/-- parser.rs:796-819 `attach_component`. -/
def attachComponent (C : ContentFn) (hasScript : Bool) (s : PState) : Res PState :=
  match s.last with
  | some l => do
    let s ← s.startNodeAt l .itemAttachComponent
    let s ← s.startNodeAt l .clauseArgument
    let s ← s.finishNode
    finish s
  | none => if !hasScript then s.eat else finish (s.startNode .itemAttachComponent)
where
  finish (s : PState) : Res PState := do
    let s ← s.eat
    let s ← if hasScript then do
        let (_, s) ← C false s.trivia
        .ok s
      else .ok s
    s.finishNode

/-- A single token wrapped in an error node (parser.rs:396-400, 444-448). -/
def errorItem (s : PState) : Res PState := do
  let s ← (s.startNode .tokenError).eat
  s.finishNode

/-- Pair the result of a parser with the flag returned by `content`. -/
def withFlag (b : Bool) (r : Res PState) : Res (Bool × PState) := r.map fun s => (b, s)

/-- parser.rs:363-453 `content`, given the item parser `C` for nested items. -/
def contentBody (env : PEnv) (C : ContentFn) (n : Nat) (notSingle : Bool) (s : PState) :
    Res (Bool × PState) :=
  match s.peek with
  | none => .ok (true, s)
  | some c =>
    match c with
    | .ampersand | .newLine | .lineBreak | .whitespace | .lineComment | .hash | .asterisk
    | .atSign | .error => withFlag false s.eat
    | .apostrophe => withFlag false (attachComponent C false s)
    | .underscore | .caret => withFlag false (attachComponent C true s)
    | .left .curly => withFlag true (itemGroup C n .curlyItem s)
    | .right .curly | .macroArg _ => withFlag true (errorItem s)
    | .left _ | .right _ | .tilde | .slash | .ditto | .semicolon => withFlag true s.eat
    | .word => withFlag true (if notSingle then textItem s else s.singleChar)
    | .comma => withFlag true (textItem s)
    | .dollar => withFlag false (itemGroup C n .dollarFormula s)
    | .cmd name =>
      match name with
      | .generic => command env C n s
      | .beginEnv => withFlag true (environment env C n s)
      | .beginMath => withFlag false (itemGroup C n .cmdFormula s)
      | .cif .ifFalse => withFlag true (ifBlock .itemBlockComment s)
      | .cif .ifTypst => withFlag true (ifBlock .itemTypstCode s)
      | .cif _ | .celse | .endIf => command env C n s
      | .left => withFlag true (itemLR C n s)
      | .right => command env C n s
      | .errorBeginEnv | .errorEndEnv => withFlag true s.eat
      | .endEnv | .endMath => withFlag true (errorItem s)

/-- parser.rs:363-453 `content`, tied with fuel. -/
def content (env : PEnv) : Nat → ContentFn
  | 0 => fun _ _ => .error .fuel
  | n + 1 => contentBody env (content env n) n

/-- The measure of a token list: the fuel needed by the parser. -/
def tokSize : List Tok → Nat
  | [] => 0
  | t :: ts => t.2.length + 1 + tokSize ts

/-- parser.rs:128-139 `Parser::new`: the initial state on the delivered tokens. -/
def PState.init (toks : List Tok) : PState :=
  { toks := toks, parents := [], children := [], hold := [], start := none, last := none,
    scope := .root }

/-- `GreenNodeBuilder::finish`: exactly one element must be left, and it must be a node. -/
def finishTree (s : PState) : Res Elem :=
  match s.children with
  | [.node k cs] => .ok (.node k cs)
  | _ => .error .panic

/-- parser.rs:257-264 `parse`. -/
def parseToks (env : PEnv) (toks : List Tok) : Res Elem := do
  let n := tokSize toks + 1
  let s := (PState.init toks).startNode .scopeRoot
  let s ← itemList (content env n) n .root s
  let s ← s.finishNode
  finishTree s

end Mitex
