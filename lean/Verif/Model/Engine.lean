/-
Model of crates/mitex-lexer/src/macro_engine.rs.
-/
import Verif.Model.Stream

namespace Mitex

/-- macro_engine.rs:122-152 `DeclareCmdOrEnv` (the `star` flags are never read, lines 720-744). -/
inductive DeclareCmdOrEnv where
  | newCommand (renew : Bool)
  | provideCommand
  | declareRobust
  | newEnvironment (renew : Bool)
  deriving DecidableEq, Repr

/-- macro_engine.rs:154-195 `DeclareMacro`; all variants but `CmdOrEnv` behave alike (lines 599-614). -/
inductive DeclareMacro where
  | cmdOrEnv (d : DeclareCmdOrEnv)
  | unimplemented
  deriving DecidableEq, Repr

/-- macro_engine.rs:105-120, 299-307 `Macro`, `CmdMacro`, `EnvMacro`. -/
inductive Macro where
  | declare (d : DeclareMacro)
  | cmd (name : Text) (numArgs : Nat) (opt : Option (List Tok)) (body : List Tok)
  | env (name : Text) (numArgs : Nat) (opt : Option (List Tok)) (beginDef endDef : List Tok)
  deriving DecidableEq, Repr

/-- Seen from the engine the macro table is a map (its snapshots are modelled in
`Model/SnapshotMap`; the engine never opens one by itself). -/
abbrev MacroTable := Text → Option Macro

/-- `SnapshotMap::insert` on the map part. -/
def MacroTable.insert (m : MacroTable) (name : Text) (v : Macro) : MacroTable :=
  fun n => if n = name then some v else m n

/-- macro_engine.rs:197-290 `define_declarative_macros`, in source order. -/
def declarativeMacros : List (Text × Macro) := [
  ("newcommand".toList, .declare (.cmdOrEnv (.newCommand false))),
  ("newcommand*".toList, .declare (.cmdOrEnv (.newCommand false))),
  ("renewcommand".toList, .declare (.cmdOrEnv (.newCommand true))),
  ("renewcommand*".toList, .declare (.cmdOrEnv (.newCommand true))),
  ("providecommand".toList, .declare (.cmdOrEnv .provideCommand)),
  ("providecommand*".toList, .declare (.cmdOrEnv .provideCommand)),
  ("DeclareRobustCommand".toList, .declare (.cmdOrEnv .declareRobust)),
  ("DeclareRobustCommand*".toList, .declare (.cmdOrEnv .declareRobust)),
  ("DeclareTextCommand".toList, .declare .unimplemented),
  ("DeclareTextCommandDefault".toList, .declare .unimplemented),
  ("ProvideTextCommand".toList, .declare .unimplemented),
  ("ProvideTextCommandDefault".toList, .declare .unimplemented),
  ("newenvironment".toList, .declare (.cmdOrEnv (.newEnvironment false))),
  ("newenvironment*".toList, .declare (.cmdOrEnv (.newEnvironment false))),
  ("renewenvironment".toList, .declare (.cmdOrEnv (.newEnvironment true))),
  ("renewenvironment*".toList, .declare (.cmdOrEnv (.newEnvironment true))),
  ("AtEndOfClass".toList, .declare .unimplemented),
  ("AtEndOfPackage".toList, .declare .unimplemented),
  ("AtBeginDocument".toList, .declare .unimplemented),
  ("AtEndDocument".toList, .declare .unimplemented)]

/-- macro_engine.rs:292-297 `DEFAULT_MACROS`. -/
def defaultMacros : MacroTable := fun n => declarativeMacros.lookup n

/-- macro_engine.rs:333-340 `IfState`. -/
inductive IfState where
  | litFalse | typstTrue | typstFalse | isFalse | isTrue
  deriving DecidableEq, Repr

/-- macro_engine.rs:342-362 `MacroEngine`: the macro table and the stack of open conditionals
(top first).  `env_stack`, `reading_macro`, `scanned_tokens` are never used by the code. -/
structure Eng where
  macros : MacroTable
  ifs : List (Option IfState)

/-- macro_engine.rs:376-387 `MacroEngine::new`. -/
def Eng.new : Eng := ⟨defaultMacros, []⟩

/-- macro_engine.rs:327-331 `UpdateAction`. -/
inductive UpdateAction where
  | new | renew | provide
  deriving DecidableEq, Repr

/-! ### Pure helpers -/

/-- `first_char.to_digit(10)` restricted to `1..=9` (macro_engine.rs:963-969). -/
def paramDigit (c : Char) : Option Nat :=
  if isAsciiDigit c ∧ c.toNat ≠ 48 then some (c.toNat - 48) else none

/-- macro_engine.rs:952-978, the loop of `process_macro_def`.  A `#` at the very end is the panic of
line 957.  The flag is `empty_texts`. -/
def processDefLoop : List Tok → Res (List Tok × Bool)
  | [] => .ok ([], false)
  | (.hash, _) :: [] => .error .panic
  | (.hash, h) :: (.word, c :: cs) :: rest =>
    match processDefLoop rest with
    | .error e => .error e
    | .ok (r, b) =>
      match paramDigit c with
      | some d => .ok ((.macroArg d, h) :: (.word, cs) :: r, b || cs.isEmpty)
      | none => .ok ((.hash, h) :: (.word, c :: cs) :: r, b)
  | t :: rest =>
    match processDefLoop rest with
    | .error e => .error e
    | .ok (r, b) => .ok (t :: r, b)

/-- macro_engine.rs:952-986 `process_macro_def`: the loop, then drop emptied words. -/
def processMacroDef (d : List Tok) : Res (List Tok) :=
  match processDefLoop d with
  | .error e => .error e
  | .ok (r, b) =>
    if b then .ok (r.filter fun t => t.1 ≠ .word || !t.2.isEmpty) else .ok r

/-- macro_engine.rs:876-930 `expand_tokens`.  `recur` is the position inside the inner loop of lines
896-920 (after `\mitexrecurse`), `bc` the brace counter.  `num as usize - 1` underflows for
parameter 0 (panic); the `strip_prefix('\\').unwrap()` of line 894 is explicit. -/
def expandTokens (args : List (List Tok)) : Bool → Int → List Tok → Res (List Tok)
  | _, _, [] => .ok []
  | false, bc, e :: es =>
    match e.1 with
    | .macroArg 0 => .error .panic
    | .macroArg (n + 1) =>
      match expandTokens args false bc es with
      | .error x => .error x
      | .ok r => .ok ((args[n]?).getD [] ++ r)
    | .cmd .generic =>
      match stripBackslash e.2 with
      | .error x => .error x
      | .ok name =>
        if name = "mitexrecurse".toList then expandTokens args true bc es
        else match expandTokens args false bc es with
          | .error x => .error x
          | .ok r => .ok (e :: r)
    | _ =>
      match expandTokens args false bc es with
      | .error x => .error x
      | .ok r => .ok (e :: r)
  | true, bc, e :: es =>
    if e.1 = .left .curly then
      match expandTokens args true (bc + 1) es with
      | .error x => .error x
      | .ok r => .ok (if 0 < bc then e :: r else r)
    else if e.1 = .right .curly then
      if bc - 1 = 0 then expandTokens args false 0 es
      else match expandTokens args true (bc - 1) es with
        | .error x => .error x
        | .ok r => .ok (e :: r)
    else if bc ≠ 0 then
      match expandTokens args true bc es with
      | .error x => .error x
      | .ok r => .ok (e :: r)
    else if !e.1.isTrivia then
      match expandTokens args false bc es with
      | .error x => .error x
      | .ok r => .ok (e :: r)
    else expandTokens args true bc es

/-! ### Functions on the stream -/

section
variable {σ : Type} [TokStream σ]
open TokStream

/-- macro_engine.rs:448-468 `skip_false_tokens`. -/
def skipFalse : Nat → Nat → σ → σ
  | 0, _, c => c
  | n + 1, nested, c =>
    match peek c with
    | none => c
    | some t =>
      match t.1 with
      | .cmd (.cif _) => skipFalse n (nested + 1) (next c)
      | .cmd .celse | .cmd .endIf =>
        if nested = 0 then c else skipFalse n (nested - 1) (next c)
      | _ => skipFalse n nested (next c)

/-- macro_engine.rs:471-491 `trapped_by_if`. -/
def trappedByIf (e : Eng) (c : σ) (token : Tok) (i : IfName) : Eng × σ :=
  let c := next c
  match i with
  | .ifFalse => ({ e with ifs := some .litFalse :: e.ifs }, emit token c)
  | .ifTrue => ({ e with ifs := some .isTrue :: e.ifs }, c)
  | .ifTypst => ({ e with ifs := some .typstTrue :: e.ifs }, emit token c)
  | _ => ({ e with ifs := none :: e.ifs }, emit token c)

/-- The token pushed at macro_engine.rs:523. -/
def fiTok : Tok := (.cmd .endIf, "\\fi".toList)

/-- macro_engine.rs:494-528 `trapped_by_else`. -/
def trappedByElse (e : Eng) (c : σ) (token : Tok) : Eng × σ :=
  let c := next c
  match e.ifs with
  | some .typstTrue :: r =>
    ({ e with ifs := some .typstFalse :: r }, skipFalse (bound c) 0 c)
  | some .isTrue :: r =>
    ({ e with ifs := some .isFalse :: r }, skipFalse (bound c) 0 c)
  | some .isFalse :: r => ({ e with ifs := some .isTrue :: r }, c)
  | some .typstFalse :: r => ({ e with ifs := some .typstTrue :: r }, c)
  | some .litFalse :: r => ({ e with ifs := some .isTrue :: r }, emit fiTok c)
  | none :: _ => (e, emit token c)
  | [] => (e, emit token c)

/-- macro_engine.rs:530-541 `trapped_by_endif`. -/
def trappedByEndif (e : Eng) (c : σ) (token : Tok) : Eng × σ :=
  let c := next c
  match e.ifs with
  | some .isTrue :: r => ({ e with ifs := r }, c)
  | some .isFalse :: r => ({ e with ifs := r }, c)
  | _ :: r => ({ e with ifs := r }, emit token c)
  | [] => (e, emit token c)

/-- macro_engine.rs:705-714: the definition part `{defn}` or a single token, for the match state in
which only it may follow.  `none` = the `?` of line 692 (end of stream). -/
def readDefn (c : σ) : Option (List Tok) × σ :=
  match peek c with
  | none => (none, c)
  | some t =>
    if t.1 = .left .curly then
      let r := readUntilBalanced .curly (next c)
      (some r.1, r.2)
    else (some [t], next c)

/-- macro_engine.rs:700-704: `[optargdefault]` if present, then the definition. -/
def readOptDefn (c : σ) : Option (Option (List Tok) × List Tok) × σ :=
  match peek c with
  | none => (none, c)
  | some t =>
    if t.1 = .left .bracket then
      let r := readUntilBalanced .bracket (next c)
      match readDefn r.2 with
      | (none, c) => (none, c)
      | (some d, c) => (some (some r.1, d), c)
    else
      match readDefn c with
      | (none, c) => (none, c)
      | (some d, c) => (some (none, d), c)

/-- macro_engine.rs:686-716, the loop `'match_loop` unrolled over its three states: `[nargs]`,
`[optargdefault]`, `{defn}`. Result: `num_args`, `opt`, `def`. -/
def readNArgsOptDefn (c : σ) : Option (Nat × Option (List Tok) × List Tok) × σ :=
  match peek c with
  | none => (none, c)
  | some t =>
    if t.1 = .left .bracket then
      match peekU8Opt .bracket (nextNotTrivia c).2 with
      | (none, c) => (none, c)
      | (some n, c) =>
        if n ≤ 9 then
          match readOptDefn c with
          | (none, c) => (none, c)
          | (some (o, d), c) => (some (n, o, d), c)
        else (none, c)
    else
      match readDefn c with
      | (none, c) => (none, c)
      | (some d, c) => (some (0, none, d), c)

/-- macro_engine.rs:664-677: `{\cmd}` resp. `{env}`, yielding the name.  The `unwrap` of line 676 is
a panic when the command token does not start with a backslash. -/
def readDeclName (d : DeclareCmdOrEnv) (c : σ) : Res (Option Text × σ) :=
  match nextNotTrivia c with
  | (some (.left .curly), c) =>
    let c := (nextNotTrivia c).2
    match d with
    | .newEnvironment _ =>
      match peekWordOpt .curly c with
      | (none, c) => .ok (none, c)
      | (some t, c) => .ok (some t.2, c)
    | _ =>
      match peekCmdNameOpt .curly c with
      | (none, c) => .ok (none, c)
      | (some t, c) =>
        match stripBackslash t.2 with
        | .error x => .error x
        | .ok n => .ok (some n, c)
  | (_, c) => .ok (none, c)

/-- macro_engine.rs:718-766: the end definition of environments, `process_macro_def`, the macro. -/
def finishUpdate (d : DeclareCmdOrEnv) (name : Text) (n : Nat) (opt : Option (List Tok))
    (body : List Tok) (c : σ) : Res (Option (Text × UpdateAction × Macro) × σ) :=
  match d with
  | .newEnvironment renew =>
    match peek c with
    | none => .ok (none, c)                        -- the `?` of line 733
    | some t =>
      let r : Option (List Tok) × σ :=
        if t.1 = .left .curly then
          let r := readUntilBalanced .curly (next c)
          (some r.1, r.2)
        else (none, c)
      match processMacroDef body with
      | .error x => .error x
      | .ok body =>
        match r.1 with
        | none => .ok (none, r.2)                  -- the `?` of line 749
        | some e =>
          match processMacroDef e with
          | .error x => .error x
          | .ok e =>
            .ok (some (name, if renew then .renew else .new, .env name n opt body e), r.2)
  | _ =>
    match processMacroDef body with
    | .error x => .error x
    | .ok body =>
      let action := match d with
        | .newCommand true => UpdateAction.renew
        | .provideCommand => UpdateAction.provide
        | _ => UpdateAction.new
      .ok (some (name, action, .cmd name n opt body), c)

/-- macro_engine.rs:660-767 `identify_macro_update`. -/
def identifyUpdate (d : DeclareCmdOrEnv) (c : σ) :
    Res (Option (Text × UpdateAction × Macro) × σ) :=
  match readDeclName d c with
  | .error x => .error x
  | .ok (none, c) => .ok (none, c)
  | .ok (some name, c) =>
    match readNArgsOptDefn c with
    | (none, c) => .ok (none, c)
    | (some (n, opt, body), c) => finishUpdate d name n opt body c

/-- The characters of a word taken as arguments: macro_engine.rs:790-798.  Returns the arguments, the
rest of the word and the new `num_of_read`. -/
def splitWord : Text → Nat → Nat → List (List Tok) × Text × Nat
  | [], read, _ => ([], [], read)
  | ch :: cs, read, num =>
    if read + 1 = num then ([[(.word, [ch])]], cs, read + 1)
    else
      let r := splitWord cs (read + 1) num
      ([(.word, [ch])] :: r.1, r.2.1, r.2.2)

/-- macro_engine.rs:782-821, the loop of `read_macro_args`; the result contains `num_of_read`. -/
def readArgsLoop : Nat → Nat → Nat → σ → List (List Tok) × Nat × σ
  | 0, _, read, c => ([], read, c)
  | fuel + 1, num, read, c =>
    match peekNotTrivia c with
    | (none, c) => ([], read, c)
    | (some (.left .curly), c) =>
      let r := readUntilBalanced .curly (next c)
      if read + 1 = num then ([r.1], read + 1, r.2)
      else
        let s := readArgsLoop fuel num (read + 1) r.2
        (r.1 :: s.1, s.2)
    | (some .word, c) =>
      match peek c with
      | none => ([], read, c)                       -- not reached: the token was just peeked
      | some t =>
        let w := splitWord t.2 read num
        let c := if w.2.1 ≠ [] then setPeek (.word, w.2.1) c else next c
        if w.2.2 = num then (w.1, w.2.2, c)
        else if w.2.2 + 1 = num then (w.1, w.2.2 + 1, c)
        else
          let s := readArgsLoop fuel num (w.2.2 + 1) c
          (w.1 ++ s.1, s.2)
    | (some _, c) =>
      match peek c with
      | none => ([], read, c)                       -- not reached
      | some t =>
        if read + 1 = num then ([[t]], read + 1, next c)
        else
          let s := readArgsLoop fuel num (read + 1) (next c)
          ([t] :: s.1, s.2)

/-- The error token of macro_engine.rs:833. -/
def argErrTok : Tok := (.error, "invalid number of arguments".toList)

/-- macro_engine.rs:769-839 `read_macro_args`. -/
def readMacroArgs (num : Nat) (opt : Option (List Tok)) (c : σ) :
    Option (List (List Tok)) × σ :=
  if num = 0 then (some [], c)
  else
    let r := readArgsLoop (bound c) num 0 c
    if r.2.1 = num then (some r.1, r.2.2)
    else match opt with
      | some o =>
        if num - r.2.1 = 1 then (some (r.1 ++ [o]), r.2.2)
        else (none, emit argErrTok r.2.2)
      | none => (none, emit argErrTok r.2.2)

/-- The error token of macro_engine.rs:849. -/
def envErrTok : Tok := (.error, "unmatched environment".toList)

/-- macro_engine.rs:841-874 `read_env_body` (`bc ≠ 0` after the loop is impossible, so lines 868-871 are
dead code). -/
def readEnvBody : Nat → Text → Nat → σ → Option (List Tok) × σ
  | 0, _, _, c => (none, c)
  | fuel + 1, name, bc, c =>
    match peek c with
    | none => (none, c)
    | some t =>
      if t.1 = .cmd .endEnv then
        if bc = 0 then
          if t.2 ≠ name then (none, emit envErrTok c) else (some [], next c)
        else
          match readEnvBody fuel name (bc - 1) (next c) with
          | (none, c) => (none, c)
          | (some b, c) => (some (t :: b), c)
      else
        let bc := if t.1 = .cmd .beginEnv then bc + 1 else bc
        match readEnvBody fuel name bc (next c) with
        | (none, c) => (none, c)
        | (some b, c) => (some (t :: b), c)

/-- macro_engine.rs:570-597, the effect of a definition on the macro table. -/
def applyUpdate (e : Eng) (c : σ) (name : Text) (a : UpdateAction) (m : Macro) : Eng × σ :=
  match a with
  | .new =>
    ({ e with macros := e.macros.insert name m },
      if (e.macros name).isSome then emit (.error, name) c else c)
  | .renew =>
    ({ e with macros := e.macros.insert name m },
      if (e.macros name).isNone then emit (.error, name) c else c)
  | .provide =>
    if (e.macros name).isNone then ({ e with macros := e.macros.insert name m }, c) else (e, c)

/-- macro_engine.rs:543-658 `trapped_by_macro`. -/
def trappedByMacro (e : Eng) (c : σ) (token : Tok) (name : Text) (isEnv : Bool) : Res (Eng × σ) :=
  match e.macros name with
  | none => .ok (e, next (emit token c))
  | some (.declare (.cmdOrEnv d)) =>
    if isEnv then .ok (e, next (emit token c))
    else match identifyUpdate d c with
      | .error x => .error x
      | .ok (none, c) => .ok (e, c)
      | .ok (some (name, a, m), c) => .ok (applyUpdate e c name a m)
  | some (.declare .unimplemented) => .ok (e, next (emit token c))
  | some (.cmd _ num opt body) =>
    if isEnv then .ok (e, next (emit token c))
    else match readMacroArgs num opt (next c) with
      | (none, c) => .ok (e, c)
      | (some args, c) =>
        match expandTokens args false 0 body with
        | .error x => .error x
        | .ok ex => .ok (e, pushFront ex c)
  | some (.env ename num opt bdef edef) =>
    if !isEnv then .ok (e, next (emit token c))
    else match readMacroArgs num opt (next c) with
      | (none, c) => .ok (e, c)
      | (some args, c) =>
        match readEnvBody (bound c) ename 0 c with
        | (none, c) => .ok (e, c)
        | (some b, c) =>
          match expandTokens args false 0 bdef with
          | .error x => .error x
          | .ok eb =>
            match expandTokens args false 0 edef with
            | .error x => .error x
            | .ok ee => .ok (e, pushFront (eb ++ b ++ ee) c)

/-- macro_engine.rs:409-438, one round of the loop of `do_bump` on the peeked token. -/
def engStep (e : Eng) (c : σ) (token : Tok) : Res (Eng × σ) :=
  match token.1 with
  | .cmd (.cif i) => .ok (trappedByIf e c token i)
  | .cmd .celse => .ok (trappedByElse e c token)
  | .cmd .endIf => .ok (trappedByEndif e c token)
  | .cmd .generic =>
    match dropBytes 1 token.2 with                 -- `&token.1[1..]`
    | none => .error .panic
    | some name => trappedByMacro e c token name false
  | .cmd .beginEnv => trappedByMacro e c token token.2 true
  | _ => .ok (e, next (emit token c))

/-- Run the engine until the stream is exhausted; `fuel` bounds the number of rounds. -/
def engRun : Nat → Eng → σ → Res (Eng × σ)
  | 0, e, c => match peek c with
    | none => .ok (e, c)
    | some _ => .error .fuel
  | n + 1, e, c =>
    match peek c with
    | none => .ok (e, c)
    | some t =>
      match engStep e c t with
      | .error x => .error x
      | .ok (e, c) => engRun n e c

end

/-- macro_engine.rs:404-440, the `while` loop of `do_bump` with page capacity `cap`
(`PEEK_CACHE_SIZE_M1`, 169). -/
def bumpLoop (cap : Nat) : Nat → Eng → Ctx → Res (Eng × Ctx)
  | 0, e, c => if c.out.length < cap ∧ c.peeked.isSome then .error .fuel else .ok (e, c)
  | n + 1, e, c =>
    if c.out.length < cap then
      match c.peeked with
      | none => .ok (e, c)
      | some t =>
        match engStep e c t with
        | .error x => .error x
        | .ok (e, c) => bumpLoop cap n e c
    else .ok (e, c)

/-- lib.rs:60-71 `Lexer<'a, MacroEngine>`: engine, inner stream and the outer cache
(`peek_outer`: `peeked` and stack `buf`, top first). -/
structure MacroLexer where
  eng : Eng
  ctx : Ctx
  peeked : Option Tok
  buf : List Tok

namespace MacroLexer

/-- macro_engine.rs:389-446 `do_bump`: load a token if none is peeked, fill the page, reverse it into
a stack, pop the first token.  `fuel` bounds the rounds of one refill. -/
def bump (cap fuel : Nat) (l : MacroLexer) : Res MacroLexer :=
  let c : Ctx := { l.ctx with out := l.buf }
  let c := if c.peeked.isNone then c.next else c
  match bumpLoop cap fuel l.eng c with
  | .error x => .error x
  | .ok (e, c) => .ok { eng := e, ctx := { c with out := [] }, peeked := c.out.head?, buf := c.out.tail }

/-- lib.rs:103-113 `Lexer::next`. -/
def next (cap fuel : Nat) (l : MacroLexer) : Res MacroLexer :=
  match l.buf with
  | p :: buf => .ok { l with peeked := some p, buf := buf }
  | [] => bump cap fuel l

/-- lib.rs:84-101 `Lexer::new_with_bumper` with `MacroEngine::new`. -/
def new (cap fuel : Nat) (toks : List Tok) : Res MacroLexer :=
  next cap fuel ⟨Eng.new, ⟨none, [], toks, []⟩, none, []⟩

/-- lib.rs:142-147 `Lexer::eat`. -/
def eat (cap fuel : Nat) (l : MacroLexer) : Res (Option Tok × MacroLexer) :=
  match l.peeked with
  | none => .ok (none, l)
  | some p =>
    match next cap fuel { l with peeked := none } with
    | .error x => .error x
    | .ok l' => .ok (some p, l')

/-- Eat until `None`, at most `n` times. -/
def drain (cap fuel : Nat) : Nat → MacroLexer → Res (List Tok)
  | 0, l => match l.peeked with
    | none => .ok []
    | some _ => .error .fuel
  | n + 1, l =>
    match eat cap fuel l with
    | .error x => .error x
    | .ok (none, _) => .ok []
    | .ok (some t, l') =>
      match drain cap fuel n l' with
      | .error x => .error x
      | .ok r => .ok (t :: r)

end MacroLexer

/-- The tokens delivered by the macro-expanding lexer, as the unbuffered run over the token list
(justified by property C08). -/
def expandAll (fuel : Nat) (toks : List Tok) : Res (List Tok) :=
  match engRun fuel Eng.new (⟨toks, []⟩ : LCtx) with
  | .error x => .error x
  | .ok (_, c) => .ok c.out

end Mitex
