/-
The rules of macro expansion: what the macro-expanding lexer does with the text that is still to be read, one
rule per case, on bare lists of tokens.  Written from the comments of crates/mitex-lexer/src/macro_engine.rs and
stream.rs, without the functions of the engine model (only its data: tokens, macro tables, the stack of open
conditionals).  Everything the engine can meet is covered: unclosed groups, broken definitions, missing
arguments, `\mitexrecurse`, unmatched environments, stray `\else` and `\fi`.
-/
import Verif.Spec.Macro

namespace Mitex

/-! ### Nested texts -/

/-- Openers minus closers. -/
def level (op cl : Tok → Bool) : List Tok → Int
  | [] => 0
  | t :: ts => (if op t then 1 else if cl t then -1 else 0) + level op cl ts

/-- `Upto op cl stop s b rest`: `b` is what stands in `s` before the first `stop` token outside all nested
parts, and `rest` starts with that token; if there is none, `b` is all of `s`. -/
structure Upto (op cl stop : Tok → Bool) (s b rest : List Tok) : Prop where
  split : s = b ++ rest
  ends : rest = [] ∨ ∃ t r, rest = t :: r ∧ stop t = true ∧ level op cl b = 0
  first : ∀ p t q, b = p ++ t :: q → stop t = true → level op cl p ≠ 0

def opensBrace (t : Tok) : Bool := t.1 == .left .curly
def closesBrace (t : Tok) : Bool := t.1 == .right .curly
def closes (bk : BraceKind) (t : Tok) : Bool := t.1 == .right bk
def opensIf (t : Tok) : Bool := match t.1 with | .cmd (.cif _) => true | _ => false
def closesIf (t : Tok) : Bool := t.1 == .cmd .celse || t.1 == .cmd .endIf
def opensEnv (t : Tok) : Bool := t.1 == .cmd .beginEnv
def closesEnv (t : Tok) : Bool := t.1 == .cmd .endEnv

/-- The inside of a group whose opening token has been read: `b` is its content, `rest` follows the closing
token (or is empty when the group is not closed). -/
def Group (bk : BraceKind) (s b rest : List Tok) : Prop :=
  ∃ mid, Upto opensBrace closesBrace (closes bk) s b mid ∧ rest = mid.tail

/-- A branch that is skipped ends before the first `\else` or `\fi` outside nested conditionals — where an inner
`\else` counts as the end of the inner conditional. -/
def Skipped (s rest : List Tok) : Prop := ∃ b, Upto opensIf closesIf closesIf s b rest

/-- The body of an environment, up to the first `\end` outside nested environments. -/
def Body (s b rest : List Tok) : Prop := Upto opensEnv closesEnv closesEnv s b rest

/-- `s` is a run of blanks and comments followed by `rest`, which does not start with one. -/
def Blanks (s rest : List Tok) : Prop :=
  ∃ ws, Trivia ws ∧ s = ws ++ rest ∧ ∀ t, rest.head? = some t → t.1.isTrivia = false

/-! ### Reading arguments -/

/-- `Args k s args missing rest`: `k` arguments are looked for at the start of `s`; `args` are found, `missing`
are counted as missing, `rest` follows.  Each braced group and each single token is an argument, a word
provides one per character; a word shorter than the number of missing arguments counts for one more
argument than it has characters (macro_engine.rs:786-813 counts twice). -/
inductive Args : Nat → List Tok → List (List Tok) → Nat → List Tok → Prop
  | done {s} : Args 0 s [] 0 s
  | over {k s} (hs : Blanks s []) : Args (k + 1) s [] (k + 1) []
  | group {k s l s1 b s2 as m rest} (hs : Blanks s (l :: s1)) (hl : l.1 = .left .curly)
      (hg : Group .curly s1 b s2) (h : Args k s2 as m rest) : Args (k + 1) s (b :: as) m rest
  | single {k s t s1 as m rest} (hs : Blanks s (t :: s1)) (h1 : t.1 ≠ .left .curly) (h2 : t.1 ≠ .word)
      (h : Args k s1 as m rest) : Args (k + 1) s ([t] :: as) m rest
  | word {k s s1} {w extra : Text} (hs : Blanks s ((.word, w ++ extra) :: s1)) (hlen : w.length = k + 1) :
      Args (k + 1) s (w.map fun c => [(.word, [c])]) 0 (if extra = [] then s1 else (.word, extra) :: s1)
  | shortWord {k s s1 as m rest} {w : Text} (hs : Blanks s ((.word, w) :: s1)) (hlen : w.length ≤ k)
      (h : Args (k - w.length) s1 as m rest) :
      Args (k + 1) s ((w.map fun c => [(.word, [c])]) ++ as) m rest

/-- The arguments of a call of a macro with `n` parameters and default `opt`; the default stands for the last
argument.  `none`: not enough arguments. -/
inductive Called (n : Nat) (opt : Option (List Tok)) (s : List Tok) : Option (List (List Tok)) → List Tok → Prop
  | all {as rest} (h : Args n s as 0 rest) : Called n opt s (some as) rest
  | default {as rest o} (h : Args n s as 1 rest) (ho : opt = some o) : Called n opt s (some (as ++ [o])) rest
  | missing {as m rest} (h : Args n s as m rest) (h0 : m ≠ 0) (h1 : m = 1 → opt = none) : Called n opt s none rest

/-! ### Substitution -/

/-- `Raw lvl body out rest`: after `\mitexrecurse`, with `lvl` open braces, `out` is copied as it stands up to the
end of the group (without the outer braces) or, outside braces, one token that is not blank. -/
inductive Raw : Int → List Tok → List Tok → List Tok → Prop
  | over {lvl} : Raw lvl [] [] []
  | opening {lvl t ts o r} (ht : t.1 = .left .curly) (h : Raw (lvl + 1) ts o r) :
      Raw lvl (t :: ts) (if 0 < lvl then t :: o else o) r
  | closing {t ts} (ht : t.1 = .right .curly) : Raw 1 (t :: ts) [] ts
  | inner {lvl t ts o r} (ht : t.1 = .right .curly) (hl : lvl ≠ 1) (h : Raw (lvl - 1) ts o r) :
      Raw lvl (t :: ts) (t :: o) r
  | inside {lvl t ts o r} (h1 : t.1 ≠ .left .curly) (h2 : t.1 ≠ .right .curly) (hl : lvl ≠ 0) (h : Raw lvl ts o r) :
      Raw lvl (t :: ts) (t :: o) r
  | single {t ts} (h1 : t.1 ≠ .left .curly) (h2 : t.1 ≠ .right .curly) (ht : t.1.isTrivia = false) :
      Raw 0 (t :: ts) [t] ts
  | blank {t ts o r} (ht : t.1.isTrivia = true) (h : Raw 0 ts o r) : Raw 0 (t :: ts) o r

/-- A body with its parameters replaced; the text after `\mitexrecurse` is copied. -/
inductive Filled (args : List (List Tok)) : List Tok → List Tok → Prop
  | nil : Filled args [] []
  | param {d h b o} (hd : 1 ≤ d) (hb : Filled args b o) :
      Filled args ((.macroArg d, h) :: b) ((args[d - 1]?).getD [] ++ o)
  | tok {t b o} (h1 : ∀ d, t.1 ≠ .macroArg d) (h2 : t ≠ cmdTok t!"mitexrecurse") (hb : Filled args b o) :
      Filled args (t :: b) (t :: o)
  | recurse {b c o p} (hr : Raw 0 b c p) (hb : Filled args p o) :
      Filled args (cmdTok t!"mitexrecurse" :: b) (c ++ o)

/-! ### Definitions -/

/-- What `\newcommand{\name}` or `\newenvironment{name}` accept between the braces. -/
def NameTok (isEnv : Bool) (t : Tok) : Prop :=
  if isEnv then t.1 = .word else ∃ k, t.1 = .cmd k

/-- The first argument of a definition, read from `s` (what follows the defining command): the token in braces,
or nothing if there is no such token.  One closing brace after it is skipped. -/
inductive Named (isEnv : Bool) (s : List Tok) : Option Tok → List Tok → Prop
  | noBrace {rest} (hs : Blanks s rest) (h : ∀ l, rest.head? = some l → l.1 ≠ .left .curly) : Named isEnv s none rest
  | empty {l s1} (hs : Blanks s (l :: s1)) (hl : l.1 = .left .curly) (h1 : Blanks s1 []) : Named isEnv s none []
  | over {l s1 t s2} (hs : Blanks s (l :: s1)) (hl : l.1 = .left .curly) (h1 : Blanks s1 (t :: s2))
      (h2 : Blanks s2 []) : Named isEnv s none []
  | wrong {l s1 t s2 r s3} (hs : Blanks s (l :: s1)) (hl : l.1 = .left .curly) (h1 : Blanks s1 (t :: s2))
      (h2 : Blanks s2 (r :: s3)) (ht : ¬ NameTok isEnv t) :
      Named isEnv s none (if r.1 = .right .curly then s3 else r :: s3)
  | name {l s1 t s2 r s3} (hs : Blanks s (l :: s1)) (hl : l.1 = .left .curly) (h1 : Blanks s1 (t :: s2))
      (h2 : Blanks s2 (r :: s3)) (ht : NameTok isEnv t) :
      Named isEnv s (some t) (if r.1 = .right .curly then s3 else r :: s3)

/-- A decimal number: an optional `+`, then digits. -/
def Decimal (w : Text) (n : Nat) : Prop :=
  ∃ ds : Text, (w = ds ∨ w = '+' :: ds) ∧ ds ≠ [] ∧ (∀ c ∈ ds, '0' ≤ c ∧ c ≤ '9') ∧
    n = ds.foldl (fun a c => 10 * a + (c.toNat - '0'.toNat)) 0

/-- The definition text: a braced group or the next token. -/
inductive Defn : List Tok → Option (List Tok) → List Tok → Prop
  | over : Defn [] none []
  | group {l s b rest} (hl : l.1 = .left .curly) (h : Group .curly s b rest) : Defn (l :: s) (some b) rest
  | single {t s} (ht : t.1 ≠ .left .curly) : Defn (t :: s) (some [t]) s

/-- The default of the optional argument, if any. -/
inductive Dflt : List Tok → Option (List Tok) → List Tok → Prop
  | absent {s} (h : ∀ t, s.head? = some t → t.1 ≠ .left .bracket) : Dflt s none s
  | group {l s b rest} (hl : l.1 = .left .bracket) (h : Group .bracket s b rest) : Dflt (l :: s) (some b) rest

/-- The number of parameters in brackets: `some n` for a number up to nine, `none` if the definition is broken. -/
inductive Count : List Tok → Option Nat → List Tok → Prop
  | over {l s t s1} (hl : l.1 = .left .bracket) (h1 : Blanks s (t :: s1)) (h2 : Blanks s1 []) : Count (l :: s) none []
  | empty {l s} (hl : l.1 = .left .bracket) (h1 : Blanks s []) : Count (l :: s) none []
  | number {l s w s1 r s2 n} (hl : l.1 = .left .bracket) (h1 : Blanks s ((.word, w) :: s1)) (h2 : Blanks s1 (r :: s2))
      (hn : Decimal w n) (h9 : n ≤ 9) :
      Count (l :: s) (some n) (if r.1 = .right .bracket then s2 else r :: s2)
  | wrong {l s t s1 r s2} (hl : l.1 = .left .bracket) (h1 : Blanks s (t :: s1)) (h2 : Blanks s1 (r :: s2))
      (hn : ¬ ∃ n, n ≤ 9 ∧ t.1 = .word ∧ Decimal t.2 n) :
      Count (l :: s) none (if r.1 = .right .bracket then s2 else r :: s2)

/-- `[n][default]{definition}`, each bracket optional. -/
inductive Header : List Tok → Option (Nat × Option (List Tok) × List Tok) → List Tok → Prop
  | plain {s d rest} (h : ∀ t, s.head? = some t → t.1 ≠ .left .bracket) (hd : Defn s d rest) :
      Header s (d.map fun b => (0, none, b)) rest
  | broken {s rest} (hc : Count s none rest) : Header s none rest
  | counted {s n s1 o s2 d rest} (hc : Count s (some n) s1) (ho : Dflt s1 o s2) (hd : Defn s2 d rest) :
      Header s (d.map fun b => (n, o, b)) rest

/-- A definition text that ends in `#` makes the lexer panic. -/
def EndsInMark (b : List Tok) : Prop := ∃ src h, b = src ++ [(.hash, h)]

/-- What the commands of `\newcommand` kind define. -/
inductive Defines (s : List Tok) : Option (Text × Macro) → List Tok → Prop
  | unnamed {rest} (h : Named false s none rest) : Defines s none rest
  | unfinished {k name s1 rest} (h : Named false s (some (.cmd k, '\\' :: name)) s1) (hh : Header s1 none rest) :
      Defines s none rest
  | defines {k name s1 n o b st rest} (h : Named false s (some (.cmd k, '\\' :: name)) s1)
      (hh : Header s1 (some (n, o, b)) rest) (hm : Marked b st) : Defines s (some (name, .cmd name n o st)) rest

/-- What the commands of `\newenvironment` kind define. -/
inductive DefinesEnv (s : List Tok) : Option (Text × Macro) → List Tok → Prop
  | unnamed {rest} (h : Named true s none rest) : DefinesEnv s none rest
  | unfinished {w s1 rest} (h : Named true s (some (.word, w)) s1) (hh : Header s1 none rest) : DefinesEnv s none rest
  | over {w s1 n o b} (h : Named true s (some (.word, w)) s1) (hh : Header s1 (some (n, o, b)) []) :
      DefinesEnv s none []
  | noEnd {w s1 n o b st t rest} (h : Named true s (some (.word, w)) s1) (hh : Header s1 (some (n, o, b)) (t :: rest))
      (hm : Marked b st) (ht : t.1 ≠ .left .curly) : DefinesEnv s none (t :: rest)
  | defines {w s1 n o b st l s2 b' st' rest} (h : Named true s (some (.word, w)) s1)
      (hh : Header s1 (some (n, o, b)) (l :: s2)) (hl : l.1 = .left .curly) (hg : Group .curly s2 b' rest)
      (hm : Marked b st) (hm' : Marked b' st') : DefinesEnv s (some (w, .env w n o st st')) rest

/-- The definitions that make the lexer panic: the name does not start with a backslash (`\begin{x}` as a name),
or a definition text ends in `#`. -/
inductive BadDefn (s : List Tok) : Prop
  | name {k txt s1} (h : Named false s (some (.cmd k, txt)) s1) (ht : txt.head? ≠ some '\\')
  | text {k name s1 n o b rest} (h : Named false s (some (.cmd k, '\\' :: name)) s1)
      (hh : Header s1 (some (n, o, b)) rest) (hm : EndsInMark b)

inductive BadEnv (s : List Tok) : Prop
  | begin_ {w s1 n o b t rest} (h : Named true s (some (.word, w)) s1) (hh : Header s1 (some (n, o, b)) (t :: rest))
      (hm : EndsInMark b)
  | end_ {w s1 n o b l s2 b' rest} (h : Named true s (some (.word, w)) s1) (hh : Header s1 (some (n, o, b)) (l :: s2))
      (hl : l.1 = .left .curly) (hg : Group .curly s2 b' rest) (hm : EndsInMark b')

/-- How a defining command treats a name that is already bound, or not yet: does it store the macro, does it
report the name? -/
def stores : DeclareCmdOrEnv → Option Macro → Bool
  | .provideCommand, old => old.isNone
  | _, _ => true

def reports : DeclareCmdOrEnv → Option Macro → Bool
  | .provideCommand, _ => false
  | .newCommand true, old => old.isNone
  | .newEnvironment true, old => old.isNone
  | _, old => old.isSome

def definesEnvironments : DeclareCmdOrEnv → Prop
  | .newEnvironment _ => True
  | _ => False

/-- The table after a definition. -/
def bindName (m : MacroTable) (name : Text) (v : Macro) : MacroTable := fun n => if n = name then some v else m n

/-! ### The rules -/

/-- Tokens the engine hands on: neither conditionals nor commands nor `\begin`. -/
def Ordinary (t : Tok) : Prop :=
  t.1 ≠ .cmd .generic ∧ t.1 ≠ .cmd .beginEnv ∧ t.1 ≠ .cmd .celse ∧ t.1 ≠ .cmd .endIf ∧ ∀ i, t.1 ≠ .cmd (.cif i)

/-- Commands and `\begin` clauses that are handed on as well: the name is not bound, or not to a macro of
that sort. -/
inductive HandedOn (m : MacroTable) : Tok → Prop
  | unbound {name} (h : m name = none) : HandedOn m (cmdTok name)
  | isEnv {name nm n o b e} (h : m name = some (.env nm n o b e)) : HandedOn m (cmdTok name)
  | reserved {name} (h : m name = some (.declare .unimplemented)) : HandedOn m (cmdTok name)
  | beginUnbound {name} (h : m name = none) : HandedOn m (.cmd .beginEnv, name)
  | beginCmd {name nm n o b} (h : m name = some (.cmd nm n o b)) : HandedOn m (.cmd .beginEnv, name)
  | beginDeclare {name d} (h : m name = some (.declare d)) : HandedOn m (.cmd .beginEnv, name)

/-- The state of a conditional that is opened, and whether its token is handed on. -/
def opened : IfName → Option IfState × Bool
  | .ifTrue => (some .isTrue, false)
  | .ifFalse => (some .litFalse, true)
  | .ifTypst => (some .typstTrue, true)
  | _ => (none, true)

/-- `Rewrites e s e' s' o`: with macro table and open conditionals `e` and the text `s` still to be read, the lexer
delivers the tokens `o` and goes on with `e'` and `s'`. -/
inductive Rewrites : Eng → List Tok → Eng → List Tok → List Tok → Prop
  | ordinary {e t s} (h : Ordinary t) : Rewrites e (t :: s) e s [t]
  | handedOn {e t s} (h : HandedOn e.macros t) : Rewrites e (t :: s) e s [t]
  /- conditionals -/
  | cif {m ifs i x s} : Rewrites ⟨m, ifs⟩ ((.cmd (.cif i), x) :: s) ⟨m, (opened i).1 :: ifs⟩ s
      (if (opened i).2 then [(.cmd (.cif i), x)] else [])
  | elseSkips {m ifs x s s'} (h : Skipped s s') :
      Rewrites ⟨m, some .isTrue :: ifs⟩ ((.cmd .celse, x) :: s) ⟨m, some .isFalse :: ifs⟩ s' []
  | elseSkipsTypst {m ifs x s s'} (h : Skipped s s') :
      Rewrites ⟨m, some .typstTrue :: ifs⟩ ((.cmd .celse, x) :: s) ⟨m, some .typstFalse :: ifs⟩ s' []
  | elseAgain {m ifs x s} :
      Rewrites ⟨m, some .isFalse :: ifs⟩ ((.cmd .celse, x) :: s) ⟨m, some .isTrue :: ifs⟩ s []
  | elseAgainTypst {m ifs x s} :
      Rewrites ⟨m, some .typstFalse :: ifs⟩ ((.cmd .celse, x) :: s) ⟨m, some .typstTrue :: ifs⟩ s []
  | elseOfFalse {m ifs x s} :
      Rewrites ⟨m, some .litFalse :: ifs⟩ ((.cmd .celse, x) :: s) ⟨m, some .isTrue :: ifs⟩ s [(.cmd .endIf, t!"\\fi")]
  | elseUndecided {m ifs x s} (h : ifs.head? = none ∨ ifs.head? = some none) :
      Rewrites ⟨m, ifs⟩ ((.cmd .celse, x) :: s) ⟨m, ifs⟩ s [(.cmd .celse, x)]
  | fiDecided {m ifs c x s} (h : c = some .isTrue ∨ c = some .isFalse) :
      Rewrites ⟨m, c :: ifs⟩ ((.cmd .endIf, x) :: s) ⟨m, ifs⟩ s []
  | fiOther {m ifs c x s} (h : c ≠ some .isTrue ∧ c ≠ some .isFalse) :
      Rewrites ⟨m, c :: ifs⟩ ((.cmd .endIf, x) :: s) ⟨m, ifs⟩ s [(.cmd .endIf, x)]
  | fiStray {m x s} : Rewrites ⟨m, []⟩ ((.cmd .endIf, x) :: s) ⟨m, []⟩ s [(.cmd .endIf, x)]
  /- definitions -/
  | define {e cmd d s name v s'} (h : e.macros cmd = some (.declare (.cmdOrEnv d)))
      (hd : (definesEnvironments d ∧ DefinesEnv s (some (name, v)) s') ∨
        (¬ definesEnvironments d ∧ Defines s (some (name, v)) s')) :
      Rewrites e (cmdTok cmd :: s)
        ⟨if stores d (e.macros name) then bindName e.macros name v else e.macros, e.ifs⟩ s'
        (if reports d (e.macros name) then [(.error, name)] else [])
  | broken {e cmd d s s'} (h : e.macros cmd = some (.declare (.cmdOrEnv d)))
      (hd : (definesEnvironments d ∧ DefinesEnv s none s') ∨ (¬ definesEnvironments d ∧ Defines s none s')) :
      Rewrites e (cmdTok cmd :: s) e s' []
  /- calls -/
  | call {e name nm n o b s as s' out} (h : e.macros name = some (.cmd nm n o b)) (ha : Called n o s (some as) s')
      (hf : Filled as b out) : Rewrites e (cmdTok name :: s) e (out ++ s') []
  | badCall {e name nm n o b s s'} (h : e.macros name = some (.cmd nm n o b)) (ha : Called n o s none s') :
      Rewrites e (cmdTok name :: s) e s' [(.error, t!"invalid number of arguments")]
  /- environments -/
  | env {e name nm n o b d s as s1 body x s2 ob od} (h : e.macros name = some (.env nm n o b d))
      (ha : Called n o s (some as) s1) (hb : Body s1 body ((.cmd .endEnv, x) :: s2)) (hx : x = nm)
      (hf : Filled as b ob) (hg : Filled as d od) :
      Rewrites e ((.cmd .beginEnv, name) :: s) e (ob ++ body ++ od ++ s2) []
  | badEnvCall {e name nm n o b d s s'} (h : e.macros name = some (.env nm n o b d)) (ha : Called n o s none s') :
      Rewrites e ((.cmd .beginEnv, name) :: s) e s' [(.error, t!"invalid number of arguments")]
  | envUnmatched {e name nm n o b d s as s1 body x s2} (h : e.macros name = some (.env nm n o b d))
      (ha : Called n o s (some as) s1) (hb : Body s1 body ((.cmd .endEnv, x) :: s2)) (hx : x ≠ nm) :
      Rewrites e ((.cmd .beginEnv, name) :: s) e ((.cmd .endEnv, x) :: s2) [(.error, t!"unmatched environment")]
  | envUnclosed {e name nm n o b d s as s1 body} (h : e.macros name = some (.env nm n o b d))
      (ha : Called n o s (some as) s1) (hb : Body s1 body []) :
      Rewrites e ((.cmd .beginEnv, name) :: s) e [] []

/-- The lexer panics at the next token: a bad definition. -/
def Panics (e : Eng) (s : List Tok) : Prop :=
  ∃ cmd d s', s = cmdTok cmd :: s' ∧ e.macros cmd = some (.declare (.cmdOrEnv d)) ∧
    ((definesEnvironments d ∧ BadEnv s') ∨ (¬ definesEnvironments d ∧ BadDefn s'))

/-- No definitions but the predefined ones, no conditional open. -/
def atStart : Eng := ⟨defaultMacros, []⟩

/-- A text and the tokens delivered for it. -/
inductive Expands : Eng → List Tok → List Tok → Prop
  | done {e} : Expands e [] []
  | step {e s e' s' o os} (h : Rewrites e s e' s' o) (hr : Expands e' s' os) : Expands e s (o ++ os)

/-- A text that leads to a panic. -/
inductive Collapses : Eng → List Tok → Prop
  | now {e s} (h : Panics e s) : Collapses e s
  | later {e s e' s' o} (h : Rewrites e s e' s' o) (hr : Collapses e' s') : Collapses e s

/-- `n` rewriting steps can be made. -/
inductive Lasts : Nat → Eng → List Tok → Prop
  | zero {e s} : Lasts 0 e s
  | succ {n e s e' s' o} (h : Rewrites e s e' s' o) (hr : Lasts n e' s') : Lasts (n + 1) e s

end Mitex
