/-
Vocabulary for the properties of macro expansion: balanced texts, substitution of parameters, what a
definition and a call look like, what "a text delivers tokens" means.  Written from the LaTeX notions and the
comments of crates/mitex-lexer/src/macro_engine.rs, without using the functions of the engine model
(except for the step function in `Runs`).
-/
import Verif.Model.Engine

namespace Mitex

/-- The token of the command `\name`. -/
def cmdTok (name : Text) : Tok := (.cmd .generic, '\\' :: name)

def lBrace : Tok := (.left .curly, ['{'])
def rBrace : Tok := (.right .curly, ['}'])
def lBracket : Tok := (.left .bracket, ['['])
def rBracket : Tok := (.right .bracket, [']'])

/-- A run of whitespace, line breaks and comments. -/
def Trivia (ws : List Tok) : Prop := ∀ t ∈ ws, t.1.isTrivia = true

/-- `Balanced bk b`: the curly braces of `b` match, and outside of braces there is no closing `bk`. -/
inductive Balanced : BraceKind → List Tok → Prop
  | nil (bk) : Balanced bk []
  | tok {bk t ts} (h1 : t.1 ≠ .left .curly) (h2 : t.1 ≠ .right .curly) (h3 : t.1 ≠ .right bk)
      (h : Balanced bk ts) : Balanced bk (t :: ts)
  | group {bk l b r ts} (hl : l.1 = .left .curly) (hr : r.1 = .right .curly) (hb : Balanced .curly b)
      (h : Balanced bk ts) : Balanced bk (l :: (b ++ r :: ts))

/-- How many braces are open after `b`. -/
def curlyDepth : List Tok → Int
  | [] => 0
  | t :: ts => (if t.1 = .left .curly then 1 else if t.1 = .right .curly then -1 else 0) + curlyDepth ts

/-- Replace every parameter by its argument, keep everything else. -/
def substitute (args : List (List Tok)) (body : List Tok) : List Tok :=
  body.flatMap fun t =>
    match t.1 with
    | .macroArg n => if n = 0 then [t] else (args[n - 1]?).getD []
    | _ => [t]

/-- `Marked src stored`: `stored` is the definition text `src` in which every `#d` with a digit `d` from 1
to 9 has become the parameter `d`, the rest of the word stays, and everything else is as it was. -/
inductive Marked : List Tok → List Tok → Prop
  | nil : Marked [] []
  | param {h d ds cs src st} (hd : d ∈ "123456789".toList) (hn : ds = d.toNat - '0'.toNat)
      (hr : Marked src st) :
      Marked ((.hash, h) :: (.word, d :: cs) :: src)
        ((.macroArg ds, h) :: ((if cs = [] then [] else [(.word, cs)]) ++ st))
  | hashWord {h c cs src st} (hd : c ∉ "123456789".toList) (hr : Marked src st) :
      Marked ((.hash, h) :: (.word, c :: cs) :: src) ((.hash, h) :: (.word, c :: cs) :: st)
  | hashOther {h t src st} (ht : t.1 ≠ .word) (hr : Marked (t :: src) st) :
      Marked ((.hash, h) :: t :: src) ((.hash, h) :: st)
  | tok {t src st} (h1 : t.1 ≠ .hash) (h2 : t.1 = .word → t.2 ≠ []) (hr : Marked src st) :
      Marked (t :: src) (t :: st)

/-- The arguments of a call: `CallArgs n text args left` says that `text` provides exactly the `n` arguments
`args`; `left` is what remains of the last word when its first characters are arguments. -/
inductive CallArgs : Nat → List Tok → List (List Tok) → List Tok → Prop
  | done : CallArgs 0 [] [] []
  | braced {n ws l b r s as left} (hw : Trivia ws) (hl : l.1 = .left .curly) (hr : r.1 = .right .curly)
      (hb : Balanced .curly b) (h : CallArgs n s as left) :
      CallArgs (n + 1) (ws ++ l :: (b ++ r :: s)) (b :: as) left
  | single {n ws t s as left} (hw : Trivia ws) (ht : t.1.isTrivia = false) (h1 : t.1 ≠ .left .curly)
      (h2 : t.1 ≠ .word) (h : CallArgs n s as left) :
      CallArgs (n + 1) (ws ++ t :: s) ([t] :: as) left
  | chars {n ws} {w extra : Text} (hw : Trivia ws) (hlen : w.length = n + 1) :
      CallArgs (n + 1) (ws ++ [(.word, w ++ extra)]) (w.map fun c => [(.word, [c])])
        (if extra = [] then [] else [(.word, extra)])

/-- The part of a definition between the name and the body: nothing, `[n]`, or `[n][default]`. -/
inductive DefHeader : Nat → Option (List Tok) → List Tok → Prop
  | none : DefHeader 0 Option.none []
  | args {n : Nat} {ws ws' : List Tok} (hn : n ≤ 9) (hw : Trivia ws) (hw' : Trivia ws') :
      DefHeader n Option.none (lBracket :: (ws ++ (.word, [Nat.digitChar n]) :: (ws' ++ [rBracket])))
  | opt {n : Nat} {ws ws' dflt : List Tok} (hn : n ≤ 9) (hw : Trivia ws) (hw' : Trivia ws')
      (hd : Balanced .bracket dflt) :
      DefHeader n (some dflt) (lBracket :: (ws ++ (.word, [Nat.digitChar n]) ::
        (ws' ++ rBracket :: lBracket :: (dflt ++ [rBracket]))))

/-- `{name}` as the first argument of a definition. -/
inductive DefName (nameTok : Tok) : List Tok → Prop
  | mk {ws ws' ws'' : List Tok} (h : Trivia ws) (h' : Trivia ws') (h'' : Trivia ws'') :
      DefName nameTok (ws ++ lBrace :: (ws' ++ nameTok :: (ws'' ++ [rBrace])))

/-- The body of a definition: a braced group, or one token that opens no group. -/
inductive DefBody : List Tok → List Tok → Prop
  | braced {b} (hb : Balanced .curly b) : DefBody b (lBrace :: (b ++ [rBrace]))
  | single {t : Tok} (h1 : t.1 ≠ .left .curly) (h2 : t.1 ≠ .left .bracket) : DefBody [t] [t]

/-- Tokens the substitution copies: commands have their backslash, and none is `\mitexrecurse`. -/
def NoRecurse (body : List Tok) : Prop :=
  ∀ t ∈ body, (t.1 = .cmd .generic → ∃ n, t.2 = '\\' :: n ∧ n ≠ "mitexrecurse".toList) ∧ t.1 ≠ .macroArg 0

/-- The commands that define macros and environments. -/
def definitionNames : List Text :=
  ["newcommand", "newcommand*", "renewcommand", "renewcommand*", "providecommand", "providecommand*",
   "DeclareRobustCommand", "DeclareRobustCommand*", "newenvironment", "newenvironment*",
   "renewenvironment", "renewenvironment*"].map String.toList

/-- Text between `\begin{e}` and its `\end{e}`: inner environments are closed. -/
inductive EnvBalanced : List Tok → Prop
  | nil : EnvBalanced []
  | tok {t ts} (h1 : t.1 ≠ .cmd .beginEnv) (h2 : t.1 ≠ .cmd .endEnv) (h : EnvBalanced ts) :
      EnvBalanced (t :: ts)
  | env {b body e ts} (hb : b.1 = .cmd .beginEnv) (he : e.1 = .cmd .endEnv) (hbody : EnvBalanced body)
      (h : EnvBalanced ts) : EnvBalanced (b :: (body ++ e :: ts))

/-- Text that may be skipped: its conditionals are closed and have no `\else`. -/
inductive CondBalanced : List Tok → Prop
  | nil : CondBalanced []
  | tok {t ts} (h1 : ∀ i, t.1 ≠ .cmd (.cif i)) (h2 : t.1 ≠ .cmd .celse) (h3 : t.1 ≠ .cmd .endIf)
      (h : CondBalanced ts) : CondBalanced (t :: ts)
  | cond {b i body e ts} (hb : b.1 = .cmd (.cif i)) (he : e.1 = .cmd .endIf) (hbody : CondBalanced body)
      (h : CondBalanced ts) : CondBalanced (b :: (body ++ e :: ts))

/-- The engine gets from one state to another by processing peeked tokens. -/
inductive Runs : Eng → LCtx → Eng → LCtx → Prop
  | refl (e c) : Runs e c e c
  | step {e e1 e2 c1 c2 t rest out} (hs : engStep e (⟨t :: rest, out⟩ : LCtx) t = .ok (e1, c1))
      (hr : Runs e1 c1 e2 c2) : Runs e ⟨t :: rest, out⟩ e2 c2

/-- With the macro table `m`, the text `A` delivers the tokens `o` and leaves the table `m'` — whatever
follows it, inside whatever conditionals. -/
def Delivers (m : MacroTable) (A o : List Tok) (m' : MacroTable) : Prop :=
  ∀ ifs rest out, Runs ⟨m, ifs⟩ ⟨A ++ rest, out⟩ ⟨m', ifs⟩ ⟨rest, out ++ o⟩

/-- The tokens stored for a call: those of the body (of both parts for an environment) and of the default of
the optional argument. -/
inductive Stored (m : MacroTable) : Tok → List Tok → Prop
  | cmd {name nm n opt body} (h : m name = some (.cmd nm n opt body)) :
      Stored m (cmdTok name) (body ++ opt.getD [])
  | env {name nm n opt b d} (h : m name = some (.env nm n opt b d)) :
      Stored m (.cmd .beginEnv, name) (b ++ d ++ opt.getD [])

/-- No macro leads back to itself: the tokens stored for a call have a smaller rank than the call. -/
def Acyclic (m : MacroTable) : Prop :=
  ∃ rank : Tok → Nat, ∀ t body, Stored m t body → ∀ u ∈ body, rank u < rank t

/-- No stored body uses a parameter twice. -/
def Linear (m : MacroTable) : Prop :=
  (∀ name nm n opt body, m name = some (.cmd nm n opt body) → ∀ d, (body.map (·.1)).count (.macroArg d) ≤ 1) ∧
  ∀ name nm n opt b d, m name = some (.env nm n opt b d) → ∀ k, ((b ++ d).map (·.1)).count (.macroArg k) ≤ 1

/-- A token that, with the table `m`, is not a definition command (and a well-formed command token). -/
def Quiet (m : MacroTable) (t : Tok) : Prop :=
  t.1 = .cmd .generic → ∃ name, t = cmdTok name ∧ ∀ d, m name ≠ some (.declare (.cmdOrEnv d))

/-- No stored text defines anything. -/
def QuietTable (m : MacroTable) : Prop := ∀ t body, Stored m t body → ∀ u ∈ body, Quiet m u

end Mitex
