/-
Vocabulary for the properties of the parser: which leaves account for which tokens, what a well-shaped
syntax tree is, which token lists are harmless.  Written from the comments of crates/mitex-parser/src
(parser.rs, syntax.rs) and crates/mitex-spec/src/lib.rs, without using the functions of the parser model.
-/
import Verif.Model.Syntax
import Verif.Model.ArgMatch
import Verif.Model.Parser

namespace Mitex

/-! ## Leaves and tokens -/

/-- How many conditionals are open after `ts` when `n` are open before; `none` if a `\fi` closes too many. -/
def ifDepth : List Tok → Nat → Option Nat
  | [], n => some n
  | (.cmd (.cif _), _) :: ts, n => ifDepth ts (n + 1)
  | (.cmd .endIf, _) :: ts, n => if n = 0 then none else ifDepth ts (n - 1)
  | _ :: ts, n => ifDepth ts n

/-- `Reads ts rest lv`: the leaves `lv` account for the tokens `ts` up to `rest`.  Every token gives one leaf with
its text, in order, except that
* whitespace and comments may be missing,
* a word may be split into characters,
* `\iffalse` and `\iftypst` and their matching `\fi` are missing (the tokens between are all there). -/
inductive Reads : List Tok → List Tok → List (Kind × Text) → Prop
  | done (ts) : Reads ts ts []
  | keep (t : Tok) {ts rest lv} (h : Reads ts rest lv) : Reads (t :: ts) rest ((t.1.kind, t.2) :: lv)
  | sym (x : Text) {ts rest lv} (h : Reads ts rest lv) :
      Reads ((.cmd .generic, x) :: ts) rest ((.tokenCommandSym, x) :: lv)
  | trivia (t : Tok) {ts rest lv} (ht : t.1.isTrivia = true) (h : Reads ts rest lv) : Reads (t :: ts) rest lv
  | char (c : Char) {w : Text} {ts rest lv} (hw : w ≠ []) (h : Reads ((.word, w) :: ts) rest lv) :
      Reads ((.word, c :: w) :: ts) rest ((.tokenWord, [c]) :: lv)
  | cond (t fi : Tok) {body ts rest lv} (ht : t.1 = .cmd (.cif .ifFalse) ∨ t.1 = .cmd (.cif .ifTypst))
      (hb : ifDepth body 0 = some 0) (hf : fi.1 = .cmd .endIf) (h : Reads ts rest lv) :
      Reads (t :: (body ++ fi :: ts)) rest (body.map (fun t => (t.1.kind, t.2)) ++ lv)
  | condOpen (t : Tok) {body : List Tok} (ht : t.1 = .cmd (.cif .ifFalse) ∨ t.1 = .cmd (.cif .ifTypst))
      (hb : ifDepth body 0 ≠ none) : Reads (t :: body) [] (body.map fun t => (t.1.kind, t.2))

/-! ## Shapes -/

/-- An argument node. -/
def IsArg (e : Elem) : Prop := ∃ cs, e = .node .clauseArgument cs

/-- An argument read as kind `k` of a pattern: brackets and parentheses are groups of their kind. -/
def ArgOfKind : ArgKind → Elem → Prop
  | .term, e => IsArg e
  | .bracket, e => ∃ cs, e = .node .clauseArgument [.node .itemBracket cs]
  | .paren, e => ∃ cs, e = .node .clauseArgument [.node .itemParen cs]

/-- Position by position, the arguments are of the given kinds. -/
inductive ArgsOfKinds : List ArgKind → List Elem → Prop
  | nil : ArgsOfKinds [] []
  | cons {k ks a as} (h : ArgOfKind k a) (hs : ArgsOfKinds ks as) : ArgsOfKinds (k :: ks) (a :: as)

/-- The letter that stands for an argument of the kind in the glob patterns of specifications: `{,b}t` is an optional bracket
followed by a term. -/
def argLetter : ArgKind → Char
  | .term => 't'
  | .bracket => 'b'
  | .paren => 'p'

/-- The arguments `args` are as many, and of such kinds, as the pattern allows. -/
def ArgsFit (glob : GlobFn) (p : ArgPattern) (args : List Elem) : Prop :=
  match p with
  | .none => args = []
  | .fixedLen n | .rangeLen _ n => args.length ≤ n ∧ ∀ a ∈ args, IsArg a
  | .greedy => args.length = 1 ∧ ∀ a ∈ args, IsArg a
  | .glob re => ∃ kinds : List ArgKind, ArgsOfKinds kinds args ∧
      (kinds = [] ∨ glob re (kinds.map argLetter) = true)

/-- The children of a command node: the name, and arguments as the specification of the command says. -/
def CmdChildren (env : PEnv) (cs : List Elem) : Prop :=
  ∃ pre name post, cs = pre ++ .token .clauseCommandName ('\\' :: name) :: post ∧
    match (getCmd env.spec name).map CmdShape.args with
    | none => pre = [] ∧ post = []
    | some (.right p) => pre = [] ∧ ArgsFit env.glob p post
    | some .left1 => pre.length ≤ 1 ∧ (∀ a ∈ pre, IsArg a) ∧ post = []
    | some .infixGreedy => pre.length ≤ 1 ∧ (∀ a ∈ pre, IsArg a) ∧ post.length = 1 ∧ ∀ a ∈ post, IsArg a

/-- The children of a begin clause: the environment name and its arguments. -/
def BeginChildren (env : PEnv) (cs : List Elem) : Prop :=
  ∃ name args, cs = .token .tokenCommandSym name :: args ∧
    match (getEnv env.spec name).map EnvShape.args with
    | none => args = []
    | some p => ArgsFit env.glob p args

/-- A leaf of one of the given kinds. -/
def IsLeaf (ks : List Kind) (e : Elem) : Prop := ∃ k t, k ∈ ks ∧ e = .token k t

/-- The kinds of leaves. -/
def leafKinds : List Kind := [
  .tokenError, .tokenLineBreak, .tokenWhiteSpace, .tokenComment,
  .tokenLBrace, .tokenRBrace, .tokenLBracket, .tokenRBracket, .tokenLParen, .tokenRParen,
  .tokenComma, .tokenTilde, .tokenSlash, .tokenWord, .tokenDollar, .tokenBeginMath, .tokenEndMath,
  .tokenAmpersand, .tokenHash, .tokenAsterisk, .tokenAtSign, .tokenUnderscore, .tokenCaret,
  .tokenApostrophe, .tokenDitto, .tokenSemicolon, .tokenCommandSym, .clauseCommandName, .itemNewLine]

/-- The first child is a leaf of one of the given kinds. -/
def StartsWith (ks : List Kind) (cs : List Elem) : Prop := ∃ e es, cs = e :: es ∧ IsLeaf ks e

/-- The shape of one element, given the shapes of its children. -/
def Shape (env : PEnv) : Elem → Prop
  | .token k _ => k ∈ leafKinds
  | .node k cs =>
    match k with
    | .itemCmd => CmdChildren env cs
    | .itemEnv => ∃ bcs rest, cs = .node .itemBegin bcs :: rest
    | .itemBegin => BeginChildren env cs
    | .itemEnd => ∃ name, cs = [.token .tokenCommandSym name]
    | .itemCurly => StartsWith [.tokenLBrace] cs
    | .itemBracket => StartsWith [.tokenLBracket] cs
    | .itemParen => StartsWith [.tokenLParen] cs
    | .itemFormula => StartsWith [.tokenDollar, .tokenBeginMath] cs
    | .itemLR => ∃ lcs rest, cs = .node .clauseLR lcs :: rest
    | .clauseLR => ∃ name args, cs = .token .clauseCommandName name :: args ∧
        ∀ a ∈ args, ∃ k t, a = .token k t ∧ (k = .tokenCommandSym → t.head? = some '\\') ∧ k ≠ .clauseCommandName
    | .itemText => cs ≠ [] ∧ ∀ c ∈ cs, IsLeaf [.tokenLineBreak, .tokenWhiteSpace, .tokenComment, .tokenWord, .tokenComma] c
    | .tokenError => ∃ k t, cs = [.token k t]
    | .itemTypstCode => ∀ c ∈ cs, IsLeaf leafKinds c
    | .itemBlockComment => ∀ c ∈ cs, IsLeaf leafKinds c
    | .itemAttachComponent => cs ≠ []
    | .clauseArgument => True
    | _ => False

/-- Every curly group of `e` is closed by a brace. -/
def Closed (e : Elem) : Prop :=
  e.Forall fun x => ∀ cs, x = .node .itemCurly cs → ∃ t, cs.getLast? = some (.token .tokenRBrace t)

/-- Every curly group of `e` is closed, or lies at the very end of `e`: it has no sibling after it, nor has any
element containing it. -/
inductive OpenAtEnd : Elem → Prop
  | closed {e} (h : Closed e) : OpenAtEnd e
  | last (k : Kind) {cs : List Elem} {e : Elem} (hc : ∀ x ∈ cs, Closed x) (he : OpenAtEnd e) :
      OpenAtEnd (.node k (cs ++ [e]))

/-- All elements of a tree, itself included, in document order. -/
def Elem.descendants : Elem → List Elem
  | .token k t => [.token k t]
  | .node k cs => .node k cs :: go cs
where
  go : List Elem → List Elem
    | [] => []
    | e :: es => e.descendants ++ go es

/-- The content of a token list: the texts of all tokens but whitespace and comments, concatenated. -/
def tokContent (ts : List Tok) : Text := ((ts.filter fun t => !t.1.isTrivia).map Prod.snd).flatten

/-- The content of the leaves of a tree: all texts but those of whitespace and comments, concatenated. -/
def leafContent (lv : List (Kind × Text)) : Text :=
  ((lv.filter fun l => decide (l.1 ≠ .tokenLineBreak ∧ l.1 ≠ .tokenWhiteSpace ∧ l.1 ≠ .tokenComment)).map Prod.snd).flatten

/-! ## Harmless token lists -/

/-- The command tokens handled as commands. -/
def CommandName.isCommand : CommandName → Bool
  | .generic | .cif _ | .celse | .endIf | .right => true
  | _ => false

/-- The first token after trivia is not a command that takes the preceding item as argument (`\limits`, `\over`). -/
def NoLeftCommand (spec : CommandSpec) (ts : List Tok) : Prop :=
  ∀ c x rest, ts.dropWhile (fun t => t.1.isTrivia) = (.cmd c, '\\' :: x) :: rest → c.isCommand = true →
    ∀ sh, getCmd spec x = some sh → sh.args ≠ .left1 ∧ sh.args ≠ .infixGreedy

/-- No `_` or `^` is followed by a command that takes the preceding item as argument. -/
def ScriptSafe (spec : CommandSpec) : List Tok → Prop
  | [] => True
  | t :: ts => (t.1 = .underscore ∨ t.1 = .caret → NoLeftCommand spec ts) ∧ ScriptSafe spec ts

/-- Command tokens have their backslash. -/
def CmdsOk (ts : List Tok) : Prop := ∀ t ∈ ts, ∀ c, t.1 = .cmd c → c.isCommand = true → t.2.head? = some '\\'

/-- No word is empty. -/
def WordsOk (ts : List Tok) : Prop := ∀ t ∈ ts, t.1 = .word → t.2 ≠ []

/-- No environment of the specification takes greedy arguments. -/
def EnvsOk (spec : CommandSpec) : Prop := ∀ name sh, getEnv spec name = some sh → sh.args ≠ .greedy

end Mitex
