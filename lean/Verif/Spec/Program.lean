/-
Texts with macros as a small programming language, and its meaning.

A program is a sequence of definitions (`\newcommand`, `\newenvironment`) and of text that uses them.  `text`
says how a program is written in tokens; `value` says what it means: every call stands for the meaning of the body,
with the meanings of the arguments in the places of the parameters.  The meaning is a plain recursive function:
arguments are evaluated before they are put in (the macro lexer substitutes first and reads the result again).
-/
import Verif.Spec.Macro

namespace Mitex
namespace Program

/-- The pieces of a text with macros. -/
inductive Src where
  /-- a token that is written as it is -/
  | tok (t : Tok)
  /-- `{ body }` -/
  | group (body : List Src)
  /-- `#d` in a definition, followed by the rest of the word -/
  | param (d : Nat) (extra : Text)
  /-- `\name{arg}…{arg}` -/
  | call (name : Text) (args : List (List Src))
  /-- `\begin{name}{arg}…{arg} body \end{name}` -/
  | env (name : Text) (args : List (List Src)) (body : List Src)
  /-- `\iftrue yes \else no \fi` -/
  | ifTrue (yes : List Src) (no : List Tok)

def beginTok (name : Text) : Tok := (.cmd .beginEnv, name)
def endTok (name : Text) : Tok := (.cmd .endEnv, name)
def ifTrueTok : Tok := (.cmd (.cif .ifTrue), t!"\\iftrue")
def elseTok : Tok := (.cmd .celse, t!"\\else")
def fiTok : Tok := (.cmd .endIf, t!"\\fi")

/-! ### How it is written -/

mutual
/-- The tokens of a piece, when `π d extra` is written for the parameter `#d`. -/
def Src.tokens (π : Nat → Text → List Tok) : Src → List Tok
  | .tok t => [t]
  | .group b => lBrace :: (tokensAll π b ++ [rBrace])
  | .param d extra => π d extra
  | .call name args => cmdTok name :: bracedAll π args
  | .env name args body => beginTok name :: (bracedAll π args ++ tokensAll π body ++ [endTok name])
  | .ifTrue yes no => ifTrueTok :: (tokensAll π yes ++ elseTok :: (no ++ [fiTok]))

def tokensAll (π : Nat → Text → List Tok) : List Src → List Tok
  | [] => []
  | s :: ss => s.tokens π ++ tokensAll π ss

def bracedAll (π : Nat → Text → List Tok) : List (List Src) → List Tok
  | [] => []
  | a :: as => (lBrace :: (tokensAll π a ++ [rBrace])) ++ bracedAll π as
end

/-- A word, if there is one. -/
def wordOf (w : Text) : List Tok := if w = [] then [] else [(.word, w)]

/-- A parameter in the source text: `#`, and a word that starts with the digit. -/
def asMark (d : Nat) (extra : Text) : List Tok := [(.hash, ['#']), (.word, Nat.digitChar d :: extra)]

/-- The tokens of a text as it is written. -/
def text (ss : List Src) : List Tok := tokensAll asMark ss

/-! ### What it means -/

/-- What the macros mean: commands give tokens for the meanings of their arguments, environments those before and
those after the body. -/
structure Sem where
  cmd : Text → List (List Tok) → List Tok
  env : Text → List (List Tok) → List Tok × List Tok

mutual
/-- The meaning of a piece, with the macros `σ` and the arguments `args`. -/
def Src.value (σ : Sem) (args : List (List Tok)) : Src → List Tok
  | .tok t => [t]
  | .group b => lBrace :: (valueAll σ args b ++ [rBrace])
  | .param d extra => (args[d - 1]?).getD [] ++ wordOf extra
  | .call name as => σ.cmd name (valueEach σ args as)
  | .env name as body =>
    (σ.env name (valueEach σ args as)).1 ++ valueAll σ args body ++ (σ.env name (valueEach σ args as)).2
  | .ifTrue yes _ => valueAll σ args yes

def valueAll (σ : Sem) (args : List (List Tok)) : List Src → List Tok
  | [] => []
  | s :: ss => s.value σ args ++ valueAll σ args ss

def valueEach (σ : Sem) (args : List (List Tok)) : List (List Src) → List (List Tok)
  | [] => []
  | a :: as => valueAll σ args a :: valueEach σ args as
end

/-- A definition: `\newcommand{\name}[n]{body}` or `\newenvironment{name}[n]{pre}{post}`. -/
inductive Def where
  | cmd (name : Text) (n : Nat) (body : List Src)
  | env (name : Text) (n : Nat) (pre post : List Src)

def Def.name : Def → Text
  | .cmd name .. => name
  | .env name .. => name

/-- The meaning of the macros defined by `ds`, the newest first.  Commands that are not defined stand for
themselves (they are not called), environments that are not defined keep their clauses. -/
def meaning : List Def → Sem
  | [] => ⟨fun _ _ => [], fun name _ => ([beginTok name], [endTok name])⟩
  | .cmd name _ body :: ds =>
    { meaning ds with cmd := fun x args => if x = name then valueAll (meaning ds) args body else (meaning ds).cmd x args }
  | .env name _ pre post :: ds =>
    { meaning ds with env := fun x args => if x = name
        then (valueAll (meaning ds) args pre, valueAll (meaning ds) args post) else (meaning ds).env x args }

/-! ### Well-formed programs -/

/-- How many arguments the command `name` defined in `ds` takes. -/
def cmdArity (ds : List Def) (name : Text) : Option Nat :=
  match ds with
  | [] => none
  | .cmd x n _ :: ds => if x = name then some n else cmdArity ds name
  | _ :: ds => cmdArity ds name

/-- How many arguments the environment `name` defined in `ds` takes. -/
def envArity (ds : List Def) (name : Text) : Option Nat :=
  match ds with
  | [] => none
  | .env x n _ _ :: ds => if x = name then some n else envArity ds name
  | _ :: ds => envArity ds name

/-- A name that no definition of the program and no predefined command binds. -/
def Free (all : List Text) (name : Text) : Prop := name ∉ all ∧ defaultMacros name = none

/-- A token that stands for itself. Single `\begin` and `\end` clauses are allowed if `loose`. -/
structure TokFor (all : List Text) (loose : Bool) (t : Tok) : Prop where
  brace : t.1 ≠ .left .curly ∧ t.1 ≠ .right .curly
  mark : t.1 ≠ .hash ∧ ∀ d, t.1 ≠ .macroArg d
  word : t.1 = .word → t.2 ≠ []
  cond : (∀ i, t.1 ≠ .cmd (.cif i)) ∧ t.1 ≠ .cmd .celse ∧ t.1 ≠ .cmd .endIf
  cmd : t.1 = .cmd .generic → ∃ name, t = cmdTok name ∧ Free all name ∧ name ≠ t!"mitexrecurse"
  clause : t.1 = .cmd .beginEnv ∨ t.1 = .cmd .endEnv → loose = true ∧ Free all t.2

mutual
/-- A piece is well formed: the macros it calls are among `ds`, with the right number of arguments, its parameters are at
most `n`; all other commands are free.  Inside arguments and environments `\begin` and `\end` match. -/
def Src.Ok (all : List Text) (ds : List Def) (n : Nat) (loose : Bool) : Src → Prop
  | .tok t => TokFor all loose t
  | .group b => OkAll all ds n loose b
  | .param d _ => 1 ≤ d ∧ d ≤ n
  | .call name args => cmdArity ds name = some args.length ∧ OkEach all ds n args
  | .env name args body => (envArity ds name = some args.length ∨ (Free all name ∧ args = [])) ∧
      OkEach all ds n args ∧ OkAll all ds n false body
  | .ifTrue yes no => OkAll all ds n loose yes ∧
      ∀ t ∈ no, (t.1 ≠ .left .curly ∧ t.1 ≠ .right .curly) ∧ (t.1 ≠ .cmd .beginEnv ∧ t.1 ≠ .cmd .endEnv) ∧
        ((∀ i, t.1 ≠ .cmd (.cif i)) ∧ t.1 ≠ .cmd .celse ∧ t.1 ≠ .cmd .endIf) ∧
        (t.1 ≠ .hash ∧ ∀ d, t.1 ≠ .macroArg d) ∧ (t.1 = .word → t.2 ≠ []) ∧
        (t.1 = .cmd .generic → ∃ name, t = cmdTok name ∧ name ≠ t!"mitexrecurse")

def OkAll (all : List Text) (ds : List Def) (n : Nat) (loose : Bool) : List Src → Prop
  | [] => True
  | s :: ss => s.Ok all ds n loose ∧ OkAll all ds n loose ss

def OkEach (all : List Text) (ds : List Def) (n : Nat) : List (List Src) → Prop
  | [] => True
  | a :: as => OkAll all ds n false a ∧ OkEach all ds n as
end

/-- A definition is well formed, after the definitions `ds`: the name is new, there are at most nine parameters, and the
bodies use only them and what is defined already. -/
def Def.Ok (all : List Text) (ds : List Def) : Def → Prop
  | .cmd name n body => defaultMacros name = none ∧ name ∉ ds.map Def.name ∧ name ≠ t!"mitexrecurse" ∧ name ∈ all ∧ n ≤ 9 ∧
      OkAll all ds n true body
  | .env name n pre post => defaultMacros name = none ∧ name ∉ ds.map Def.name ∧ name ∈ all ∧ n ≤ 9 ∧
      OkAll all ds n true pre ∧ OkAll all ds n true post

/-- `[n]`, nothing for 0. -/
def countText (n : Nat) : List Tok := if n = 0 then [] else [lBracket, (.word, [Nat.digitChar n]), rBracket]

/-- A definition as it is written. -/
def Def.text : Def → List Tok
  | .cmd name n body =>
    cmdTok t!"newcommand" :: ([lBrace, cmdTok name, rBrace] ++ countText n ++ lBrace :: (Program.text body ++ [rBrace]))
  | .env name n pre post =>
    cmdTok t!"newenvironment" :: ([lBrace, (.word, name), rBrace] ++ countText n ++ lBrace :: (Program.text pre ++ [rBrace]) ++
      lBrace :: (Program.text post ++ [rBrace]))

/-- A part of a program. -/
inductive Part where
  | define (d : Def)
  | run (ss : List Src)

/-- A program as it is written. -/
def programText : List Part → List Tok
  | [] => []
  | .define d :: ps => d.text ++ programText ps
  | .run ss :: ps => text ss ++ programText ps

/-- What a program means, after the definitions `ds`. -/
def programValue (ds : List Def) : List Part → List Tok
  | [] => []
  | .define d :: ps => programValue (d :: ds) ps
  | .run ss :: ps => valueAll (meaning ds) [] ss ++ programValue ds ps

/-- A well-formed program, after the definitions `ds`; `all` are the names of all definitions of the program. -/
def ProgramOk (all : List Text) (ds : List Def) : List Part → Prop
  | [] => True
  | .define d :: ps => d.Ok all ds ∧ ProgramOk all (d :: ds) ps
  | .run ss :: ps => OkAll all ds 0 true ss ∧ ProgramOk all ds ps

/-- The names a program defines. -/
def defined : List Part → List Text
  | [] => []
  | .define d :: ps => d.name :: defined ps
  | .run _ :: ps => defined ps

/-- A well-formed program. -/
def WellFormed (ps : List Part) : Prop := ProgramOk (defined ps) [] ps

end Program
end Mitex
