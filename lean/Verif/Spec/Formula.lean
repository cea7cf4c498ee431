import Verif.Spec.Template
import Verif.Spec.Rules
import Verif.Spec.Expansion
import Verif.Spec.Grammar
import Verif.Model.Glob

/-!
# A language of formulas

Formulas as a data type, with the LaTeX text that is written for them and the Typst text they are to become.
Property C67 says that the converter takes the one to the other.  Formulas are nested without bound: groups, commands with
arguments, primes and scripts, delimiters, and environments of rows and cells; blanks may stand between the parts.

The two texts are described by structural recursion, each on its own; no function of the lexer, the parser or the converter is used.
-/

namespace Mitex

/-- The parts of a run of text. -/
inductive TextPart where
  | word (w : Text)
  | comma
  | blank (n : Nat)

/-- What stands after `\left` and `\right`. -/
inductive Delim where
  /-- one of `( ) [ ] /` -/
  | sign (c : Char)
  /-- an ordinary character, like `|` or `.` -/
  | char (c : Char)
  /-- a symbol, like `\langle` or `\{` -/
  | symbol (name : Text)

mutual
/-- The parts of a formula. -/
inductive Atom where
  /-- letters, digits and other characters without a special meaning, commas, and blanks between them -/
  | text (parts : List TextPart)
  /-- a punctuation mark: one of `( ) [ ] ~ / " ; * @` -/
  | sign (c : Char)
  /-- a command without arguments: `\alpha` or `\,` -/
  | symbol (name : Text)
  /-- `{…}` -/
  | group (f : Formula)
  /-- a command with arguments: `\frac{…}{…}` or `\sqrt[…]{…}` -/
  | command (name : Text) (args : Arguments)
  /-- a command with text in braces: `\text{…}` -/
  | textCommand (name : Text) (parts : List TextPart)
  /-- a command after its argument: `…\limits` -/
  | postfix (base : Atom) (name : Text)
  /-- `…'` -/
  | prime (base : Atom)
  /-- a subscript or superscript: `…_{…}`, `…^2` or `…_\alpha` -/
  | script (base : Atom) (super : Bool) (s : Script)
  /-- `\left(…\right)` -/
  | delimited (left : Delim) (f : Formula) (right : Delim)
  /-- a command between its arguments: `{…\over …}` -/
  | over (l : Formula) (name : Text) (r : Formula)
  /-- an environment of rows and cells: `\begin{array}{cc}…&…\\…\end{array}` -/
  | environment (name : Text) (args : Arguments) (body : Cells)
/-- What stands after `_` and `^`. -/
inductive Script where
  | braces (f : Formula)
  | char (c : Char)
  | symbol (name : Text)
/-- A formula: blanks, and parts. -/
inductive Formula where
  | mk (lead : Nat) (atoms : Atoms)
/-- Parts, one after the other, each followed by any number of blanks. -/
inductive Atoms where
  | nil
  | cons (a : Atom) (spaces : Nat) (as : Atoms)
/-- The arguments of a command: in braces or square brackets, or single characters and symbols. -/
inductive Arguments where
  | nil
  | cons (square : Bool) (f : Formula) (as : Arguments)
  /-- a character without braces: the arguments of `\frac12` -/
  | bare (c : Char) (as : Arguments)
  /-- a symbol without braces: `\hat\alpha` -/
  | symbol (name : Text) (as : Arguments)
  /-- blanks before an argument, as in `\mathbb R` -/
  | spaced (n : Nat) (as : Arguments)
/-- Cells: each but the last is ended by `\\` (the end of the row) or `&`. -/
inductive Cells where
  | last (f : Formula)
  | cons (f : Formula) (endsRow : Bool) (r : Cells)
end

/-! ## The LaTeX text -/

/-- `n` blanks. -/
def spaces (n : Nat) : Text := List.replicate n ' '

def TextPart.latex : TextPart → Text
  | .word w => w
  | .comma => [',']
  | .blank n => spaces n

def partsLatex (ps : List TextPart) : Text := ps.flatMap TextPart.latex

def Delim.latex : Delim → Text
  | .sign c => [c]
  | .char c => [c]
  | .symbol name => '\\' :: name

mutual
def Atom.latex : Atom → Text
  | .text ps => partsLatex ps
  | .sign c => [c]
  | .symbol name => '\\' :: name
  | .group f => '{' :: (f.latex ++ ['}'])
  | .command name args => '\\' :: (name ++ args.latex)
  | .textCommand name ps => '\\' :: (name ++ '{' :: (partsLatex ps ++ ['}']))
  | .postfix base name => base.latex ++ '\\' :: name
  | .prime base => base.latex ++ ['\'']
  | .script base super s => base.latex ++ (if super then '^' else '_') :: s.latex
  | .delimited l f r => t!"\\left" ++ (l.latex ++ (f.latex ++ (t!"\\right" ++ r.latex)))
  | .over l name r => '{' :: (l.latex ++ '\\' :: (name ++ (r.latex ++ ['}'])))
  | .environment name args body =>
    t!"\\begin" ++ '{' :: (name ++ '}' :: (args.latex ++ (body.latex ++ (t!"\\end" ++ '{' :: (name ++ ['}'])))))
def Script.latex : Script → Text
  | .braces f => '{' :: (f.latex ++ ['}'])
  | .char c => [c]
  | .symbol name => '\\' :: name
def Formula.latex : Formula → Text
  | .mk lead as => spaces lead ++ as.latex
def Atoms.latex : Atoms → Text
  | .nil => []
  | .cons a sp as => a.latex ++ (spaces sp ++ as.latex)
def Arguments.latex : Arguments → Text
  | .nil => []
  | .cons square f as => (if square then '[' else '{') :: (f.latex ++ (if square then ']' else '}') :: as.latex)
  | .bare c as => c :: as.latex
  | .symbol name as => '\\' :: (name ++ as.latex)
  | .spaced n as => spaces n ++ as.latex
def Cells.latex : Cells → Text
  | .last f => f.latex
  | .cons f endsRow r => f.latex ++ ((if endsRow then t!"\\\\" else t!"&") ++ r.latex)
end

/-! ## The Typst text -/

/-- The Typst name of a command or environment: its alias in the specification, or its own name. -/
def aliasOf (spec : CommandSpec) (name : Text) : Text :=
  match spec name with
  | some (.cmd sh) => sh.alias.getD name
  | some (.env sh) => sh.alias.getD name
  | none => name

/-- The ends of rows and cells, by the kind of environment: matrices, cases, and alignments. -/
def cellEnd (spec : CommandSpec) (name : Text) (endsRow : Bool) : Text :=
  match spec name with
  | some (.env sh) =>
    match sh.ctx with
    | .isMatrix => if endsRow then t!"zws ;" else t!"zws ,"
    | .isCases => if endsRow then t!"," else t!"&"
    | _ => if endsRow then t!"\\ " else t!"&"
  | _ => []

/-- Words are spread out in formulas, so that Typst does not take them for the names of variables. -/
def TextPart.typst (m : Mode) : TextPart → Text
  | .word w => match m with
    | .math => w.flatMap fun c => [c, ' ']
    | .text => w
  | .comma => t!"\\,"
  | .blank n => spaces n

def partsTypst (m : Mode) (ps : List TextPart) : Text := ps.flatMap (TextPart.typst m)

/-- A punctuation mark is escaped; a tilde is a space. -/
def signTypst (c : Char) : Text := if c = '~' then t!"space.nobreak " else ['\\', c]

/-- The empty delimiter is left out. -/
def Delim.typst (spec : CommandSpec) : Delim → Text
  | .sign c => ['\\', c, ' ']
  | .char c => if c = '.' then t!" " else [c, ' ', ' ']
  | .symbol name => aliasOf spec name ++ t!" "

def Formula.isEmpty : Formula → Bool
  | .mk _ .nil => true
  | _ => false

/-- The arguments of an environment have the names `arg0`, `arg1`, … -/
def namedArguments (ts : List Text) : Text :=
  ts.zipIdx.flatMap fun t => t!"arg" ++ decimal t.2 ++ t!": " ++ t.1 ++ t!","

mutual
def Atom.typst (spec : CommandSpec) : Atom → Text
  | .text ps => partsTypst .math ps
  | .sign c => signTypst c
  | .symbol name => aliasOf spec name ++ t!" "
  | .group f => f.grouped spec
  | .command name args => aliasOf spec name ++ t!"(" ++ t!",".intercalate (args.typst spec) ++ t!")"
  | .textCommand name ps => aliasOf spec name ++ t!"[" ++ partsTypst .text ps ++ t!"];"
  | .postfix base name => aliasOf spec name ++ t!"(" ++ base.typst spec ++ t!")"
  | .prime base => base.typst spec ++ t!"'"
  | .script base super s => base.typst spec ++ (if super then t!"^(" else t!"_(") ++ s.typst spec ++ t!")"
  | .delimited l f r => t!"lr(" ++ l.typst spec ++ f.typst spec ++ r.typst spec ++ t!")"
  | .over l name r => aliasOf spec name ++ t!"(" ++ (l.typst spec ++ (t!"," ++ (r.typst spec ++ t!")")))
  | .environment name args body =>
    aliasOf spec name ++ t!"(" ++ namedArguments (args.typst spec) ++ body.typst spec name ++ t!")"
def Script.typst (spec : CommandSpec) : Script → Text
  | .braces f => f.grouped spec
  | .char c => [c, ' ']
  | .symbol name => aliasOf spec name ++ t!" "
def Formula.typst (spec : CommandSpec) : Formula → Text
  | .mk lead as => spaces lead ++ as.typst spec
/-- A formula in braces: an empty one needs a placeholder. -/
def Formula.grouped (spec : CommandSpec) : Formula → Text
  | .mk lead .nil => spaces lead ++ t!"zws "
  | .mk lead (.cons a sp as) => spaces lead ++ (a.typst spec ++ spaces sp ++ as.typst spec)
def Atoms.typst (spec : CommandSpec) : Atoms → Text
  | .nil => []
  | .cons a sp as => a.typst spec ++ spaces sp ++ as.typst spec
def Arguments.typst (spec : CommandSpec) : Arguments → List Text
  | .nil => []
  | .cons square f as => (if square then t!"\\[" ++ f.typst spec ++ t!"\\]" else f.grouped spec) :: as.typst spec
  | .bare c as => [c, ' '] :: as.typst spec
  | .symbol name as => (aliasOf spec name ++ t!" ") :: as.typst spec
  | .spaced _ as => as.typst spec
def Cells.typst (spec : CommandSpec) (name : Text) : Cells → Text
  | .last f => f.typst spec
  | .cons f endsRow r => f.typst spec ++ cellEnd spec name endsRow ++ r.typst spec name
end

/-! ## Which formulas are meant -/

/-- A character of a word. -/
def WordChar (c : Char) : Prop := isWs c = false ∧ c ∉ specials

/-- The punctuation marks of `Atom.sign`. -/
def signs : List Char := ['(', ')', '[', ']', '~', '/', '"', ';', '*', '@']

/-- The punctuation marks of `Delim.sign`. -/
def delimSigns : List Char := ['(', ')', '[', ']', '/']

/-- Commands the converter treats in a special way. -/
def specialCommands : List Text := [t!"item", t!"label", t!"includegraphics", t!"color", t!"textcolor", t!"colorbox"]

/-- The name consists of letters, so that a letter after it would continue it. -/
def Lettered (name : Text) : Prop := ∀ c ∈ name, NameChar c

/-- The name of an ordinary command: letters, perhaps with a star, or a single other character; without a meaning for the lexer or the
macro engine. -/
def PlainName (name : Text) : Prop :=
  ((name ≠ [] ∧ Lettered name ∧ name ≠ t!"begin" ∧ name ≠ t!"end" ∧ ∀ b, (name, b) ∉ builtinCommands) ∨
   (∃ l, name = l ++ ['*'] ∧ l ≠ [] ∧ Lettered l) ∨
   (∃ c, name = [c] ∧ isWs c = false ∧ ¬ NameChar c ∧ c ∉ ['\\', '(', ')', '[', ']'])) ∧
  defaultMacros name = none ∧ name ∉ specialCommands

/-- A symbol of the specification. -/
def SymbolOk (spec : CommandSpec) (name : Text) : Prop :=
  PlainName name ∧ ∃ sh, spec name = some (.cmd sh) ∧ sh.args = .right .none

/-- The pattern `p` takes exactly arguments of the kinds `ks`, after those of the kinds `before`. -/
def TakesExactly (p : ArgPattern) : List ArgKind → List ArgKind → Prop
  | before, [] => ∀ k, Grammar.takes globPrefix p before k = false
  | before, k :: ks => Grammar.takes globPrefix p before k = true ∧ TakesExactly p (before ++ [k]) ks

def Arguments.kinds : Arguments → List ArgKind
  | .nil => []
  | .cons square _ as => (if square then .bracket else .term) :: as.kinds
  | .bare _ as => .term :: as.kinds
  | .symbol _ as => .term :: as.kinds
  | .spaced _ as => as.kinds

def Arguments.isSpaced : Arguments → Bool
  | .spaced _ _ => true
  | _ => false

/-- Does the pattern fit the arguments? -/
def FitsWith (p : ArgPattern) (args : Arguments) : Prop :=
  p ≠ .none ∧ p ≠ .greedy ∧ TakesExactly p [] args.kinds ∧ (ArgKind.bracket ∈ args.kinds → Grammar.seesGroup p .bracket = true)

/-- Words are not empty, and neither words nor blanks are split. -/
def PartsOk : List TextPart → Prop
  | [] => False
  | p :: ps => (match p with
      | .word w => w ≠ [] ∧ (∀ c ∈ w, WordChar c) ∧ (∀ v, ps.head? ≠ some (.word v))
      | .comma => True
      | .blank n => 0 < n ∧ (∃ q, ps.head? = some q ∧ ∀ k, q ≠ .blank k)) ∧
    (ps ≠ [] → PartsOk ps)

/-- A run of text: it starts and ends with a word or a comma. -/
def RunOk (ps : List TextPart) : Prop := PartsOk ps ∧ ∀ n, ps.head? ≠ some (.blank n)

def Delim.Ok (spec : CommandSpec) : Delim → Prop
  | .sign c => c ∈ delimSigns
  | .char c => WordChar c ∧ ¬ NameChar c
  | .symbol name => SymbolOk spec name

/-- Does the text start with a run of text? -/
def Atom.startsText : Atom → Bool
  | .text _ => true
  | .postfix base _ => base.startsText
  | .prime base => base.startsText
  | .script base _ _ => base.startsText
  | _ => false

def Atoms.startsText : Atoms → Bool
  | .nil => false
  | .cons a _ _ => a.startsText

def Atom.isText : Atom → Bool
  | .text _ => true
  | _ => false

/-- Scripts are attached to everything but these marks. -/
def Atom.isLoose : Atom → Bool
  | .sign c => decide (c = '*' ∨ c = '@')
  | _ => false

/-- A closing square bracket among the parts of the formula (but not inside of a part). -/
def Atom.hasBracket : Atom → Bool
  | .sign c => decide (c = ']')
  | .postfix base _ => base.hasBracket
  | .prime base => base.hasBracket
  | .script base _ _ => base.hasBracket
  | _ => false

def Atoms.hasBracket : Atoms → Bool
  | .nil => false
  | .cons a _ as => a.hasBracket || as.hasBracket

def Formula.hasBracket : Formula → Bool
  | .mk _ as => as.hasBracket

def Script.EndsName : Script → Prop
  | .symbol name => Lettered name
  | _ => False

def Delim.EndsName : Delim → Prop
  | .symbol name => Lettered name
  | _ => False

def Arguments.EndsName : Arguments → Prop
  | .nil => False
  | .cons _ _ as => as.EndsName
  | .bare _ as => as.EndsName
  | .symbol name .nil => Lettered name
  | .symbol _ as => as.EndsName
  | .spaced _ as => as.EndsName

/-- The text ends with the name of a command. -/
def Atom.EndsName : Atom → Prop
  | .symbol name => Lettered name
  | .command _ args => args.EndsName
  | .postfix _ name => Lettered name
  | .script _ _ s => s.EndsName
  | .delimited _ _ r => r.EndsName
  | _ => False

/-- What follows does not continue the name of a command. -/
def NameEnds (rest : Text) : Prop := ∀ c, rest.head? = some c → ¬ NameChar c ∧ c ≠ '*'

mutual
/-- The commands are those of the specification, with arguments as it says, and neither names nor words run together. -/
def Atom.Ok (spec : CommandSpec) : Atom → Prop
  | .text ps => RunOk ps
  | .sign c => c ∈ signs
  | .symbol name => SymbolOk spec name
  | .group f => f.Ok spec
  | .command name args => PlainName name ∧ args.Ok spec ∧ args.kinds ≠ [] ∧
    (∃ sh p, spec name = some (.cmd sh) ∧ sh.args = .right p ∧ FitsWith p args) ∧ (aliasOf spec name).head? ≠ some '#' ∧
    (Lettered name → NameEnds args.latex)
  | .textCommand name ps => PlainName name ∧ RunOk ps ∧ (∃ sh, spec name = some (.cmd sh) ∧ sh.args = .right (.fixedLen 1)) ∧
    (aliasOf spec name).head? = some '#'
  | .postfix base name => base.Ok spec ∧ base.isLoose = false ∧ PlainName name ∧
    (∃ sh, spec name = some (.cmd sh) ∧ sh.args = .left1) ∧ (aliasOf spec name).head? ≠ some '#'
  | .prime base => base.Ok spec ∧ base.isLoose = false
  | .script base _ s => base.Ok spec ∧ base.isLoose = false ∧ s.Ok spec
  | .delimited l f r => l.Ok spec ∧ f.Ok spec ∧ r.Ok spec ∧ (l.EndsName → NameEnds f.latex)
  | .over l name r => l.Ok spec ∧ r.Ok spec ∧ PlainName name ∧ (∃ sh, spec name = some (.cmd sh) ∧ sh.args = .infixGreedy) ∧
    (aliasOf spec name).head? ≠ some '#' ∧ (Lettered name → NameEnds r.latex)
  | .environment name args body => EnvName name ∧ defaultMacros name = none ∧ (args.Ok spec ∧ ¬ args.EndsName) ∧ body.Ok spec ∧
    ∃ sh, spec name = some (.env sh) ∧ (sh.ctx = .isMatrix ∨ sh.ctx = .isCases ∨ sh.ctx = .isMath) ∧
      (if args.kinds = [] then sh.args = .none else FitsWith sh.args args)
def Script.Ok (spec : CommandSpec) : Script → Prop
  | .braces f => f.Ok spec
  | .char c => WordChar c
  | .symbol name => SymbolOk spec name
def Formula.Ok (spec : CommandSpec) : Formula → Prop
  | .mk _ as => as.Ok spec
def Atoms.Ok (spec : CommandSpec) : Atoms → Prop
  | .nil => True
  | .cons a sp as => a.Ok spec ∧ as.Ok spec ∧ (a.isText = true → as.startsText = false) ∧
    (a.EndsName → NameEnds (spaces sp ++ as.latex))
def Arguments.Ok (spec : CommandSpec) : Arguments → Prop
  | .nil => True
  | .cons square f as => f.Ok spec ∧ (square = true → f.hasBracket = false) ∧ as.Ok spec
  | .bare c as => WordChar c ∧ as.Ok spec
  | .symbol name as => SymbolOk spec name ∧ as.Ok spec ∧ (Lettered name → NameEnds as.latex)
  | .spaced _ as => as.isSpaced = false ∧ as.kinds ≠ [] ∧ as.Ok spec
def Cells.Ok (spec : CommandSpec) : Cells → Prop
  | .last f => f.Ok spec
  | .cons f _ r => f.Ok spec ∧ r.Ok spec
end

end Mitex
