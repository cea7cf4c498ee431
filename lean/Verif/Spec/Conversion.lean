/-
Vocabulary for the properties of the converter.  Written from the comments of crates/mitex/src/converter.rs and the
documentation, without using the functions of the converter model
(the types `Mode` and `LEnv` of modes and environments are shared).
-/
import Verif.Model.Syntax
import Verif.Model.Spec
import Verif.Model.Convert

namespace Mitex

/-! ## Trees that differ in comments only -/

/-- What may stand before the color or the model of `\color`: blanks, comments and the line-break command. -/
def blankKind (k : Kind) : Bool := decide (k ∈ [Kind.tokenLineBreak, .tokenWhiteSpace, .tokenComment, .itemNewLine])

theorem isTrivia_eq : Kind.isTrivia = blankKind := by funext k; cases k <;> rfl

/-- The commands whose arguments, and the parts of elements, that the converter copies or inspects as raw text:
labels, images, color models, environment names, the column specification of tables, typst code, error elements, the delimiters of
formulas and `\left`, `\right`.  (Command names are compared without their first character, the backslash.) -/
def verbatim (e : Elem) : List (List (Kind × Text)) :=
  match e.kind with
  | .tokenError | .itemTypstCode => [e.leaves]
  | .itemFormula => [e.firstToken.toList, e.lastToken.toList]
  | .clauseLR => [e.firstToken.toList]
  | .itemEnv => (e.envBegin.bind Elem.firstToken).toList :: e.envArguments.map Elem.leaves
  | .itemCmd =>
    let name := e.cmdName.map List.tail
    if name = some t!"label" ∨ name = some t!"includegraphics" then e.arguments.map Elem.leaves
    else if e.cmdName = some t!"\\color" then
      match e.arguments with
      | [] => []
      | a :: _ =>
        match a.children.dropWhile fun c => blankKind c.kind with
        | [] => []
        | b :: cs => if b.kind = .tokenLBracket then (cs.takeWhile fun c => decide (c.kind ≠ .tokenRBracket)).map Elem.leaves else []
    else if name = some t!"color" ∨ name = some t!"textcolor" ∨ name = some t!"colorbox" then
      (e.arguments.take 1).map Elem.leaves
    else []
  | _ => []

/-- A block comment. -/
def isBlock (e : Elem) : Bool := decide (e.kind = .itemBlockComment)

mutual
/-- The two trees differ only in the texts of line comments and the contents of block comments, and not in those inside
verbatim parts.  (Block comments directly below a command node, which the parser never produces, must be equal.) -/
inductive Same : Elem → Elem → Prop
  | comment (t t' : Text) : Same (.token .tokenComment t) (.token .tokenComment t')
  | block (cs cs' : List Elem) : Same (.node .itemBlockComment cs) (.node .itemBlockComment cs')
  | token (k : Kind) (t : Text) : Same (.token k t) (.token k t)
  | node (k : Kind) {cs cs' : List Elem} (h : SameList cs cs') (hv : verbatim (.node k cs) = verbatim (.node k cs'))
      (hb : k = .itemCmd → cs.filter isBlock = cs'.filter isBlock) :
      Same (.node k cs) (.node k cs')
/-- Position by position. -/
inductive SameList : List Elem → List Elem → Prop
  | nil : SameList [] []
  | cons {e e' : Elem} {es es' : List Elem} (h : Same e e') (hs : SameList es es') : SameList (e :: es) (e' :: es')
end

/-! ## The converted parts of an element -/

/-- Where an element stands: in text or math mode, in which kind of environment, and below how many lists. -/
structure Place where
  mode : Mode
  env : LEnv
  lists : Nat
  deriving DecidableEq, Repr

/-- The context of a document. -/
def Place.top (m : Mode) : Place := ⟨m, .none, 0⟩

/-- The converter is in the context: two columns of indentation per list. -/
def At (x : Place) (s : CState) : Prop := s.mode = x.mode ∧ s.env = x.env ∧ s.indent = 2 * x.lists

/-- The commands that are translated without a specification entry and without their arguments. -/
def isLeafCommand (name : Text) : Prop :=
  name = t!"item" ∨ name = t!"label" ∨ name = t!"includegraphics"

instance (name : Text) : Decidable (isLeafCommand name) := inferInstanceAs (Decidable (_ ∨ _ ∨ _))

/-- The color commands. -/
def isColorCommand (name : Text) : Prop :=
  name = t!"color" ∨ name = t!"textcolor" ∨ name = t!"colorbox"

instance (name : Text) : Decidable (isColorCommand name) := inferInstanceAs (Decidable (_ ∨ _ ∨ _))

/-- The elements after the first `]`. -/
def afterBracket (es : List Elem) : List Elem := (es.dropWhile fun c => decide (c.kind ≠ .tokenRBracket)).tail

/-- The color and the colored elements of a color command; `name` is the name with its backslash.  `\color` has one
argument for everything; a leading `[model]` is left out. -/
def coloredParts (name : Text) (e : Elem) : List Elem :=
  if name = t!"\\color" then
    match e.arguments with
    | [] => []
    | a :: _ =>
      match a.children.dropWhile fun c => blankKind c.kind with
      | [] => []
      | b :: cs =>
        (if b.kind = .tokenLBracket then afterBracket cs else b :: cs).dropWhile fun c => blankKind c.kind
  else
    match e.arguments with
    | [] => []
    | a :: as => if a.text.head? = some '[' ∧ a.text.getLast? = some ']' ∧ 2 ≤ byteLen a.text then as else a :: as

/-- The name written for a command: its alias, but `\textbf` and `\textit` have markup of their own in text mode. -/
def writtenName (m : Mode) (name : Text) (sh : CmdShape) : Text :=
  if m = .text ∧ name = t!"textbf" then t!"#strong"
  else if m = .text ∧ name = t!"textit" then t!"#emph"
  else match sh.alias with
    | some a => a
    | none => name

/-- The converted parts of the arguments of a command that is written as `tn`: none for symbols; the contents of the single
argument of a greedy command; all of them for a function in math mode; only proper arguments, in text mode, otherwise. -/
def argParts (x : Place) (sh : CmdShape) (tn : Text) (args : List Elem) : List (Place × Elem) :=
  match sh.args with
  | .right .none => []
  | .right .greedy =>
    match args with
    | [] => []
    | a :: _ => a.children.map fun c => (x, c)
  | _ =>
    if x.mode = .math ∧ tn.head? ≠ some '#' then args.map fun c => (x, c)
    else (args.filter fun c => decide (c.kind = .clauseArgument)).map fun c => ({ x with mode := .text }, c)

/-- The converted parts of a command, with their contexts. -/
def cmdParts (spec : CommandSpec) (x : Place) (full : Text) (e : Elem) : List (Place × Elem) :=
  let name := full.tail
  if isLeafCommand name then []
  else if isColorCommand name then
    match coloredParts full e with
    | [] => []
    | c :: body => ({ x with mode := .text }, c) :: body.map fun b => (x, b)
  else match spec name with
    | some (.cmd sh) =>
      let tn := writtenName x.mode name sh
      let x' : Place := ⟨x.mode, if tn = t!"substack" then .subStack else x.env, x.lists⟩
      argParts x' sh tn (e.children.filter fun c => decide (c.kind ≠ .clauseCommandName))
    | _ => []

/-- The children of an environment between its begin and its end. -/
def between (e : Elem) : List Elem := e.children.filter fun c => decide (c.kind ≠ .itemBegin ∧ c.kind ≠ .itemEnd)

/-- A command with this name (with the backslash). -/
def isCommand (name : Text) (e : Elem) : Bool := decide (e.kind = .itemCmd) && decide (e.cmdName = some name)

/-- The argument of the last caption. -/
def caption (e : Elem) : List Elem :=
  match (e.children.filter (isCommand t!"\\caption")).getLast? with
  | some c => c.arguments.take 1
  | none => []

/-- The commands for horizontal rules of tables (after their first character, which is a single byte: the backslash). -/
def isRule (e : Elem) : Bool :=
  decide (e.kind = .itemCmd) && match e.cmdName with
    | some (c :: n) => decide (utf8Len c = 1 ∧ n ∈ [t!"hline", t!"toprule", t!"midrule", t!"bottomrule"])
    | _ => false

/-- The children of a table that are not cell contents: separators, rules and space. -/
def isTableMark (e : Elem) : Bool :=
  isRule e || match e.kind with
    | .tokenWhiteSpace | .tokenLineBreak | .tokenAmpersand | .itemNewLine => true
    | _ => false

/-- The converted parts of an environment. -/
def envParts (x : Place) (sh : EnvShape) (e : Elem) : List (Place × Elem) :=
  match sh.ctx with
  | .isItemize => (between e).map fun c => (⟨x.mode, .itemize, x.lists + 1⟩, c)
  | .isEnumerate => (between e).map fun c => (⟨x.mode, .enumerate, x.lists + 1⟩, c)
  | .isMath => (e.envArguments ++ between e).map fun c => (⟨.math, .math, x.lists⟩, c)
  | .isMatrix => (e.envArguments ++ between e).map fun c => (⟨.math, .matrix, x.lists⟩, c)
  | .isCases => (e.envArguments ++ between e).map fun c => (⟨.math, .cases, x.lists⟩, c)
  | .isFigure =>
    (caption e ++ (between e).filter fun c => !isCommand t!"\\caption" c && !isCommand t!"\\centering" c).map
      fun c => (⟨x.mode, .figure, x.lists⟩, c)
  | .isTable => ((between e).filter fun c => !isTableMark c).map fun c => (⟨x.mode, .table, x.lists⟩, c)
  | .none => (between e).map fun c => (⟨x.mode, .none, x.lists⟩, c)

/-- The parts of an element that are converted when it is converted in a context, with their contexts.  Left out are: the names
of commands, the arguments of labels and images, color models, marks of scripts and delimiters, the arguments of
text environments, comments, typst code; in text mode also everything that belongs to a command but is not an argument. -/
def parts (spec : CommandSpec) (x : Place) (e : Elem) : List (Place × Elem) :=
  match e.kind with
  | .itemLR | .clauseArgument | .scopeRoot | .itemText | .itemBracket | .itemParen => e.children.map fun c => (x, c)
  | .itemFormula => e.children.map fun c => ({ x with mode := .math }, c)
  | .itemCurly =>
    e.children.map fun c => (⟨x.mode, if x.mode = .math ∧ x.env ≠ .subStack then .mathCurlyGroup else x.env, x.lists⟩, c)
  | .clauseLR =>
    (e.children.tail.filter fun c => !(decide (c.kind = .tokenWord) && decide (c.text = ['.']))).map fun c => (x, c)
  | .itemAttachComponent =>
    (e.children.filter fun c => decide (c.kind ≠ .tokenUnderscore ∧ c.kind ≠ .tokenCaret)).map fun c => (x, c)
  | .itemCmd =>
    match e.cmdName with
    | some n => cmdParts spec x n e
    | none => []
  | .itemEnv =>
    match e.envName with
    | some n =>
      match getEnv spec (trim n) with
      | some sh => envParts x sh e
      | none => []
    | none => []
  | _ => []

/-- `c` is a converted part of `e`, at any depth, in the context `y`, when `e` is converted in the context `x`. -/
inductive Converted (spec : CommandSpec) : Place → Elem → Place → Elem → Prop
  | self (x : Place) (e : Elem) : Converted spec x e x e
  | part {x y z : Place} {e c d : Elem} (h : (y, c) ∈ parts spec x e) (k : Converted spec y c z d) : Converted spec x e z d

end Mitex
