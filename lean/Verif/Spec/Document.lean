import Verif.Spec.Formula
import Verif.Spec.Table

/-!
# A language of documents

Documents as a data type: prose with commands, formulas, lists, images, colors, tables, figures and other environments, with the LaTeX text that is written for them and the
Typst text they are to become.  Property C68 says that the converter takes the one to the other.  Documents are nested without bound.

The two texts are described by structural recursion, each on its own; no function of the lexer, the parser or the converter is used.
-/

namespace Mitex

/-- White space and comments. -/
inductive Blank where
  /-- blanks within a line -/
  | blanks (w : Text)
  /-- ends of lines -/
  | lines (w : Text)
  /-- `%…` -/
  | comment (w : Text)

/-- The parts of a run of text. -/
inductive TextItem where
  | word (w : Text)
  | comma
  | blank (b : Blank)

/-- The marks around a formula. -/
inductive Marks where
  /-- `$…$` -/
  | dollar
  /-- `$$…$$` -/
  | dollars
  /-- `\(…\)` -/
  | parens
  /-- `\[…\]` -/
  | brackets
  deriving DecidableEq

/-- The unit of a length. -/
inductive ImageUnit where
  /-- a unit that is part of the value, or none -/
  | plain
  /-- `\textwidth` -/
  | width
  /-- `\textheight` -/
  | height
  deriving DecidableEq

/-- An option of an image: `width=0.5\textwidth`, perhaps with blanks before it. -/
structure ImageOption where
  lead : Text
  key : Text
  value : Text
  unit : ImageUnit

/-- Rules between the rows of a table, each followed by blanks. -/
abbrev TableRules := List (Text × List Blank)

mutual
/-- The parts of a document. -/
inductive Prose where
  /-- words, commas, and blanks after them -/
  | text (items : List TextItem)
  /-- `'` -/
  | apostrophe
  /-- a punctuation mark: one of `( ) [ ] ~ / " ; * @` -/
  | sign (c : Char)
  /-- `\\` -/
  | newline
  /-- a command without arguments: `\LaTeX` or `\%` -/
  | symbol (name : Text)
  /-- `{…}` -/
  | group (d : Doc)
  /-- a command with arguments: `\textbf{…}` -/
  | command (name : Text) (args : DocArgs)
  /-- a formula -/
  | formula (m : Marks) (f : Formula)
  /-- an environment of formulas: `\begin{align}…&…\\…\end{align}` -/
  | equations (name : Text) (args : Arguments) (body : Cells)
  /-- `\label{…}` -/
  | label (l : Text)
  /-- `\item` -/
  | item
  /-- a list, or another environment of prose: `\begin{itemize}…\end{itemize}` -/
  | environment (name : Text) (d : Doc)
  /-- `\includegraphics[width=0.5\textwidth]{dir/file.png}`; the name of the file is given by the parts between slashes -/
  | image (opts : List ImageOption) (file : List Text)
  /-- `\textcolor[rgb]{1,0,0}{…}` or `\colorbox{red}{…}` -/
  | colored (name : Text) (model : Option Text) (color body : Doc)
  /-- `\begin{tabular}{l|c}…\end{tabular}`, with rules after the last row -/
  | table (name cols : Text) (fill : List Blank) (cells : TableCells) (rules : TableRules)
  /-- `\begin{figure}[h]…\end{figure}`: the content, with a caption and other marks before or after it -/
  | figure (name : Text) (opt : Option Text) (fill : List Blank) (head : FigMarks) (ps : Proses) (tail : FigMarks)
/-- A document: blanks, and parts. -/
inductive Doc where
  | mk (lead : List Blank) (ps : Proses)
/-- Parts, one after the other, each followed by blanks. -/
inductive Proses where
  | nil
  | cons (p : Prose) (fill : List Blank) (ps : Proses)
/-- The arguments of a command, in braces or square brackets. -/
inductive DocArgs where
  | nil
  | cons (square : Bool) (d : Doc) (as : DocArgs)
/-- The cells of a table, row by row: each has rules before its content, and ends with `&` or (the last one of a row) with `\\`, and
blanks. -/
inductive TableCells where
  | nil
  | cons (rules : TableRules) (ps : Proses) (ends : Bool) (fill : List Blank) (cs : TableCells)
/-- The marks of a figure, each followed by blanks. -/
inductive FigMarks where
  | nil
  | centering (fill : List Blank) (ms : FigMarks)
  | caption (d : Doc) (fill : List Blank) (ms : FigMarks)
  | label (l : Text) (fill : List Blank) (ms : FigMarks)
end

/-! ## The LaTeX text -/

def Blank.latex : Blank → Text
  | .blanks w => w
  | .lines w => w
  | .comment w => '%' :: w

def fillLatex : List Blank → Text
  | [] => []
  | b :: bs => b.latex ++ fillLatex bs

def TextItem.latex : TextItem → Text
  | .word w => w
  | .comma => [',']
  | .blank b => b.latex

def itemsLatex : List TextItem → Text
  | [] => []
  | i :: is => i.latex ++ itemsLatex is

def Marks.left : Marks → Text
  | .dollar => t!"$"
  | .dollars => t!"$$"
  | .parens => t!"\\("
  | .brackets => t!"\\["

def Marks.right : Marks → Text
  | .dollar => t!"$"
  | .dollars => t!"$$"
  | .parens => t!"\\)"
  | .brackets => t!"\\]"

def ImageUnit.latex : ImageUnit → Text
  | .plain => []
  | .width => t!"\\textwidth"
  | .height => t!"\\textheight"

def ImageOption.latex (o : ImageOption) : Text := o.lead ++ (o.key ++ '=' :: (o.value ++ o.unit.latex))

def optionsLatex : List ImageOption → Text
  | [] => []
  | [o] => o.latex
  | o :: p :: os => o.latex ++ ',' :: optionsLatex (p :: os)

def fileLatex : List Text → Text
  | [] => []
  | [w] => w
  | w :: v :: ws => w ++ '/' :: fileLatex (v :: ws)

/-- An optional argument in square brackets. -/
def optLatex : Option Text → Text
  | none => []
  | some w => '[' :: (w ++ [']'])

def rulesLatex : TableRules → Text
  | [] => []
  | (name, fill) :: rs => '\\' :: (name ++ (fillLatex fill ++ rulesLatex rs))

mutual
def Prose.latex : Prose → Text
  | .text is => itemsLatex is
  | .apostrophe => ['\'']
  | .sign c => [c]
  | .newline => t!"\\\\"
  | .symbol name => '\\' :: name
  | .group d => '{' :: (d.latex ++ ['}'])
  | .command name args => '\\' :: (name ++ args.latex)
  | .formula m f => m.left ++ (f.latex ++ m.right)
  | .equations name args body =>
    t!"\\begin" ++ '{' :: (name ++ '}' :: (args.latex ++ (body.latex ++ (t!"\\end" ++ '{' :: (name ++ ['}'])))))
  | .label l => t!"\\label{" ++ (l ++ ['}'])
  | .item => t!"\\item"
  | .environment name d => t!"\\begin" ++ '{' :: (name ++ '}' :: (d.latex ++ (t!"\\end" ++ '{' :: (name ++ ['}']))))
  | .image opts file => t!"\\includegraphics" ++ ((if opts.isEmpty then [] else '[' :: (optionsLatex opts ++ [']'])) ++ '{' :: (fileLatex file ++ ['}']))
  | .colored name model color body => '\\' :: (name ++ (optLatex model ++ '{' :: (color.latex ++ '}' :: '{' :: (body.latex ++ ['}']))))
  | .table name cols fill cells rules => t!"\\begin" ++ '{' :: (name ++ '}' :: '{' :: (cols ++ '}' :: (fillLatex fill ++ (cells.latex ++
    (rulesLatex rules ++ (t!"\\end" ++ '{' :: (name ++ ['}'])))))))
  | .figure name opt fill head ps tail => t!"\\begin" ++ '{' :: (name ++ '}' :: (optLatex opt ++ (fillLatex fill ++ (head.latex ++ (ps.latex ++
    (tail.latex ++ (t!"\\end" ++ '{' :: (name ++ ['}']))))))))
def Doc.latex : Doc → Text
  | .mk lead ps => fillLatex lead ++ ps.latex
def Proses.latex : Proses → Text
  | .nil => []
  | .cons p fill ps => p.latex ++ (fillLatex fill ++ ps.latex)
def DocArgs.latex : DocArgs → Text
  | .nil => []
  | .cons square d as => (if square then '[' else '{') :: (d.latex ++ (if square then ']' else '}') :: as.latex)
def TableCells.latex : TableCells → Text
  | .nil => []
  | .cons rules ps ends fill cs => rulesLatex rules ++ (ps.latex ++ ((if ends then t!"\\\\" else t!"&") ++ (fillLatex fill ++ cs.latex)))
def FigMarks.latex : FigMarks → Text
  | .nil => []
  | .centering fill ms => t!"\\centering" ++ (fillLatex fill ++ ms.latex)
  | .caption d fill ms => t!"\\caption{" ++ (d.latex ++ '}' :: (fillLatex fill ++ ms.latex))
  | .label l fill ms => t!"\\label{" ++ (l ++ '}' :: (fillLatex fill ++ ms.latex))
end

/-! ## The Typst text

The indentation of the source is dropped: that is, blanks at the start of a line.  `lineStart` says that the text before ends with a line
end.  (A mark or a command in between, or a comment, makes the blanks count again.)  Each line is indented anew, by two columns for each
list around it. -/

def Blank.typst (lists : Nat) (lineStart : Bool) : Blank → Text
  | .blanks w => if lineStart then [] else w
  | .lines w => w ++ spaces (2 * lists)
  | .comment _ => []

def Blank.isLines : Blank → Bool
  | .lines _ => true
  | _ => false

/-- Is the end of the blanks the start of a line? -/
def atLineStart (lineStart : Bool) : List Blank → Bool
  | [] => lineStart
  | b :: bs => atLineStart b.isLines bs

def fillTypst (lists : Nat) (lineStart : Bool) : List Blank → Text
  | [] => []
  | b :: bs => b.typst lists lineStart ++ fillTypst lists b.isLines bs

def TextItem.isLines : TextItem → Bool
  | .blank b => b.isLines
  | _ => false

def TextItem.typst (lists : Nat) (lineStart : Bool) : TextItem → Text
  | .word w => w
  | .comma => t!"\\,"
  | .blank b => b.typst lists lineStart

def itemsTypst (lists : Nat) (lineStart : Bool) : List TextItem → Text
  | [] => []
  | i :: is => i.typst lists lineStart ++ itemsTypst lists i.isLines is

def itemsAtLineStart (lineStart : Bool) : List TextItem → Bool
  | [] => lineStart
  | i :: is => itemsAtLineStart i.isLines is

mutual
/-- Does the part end at the start of a line?  (The end of an environment does not count.) -/
def Prose.endsLine : Prose → Bool
  | .text is => itemsAtLineStart false is
  | .environment _ d => d.endsLine
  | .table _ _ _ cells _ => cells.endsLine false
  | .figure _ _ fill head ps tail => tail.endsLine (ps.endsLine (head.endsLine (atLineStart false fill)))
  | _ => false
def Doc.endsLine : Doc → Bool
  | .mk lead ps => ps.endsLine (atLineStart false lead)
def Proses.endsLine (lineStart : Bool) : Proses → Bool
  | .nil => lineStart
  | .cons p fill ps => ps.endsLine (atLineStart p.endsLine fill)
/-- (The blanks around the contents of cells are dropped.) -/
def TableCells.endsLine (lineStart : Bool) : TableCells → Bool
  | .nil => lineStart
  | .cons _ ps _ _ cs => cs.endsLine (ps.endsLine lineStart)
def FigMarks.endsLine (lineStart : Bool) : FigMarks → Bool
  | .nil => lineStart
  | .centering fill ms => ms.endsLine (atLineStart lineStart fill)
  | .caption _ fill ms => ms.endsLine (atLineStart lineStart fill)
  | .label _ fill ms => ms.endsLine (atLineStart false fill)
end

/-- The name written for a command in prose. -/
def proseName (spec : CommandSpec) (name : Text) : Text :=
  if name = t!"textbf" then t!"#strong" else if name = t!"textit" then t!"#emph" else aliasOf spec name

/-- Formulas within a line, and formulas on their own. -/
def Marks.typst (m : Marks) (t : Text) : Text :=
  match m with
  | .dollar | .parens => t!"#math.equation(block: false, $" ++ t ++ t!"$);"
  | .dollars | .brackets => t!"$ " ++ t ++ t!" $"

/-- An item starts a new line, indented by the lists around that list. -/
def itemTypst (x : Place) : Text :=
  '\n' :: spaces (2 * (x.lists - 1)) ++ (if x.env = .itemize then t!"- " else t!"+ ")

/-- The place inside of an environment: its items are marked according to the innermost one. -/
def insidePlace (spec : CommandSpec) (x : Place) (name : Text) : Place :=
  match spec name with
  | some (.env sh) =>
    match sh.ctx with
    | .isItemize => ⟨x.mode, .itemize, x.lists + 1⟩
    | .isEnumerate => ⟨x.mode, .enumerate, x.lists + 1⟩
    | _ => ⟨x.mode, .none, x.lists⟩
  | _ => x

/-- The marks of lists are those of their items; another environment is a function with content. -/
def aroundTypst (spec : CommandSpec) (name t : Text) : Text :=
  match spec name with
  | some (.env sh) =>
    if sh.ctx = .isItemize ∨ sh.ctx = .isEnumerate then t else t!"#" ++ aliasOf spec name ++ t!"[" ++ t ++ t!"];"
  | _ => t

/-- Of the options, the width and the height are kept. -/
def ImageOption.typst (o : ImageOption) : Text :=
  if o.key = t!"width" ∨ o.key = t!"height" then
    o.key ++ t!": " ++ o.value ++ (if o.unit = .plain then [] else t!" * 100%") ++ t!", "
  else []

def optionsTypst : List ImageOption → Text
  | [] => []
  | o :: os => o.typst ++ optionsTypst os

/-- The function for a color command. -/
def colorName (spec : CommandSpec) (name : Text) : Text :=
  match spec name with
  | some (.cmd sh) => sh.alias.getD t!"mitexcolor"
  | _ => t!"mitexcolor"

def rulesTypst : TableRules → Text
  | [] => []
  | (name, _) :: rs =>
    (if name = t!"toprule" ∨ name = t!"bottomrule" then t!"table.hline(stroke: 1pt),\n" else t!"table.hline(stroke: .5pt),\n") ++ rulesTypst rs

/-- What is left of the marks in the content of a figure. -/
def FigMarks.typst (lists : Nat) (lineStart : Bool) : FigMarks → Text
  | .nil => []
  | .centering fill ms => fillTypst lists lineStart fill ++ ms.typst lists (atLineStart lineStart fill)
  | .caption _ fill ms => fillTypst lists lineStart fill ++ ms.typst lists (atLineStart lineStart fill)
  | .label _ fill ms => fillTypst lists false fill ++ ms.typst lists (atLineStart false fill)

def FigMarks.labels : FigMarks → List Text
  | .nil => []
  | .centering _ ms => ms.labels
  | .caption _ _ ms => ms.labels
  | .label l _ ms => l :: ms.labels

/-- The places inside of tables and figures. -/
def tablePlace (x : Place) : Place := ⟨x.mode, .table, x.lists⟩
def figurePlace (x : Place) : Place := ⟨x.mode, .figure, x.lists⟩

/-- The last caption counts. -/
def captionTypst (captions : List Text) : Text :=
  match captions.getLast? with
  | some t => t!"caption: [" ++ t ++ t!"],"
  | none => []

/-- So does the last label. -/
def labelTypst (labels : List Text) : Text :=
  match labels.getLast? with
  | some l => t!"<" ++ l ++ t!">"
  | none => []

mutual
def Prose.typst (spec : CommandSpec) (x : Place) : Prose → Text
  | .text is => itemsTypst x.lists false is
  | .apostrophe => ['\'']
  | .sign c => ['\\', c]
  | .newline => t!"\\ "
  | .symbol name => proseName spec name ++ t!" "
  | .group d => d.typst spec x
  | .command name args => proseName spec name ++ args.typst spec x ++ t!";"
  | .formula m f => m.typst (f.typst spec)
  | .equations name args body => t!"$ " ++ (Atom.environment name args body).typst spec ++ t!" $"
  | .label l => t!"<" ++ l ++ t!">"
  | .item => itemTypst x
  | .environment name d => aroundTypst spec name (d.typst spec (insidePlace spec x name))
  | .image opts file => t!"#image(" ++ optionsTypst opts ++ t!"\"" ++ fileLatex file ++ t!"\")"
  | .colored name model color body => colorName spec name ++ t!"(" ++ (match model with
      | some m => t!"[" ++ m ++ t!"]"
      | none => t!"none") ++ t!", [" ++ color.typst spec x ++ t!"])[" ++ body.typst spec x ++ t!"];"
  | .table name cols _ cells rules => tableStart (aliasOf spec name) cols ++ cells.typst spec (tablePlace x) ++ rulesTypst rules ++ t!");"
  | .figure name _ fill head ps tail =>
    t!"#" ++ aliasOf spec name ++ t!"(" ++ captionTypst (head.captions spec (figurePlace x) ++ tail.captions spec (figurePlace x)) ++ t!")["
    ++ (fillTypst x.lists false fill ++ head.typst x.lists (atLineStart false fill) ++ ps.typst spec (figurePlace x)
      ++ tail.typst x.lists (ps.endsLine (head.endsLine (atLineStart false fill))))
    ++ t!"];" ++ labelTypst tail.labels
def Doc.typst (spec : CommandSpec) (x : Place) : Doc → Text
  | .mk lead ps => fillTypst x.lists false lead ++ ps.typst spec x
def Proses.typst (spec : CommandSpec) (x : Place) : Proses → Text
  | .nil => []
  | .cons p fill ps => p.typst spec x ++ fillTypst x.lists p.endsLine fill ++ ps.typst spec x
def DocArgs.typst (spec : CommandSpec) (x : Place) : DocArgs → Text
  | .nil => []
  | .cons square d as => t!"[" ++ (if square then t!"\\[" ++ d.typst spec x ++ t!"\\]" else d.typst spec x) ++ t!"]" ++ as.typst spec x
def TableCells.typst (spec : CommandSpec) (x : Place) : TableCells → Text
  | .nil => []
  | .cons rules ps ends _ cs => rulesTypst rules ++ t!"[" ++ ps.typst spec x ++ t!"]" ++ (if ends then t!",\n" else t!", ") ++ cs.typst spec x
/-- The captions. -/
def FigMarks.captions (spec : CommandSpec) (x : Place) : FigMarks → List Text
  | .nil => []
  | .centering _ ms => ms.captions spec x
  | .caption d _ ms => d.typst spec x :: ms.captions spec x
  | .label _ _ ms => ms.captions spec x
end

/-! ## Which documents are meant

The conditions say that no two parts run together; `rest` is the text that follows. -/

def BlankChar (c : Char) : Prop := isWs c = true ∧ c ≠ '\n' ∧ c ≠ '\r'
def LineChar (c : Char) : Prop := c = '\n' ∨ c = '\r'

/-- The text does not start with such a character. -/
def NotFirst (p : Char → Prop) (rest : Text) : Prop := ∀ c, rest.head? = some c → ¬ p c

def Blank.Ok (rest : Text) : Blank → Prop
  | .blanks w => w ≠ [] ∧ (∀ c ∈ w, BlankChar c) ∧ NotFirst BlankChar rest
  | .lines w => w ≠ [] ∧ (∀ c ∈ w, LineChar c) ∧ NotFirst LineChar rest
  | .comment w => (∀ c ∈ w, ¬ LineChar c) ∧ NotFirst (fun c => ¬ LineChar c) rest

def FillOk (rest : Text) : List Blank → Prop
  | [] => True
  | b :: bs => b.Ok (fillLatex bs ++ rest) ∧ FillOk rest bs

def TextItem.Ok (rest : Text) : TextItem → Prop
  | .word w => w ≠ [] ∧ (∀ c ∈ w, WordChar c) ∧ NotFirst WordChar rest
  | .comma => True
  | .blank b => b.Ok rest

def ItemsOk (rest : Text) : List TextItem → Prop
  | [] => True
  | i :: is => i.Ok (itemsLatex is ++ rest) ∧ ItemsOk rest is

/-- A run of text starts with a word or a comma. -/
def startsRun : List TextItem → Bool
  | .word _ :: _ => true
  | .comma :: _ => true
  | _ => false

def Prose.isText : Prose → Bool
  | .text _ => true
  | _ => false

def Proses.startsText : Proses → Bool
  | .nil => false
  | .cons p _ _ => p.isText

/-- A closing square bracket among the parts. -/
def Prose.hasBracket : Prose → Bool
  | .sign c => decide (c = ']')
  | _ => false

def Proses.hasBracket : Proses → Bool
  | .nil => false
  | .cons p _ ps => p.hasBracket || ps.hasBracket

def Doc.hasBracket : Doc → Bool
  | .mk _ ps => ps.hasBracket

def DocArgs.kinds : DocArgs → List ArgKind
  | .nil => []
  | .cons square _ as => (if square then .bracket else .term) :: as.kinds

/-- Does the pattern fit arguments of these kinds? -/
def FitsKinds (p : ArgPattern) (ks : List ArgKind) : Prop :=
  p ≠ .none ∧ p ≠ .greedy ∧ TakesExactly p [] ks ∧ (ArgKind.bracket ∈ ks → Grammar.seesGroup p .bracket = true)

/-- The commands `\item` and `\label` are special. -/
def KnownCommand (spec : CommandSpec) (name : Text) (p : ArgPattern) : Prop := ∃ sh, spec name = some (.cmd sh) ∧ sh.args = .right p

/-- A word. -/
def IsWord (w : Text) : Prop := w ≠ [] ∧ ∀ c ∈ w, WordChar c

/-- Part of a word that is the option of an image. -/
def OptionWord (w : Text) : Prop := w ≠ [] ∧ ∀ c ∈ w, WordChar c ∧ c ≠ '='

/-- The command has no arguments (it need not be known). -/
def TakesNothing (spec : CommandSpec) (name : Text) : Prop := ∀ sh, spec name = some (.cmd sh) → sh.args = .right .none

def ImageUnit.Ok (spec : CommandSpec) : ImageUnit → Prop
  | .plain => True
  | .width => TakesNothing spec t!"textwidth"
  | .height => TakesNothing spec t!"textheight"

def ImageOption.Ok (spec : CommandSpec) (o : ImageOption) : Prop :=
  (∀ c ∈ o.lead, BlankChar c) ∧ OptionWord o.key ∧ OptionWord o.value ∧ o.unit.Ok spec

def ruleNames : List Text := [t!"hline", t!"toprule", t!"midrule", t!"bottomrule"]

/-- The pattern fits no arguments, if no bracket follows. -/
def FitsNothing (p : ArgPattern) : Prop :=
  p ≠ .none ∧ p ≠ .greedy ∧ p ≠ .fixedLen 0 ∧ ∀ k, Grammar.takes globPrefix p [] k = true → k = .bracket

def NoComment (fill : List Blank) : Prop := ∀ b ∈ fill, ∀ w, b ≠ .comment w

/-- Rules, without arguments. -/
def RulesOk (spec : CommandSpec) (rest : Text) : TableRules → Prop
  | [] => True
  | (name, fill) :: rs => name ∈ ruleNames ∧
    (KnownCommand spec name .none ∨ (∃ p, KnownCommand spec name p ∧ FitsNothing p) ∧ NotFirst (· = '[') (rulesLatex rs ++ rest)) ∧
    NameEnds (fillLatex fill ++ (rulesLatex rs ++ rest)) ∧ FillOk (rulesLatex rs ++ rest) fill ∧ NoComment fill ∧ RulesOk spec rest rs

/-- Rules do not stand in the contents of cells, captions not in those of figures. -/
def NameFits (x : Place) (name : Text) : Prop :=
  (x.env = .table → name ∉ ruleNames) ∧ (x.env = .figure → name ≠ t!"caption" ∧ name ≠ t!"centering")

/-- In the contents of cells and figures, an apostrophe stands after something it can be attached to (`based`). -/
def Prose.primed (based : Bool) : Prose → Bool
  | .apostrophe => based
  | _ => true

/-- Can an apostrophe be attached? -/
def Prose.isBase : Prose → Bool
  | .apostrophe => false
  | .sign _ => false
  | .newline => false
  | .formula _ _ => false
  | _ => true

def Proses.primed (based : Bool) : Proses → Bool
  | .nil => true
  | .cons p _ ps => p.primed based && ps.primed (based || p.isBase)

mutual
/-- The commands are those of the specification, with arguments as it says, and items stand in lists. -/
def Prose.Ok (spec : CommandSpec) (x : Place) (rest : Text) : Prose → Prop
  | .text is => startsRun is = true ∧ ItemsOk rest is
  | .apostrophe => True
  | .sign c => c ∈ signs
  | .newline => x.env ≠ .table
  | .symbol name => SymbolOk spec name ∧ NameFits x name ∧ (Lettered name → NameEnds rest)
  | .group d => d.Ok spec x ('}' :: rest)
  | .command name args => PlainName name ∧ NameFits x name ∧ args.kinds ≠ [] ∧ (∃ p, KnownCommand spec name p ∧ FitsKinds p args.kinds) ∧
    proseName spec name ≠ t!"substack" ∧ args.Ok spec x rest
  | .formula m f => f.Ok spec ∧ (m = .dollar → f.latex ≠ [] ∧ NotFirst (· = '$') rest)
  | .equations name args body => (Atom.environment name args body).Ok spec
  | .label l => KnownCommand spec t!"label" (.fixedLen 1) ∧ (x.env = .none ∨ x.env = .itemize ∨ x.env = .enumerate) ∧ IsWord l
  | .item => KnownCommand spec t!"item" .none ∧ (x.env = .itemize ∨ x.env = .enumerate) ∧ 0 < x.lists ∧ NameEnds rest
  | .environment name d => EnvName name ∧ defaultMacros name = none ∧
    (∃ sh, spec name = some (.env sh) ∧ (sh.ctx = .isItemize ∨ sh.ctx = .isEnumerate ∨ sh.ctx = .none) ∧ sh.args = .none) ∧
    d.Ok spec (insidePlace spec x name) (t!"\\end" ++ '{' :: (name ++ '}' :: rest))
  | .image opts file => (∃ p, KnownCommand spec t!"includegraphics" p ∧ FitsKinds p ((if opts.isEmpty then [] else [.bracket]) ++ [.term])) ∧
    (∀ o ∈ opts, o.Ok spec) ∧ file ≠ [] ∧ ∀ w ∈ file, IsWord w
  | .colored name model color body => (name = t!"textcolor" ∨ name = t!"colorbox") ∧
    (∃ p, KnownCommand spec name p ∧ FitsKinds p ((if model.isSome then [.bracket] else []) ++ [.term, .term])) ∧
    (∀ m, model = some m → IsWord m) ∧ color.Ok spec x ('}' :: '{' :: (body.latex ++ '}' :: rest)) ∧ body.Ok spec x ('}' :: rest)
  | .table name cols fill cells rules => EnvName name ∧ defaultMacros name = none ∧
    (∃ sh, spec name = some (.env sh) ∧ sh.ctx = .isTable ∧ FitsKinds sh.args [.term]) ∧ cols ≠ [] ∧ (∀ c ∈ cols, isColumnChar c) ∧
    FillOk (cells.latex ++ (rulesLatex rules ++ (t!"\\end" ++ '{' :: (name ++ '}' :: rest)))) fill ∧ NoComment fill ∧
    cells.Ok spec (tablePlace x) (rulesLatex rules ++ (t!"\\end" ++ '{' :: (name ++ '}' :: rest))) ∧
    RulesOk spec (t!"\\end" ++ '{' :: (name ++ '}' :: rest)) rules
  | .figure name opt fill head ps tail => EnvName name ∧ defaultMacros name = none ∧
    (∃ sh, spec name = some (.env sh) ∧ sh.ctx = .isFigure ∧
      (opt = none → FitsNothing sh.args ∧
        NotFirst (· = '[') (head.latex ++ (ps.latex ++ (tail.latex ++ (t!"\\end" ++ '{' :: (name ++ '}' :: rest)))))) ∧
      ∀ w, opt = some w → FitsKinds sh.args [.bracket] ∧ IsWord w) ∧
    FillOk (head.latex ++ (ps.latex ++ (tail.latex ++ (t!"\\end" ++ '{' :: (name ++ '}' :: rest))))) fill ∧
    head.Ok spec (figurePlace x) (ps.latex ++ (tail.latex ++ (t!"\\end" ++ '{' :: (name ++ '}' :: rest)))) ∧ head.labels = [] ∧
    ps.Ok spec (figurePlace x) (tail.latex ++ (t!"\\end" ++ '{' :: (name ++ '}' :: rest))) ∧ ps.primed false = true ∧
    tail.Ok spec (figurePlace x) (t!"\\end" ++ '{' :: (name ++ '}' :: rest))
def Doc.Ok (spec : CommandSpec) (x : Place) (rest : Text) : Doc → Prop
  | .mk lead ps => FillOk (ps.latex ++ rest) lead ∧ ps.Ok spec x rest
def Proses.Ok (spec : CommandSpec) (x : Place) (rest : Text) : Proses → Prop
  | .nil => True
  | .cons p fill ps => p.Ok spec x (fillLatex fill ++ (ps.latex ++ rest)) ∧ FillOk (ps.latex ++ rest) fill ∧
    (p.isText = true → fill = [] ∧ ps.startsText = false) ∧ ps.Ok spec x rest
def DocArgs.Ok (spec : CommandSpec) (x : Place) (rest : Text) : DocArgs → Prop
  | .nil => True
  | .cons square d as => d.Ok spec x ((if square then ']' else '}') :: (as.latex ++ rest)) ∧ (square = true → d.hasBracket = false) ∧
    as.Ok spec x rest
def TableCells.Ok (spec : CommandSpec) (x : Place) (rest : Text) : TableCells → Prop
  | .nil => True
  | .cons rules ps ends fill cs =>
    RulesOk spec (ps.latex ++ ((if ends then t!"\\\\" else t!"&") ++ (fillLatex fill ++ (cs.latex ++ rest)))) rules ∧
    ps.Ok spec x ((if ends then t!"\\\\" else t!"&") ++ (fillLatex fill ++ (cs.latex ++ rest))) ∧ ps.primed false = true ∧
    FillOk (cs.latex ++ rest) fill ∧ NoComment fill ∧ cs.Ok spec x rest
def FigMarks.Ok (spec : CommandSpec) (x : Place) (rest : Text) : FigMarks → Prop
  | .nil => True
  | .centering fill ms => KnownCommand spec t!"centering" .none ∧ NameEnds (fillLatex fill ++ (ms.latex ++ rest)) ∧ FillOk (ms.latex ++ rest) fill ∧
    ms.Ok spec x rest
  | .caption d fill ms => KnownCommand spec t!"caption" (.fixedLen 1) ∧ d.Ok spec x ('}' :: (fillLatex fill ++ (ms.latex ++ rest))) ∧
    FillOk (ms.latex ++ rest) fill ∧ ms.Ok spec x rest
  | .label l fill ms => KnownCommand spec t!"label" (.fixedLen 1) ∧ IsWord l ∧ FillOk (ms.latex ++ rest) fill ∧ ms.Ok spec x rest
end

end Mitex
