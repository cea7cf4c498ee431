/-
Vocabulary for the exact output of the converter (C61): for every kind of element a template, which says what text is written, and
where the results of converting the parts of the element are inserted.  Written from the documentation and the Typst package that
reads the output; no function of the converter model is used (the types `Mode`, `LEnv` are shared).
-/
import Verif.Spec.Table

namespace Mitex

/-- What the converter remembers from one element to the next: a label that waits for the end of its environment, and whether the next
blank is dropped (it is the indentation of a source line). -/
structure Mem where
  label : Option Text
  skip : Bool
  deriving DecidableEq, Repr

/-- What stands in a template. -/
inductive Piece where
  /-- The text itself. -/
  | text (t : Text)
  /-- The result of converting the element in the place. -/
  | part (x : Place) (e : Elem)
  /-- The blank, unless it is dropped. -/
  | blank (e : Elem)
  /-- From here a blank is dropped. -/
  | dropBlank
  /-- Nothing, but the label waits from here. -/
  | keepLabel (l : Text)
  /-- The waiting label, if any. -/
  | putLabel

/-! ## Failures

An element that cannot be converted is refused with a message, or the converter crashes: `.error (.error message)` and
`.error .panic`. -/

/-- The conversion is refused with a message. -/
def refuse {α : Type} (message : Text) : Res α := .error (.error message)

/-- The converter crashes. -/
def crash {α : Type} : Res α := .error .panic

/-- What is not there makes the converter crash. -/
def orCrash {α : Type} : Option α → Res α
  | some a => .ok a
  | none => crash

/-- A text in quotes, as in Rust: quotes, backslashes and the usual control characters are escaped. -/
def quoted (t : Text) : Text :=
  t!"\"" ++ (t.flatMap fun c =>
    match [('"', t!"\\\""), ('\\', t!"\\\\"), ('\n', t!"\\n"), ('\r', t!"\\r"), ('\t', t!"\\t")].lookup c with
    | some u => u
    | none => [c]) ++ t!"\""

/-! ## Auxiliary -/

/-- The text without its first character, which must be a single byte (the backslash of a command). -/
def afterBackslash (t : Text) : Option Text :=
  match t with
  | c :: n => if utf8Len c = 1 then some n else none
  | [] => none

/-- The text without its first and last character, which must be single bytes (the delimiters of an argument). -/
def undelimited (t : Text) : Option Text :=
  match t, t.getLast? with
  | c :: d :: r, some l => if utf8Len c = 1 ∧ utf8Len l = 1 then some (d :: r).dropLast else none
  | _, _ => none

/-- The name of a command, without the backslash. -/
def bareName (e : Elem) : Option Text := e.cmdName.bind afterBackslash

/-- All elements, one after the other, in the same place. -/
def each (x : Place) (es : List Elem) : List Piece := es.map fun c => .part x c

/-- The elements, with a comma after each element of kind `k`, but not after the last element. -/
def commaList (k : Kind) (x : Place) : List Elem → List Piece
  | [] => []
  | [a] => [.part x a]
  | a :: b :: as => .part x a :: ((if a.kind = k then [.text t!","] else []) ++ commaList k x (b :: as))

/-- Only in this mode. -/
def inMode (m : Mode) (x : Place) (ps : List Piece) : List Piece := if x.mode = m then ps else []

/-! ## Tokens -/

/-- The punctuation that is written with a backslash. -/
def escapedPunctuation : List (Kind × Char) := [
  (.tokenComma, ','), (.tokenSlash, '/'), (.tokenCaret, '^'), (.tokenUnderscore, '_'), (.tokenHash, '#'), (.tokenAsterisk, '*'),
  (.tokenAtSign, '@'), (.tokenDitto, '"'), (.tokenSemicolon, ';'), (.tokenLParen, '('), (.tokenRParen, ')'),
  (.tokenLBracket, '['), (.tokenRBracket, ']')]

/-- Kinds of elements that are left out: the marks of groups and formulas, and comments. -/
def isSilent (k : Kind) : Bool :=
  decide (k ∈ [Kind.tokenLBrace, .tokenRBrace, .tokenDollar, .tokenBeginMath, .tokenEndMath, .tokenComment, .itemBlockComment])

/-- Elements that are just their parts. -/
def isContainer (k : Kind) : Bool :=
  decide (k ∈ [Kind.itemLR, .clauseArgument, .scopeRoot, .itemText, .itemBracket, .itemParen])

/-- A word: in math mode a space follows each character. -/
def wordText (m : Mode) (t : Text) : Text :=
  match m with
  | .text => t
  | .math => t.flatMap fun c => [c, ' ']

/-- `&`: in matrices it separates cells. -/
def ampersandText (x : Place) : Text := if x.env = .matrix then t!"zws ," else t!"&"

/-- A double backslash: it ends the row of a matrix or a case, vanishes directly below a group in a formula, and else is a line break. -/
def newLineText (x : Place) : Text :=
  match x.env with
  | .matrix => t!"zws ;"
  | .cases => t!","
  | .mathCurlyGroup => []
  | _ => t!"\\ "

/-! ## Groups, delimiters, scripts -/

/-- A formula; it is refused if its delimiters do not match. -/
def formulaTemplate (x : Place) (e : Elem) : Res (List Piece) :=
  if e.isValidFormula then
    .ok (inMode .text x [.text (if e.isInline then t!"#math.equation(block: false, $" else t!"$ ")]
      ++ each { x with mode := .math } e.children
      ++ inMode .text x [.text (if e.isInline then t!"$);" else t!" $")])
  else refuse t!"formula is not valid"

/-- Blanks and the braces of a group. -/
def isEmptyGroupPart (e : Elem) : Bool :=
  decide (e.kind ∈ [Kind.tokenWhiteSpace, .tokenLineBreak, .tokenLBrace, .tokenRBrace])

/-- A group; an empty group in a formula needs a placeholder. -/
def curlyTemplate (x : Place) (e : Elem) : List Piece :=
  each ⟨x.mode, if x.mode = .math ∧ x.env ≠ .subStack then .mathCurlyGroup else x.env, x.lists⟩ e.children
  ++ inMode .math x (if e.children.all isEmptyGroupPart then [.text t!"zws "] else [])

/-- The empty delimiter. -/
def isDot (e : Elem) : Bool :=
  match e with
  | .token .tokenWord t => decide (t = t!".")
  | _ => false

/-- `\left` or `\right` with its delimiter. -/
def delimiterTemplate (x : Place) (e : Elem) : Res (List Piece) :=
  match e.children with
  | .token _ t :: ds =>
    (orCrash (afterBackslash t)).map fun name =>
      (if name = t!"left" then [.text t!"lr("] else [])
      ++ ds.flatMap (fun d => (if isDot d then [] else [.part x d]) ++ [.text t!" "])
      ++ (if name = t!"right" then [.text t!")"] else [])
  | _ => crash

/-- The token `_` or `^`. -/
def isScriptMark (e : Elem) : Bool := !e.isNode && decide (e.kind = .tokenUnderscore ∨ e.kind = .tokenCaret)

/-- A token of white space. -/
def isSpaceToken (e : Elem) : Bool := !e.isNode && decide (e.kind = .tokenWhiteSpace)

/-- A base with a script, in a formula: the script is put in parentheses; a missing base needs a placeholder. -/
def scriptTemplate (x : Place) (cs : List Elem) : List Piece :=
  let base := cs.takeWhile fun c => !isScriptMark c
  match cs.dropWhile fun c => !isScriptMark c with
  | [] => each x cs
  | mark :: script =>
    each x base ++ (if base.all isSpaceToken then [.text t!"zws"] else [])
    ++ [.text (mark.text ++ t!"(")] ++ each x script ++ [.text t!")"]

/-! ## Commands -/

/-- A new item of a list, indented by the lists around that list. -/
def itemTemplate (x : Place) : Res (List Piece) :=
  let start (mark : Text) : Res (List Piece) :=
    if x.lists = 0 then crash else .ok [.text (t!"\n" ++ List.replicate (2 * (x.lists - 1)) ' ' ++ mark)]
  match x.env with
  | .itemize => start t!"- "
  | .enumerate => start t!"+ "
  | _ => refuse t!"item command outside of itemize or enumerate"

/-- A label stands where it is in text, and after the environment otherwise. -/
def labelTemplate (x : Place) (e : Elem) : Res (List Piece) := do
  let a ← orCrash e.arguments.head?
  let l ← orCrash (undelimited a.text)
  if x.env = .none ∨ x.env = .itemize ∨ x.env = .enumerate then
    .ok (inMode .text x [.text (t!"<" ++ trim l ++ t!">")])
  else .ok [.keepLabel (trim l)]

/-- An argument that starts with another kind of group. -/
def startsOther (k : Kind) (a : Elem) : Bool :=
  match a.childNodes.head? with
  | some c => decide (c.kind ≠ k)
  | none => false

/-- The first argument that starts with a group of this kind, if any; the converter crashes if an argument before it has no group. -/
def groupArgument (k : Kind) (args : List Elem) : Res (Option Elem) :=
  match args.dropWhile (startsOther k) with
  | [] => .ok none
  | a :: _ => if a.childNodes.isEmpty then crash else .ok (some a)

/-- The text without the repetitions of `suf` at its end. -/
def withoutEnd (suf t : Text) : Text :=
  if _h : suf ≠ [] ∧ suf <:+ t then withoutEnd suf (t.take (t.length - suf.length)) else t
termination_by t.length
decreasing_by
  have h1 := _h.2.length_le
  have h2 : suf.length ≠ 0 := fun h0 => _h.1 (List.eq_nil_of_length_eq_zero h0)
  rw [List.length_take]
  omega

/-- A length: fractions of the text width or height are percentages. -/
def lengthText (v : Text) : Text :=
  if t!"\\textwidth" <:+ v then withoutEnd t!"\\textwidth" v ++ t!" * 100%"
  else if t!"\\textheight" <:+ v then withoutEnd t!"\\textheight" v ++ t!" * 100%"
  else v

/-- One option of an image: `width=` and `height=` are kept. -/
def imageOption (o : Text) : Text :=
  let ws := (trim o).splitOn '='
  let key := trim (ws.headD [])
  let value := if ws.length = 2 then trim (ws.getLastD []) else []
  if key = t!"width" ∨ key = t!"height" then key ++ t!": " ++ lengthText value ++ t!", " else []

/-- An image. -/
def imageTemplate (e : Elem) : Res (List Piece) := do
  let opt ← groupArgument .itemBracket e.arguments
  let file ← orCrash (← groupArgument .itemCurly e.arguments)
  let f ← orCrash (undelimited file.text)
  let o ← match opt with
    | some o => (orCrash (undelimited o.text)).map fun t => ((trim t).splitOn ',').flatMap imageOption
    | none => .ok []
  .ok [.text (t!"#image(" ++ o ++ t!"\"" ++ trim f ++ t!"\")")]

/-- The color model, in brackets before the color. -/
def colorModel (full : Text) (e : Elem) : Option Text :=
  if full = t!"\\color" then
    match e.arguments with
    | [] => none
    | a :: _ =>
      match a.children.dropWhile fun c => blankKind c.kind with
      | [] => none
      | b :: cs =>
        if b.kind = .tokenLBracket then
          some ((cs.takeWhile fun c => decide (c.kind ≠ .tokenRBracket)).flatMap Elem.text)
        else none
  else
    match e.arguments with
    | [] => none
    | a :: _ => if a.text.head? = some '[' ∧ a.text.getLast? = some ']' ∧ 2 ≤ byteLen a.text then some a.text.tail.dropLast else none

/-- The function that colors: the alias of the command. -/
def colorFunction (spec : CommandSpec) (full : Text) : Text :=
  match spec (if full.head? = some '\\' then full.tail else []) with
  | some (.cmd sh) => sh.alias.getD t!"mitexcolor"
  | _ => t!"mitexcolor"

/-- The color, which is text; black if it is missing. -/
def colorPiece (x : Place) (cp : List Elem) : Piece :=
  match cp with
  | [] => .text t!"black"
  | c :: _ => .part { x with mode := .text } c

/-- A color command. -/
def colorTemplate (spec : CommandSpec) (x : Place) (full : Text) (e : Elem) : Res (List Piece) :=
  if full = t!"\\color" ∧ e.arguments.isEmpty then crash
  else .ok (
    [.text (colorFunction spec full ++ t!"(" ++ (match colorModel full e with
      | some m => t!"[" ++ m ++ t!"]"
      | none => t!"none") ++ t!", [")]
    ++ [colorPiece x (coloredParts full e), .text t!"])["]
    ++ (coloredParts full e).tail.flatMap (fun b => inMode .math x [.text t!"$"] ++ [.part x b] ++ inMode .math x [.text t!"$"])
    ++ [.text t!"]"] ++ inMode .text x [.text t!";"])

/-- The arguments of a command written as `tn`: a symbol is followed by a space; the pieces of a greedy argument, and the arguments of a
function in a formula, are separated by commas; else each argument becomes a content block. -/
def argumentsTemplate (x : Place) (sh : CmdShape) (tn : Text) (args : List Elem) : Res (List Piece) :=
  match sh.args with
  | .right .none => .ok [.text t!" "]
  | .right .greedy =>
    match args with
    | .node _ cs :: _ => .ok ([.text t!"("] ++ commaList .itemCurly x cs ++ [.text t!")"])
    | _ => crash
  | _ =>
    if x.mode = .math ∧ tn.head? ≠ some '#' then .ok ([.text t!"("] ++ commaList .clauseArgument x args ++ [.text t!")"])
    else .ok ((args.filter fun a => decide (a.kind = .clauseArgument)).flatMap
        (fun a => [.text t!"[", .part { x with mode := .text } a, .text t!"]"]) ++ [.text t!";"])

/-- A command of the specification. -/
def normalTemplate (spec : CommandSpec) (x : Place) (name : Text) (e : Elem) : Res (List Piece) :=
  match spec name with
  | some (.cmd sh) =>
    let tn := writtenName x.mode name sh
    (argumentsTemplate ⟨x.mode, if tn = t!"substack" then .subStack else x.env, x.lists⟩ sh tn
      (e.children.filter fun c => decide (c.kind ≠ .clauseCommandName))).map fun ps => .text tn :: ps
  | _ => refuse (t!"unknown command: \\" ++ name)

/-- A command. -/
def commandTemplate (spec : CommandSpec) (x : Place) (e : Elem) : Res (List Piece) :=
  match e.cmdName, bareName e with
  | some full, some name =>
    if name = t!"item" then itemTemplate x
    else if name = t!"label" then labelTemplate x e
    else if name = t!"includegraphics" then imageTemplate e
    else if isColorCommand name then colorTemplate spec x full e
    else normalTemplate spec x name e
  | _, _ => crash

/-! ## Environments -/

/-- A math environment: its arguments are named `arg0`, `arg1`, …; in text it is a display formula. -/
def mathEnvTemplate (x : Place) (env : LEnv) (tn : Text) (e : Elem) : List Piece :=
  let y : Place := ⟨.math, env, x.lists⟩
  inMode .text x [.text t!"$ "] ++ [.text (tn ++ t!"(")]
  ++ e.envArguments.zipIdx.flatMap (fun a => [.text (t!"arg" ++ decimal a.2 ++ t!": "), .part y a.1, .text t!","])
  ++ each y (between e) ++ [.text t!")"] ++ inMode .text x [.text t!" $"]

/-- A figure: the caption first, then the rest. -/
def figureTemplate (x : Place) (tn : Text) (e : Elem) : Res (List Piece) :=
  let y : Place := ⟨x.mode, .figure, x.lists⟩
  if e.children.all fun c => decide (c.kind = .itemCmd → c.cmdName ≠ none ∧ (c.cmdName = some t!"\\caption" → ¬ c.arguments.isEmpty)) then
    .ok ([.text (t!"#" ++ tn ++ t!"(")]
      ++ (caption e).flatMap (fun c => [.text t!"caption: [", .part y c, .text t!"],"])
      ++ [.text t!")["] ++ each y ((between e).filter fun c => !isCommand t!"\\caption" c && !isCommand t!"\\centering" c)
      ++ [.text t!"];"])
  else crash

/-- The cells of a table, and the rest after the last separator: there a cell stays open. -/
def cellsTemplate (y : Place) (es : List Elem) : List Piece :=
  (cellsOf es).1.flatMap (fun c =>
    [.text (leadLines c.1 ++ t!"[")] ++ each y (cellContent c.1) ++ [.text (t!"]" ++ separatorText c.2)])
  ++ [.text (leadLines (cellsOf es).2)]
  ++ (if (cellContent (cellsOf es).2).isEmpty then [] else .text t!"[" :: each y (cellContent (cellsOf es).2))

/-- A table. -/
def tableTemplate (x : Place) (tn : Text) (e : Elem) : Res (List Piece) := do
  let arg ← orCrash e.envArguments.head?
  let a ← orCrash (undelimited arg.text)
  match (trim a).find? (fun c => decide (¬ isColumnChar c)) with
  | some c => refuse (t!"unknown alignment: " ++ [c])
  | none => .ok ([.text (tableStart tn (trim a))] ++ cellsTemplate ⟨x.mode, .table, x.lists⟩ (between e) ++ [.text t!");"])

/-- An environment; a waiting label is put after it in text, but not after lists. -/
def environmentTemplate (spec : CommandSpec) (x : Place) (e : Elem) : Res (List Piece) := do
  let n ← orCrash e.envName
  match spec (trim n) with
  | some (.env sh) =>
    let tn := sh.alias.getD (trim n)
    let put := inMode .text x [.putLabel]
    match sh.ctx with
    | .isItemize => .ok (each ⟨x.mode, .itemize, x.lists + 1⟩ (between e))
    | .isEnumerate => .ok (each ⟨x.mode, .enumerate, x.lists + 1⟩ (between e))
    | .isMath => .ok (mathEnvTemplate x .math tn e ++ put)
    | .isMatrix => .ok (mathEnvTemplate x .matrix tn e ++ put)
    | .isCases => .ok (mathEnvTemplate x .cases tn e ++ put)
    | .isFigure => (figureTemplate x tn e).map (· ++ put)
    | .isTable => (tableTemplate x tn e).map (· ++ put)
    | .none => .ok ([.text (t!"#" ++ tn ++ t!"[")] ++ each ⟨x.mode, .none, x.lists⟩ (between e) ++ [.text t!"];"] ++ put)
  | _ => refuse (t!"unknown environment: \\" ++ trim n)

/-! ## All elements -/

/-- The template for a token in a place. -/
def tokenTemplate (spec : CommandSpec) (x : Place) (k : Kind) (t : Text) : Res (List Piece) :=
  match k with
  | .tokenWord => .ok [.text (wordText x.mode t)]
  | .tokenWhiteSpace => .ok [.blank (.token k t)]
  | .tokenLineBreak => .ok [.text (t ++ List.replicate (2 * x.lists) ' '), .dropBlank]
  | .tokenCommandSym => do
    let name ← orCrash (afterBackslash t)
    match spec name with
    | some (.cmd sh) => .ok [.text (sh.alias.getD name)]
    | _ => refuse (t!"unknown command: \\" ++ name)
  | _ => crash

/-- The template for a node in a place. -/
def nodeTemplate (spec : CommandSpec) (x : Place) (k : Kind) (cs : List Elem) : Res (List Piece) :=
  let e := Elem.node k cs
  match k with
  | .itemFormula => formulaTemplate x e
  | .itemCurly => .ok (curlyTemplate x e)
  | .clauseLR => delimiterTemplate x e
  | .itemAttachComponent => .ok (if x.mode = .math then scriptTemplate x cs else each x cs)
  | .itemCmd => commandTemplate spec x e
  | .itemEnv => environmentTemplate spec x e
  | .itemTypstCode => .ok [.text e.text]
  | .tokenWhiteSpace => .ok [.blank e]
  | _ => if isContainer k then .ok (each x cs) else crash

/-- The template for an element in a place, or the failure if it cannot be converted. -/
def template (spec : CommandSpec) (x : Place) (e : Elem) : Res (List Piece) :=
  if isSilent e.kind then .ok []
  else match escapedPunctuation.lookup e.kind with
  | some c => .ok [.text ['\\', c]]
  | none =>
    match e.kind with
    | .tokenError => refuse (t!"error unexpected: " ++ quoted e.text)
    | .clauseCommandName => refuse t!"command name outside of command"
    | .itemBegin | .itemEnd => refuse t!"clauses outside of environment"
    | .tokenApostrophe => .ok [.text t!"'"]
    | .tokenTilde => .ok [.text (if x.mode = .math then t!"space.nobreak " else t!"\\~")]
    | .tokenAmpersand => .ok [.text (ampersandText x)]
    | .itemNewLine => .ok [.text (newLineText x)]
    | _ => match e with
      | .token k t => tokenTemplate spec x k t
      | .node k cs => nodeTemplate spec x k cs

mutual
/-- `Printed spec x e m t m'`: in the place `x`, with the memory `m`, the element `e` becomes the text `t`, and the memory is `m'` after
that.  Every element but white space is a start of text: blanks after it are kept. -/
inductive Printed (spec : CommandSpec) : Place → Elem → Mem → Text → Mem → Prop
  | mk {x : Place} {e : Elem} {ps : List Piece} {m m' : Mem} {t : Text} (h : template spec x e = .ok ps)
      (k : PrintedAll spec ps (if e.kind = .tokenWhiteSpace then m else { m with skip := false }) t m') : Printed spec x e m t m'
/-- The pieces of a template, one after the other. -/
inductive PrintedAll (spec : CommandSpec) : List Piece → Mem → Text → Mem → Prop
  | nil (m : Mem) : PrintedAll spec [] m [] m
  | text {ps : List Piece} {m m' : Mem} {u : Text} (t : Text) (k : PrintedAll spec ps m u m') :
      PrintedAll spec (.text t :: ps) m (t ++ u) m'
  | part {x : Place} {e : Elem} {ps : List Piece} {m m' m'' : Mem} {t u : Text} (h : Printed spec x e m t m')
      (k : PrintedAll spec ps m' u m'') : PrintedAll spec (.part x e :: ps) m (t ++ u) m''
  | blank {k : Kind} {t : Text} {ps : List Piece} {m m' : Mem} {u : Text} (h : m.skip = false) (r : PrintedAll spec ps m u m') :
      PrintedAll spec (.blank (.token k t) :: ps) m (t ++ u) m'
  | dropped {e : Elem} {ps : List Piece} {m m' : Mem} {u : Text} (h : m.skip = true)
      (r : PrintedAll spec ps { m with skip := false } u m') : PrintedAll spec (.blank e :: ps) m u m'
  | dropBlank {ps : List Piece} {m m' : Mem} {u : Text} (r : PrintedAll spec ps { m with skip := true } u m') :
      PrintedAll spec (.dropBlank :: ps) m u m'
  | keepLabel {l : Text} {ps : List Piece} {m m' : Mem} {u : Text} (r : PrintedAll spec ps { m with label := some l } u m') :
      PrintedAll spec (.keepLabel l :: ps) m u m'
  | putLabel {l : Text} {ps : List Piece} {m m' : Mem} {u : Text} (h : m.label = some l)
      (r : PrintedAll spec ps { m with label := none } u m') : PrintedAll spec (.putLabel :: ps) m (t!"<" ++ l ++ t!">" ++ u) m'
  | noLabel {ps : List Piece} {m m' : Mem} {u : Text} (h : m.label = none) (r : PrintedAll spec ps m u m') :
      PrintedAll spec (.putLabel :: ps) m u m'
end

mutual
/-- `Failed spec x e m f`: in the place `x`, with the memory `m`, the conversion of the element `e` fails with `f`: it has no template,
or one of the pieces fails, and those before it do not. -/
inductive Failed (spec : CommandSpec) : Place → Elem → Mem → Stop → Prop
  | here {x : Place} {e : Elem} {m : Mem} {f : Stop} (h : template spec x e = .error f) : Failed spec x e m f
  | inside {x : Place} {e : Elem} {ps : List Piece} {m : Mem} {f : Stop} (h : template spec x e = .ok ps)
      (k : FailedAll spec ps (if e.kind = .tokenWhiteSpace then m else { m with skip := false }) f) : Failed spec x e m f
/-- One of the pieces fails, after those before it have been written. -/
inductive FailedAll (spec : CommandSpec) : List Piece → Mem → Stop → Prop
  | later {p : Piece} {ps : List Piece} {m m' : Mem} {t : Text} {f : Stop} (h : PrintedAll spec [p] m t m')
      (k : FailedAll spec ps m' f) : FailedAll spec (p :: ps) m f
  | part {x : Place} {e : Elem} {ps : List Piece} {m : Mem} {f : Stop} (h : Failed spec x e m f) : FailedAll spec (.part x e :: ps) m f
  | blank {k : Kind} {cs : List Elem} {ps : List Piece} {m : Mem} (h : m.skip = false) :
      FailedAll spec (.blank (.node k cs) :: ps) m .panic
end

end Mitex
