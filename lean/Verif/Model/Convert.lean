/-
Model of crates/mitex/src/converter.rs.

The formatter `f` is the field `out` of the state.  Functions take the converter `C` for nested
elements as an argument; it is tied by recursion on the height of the tree at the end.
-/
import Verif.Model.Parser
import Verif.Model.Engine

namespace Mitex

/-- converter.rs:15-20 `LaTeXMode`. -/
inductive Mode where
  | text | math
  deriving DecidableEq, Repr

/-- converter.rs:22-37 `LaTeXEnv`. -/
inductive LEnv where
  | none | figure | table | itemize | enumerate | math | matrix | cases | subStack | mathCurlyGroup
  deriving DecidableEq, Repr

/-- converter.rs:39-48 `Converter`, with the text written to the formatter so far. -/
structure CState where
  mode : Mode
  env : LEnv
  indent : Nat
  label : Option Text
  skip : Bool
  out : Text
  deriving DecidableEq, Repr

/-- converter.rs:51-59 `Converter::new`. -/
def CState.new (m : Mode) : CState :=
  { mode := m, env := .none, indent := 0, label := none, skip := true, out := [] }

namespace CState

/-- `f.write_str`, `f.write_char`, `write!`. -/
def write (t : Text) (s : CState) : CState := { s with out := s.out ++ t }

/-- Environments that indent: the `matches!` of converter.rs:76 and 83. -/
def isList : LEnv → Bool
  | .itemize | .enumerate => true
  | _ => false

/-- converter.rs:72-80 `enter_env` (the previous environment is kept by the caller). -/
def enterEnv (e : LEnv) (s : CState) : CState :=
  { s with env := e, indent := if isList e then s.indent + 2 else s.indent }

/-- converter.rs:82-87 `exit_env`; `indent -= 2` panics on underflow. -/
def exitEnv (prev : LEnv) (s : CState) : Res CState :=
  if isList s.env then
    if 2 ≤ s.indent then .ok { s with env := prev, indent := s.indent - 2 } else .error .panic
  else .ok { s with env := prev }

/-- converter.rs:61-70 `enter_mode`, `exit_mode`. -/
def setMode (m : Mode) (s : CState) : CState := { s with mode := m }

end CState

/-! ### Text helpers -/

/-- A `ConvertError::Str`. -/
def failWith {α : Type} (msg : Text) : Res α := .error (.error msg)

/-- Decimal digits of a number (`format!("{}", n)`); `fuel` ≥ number of digits. -/
def natDigits : Nat → Nat → Text
  | 0, _ => []
  | fuel + 1, n =>
    if n < 10 then [Char.ofNat (48 + n)]
    else natDigits fuel (n / 10) ++ [Char.ofNat (48 + n % 10)]

/-- `format!("{}", n)`. -/
def natText (n : Nat) : Text := natDigits (n + 1) n

/-- `format!("{:?}", text)`: quoted, with the escapes of quotes, backslashes and the usual control
characters.  (Simplified: other unprintable characters, which Rust writes as `\u{..}`, are kept.) -/
def debugText (t : Text) : Text :=
  '"' :: (t.map fun c =>
    if c = '"' then ['\\', '"'] else if c = '\\' then ['\\', '\\']
    else if c = '\n' then ['\\', 'n'] else if c = '\r' then ['\\', 'r']
    else if c = '\t' then ['\\', 't'] else [c]).flatten ++ ['"']

/-- `&t[1..(t.len() - 1)]`; a panic when the text is shorter than two bytes or off a boundary. -/
def stripEnds (t : Text) : Res Text :=
  if byteLen t < 2 then .error .panic
  else match takeBytes (byteLen t - 1) t with
    | none => .error .panic
    | some t' => match dropBytes 1 t' with
      | none => .error .panic
      | some t'' => .ok t''

/-- `&name[1..]`. -/
def dropOne (t : Text) : Res Text :=
  match dropBytes 1 t with
  | none => .error .panic
  | some t => .ok t

/-- `str::split(c)`. -/
def splitChar (c : Char) : Text → List Text
  | [] => [[]]
  | d :: ds =>
    if d = c then [] :: splitChar c ds
    else match splitChar c ds with
      | [] => [[d]]
      | w :: ws => (d :: w) :: ws

/-- `str::ends_with`. -/
def endsWith (suf t : Text) : Bool := suf.isSuffixOf t

/-- `str::trim_end_matches` (for a non-empty suffix, at most `fuel` removals). -/
def trimEndMatches (suf : Text) : Nat → Text → Text
  | 0, t => t
  | n + 1, t => if endsWith suf t then trimEndMatches suf n (t.take (t.length - suf.length)) else t

/-! ### Elements -/

/-- `elem.as_node().unwrap().children_with_tokens()`. -/
def asNode : Elem → Res (List Elem)
  | .node _ cs => .ok cs
  | .token .. => .error .panic

/-- `elem.as_token().unwrap().text()`. -/
def asToken : Elem → Res Text
  | .token _ t => .ok t
  | .node .. => .error .panic

/-- `CmdItem::cast(elem.as_node().unwrap()).unwrap().name_tok().unwrap().text()`; the callers have
checked the kind `ItemCmd`. -/
def cmdNameOf (e : Elem) : Res Text :=
  match e with
  | .token .. => .error .panic
  | .node .. => match e.cmdName with
    | none => .error .panic
    | some n => .ok n

/-- The type of the element converter `Converter::convert`. -/
abbrev ConvFn := Elem → CState → Res CState

/-- `for child in .. { self.convert(f, child, spec)?; }`. -/
def convList (C : ConvFn) : List Elem → CState → Res CState
  | [], s => .ok s
  | e :: es, s => do
    let s ← C e s
    convList C es s

/-- `matches!(child.kind(), ItemBegin | ItemEnd)`. -/
def isBeginEnd (e : Elem) : Bool :=
  match e.kind with
  | .itemBegin | .itemEnd => true
  | _ => false

/-- converter.rs:296-327 `convert_formula`. -/
def convFormula (C : ConvFn) (e : Elem) (s : CState) : Res CState := do
  let cs ← asNode e
  if !e.isValidFormula then failWith t!"formula is not valid"
  else do
    let s := if s.mode = .text then
        (if e.isInline then s.write t!"#math.equation(block: false, $"
         else s.write t!"$ ")
      else s
    let prev := s.mode
    let s ← convList C cs (s.setMode .math)
    let s := s.setMode prev
    .ok (if s.mode = .text then
        (if e.isInline then s.write t!"$);" else s.write t!" $")
      else s)

/-- The kinds that do not count as content of a curly group (converter.rs:347-352). -/
def isBlankKind : Kind → Bool
  | .tokenWhiteSpace | .tokenLineBreak | .tokenLBrace | .tokenRBrace => true
  | _ => false

/-- converter.rs:329-366 `convert_curly_group`. -/
def convCurly (C : ConvFn) (e : Elem) (s : CState) : Res CState := do
  let cs ← asNode e
  let enter := decide (s.mode = .math ∧ s.env ≠ .subStack)
  let prev := s.env
  let s ← convList C cs (if enter then s.enterEnv .mathCurlyGroup else s)
  if s.mode = .math then
    let s := if cs.all fun c => isBlankKind c.kind then s.write t!"zws " else s
    if enter then s.exitEnv prev else .ok s
  else .ok s

/-- converter.rs:389-396: a delimiter; the empty delimiter `.` is skipped. -/
def convLRArg (C : ConvFn) (a : Elem) (s : CState) : Res CState :=
  match a with
  | .token .tokenWord ['.'] => .ok s
  | a => C a s

/-- converter.rs:388-398, the loop of `convert_clause_lr`. -/
def convLRArgs (C : ConvFn) : List Elem → CState → Res CState
  | [], s => .ok s
  | a :: as, s => do
    let s ← convLRArg C a s
    convLRArgs C as (s.write [' '])

/-- converter.rs:368-404 `convert_clause_lr`. -/
def convClauseLR (C : ConvFn) (e : Elem) (s : CState) : Res CState := do
  let cs ← asNode e
  match cs with
  | [] => .error .panic
  | hd :: args => do
    let t ← asToken hd
    let name ← dropOne t
    let s := if name = t!"left" then s.write t!"lr(" else s
    let s ← convLRArgs C args s
    .ok (if name = t!"right" then s.write [')'] else s)

/-- converter.rs:416-438, the loop of `convert_attach_component` in math mode; the result says whether
the script mark has not been seen (`first`). -/
def convAttachLoop (C : ConvFn) : List Elem → Bool → Bool → CState → Res (Bool × CState)
  | [], _, first, s => .ok (first, s)
  | c :: cs, based, first, s =>
    if first then
      match c with
      | .token .tokenUnderscore t | .token .tokenCaret t =>
        let s := if based then s else s.write t!"zws"
        convAttachLoop C cs based false ((s.write t).write ['('])
      | .token .tokenWhiteSpace _ => do
        let s ← C c s
        convAttachLoop C cs based true s
      | _ => do
        let s ← C c s
        convAttachLoop C cs true true s
    else do
      let s ← C c s
      convAttachLoop C cs based false s

/-- converter.rs:406-448 `convert_attach_component`. -/
def convAttach (C : ConvFn) (e : Elem) (s : CState) : Res CState := do
  let cs ← asNode e
  if s.mode = .math then do
    let (first, s) ← convAttachLoop C cs false true s
    .ok (if first then s else s.write [')'])
  else convList C cs s

/-- converter.rs:450-469 `convert_command_sym`. -/
def convCommandSym (spec : CommandSpec) (e : Elem) (s : CState) : Res CState := do
  let t ← asToken e
  let name ← dropOne t
  match getCmd spec name with
  | none => failWith (t!"unknown command: \\" ++ name)
  | some sh => .ok (s.write (sh.alias.getD name))

/-- converter.rs:471-487 `convert_command_item`; `self.indent - 2` panics on underflow. -/
def convItem (s : CState) : Res CState :=
  if CState.isList s.env then
    if s.indent < 2 then .error .panic
    else
      let s := (s.write ['\n']).write (List.replicate (s.indent - 2) ' ')
      .ok (s.write (if s.env = .itemize then t!"- " else t!"+ "))
  else failWith t!"item command outside of itemize or enumerate"

/-- converter.rs:489-516 `convert_command_label`. -/
def convLabel (e : Elem) (s : CState) : Res CState :=
  match e.arguments with
  | [] => .error .panic
  | arg :: _ => do
    let l ← stripEnds arg.text
    let label := trim l
    match s.env with
    | .none | .itemize | .enumerate =>
      .ok (if s.mode = .text then ((s.write ['<']).write label).write ['>'] else s)
    | _ => .ok { s with label := some label }

/-- converter.rs:524-529, 530-538: find the first argument whose first child node has the given kind;
an argument without child nodes before it is a panic. -/
def findArg (k : Kind) : List Elem → Res (Option Elem)
  | [] => .ok none
  | a :: as =>
    match a.childNodes with
    | [] => .error .panic
    | c :: _ => if c.kind = k then .ok (some a) else findArg k as

/-- converter.rs:553-565: a key-value pair of the optional argument. -/
def keyValue (arg : Text) : Text × Text :=
  match splitChar '=' (trim arg) with
  | [k, v] => (trim k, trim v)
  | k :: _ => (trim k, [])
  | [] => ([], [])

/-- converter.rs:570-579: the length written for a value. -/
def imageLength (v : Text) : Text :=
  if endsWith t!"\\textwidth" v then
    trimEndMatches t!"\\textwidth" v.length v ++ t!" * 100%"
  else if endsWith t!"\\textheight" v then
    trimEndMatches t!"\\textheight" v.length v ++ t!" * 100%"
  else v

/-- converter.rs:566-583: the recognised key-value pairs. -/
def imageOpts (kvs : List (Text × Text)) : Text :=
  (kvs.map fun kv =>
    if kv.1 = t!"width" ∨ kv.1 = t!"height" then
      kv.1 ++ t!": " ++ imageLength kv.2 ++ t!", "
    else []).flatten

/-- converter.rs:543-583: the optional argument of `\includegraphics`. -/
def convImageOpt (o : Option Elem) (s : CState) : Res CState :=
  match o with
  | none => .ok s
  | some o => do
    let t ← stripEnds o.text
    .ok (s.write (imageOpts ((splitChar ',' (trim t)).map keyValue)))

/-- converter.rs:518-590 `convert_command_includegraphics`. -/
def convImage (e : Elem) (s : CState) : Res CState := do
  let optArg ← findArg .itemBracket e.arguments
  let arg ← findArg .itemCurly e.arguments
  match arg with
  | none => .error .panic
  | some arg => do
    let b ← stripEnds arg.text
    let body := trim b
    let s ← convImageOpt optArg (s.write t!"#image(")
    .ok (((s.write ['"']).write body).write ['"', ')'])

/-- `while iter.peek() is trivia { iter.next() }`. -/
def skipTrivia (es : List Elem) : List Elem := es.dropWhile fun e => e.kind.isTrivia

/-- converter.rs:629-637: collect the text up to `]`. -/
def takeModel : List Elem → Text × List Elem
  | [] => ([], [])
  | e :: es =>
    if e.kind = .tokenRBracket then ([], es)
    else
      let r := takeModel es
      (e.text ++ r.1, r.2)

/-- converter.rs:608-647: model, color and body of `\color`, from the children of its argument. -/
def colorArgs (es : List Elem) : Option Text × Option Elem × List Elem :=
  let es := skipTrivia es
  let r : Option Text × List Elem := match es with
    | e :: rest => if e.kind = .tokenLBracket then
        let m := takeModel rest
        (some m.1, m.2)
      else (none, es)
    | [] => (none, [])
  let es := skipTrivia r.2
  (r.1, es.head?, es.tail)

/-- converter.rs:653-657: is the first argument a bracketed model? -/
def isModel (t : Text) : Bool :=
  decide (t.head? = some '[') && decide (t.getLast? = some ']') && decide (2 ≤ byteLen t)

/-- converter.rs:649-677: model, color and body of `\textcolor` and `\colorbox`. -/
def textColorArgs (args : List Elem) : Res (Option Text × Option Elem × List Elem) :=
  match args with
  | [] => .ok (none, none, [])
  | a :: as =>
    if isModel a.text then
      match stripEnds a.text with                  -- `text.get(..)`, always in range here
      | .ok m => .ok (some m, as.head?, as.tail)
      | .error _ => .ok (none, as.head?, as.tail)
    else .ok (none, some a, as)

/-- converter.rs:699-706: one element of the body of a color command. -/
def convColorOne (C : ConvFn) (e : Elem) (s : CState) : Res CState :=
  if s.mode = .math then do
    let s ← C e (s.write ['$'])
    .ok (s.write ['$'])
  else C e s

/-- converter.rs:698-707: the body of a color command. -/
def convColorBody (C : ConvFn) : List Elem → CState → Res CState
  | [], s => .ok s
  | e :: es, s => do
    let s ← convColorOne C e s
    convColorBody C es s

/-- converter.rs:604-677: model, color and body of a color command. -/
def colorParts (name : Text) (e : Elem) : Res (Option Text × Option Elem × List Elem) :=
  if name = t!"\\color" then
    match e.arguments with
    | [] => .error .panic
    | root :: _ => .ok (colorArgs root.children)
  else textColorArgs e.arguments

/-- converter.rs:687-695: the color, converted in text mode; black by default. -/
def convColorName (C : ConvFn) (color : Option Elem) (s : CState) : Res CState :=
  match color with
  | some c => do
    let prev := s.mode
    let s ← C c (s.setMode .text)
    .ok (s.setMode prev)
  | none => .ok (s.write t!"black")

/-- converter.rs:604 `cmd_name.strip_prefix('\\').unwrap_or("")`. -/
def colorBare (name : Text) : Text :=
  match name with
  | '\\' :: n => n
  | _ => []

/-- converter.rs:592-714 `convert_command_color`; `name` is the command name with its backslash. -/
def convColor (C : ConvFn) (spec : CommandSpec) (name : Text) (e : Elem) (s : CState) :
    Res CState := do
  let alias := ((getCmd spec (colorBare name)).bind CmdShape.alias).getD t!"mitexcolor"
  let (model, color, body) ← colorParts name e
  let s := (s.write alias).write ['(']
  let s := match model with
    | some m => ((s.write ['[']).write m).write t!"], "
    | none => s.write t!"none, "
  let s := s.write ['[']
  let s ← convColorName C color s
  let s := (s.write t!"])").write ['[']
  let s ← convColorBody C body s
  let s := s.write [']']
  .ok (if s.mode = .text then s.write [';'] else s)

/-- converter.rs:779-786, 795-802: convert arguments with commas after the elements of kind `k`,
except after the last element. -/
def convArgs (C : ConvFn) (k : Kind) : List Elem → CState → Res CState
  | [], s => .ok s
  | a :: as, s => do
    let s ← C a s
    convArgs C k as (if a.kind = k ∧ as ≠ [] then s.write [','] else s)

/-- converter.rs:806-816: arguments in text mode. -/
def convTextArgs (C : ConvFn) : List Elem → CState → Res CState
  | [], s => .ok s
  | a :: as, s =>
    if a.kind = .clauseArgument then do
      let s := s.write ['[']
      let prev := s.mode
      let s ← C a (s.setMode .text)
      convTextArgs C as ((s.setMode prev).write [']'])
    else convTextArgs C as s

/-- converter.rs:746-757: the Typst name of a command. -/
def typstName (m : Mode) (name : Text) (sh : CmdShape) : Text :=
  if m = .text ∧ name = t!"textbf" then t!"#strong"
  else if m = .text ∧ name = t!"textit" then t!"#emph"
  else sh.alias.getD name

/-- converter.rs:767-819: the arguments of a command, by its shape and the mode. -/
def convNormalArgs (C : ConvFn) (sh : CmdShape) (tn : Text) (args : List Elem) (s : CState) : Res CState :=
  if sh.args = .right .none then .ok (s.write [' '])
  else if sh.args = .right .greedy then
    match args with
    | [] => .error .panic
    | a :: _ => do
      let cs ← asNode a
      let s ← convArgs C .itemCurly cs (s.write ['('])
      .ok (s.write [')'])
  else if s.mode = .math ∧ tn.head? ≠ some '#' then do
    let s ← convArgs C .clauseArgument args (s.write ['('])
    .ok (s.write [')'])
  else do
    let s ← convTextArgs C args s
    .ok (s.write [';'])

/-- converter.rs:716-828 `convert_normal_command`. -/
def convNormal (C : ConvFn) (spec : CommandSpec) (e : Elem) (s : CState) : Res CState := do
  let full ← cmdNameOf e
  let name ← dropOne full
  let args := e.children.filter fun c => decide (c.kind ≠ .clauseCommandName)
  match getCmd spec name with
  | none => failWith (t!"unknown command: \\" ++ name)
  | some sh => do
    let tn := typstName s.mode name sh
    let s := s.write tn
    let prev := s.env
    let sub := decide (tn = t!"substack")
    let s := if sub then s.enterEnv .subStack else s
    let s ← convNormalArgs C sh tn args s
    if sub then s.exitEnv prev else .ok s

/-- converter.rs:852-861: the environment kind of a context feature. -/
def CtxFeature.env : CtxFeature → LEnv
  | .none => .none
  | .isMath => .math
  | .isMatrix => .matrix
  | .isCases => .cases
  | .isFigure => .figure
  | .isTable => .table
  | .isItemize => .itemize
  | .isEnumerate => .enumerate

/-- converter.rs:885-892 `is_math_env`. -/
def LEnv.isMathEnv : LEnv → Bool
  | .math | .matrix | .cases | .subStack | .mathCurlyGroup => true
  | _ => false

/-- The children of an environment without its begin and end clauses. -/
def envBody (e : Elem) : List Elem := e.children.filter fun c => !isBeginEnd c

/-- converter.rs:909-914: the named arguments of a math environment. -/
def convNamedArgs (C : ConvFn) : Nat → List Elem → CState → Res CState
  | _, [], s => .ok s
  | i, a :: as, s => do
    let s ← C a (s.write (t!"arg" ++ natText i ++ t!": "))
    convNamedArgs C (i + 1) as (s.write [','])

/-- converter.rs:992-1005 `is_named_arg`. -/
def isNamedArg (e : Elem) : Res Bool :=
  if e.kind = .itemCmd then do
    let n ← cmdNameOf e
    .ok (decide (n = t!"\\caption" ∨ n = t!"\\centering"))
  else .ok false

/-- converter.rs:1007-1024: the argument of the last `\caption`. -/
def findCaption : List Elem → Option Elem → Res (Option Elem)
  | [], cap => .ok cap
  | e :: es, cap => do
    let na ← isNamedArg e
    if na then do
      let full ← cmdNameOf e
      let name ← dropOne full
      if name = t!"caption" then
        match e.arguments with
        | [] => .error .panic
        | a :: _ => findCaption es (some a)
      else findCaption es cap
    else findCaption es cap

/-- converter.rs:1036-1045: the body of a figure. -/
def convFigureBody (C : ConvFn) : List Elem → CState → Res CState
  | [], s => .ok s
  | e :: es, s =>
    if isBeginEnd e then convFigureBody C es s
    else do
      let na ← isNamedArg e
      if na then convFigureBody C es s
      else do
        let s ← C e s
        convFigureBody C es s

/-- converter.rs:1028-1032: the caption of a figure. -/
def convCaption (C : ConvFn) (caption : Option Elem) (s : CState) : Res CState :=
  match caption with
  | some c => do
    let s ← C c (s.write t!"caption: [")
    .ok (s.write t!"],")
  | none => .ok s

/-- converter.rs:983-1050 `convert_env_figure`. -/
def convFigure (C : ConvFn) (kind : LEnv) (tn : Text) (e : Elem) (s : CState) : Res CState := do
  let cs ← asNode e
  let caption ← findCaption cs none
  let prev := s.env
  let s := (((s.enterEnv kind).write ['#']).write tn).write ['(']
  let s ← convCaption C caption s
  let s ← convFigureBody C cs (s.write t!")[")
  (s.write t!"];").exitEnv prev

/-- converter.rs:1070-1090: alignments and positions of vertical lines. -/
def splitAlign : Text → Nat → Res (List Char × List Nat)
  | [], _ => .ok ([], [])
  | ch :: cs, i =>
    if ch = 'l' ∨ ch = 'c' ∨ ch = 'r' then do
      let r ← splitAlign cs (i + 1)
      .ok (ch :: r.1, r.2)
    else if ch = '|' then do
      let r ← splitAlign cs i
      .ok (r.1, i :: r.2)
    else failWith (t!"unknown alignment: " ++ [ch])

/-- converter.rs:1102-1109: the name of an alignment. -/
def alignName (c : Char) : Text :=
  if c = 'l' then t!"left, "
  else if c = 'c' then t!"center, "
  else if c = 'r' then t!"right, "
  else []

/-- converter.rs:1093-1115: the header of a table. -/
def tableHeader (tn : Text) (al : List Char) (vl : List Nat) : Text :=
  ['#'] ++ tn ++ ['('] ++ t!"stroke: none,\n"
  ++ (t!"columns: " ++ natText al.length ++ t!",\n")
  ++ t!"align: (" ++ (al.map alignName).flatten ++ t!"),\n"
  ++ (vl.map fun v => t!"table.vline(stroke: .5pt, x: " ++ natText v ++ t!"), ").flatten
  ++ t!"\n"

/-- converter.rs:1138-1160: the rule written for a command outside of cells, if it is one. -/
def ruleText (name : Text) : Option Text :=
  if name = t!"hline" then some t!"table.hline(stroke: .5pt),\n"
  else if name = t!"toprule" then some t!"table.hline(stroke: 1pt),\n"
  else if name = t!"midrule" then some t!"table.hline(stroke: .5pt),\n"
  else if name = t!"bottomrule" then some t!"table.hline(stroke: 1pt),\n"
  else none

/-- converter.rs:1126-1169: the exterior part for one child; the result is the new `exterior`. -/
def tableExterior (e : Elem) (s : CState) : Res (Bool × CState) :=
  match e.kind with
  | .tokenWhiteSpace | .tokenLineBreak => .ok (true, s)
  | .tokenAmpersand => .ok (true, s.write t!"[], ")
  | .itemNewLine => .ok (true, s.write t!"[],\n")
  | .itemCmd => do
    let full ← cmdNameOf e
    let name ← dropOne full
    match ruleText name with
    | some r => .ok (true, s.write r)
    | none => .ok (false, s.write ['['])
  | _ => .ok (false, s.write ['['])

/-- converter.rs:1171-1186: the interior part for one child. -/
def tableInterior (C : ConvFn) (e : Elem) (s : CState) : Res (Bool × CState) :=
  match e.kind with
  | .tokenAmpersand => .ok (true, s.write t!"], ")
  | .itemNewLine => .ok (true, s.write t!"],\n")
  | _ => do
    let s ← C e s
    .ok (false, s)

/-- converter.rs:1126-1186: one child of a table, outside (`ext`) or inside of a cell; the result says where
the next child is. -/
def tableStep (C : ConvFn) (e : Elem) (ext : Bool) (s : CState) : Res (Bool × CState) :=
  if ext then do
    let r ← tableExterior e s
    if r.1 then .ok (true, r.2) else tableInterior C e r.2
  else tableInterior C e s

/-- converter.rs:1116-1187: the loop over the children of a table. -/
def tableLoop (C : ConvFn) : List Elem → Bool → CState → Res CState
  | [], _, s => .ok s
  | e :: es, ext, s =>
    if isBeginEnd e then tableLoop C es ext s
    else do
      let r ← tableStep C e ext s
      tableLoop C es r.1 r.2

/-- converter.rs:1052-1190 `convert_env_table`. -/
def convTable (C : ConvFn) (kind : LEnv) (tn : Text) (e : Elem) (s : CState) : Res CState := do
  let cs ← asNode e
  match e.envArguments with
  | [] => .error .panic
  | arg :: _ => do
    let a ← stripEnds arg.text
    let (al, vl) ← splitAlign (trim a) 0
    let prev := s.env
    let s := (s.enterEnv kind).write (tableHeader tn al vl)
    let s ← tableLoop C cs true s
    (s.write t!");").exitEnv prev

/-- converter.rs:970-979: the label after an environment. -/
def flushLabel (s : CState) : CState :=
  if s.mode = .text then
    match s.label with
    | some l => { ((s.write ['<']).write l).write ['>'] with label := none }
    | none => s
  else s

/-- converter.rs:896-931: math environments. -/
def convMathEnv (C : ConvFn) (kind : LEnv) (tn : Text) (e : Elem) (s : CState) : Res CState := do
  let dollar := decide (s.mode = .text)
  let prev := s.env
  let prevMode := s.mode
  let s := (s.enterEnv kind).setMode .math
  let s := if dollar then s.write t!"$ " else s
  let s := (s.write tn).write ['(']
  let s ← convNamedArgs C 0 e.envArguments s
  let s ← convList C (envBody e) s
  let s ← (s.write [')']).exitEnv prev
  .ok (if dollar then (s.write t!" $").setMode prevMode else s)

/-- converter.rs:949-966: other text environments. -/
def convNormalEnv (C : ConvFn) (kind : LEnv) (tn : Text) (e : Elem) (s : CState) : Res CState := do
  let prev := s.env
  let s := (((s.enterEnv kind).write ['#']).write tn).write ['[']
  let s ← convList C (envBody e) s
  (s.write t!"];").exitEnv prev

/-- converter.rs:864-882: lists. -/
def convListEnv (C : ConvFn) (kind : LEnv) (e : Elem) (s : CState) : Res CState := do
  let prev := s.env
  let s ← convList C (envBody e) (s.enterEnv kind)
  s.exitEnv prev

/-- converter.rs:894-968: environments other than lists, by their kind. -/
def convEnvKind (C : ConvFn) (kind : LEnv) (tn : Text) (e : Elem) (s : CState) : Res CState :=
  if kind.isMathEnv then convMathEnv C kind tn e s
  else match kind with
    | .figure => convFigure C kind tn e s
    | .table => convTable C kind tn e s
    | _ => convNormalEnv C kind tn e s

/-- converter.rs:830-981 `convert_env`. -/
def convEnv (C : ConvFn) (spec : CommandSpec) (e : Elem) (s : CState) : Res CState :=
  match e with
  | .token .. => .error .panic
  | .node .. =>
    match e.envName with
    | none => .error .panic
    | some n =>
      let name := trim n
      match getEnv spec name with
      | none => failWith (t!"unknown environment: \\" ++ name)
      | some sh => do
        let tn := sh.alias.getD name
        let kind := sh.ctx.env
        if CState.isList kind then convListEnv C kind e s
        else do
          let s ← convEnvKind C kind tn e s
          .ok (flushLabel s)

/-- converter.rs:250-275: dispatch on the command name. -/
def convCmd (C : ConvFn) (spec : CommandSpec) (e : Elem) (s : CState) : Res CState := do
  let full ← cmdNameOf e
  let name ← dropOne full
  if name = t!"item" then convItem s
  else if name = t!"label" then convLabel e s
  else if name = t!"includegraphics" then convImage e s
  else if name = t!"color" ∨ name = t!"textcolor" ∨ name = t!"colorbox" then
    convColor C spec full e s
  else convNormal C spec e s

/-- converter.rs:137-293: the `match` on the kind of the element. -/
def convKind (spec : CommandSpec) (C : ConvFn) (e : Elem) (s : CState) : Res CState :=
  match e.kind with
  | .tokenError => failWith (t!"error unexpected: " ++ debugText e.text)
  | .itemLR | .clauseArgument | .scopeRoot | .itemText | .itemBracket | .itemParen => do
    let cs ← asNode e
    convList C cs s
  | .itemFormula => convFormula C e s
  | .itemCurly => convCurly C e s
  | .clauseLR => convClauseLR C e s
  | .itemAttachComponent => convAttach C e s
  | .clauseCommandName => failWith t!"command name outside of command"
  | .itemBegin | .itemEnd => failWith t!"clauses outside of environment"
  | .tokenWord => do
    let t ← asToken e
    if s.mode = .math then .ok (s.write (t.map fun c => [c, ' ']).flatten)
    else .ok (s.write t)
  | .tokenLBrace | .tokenRBrace | .tokenDollar | .tokenBeginMath | .tokenEndMath | .tokenComment
  | .itemBlockComment => .ok s
  | .tokenWhiteSpace =>
    if s.skip then .ok { s with skip := false }
    else do
      let t ← asToken e
      .ok (s.write t)
  | .tokenLineBreak => do
    let t ← asToken e
    let s := (s.write t).write (List.replicate s.indent ' ')
    .ok { s with skip := true }
  | .tokenApostrophe => .ok (s.write ['\''])
  | .tokenComma => .ok (s.write ['\\', ','])
  | .tokenSlash => .ok (s.write ['\\', '/'])
  | .tokenCaret => .ok (s.write ['\\', '^'])
  | .tokenUnderscore => .ok (s.write ['\\', '_'])
  | .tokenHash => .ok (s.write ['\\', '#'])
  | .tokenAsterisk => .ok (s.write ['\\', '*'])
  | .tokenAtSign => .ok (s.write ['\\', '@'])
  | .tokenDitto => .ok (s.write ['\\', '"'])
  | .tokenSemicolon => .ok (s.write ['\\', ';'])
  | .tokenLParen => .ok (s.write ['\\', '('])
  | .tokenRParen => .ok (s.write ['\\', ')'])
  | .tokenLBracket => .ok (s.write ['\\', '['])
  | .tokenRBracket => .ok (s.write ['\\', ']'])
  | .tokenTilde =>
    if s.mode = .math then .ok (s.write t!"space.nobreak ") else .ok (s.write ['\\', '~'])
  | .tokenAmpersand =>
    if s.env = .matrix then .ok (s.write t!"zws ,") else .ok (s.write ['&'])
  | .itemNewLine =>
    match s.env with
    | .matrix => .ok (s.write t!"zws ;")
    | .cases => .ok (s.write [','])
    | .mathCurlyGroup => .ok s
    | _ => .ok (s.write t!"\\ ")
  | .tokenCommandSym => convCommandSym spec e s
  | .itemCmd => convCmd C spec e s
  | .itemEnv => convEnv C spec e s
  | .itemTypstCode => do
    let _ ← asNode e
    .ok (s.write e.text)

/-- converter.rs:126-294 `convert`, given the converter `C` for nested elements: every element but whitespace
resets the flag that drops the next whitespace. -/
def convBody (spec : CommandSpec) (C : ConvFn) (e : Elem) (s : CState) : Res CState :=
  convKind spec C e (if e.kind = .tokenWhiteSpace then s else { s with skip := false })

/-- converter.rs:126-294 `convert`, tied with fuel (the height of the tree suffices, property C49). -/
def convert (spec : CommandSpec) : Nat → ConvFn
  | 0 => fun _ _ => .error .fuel
  | n + 1 => convBody spec (convert spec n)

/-- converter.rs:1200-1209 `TypstRepr::fmt` on a tree: the text written. -/
def convertTree (spec : CommandSpec) (m : Mode) (e : Elem) : Res Text :=
  match convert spec e.depth e (CState.new m) with
  | .error x => .error x
  | .ok s => .ok s.out

/-! ### The public functions -/

/-- crates/mitex-parser/src/lib.rs:32-41 `parse` / `parse_without_macro`.  `fuel` bounds the number of
steps of the macro engine, which may not terminate (property C18). -/
def parse (fuel : Nat) (env : PEnv) (withMacro : Bool) (input : Text) : Res Elem := do
  let toks ← tokensOf env.spec input
  let toks ← if withMacro then expandAll fuel toks else .ok toks
  parseToks env toks

/-- converter.rs:1211-1232 `convert_inner`: the given specification (or the default one) is used for
parsing, but the default specification `dflt` for conversion. -/
def convertInner (fuel : Nat) (dflt : CommandSpec) (input : Text) (m : Mode)
    (spec : Option CommandSpec) (withMacro : Bool) : Res Text := do
  let tree ← parse fuel ⟨spec.getD dflt, globPrefix⟩ withMacro input
  convertTree dflt m tree

/-- crates/mitex/src/lib.rs:11-13 `convert_text`. -/
def convertText (fuel : Nat) (dflt : CommandSpec) (input : Text) (spec : Option CommandSpec) :
    Res Text := convertInner fuel dflt input .text spec true

/-- crates/mitex/src/lib.rs:15-17 `convert_math`. -/
def convertMath (fuel : Nat) (dflt : CommandSpec) (input : Text) (spec : Option CommandSpec) :
    Res Text := convertInner fuel dflt input .math spec true

/-- crates/mitex/src/lib.rs:20-22 `convert_math_no_macro`. -/
def convertMathNoMacro (fuel : Nat) (dflt : CommandSpec) (input : Text)
    (spec : Option CommandSpec) : Res Text := convertInner fuel dflt input .math spec false

end Mitex
