/-
Vocabulary for tables: the header for a column specification, and how the body splits into cells.
-/
import Verif.Spec.Conversion

namespace Mitex

/-- The characters of a column specification. -/
def isColumnChar (c : Char) : Prop := c = 'l' ∨ c = 'c' ∨ c = 'r' ∨ c = '|'

instance (c : Char) : Decidable (isColumnChar c) := inferInstanceAs (Decidable (_ ∨ _ ∨ _ ∨ _))

/-- The columns. -/
def columnLetters (spec : Text) : Text := spec.filter fun c => decide (c ≠ '|')

/-- For each bar, the number of columns before it. -/
def barPositions (spec : Text) : List Nat :=
  ((List.range spec.length).filter fun i => decide (spec[i]? = some '|')).map fun i => (columnLetters (spec.take i)).length

/-- The Typst alignment of a column. -/
def columnAlign (c : Char) : Text :=
  if c = 'l' then t!"left" else if c = 'c' then t!"center" else t!"right"

/-- A number in decimal notation. -/
def decimal (n : Nat) : Text := Nat.toDigits 10 n

/-- The header of the Typst table for a column specification. -/
def tableStart (name spec : Text) : Text :=
  t!"#" ++ name ++ t!"(stroke: none,\n"
  ++ t!"columns: " ++ decimal (columnLetters spec).length ++ t!",\n"
  ++ t!"align: (" ++ ((columnLetters spec).map fun c => columnAlign c ++ t!", ").flatten ++ t!"),\n"
  ++ ((barPositions spec).map fun i => t!"table.vline(stroke: .5pt, x: " ++ decimal i ++ t!"), ").flatten
  ++ t!"\n"

/-- A separator of cells or rows. -/
def isSeparator (e : Elem) : Bool := decide (e.kind = .tokenAmpersand ∨ e.kind = .itemNewLine)

/-- The cells of a table body, each with the separator that ends it, and the rest after the last separator. -/
def cellsOf : List Elem → List (List Elem × Elem) × List Elem
  | [] => ([], [])
  | e :: es =>
    if isSeparator e then (([], e) :: (cellsOf es).1, (cellsOf es).2)
    else match (cellsOf es).1 with
      | [] => ([], e :: (cellsOf es).2)
      | (c, sep) :: cells => ((e :: c, sep) :: cells, (cellsOf es).2)

/-- The Typst for a rule. -/
def ruleLine (e : Elem) : Text :=
  if isRule e then
    (if e.cmdName.map List.tail = some t!"toprule" ∨ e.cmdName.map List.tail = some t!"bottomrule" then
      t!"table.hline(stroke: 1pt),\n"
    else t!"table.hline(stroke: .5pt),\n")
  else []

/-- Space or a rule. -/
def isLead (e : Elem) : Bool := isRule e || decide (e.kind = .tokenWhiteSpace ∨ e.kind = .tokenLineBreak)

/-- The rules at the start of a cell. -/
def leadLines (cell : List Elem) : Text := ((cell.takeWhile isLead).map ruleLine).flatten

/-- The contents of a cell: without space and rules at its start. -/
def cellContent (cell : List Elem) : List Elem := cell.dropWhile isLead

/-- What is written for a separator, after the closing bracket of the cell. -/
def separatorText (e : Elem) : Text := if e.kind = .tokenAmpersand then t!", " else t!",\n"

/-- `o` is the text written by converting the elements, one after the other, in the place `x`. -/
def Yields (C : Elem → CState → Res CState) (x : Place) (es : List Elem) (o : Text) : Prop :=
  ∃ s1 s2, At x s1 ∧ es.foldlM (fun s e => C e s) s1 = .ok s2 ∧ s2.out = s1.out ++ o

/-- `t` is the text for the closed cells; `R content o` says that `o` is the text of the content. -/
def CellsText (R : List Elem → Text → Prop) : List (List Elem × Elem) → Text → Prop
  | [], t => t = []
  | (c, sep) :: cells, t => ∃ o t', R (cellContent c) o ∧ CellsText R cells t' ∧
      t = leadLines c ++ t!"[" ++ o ++ t!"]" ++ separatorText sep ++ t'

/-- `t` is the text after the last separator: if there is content, a cell is opened (and not closed). -/
def RestText (R : List Elem → Text → Prop) (rest : List Elem) (t : Text) : Prop :=
  if cellContent rest = [] then t = leadLines rest
  else ∃ o, R (cellContent rest) o ∧ t = leadLines rest ++ t!"[" ++ o

end Mitex
