/-
Model of the typed accessors of crates/mitex-parser/src/syntax.rs that the converter does not use, but that are exported for users of the
parser: `EnvItem::end`, `EndItem`, `LRItem`, `LRClause`.  (The others are in Model/Syntax.lean.)  Simplification: a cast answers with the
same element, a token is answered by its kind and text.
-/
import Verif.Model.Syntax

namespace Mitex
namespace Elem

/-- syntax.rs:348-351 `EnvItem::end`. -/
def envEnd (e : Elem) : Option Elem := e.childNodes.find? fun c => decide (c.kind = .itemEnd)

/-- syntax.rs:441-447 `EndItem::name`. -/
def endName (e : Elem) : Option Text :=
  match e.firstToken with
  | some (.tokenCommandSym, t) => some t
  | _ => none

/-- syntax.rs:213-221 `LRClause::cast`. -/
def castClause (e : Elem) : Option Elem := if e.kind = .clauseLR then some e else none

/-- syntax.rs:370-373 `LRItem::left`: the first child node, if it is a clause. -/
def lrLeft (e : Elem) : Option Elem := e.childNodes.head?.bind castClause

/-- syntax.rs:374-377 `LRItem::right`: the last child node, if it is a clause. -/
def lrRight (e : Elem) : Option Elem := e.childNodes.getLast?.bind castClause

/-- syntax.rs:398-404 `LRClause::is_left`. -/
def clauseIsLeft (e : Elem) : Bool :=
  match e.firstToken with
  | some (k, t) => decide (k = .clauseCommandName) && decide (t = t!"\\left")
  | none => false

/-- syntax.rs:406-411 `LRClause::sym`: the last token, unless it is the command. -/
def clauseSym (e : Elem) : Option (Kind × Text) := e.lastToken.filter fun l => !decide (l.1 = .clauseCommandName)

/-- syntax.rs:379-382 `LRItem::left_sym`. -/
def lrLeftSym (e : Elem) : Option (Kind × Text) := e.lrLeft.bind clauseSym

/-- syntax.rs:384-387 `LRItem::right_sym`. -/
def lrRightSym (e : Elem) : Option (Kind × Text) := e.lrRight.bind clauseSym

end Elem
end Mitex
