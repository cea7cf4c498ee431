/-
Vocabulary for C83: the letters and digits of a document that are shown, in the order of the source.
-/
import Verif.Spec.Template

namespace Mitex

/-- The commands whose arguments are not written out: labels, images, items of lists, and the rules of tables. -/
def unspokenCommands : List Text := [t!"label", t!"includegraphics", t!"item", t!"hline", t!"toprule", t!"midrule", t!"bottomrule"]

/-- The command takes arguments. -/
def takesArgs (spec : CommandSpec) (name : Text) : Bool :=
  match spec name with
  | some (.cmd sh) => decide (sh.args ≠ .right .none)
  | _ => false

/-- A command whose arguments are not written out; also a `\color` that does not take all that follows it. -/
def unspoken (spec : CommandSpec) (name : Text) : Bool :=
  (decide (name ∈ unspokenCommands) && takesArgs spec name) ||
    (decide (name = t!"color") && match spec name with
      | some (.cmd sh) => decide (sh.args ≠ .right .greedy)
      | _ => true)

/-- Nothing of the element is written out: block comments, and commands as above. -/
def isHidden (spec : CommandSpec) (e : Elem) : Bool :=
  decide (e.kind = .itemBlockComment) || (decide (e.kind = .itemCmd) && (bareName e).any (unspoken spec))

/-- The environments that become formulas: their arguments are written out, those of other environments are not. -/
def isMathEnv (spec : CommandSpec) (name : Text) : Bool :=
  match spec (trim name) with
  | some (.env sh) => decide (sh.ctx = .isMath ∨ sh.ctx = .isMatrix ∨ sh.ctx = .isCases)
  | _ => false

/-- Figures: the caption is moved to the front, and `\centering` is dropped. -/
def isFigureEnv (spec : CommandSpec) (name : Text) : Bool :=
  match spec (trim name) with
  | some (.env sh) => decide (sh.ctx = .isFigure)
  | _ => false

/-- The parts of an element whose words are not claimed to stand in the output in their order. -/
def leftOut (spec : CommandSpec) (e c : Elem) : Bool :=
  decide (e.kind = .itemEnv) && e.envName.any fun n =>
    (decide (c.kind = .itemBegin) && !isMathEnv spec n) || (isFigureEnv spec n && (isCommand t!"\\caption" c || isCommand t!"\\centering" c))

/-- The characters of a word, without dots (a dot is also the empty delimiter, which is not shown). -/
def spokenWord (t : Text) : Text := t.filter fun c => decide (c ≠ '.')

mutual
/-- The characters of the words of an element that are shown, in the order of the source. -/
def shown (spec : CommandSpec) : Elem → Text
  | .token k t => if k = .tokenWord then spokenWord t else []
  | .node k cs => if isHidden spec (.node k cs) then [] else shownParts spec (leftOut spec (.node k cs)) cs
def shownParts (spec : CommandSpec) (out : Elem → Bool) : List Elem → Text
  | [] => []
  | c :: cs => (if out c then [] else shown spec c) ++ shownParts spec out cs
end

/-- The characters of all words of a text. -/
def spoken (ts : List Tok) : Text := ts.flatMap fun t => if t.1 = .word then spokenWord t.2 else []

/-- A token after which all words are shown in their order: it does not start a comment, it is not a command whose arguments are not
written out, and it does not open a figure or an environment whose arguments are not written out. -/
def Speaks (spec : CommandSpec) (t : Tok) : Prop :=
  match t.1 with
  | .cmd (.cif .ifFalse) => False
  | .cmd .beginEnv => isMathEnv spec t.2 = true ∨
      (isFigureEnv spec t.2 = false ∧ ∀ sh, spec t.2 = some (.env sh) → sh.args = .none ∨ sh.args = .fixedLen 0)
  | .cmd _ => unspoken spec t.2.tail = false
  | _ => True

end Mitex
