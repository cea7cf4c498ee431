/-
Vocabulary for "the parts of a document are converted independently" (C75).
-/
import Verif.Spec.Grammar
import Verif.Spec.Rules

namespace Mitex
namespace Grammar

/-- The row a document starts with. -/
def start : Row := ⟨[], some 0, none⟩

/-- The first token of an item; if that is a script mark, also the first token of the script (`blank`: blanks come first). -/
def leads : (blank : Bool) → List Tok → List Tok
  | _, [] => []
  | b, t :: ts =>
    if b && isBlank t.1 then leads b ts
    else if t.1 = .underscore ∨ t.1 = .caret then t :: leads true ts
    else [t]

/-- `Reaches env r ts heads r' ts'`: at the top level of a document, after the row `r`, the tokens `ts` are read item by item until the tokens
`ts'` are left; the row is `r'` then, and `heads` are the first tokens of the items (and of scripts). -/
inductive Reaches (env : PEnv) : Row → List Tok → List Tok → Row → List Tok → Prop
  | refl (r : Row) (ts : List Tok) : Reaches env r ts [] r ts
  | step {r r1 r' : Row} {t : Tok} {att : Bool} {ts ts1 ts' hs : List Tok} (hi : Item env .root false r (t :: ts) att r1 ts1)
      (h : Reaches env (if att then { r1 with last := some r.items.length } else r1) ts1 hs r' ts') : 
      Reaches env r (t :: ts) (leads false (t :: ts) ++ hs) r' ts'

/-! ## What looks to the left -/

/-- A command that takes something on its left (`\over`, `\limits`). -/
def takesLeft (env : PEnv) (t : Tok) : Bool :=
  match t with
  | (.cmd n, '\\' :: name) => isCommand n && decide (commandArgs env.spec name = .left1 ∨ commandArgs env.spec name = .infixGreedy)
  | _ => false

/-- The marks that are attached to the item on their left. -/
def isMark (k : Token) : Bool := decide (k ∈ [Token.apostrophe, .underscore, .caret])

/-- After an item that starts with this token, the item a mark would be attached to does not depend on what stands before (blanks, `&`
and formulas are not such items: a mark after them looks further to the left). -/
def settles (k : Token) : Bool :=
  match k with
  | .cmd .beginMath => false
  | .cmd _ | .word | .comma | .left _ | .right _ | .tilde | .slash | .ditto | .semicolon | .macroArg _ => true
  | _ => false

/-- The items that start with these tokens do not look at what stands before all of them. -/
def standAlone (env : PEnv) : List Tok → Bool
  | [] => true
  | h :: hs => !takesLeft env h && !isMark h.1 && if settles h.1 then hs.all (fun t => !takesLeft env t) else standAlone env hs

/-! ## What looks to the right -/

/-- `ClosedItem env r ts r'`: after the row `r`, the tokens `ts` are a group, a formula or an environment whose end is there. -/
inductive ClosedItem (env : PEnv) : Row → List Tok → Row → Prop
  | group {sc' : Scope} {att : Bool} {r r' : Row} {k close : Token} {kind : Kind} {x y : Text} {ts : List Tok}
      (h : grouping k = some (sc', close, kind, att))
      (hi : Items env sc' (enders sc') ⟨[leafOf (k, x)], some 1, none⟩ (ts ++ [(close, y)]) r' [(close, y)]) :
      ClosedItem env r ((k, x) :: (ts ++ [(close, y)])) (r.add [.node kind (r'.items ++ [leafOf (close, y)])])
  | environment {r r' : Row} {x y : Text} {ts : List Tok} (h : environmentArgs env.spec x = none)
      (hi : Items env .environment (enders .environment) ⟨[.node .itemBegin [leafOf (.cmd .beginEnv, x)]], some 1, none⟩
        (ts ++ [(.cmd .endEnv, y)]) r' [(.cmd .endEnv, y)]) :
      ClosedItem env r ((.cmd .beginEnv, x) :: (ts ++ [(.cmd .endEnv, y)]))
        (r.add [.node .itemEnv (r'.items ++ [.node .itemEnd [leafOf (.cmd .endEnv, y)]])])
  | environmentArgs {r r' : Row} {p : ArgPattern} {x y : Text} {args : List Elem} {blanks ts ts1 : List Tok}
      (h : environmentArgs env.spec x = some p) (hp : p ≠ .greedy)
      (ha : Args env .root p [] (ts ++ [(.cmd .endEnv, y)]) args blanks (ts1 ++ [(.cmd .endEnv, y)]))
      (hi : Items env .environment (enders .environment)
        ⟨.node .itemBegin (leafOf (.cmd .beginEnv, x) :: args) :: blanks.map leafOf, some (1 + blanks.length), none⟩
        (ts1 ++ [(.cmd .endEnv, y)]) r' [(.cmd .endEnv, y)]) :
      ClosedItem env r ((.cmd .beginEnv, x) :: (ts ++ [(.cmd .endEnv, y)]))
        { r.add [.node .itemEnv (r'.items ++ [.node .itemEnd [leafOf (.cmd .endEnv, y)]])] with last := none }

/-- The tokens are a document with the items `A`, and the last of them is a closed group, formula or environment. -/
def ClosedDocument (env : PEnv) (ts : List Tok) (A : List Elem) : Prop :=
  ∃ heads r ts1 r', Reaches env start ts heads r ts1 ∧ ClosedItem env r ts1 r' ∧ A = r'.items

/-- The tokens are a document with the items `B` that does not look to the left. -/
def AloneDocument (env : PEnv) (ts : List Tok) (B : List Elem) : Prop :=
  ∃ heads r, Reaches env start ts heads r [] ∧ standAlone env heads = true ∧ B = r.items

/-! ## Formulas -/

/-- In the scope `S`, the arguments of no environment of the tokens are followed by a token that ends the scope.  (At that token the arguments
would be over in the scope, but not in a document.) -/
def ArgsGiven (env : PEnv) (S : Scope) (ts : List Tok) : Prop :=
  ∀ u x v p args blanks t w, ts = u ++ (.cmd .beginEnv, x) :: v → environmentArgs env.spec x = some p →
    Args env S p [] v args blanks (t :: w) → t.1 ∉ enders S

end Grammar

/-! ## Texts -/

/-- The text `b` does not continue the token `t`: punctuation, `\\`, `\(`, `\begin{…}`, … are never continued; the other tokens only by their
own characters. -/
def Separate (t : Tok) (b : Text) : Prop :=
  match t.1 with
  | .lineBreak => NoMore (fun c => c = '\n' ∨ c = '\r') b
  | .whitespace => NoMore (fun c => isWs c = true ∧ c ≠ '\n' ∧ c ≠ '\r') b
  | .word => NoMore (fun c => isWs c = false ∧ c ∉ specials) b
  | .lineComment => NoMore (fun c => c ≠ '\n' ∧ c ≠ '\r') b
  | .dollar => NoMore (· = '$') b
  | .cmd .beginEnv | .cmd .endEnv | .cmd .beginMath | .cmd .endMath => True
  | .cmd _ => t.2 ≠ ['\\'] ∧ NoMore (fun c => NameChar c ∨ c = '*') b
  | _ => True

end Mitex
