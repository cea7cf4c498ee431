/-
The trees of formulas (Spec/Formula.lean), and that the grammar assigns them to their tokens.
-/
import Verif.Proof.FormulaLex

namespace Mitex
open Grammar (Item Items Row)

/-! ## Trees -/

def blankElems (n : Nat) : List Elem := (blankToks n).map leafOf

def aposTok : Tok := (.apostrophe, ['\''])

/-- A run of text takes the blanks after it; after other parts they are parts by themselves. -/
def swallow (isText : Bool) (e : Elem) (bs : List Elem) : List Elem :=
  if isText then
    match e with
    | .node k cs => [.node k (cs ++ bs)]
    | e => e :: bs
  else e :: bs

def textElem (ps : List TextPart) : Elem := .node .itemText (ps.map fun p => leafOf p.tok)

def curlyElem (es : List Elem) : Elem := .node .itemCurly (leafOf lcurly :: (es ++ [leafOf rcurly]))

def squareElem (es : List Elem) : Elem := .node .itemBracket (leafOf lsquare :: (es ++ [leafOf rsquare]))

def Delim.elem : Delim → Elem
  | .sign c => leafOf (signTok c, [c])
  | .char c => .token .tokenWord [c]
  | .symbol name => .token .tokenCommandSym ('\\' :: name)

mutual
def Atom.elem : Atom → Elem
  | .text ps => textElem ps
  | .sign c => leafOf (signTok c, [c])
  | .symbol name => .node .itemCmd [leafOf (nameTok name)]
  | .group f => curlyElem f.elems
  | .command name args => .node .itemCmd (leafOf (nameTok name) :: args.elems)
  | .textCommand name ps => .node .itemCmd [leafOf (nameTok name), .node .clauseArgument [curlyElem [textElem ps]]]
  | .postfix base name => .node .itemCmd [.node .clauseArgument [base.elem], leafOf (nameTok name)]
  | .prime base => .node .itemAttachComponent [.node .clauseArgument [base.elem], leafOf aposTok]
  | .script base super s => .node .itemAttachComponent [.node .clauseArgument [base.elem], leafOf (markTok super), s.elem]
  | .delimited l f r => .node .itemLR (.node .clauseLR [leafOf leftTok, l.elem] :: (f.elems ++ [.node .clauseLR [leafOf rightTok, r.elem]]))
  | .over l name r => curlyElem [.node .itemCmd [.node .clauseArgument l.elems, leafOf (nameTok name), .node .clauseArgument r.elems]]
  | .environment name args body => .node .itemEnv (.node .itemBegin (leafOf (.cmd .beginEnv, name) :: args.elems) ::
      (body.elems ++ [.node .itemEnd [leafOf (.cmd .endEnv, name)]]))
def Script.elem : Script → Elem
  | .braces f => curlyElem f.elems
  | .char c => .token .tokenWord [c]
  | .symbol name => .node .itemCmd [leafOf (nameTok name)]
def Formula.elems : Formula → List Elem
  | .mk lead as => blankElems lead ++ as.elems
def Atoms.elems : Atoms → List Elem
  | .nil => []
  | .cons a sp as => swallow a.isText a.elem (blankElems sp) ++ as.elems
def Arguments.elems : Arguments → List Elem
  | .nil => []
  | .cons square f as => .node .clauseArgument [if square then squareElem f.elems else curlyElem f.elems] :: as.elems
  | .bare c as => .node .clauseArgument [.token .tokenWord [c]] :: as.elems
  | .symbol name as => .node .clauseArgument [.node .itemCmd [leafOf (nameTok name)]] :: as.elems
  | .spaced _ as => as.elems
def Cells.elems : Cells → List Elem
  | .last f => f.elems
  | .cons f endsRow r => f.elems ++ leafOf (sepTok endsRow) :: r.elems
end

/-! ## Heads -/

/-- The next token is neither a blank nor an empty word. -/
def Soft (ts : List Tok) : Prop := ∀ t, ts.head? = some t → Grammar.isBlank t.1 = false ∧ t ≠ (.word, [])

/-- The next token does not continue a text. -/
def Halted (ts : List Tok) : Prop := ∀ t, ts.head? = some t → Grammar.isTextPart t.1 = false

theorem Halted.soft {ts : List Tok} (h : Halted ts) : Soft ts := by
  intro t ht
  have := h t ht
  unfold Grammar.isTextPart at this
  rw [Bool.or_eq_false_iff] at this
  refine ⟨this.1, fun h0 => ?_⟩
  subst h0
  exact absurd this.2 (by decide)

theorem Halted.cons {k : Token} {x : Text} {ts : List Tok} (h : Grammar.isTextPart k = false) : Halted ((k, x) :: ts) := by
  intro t ht
  cases ht
  exact h

/-- The next token is not an empty word. -/
def NoVoid (ts : List Tok) : Prop := ∀ t, ts.head? = some t → t ≠ (.word, [])

theorem Soft.noVoid {ts : List Tok} (h : Soft ts) : NoVoid ts := fun t ht => (h t ht).2

theorem noVoid_blank {n : Nat} {ts : List Tok} (h : NoVoid ts) : NoVoid (blankToks n ++ ts) := by
  unfold blankToks
  split
  · exact h
  · intro t ht
    cases ht
    exact fun h => (by cases h)

theorem prepend_rest {c : Char} {ts : List Tok} (h : NoVoid ts) :
    ∃ cs ts', prepend c ts = (.word, c :: cs) :: ts' ∧ Grammar.restOfWord cs ts' = ts := by
  unfold prepend
  split
  · next w ts =>
    refine ⟨w, ts, rfl, ?_⟩
    unfold Grammar.restOfWord
    rw [if_neg]
    exact fun hw => h _ rfl (by rw [hw])
  · exact ⟨[], ts, rfl, rfl⟩

theorem sign_kinds : ∀ c ∈ signs, Grammar.isBlank (signTok c) = false ∧ Grammar.isTextPart (signTok c) = false ∧
    (signTok c ≠ .word) ∧ Grammar.single (signTok c) = some (!decide (c = '*' ∨ c = '@')) := by decide

theorem Atom.headTok {spec : CommandSpec} : ∀ a : Atom, a.Ok spec → ∀ k : List Tok,
    ∃ t r, a.toks k = t :: r ∧ Grammar.isBlank t.1 = false ∧ t ≠ (.word, []) ∧ (a.startsText = false → Grammar.isTextPart t.1 = false)
  | .text ps, h, k => by
    rw [Atom.Ok] at h
    rw [Atom.toks]
    obtain ⟨h, hb⟩ := h
    cases ps with
    | nil => exact h.elim
    | cons p ps =>
      refine ⟨p.tok, _, rfl, ?_, ?_, fun h0 => (by cases h0)⟩
      · cases p with
        | word w => rfl
        | comma => rfl
        | blank n => exact absurd rfl (hb n)
      · cases p with
        | word w =>
          obtain ⟨⟨h0, -⟩, -⟩ := h
          intro he
          exact h0 (by simpa [TextPart.tok] using he)
        | comma => exact fun h => (by cases h)
        | blank n => exact fun h => (by cases h)
  | .sign c, h, k => by
    rw [Atom.Ok] at h
    rw [Atom.toks]
    have := sign_kinds c h
    exact ⟨_, _, rfl, this.1, fun h0 => this.2.2.1 (congrArg Prod.fst h0), fun _ => this.2.1⟩
  | .symbol name, _, k => by
    rw [Atom.toks]
    exact ⟨_, _, rfl, rfl, fun h => (by cases h), fun _ => rfl⟩
  | .group f, _, k => by
    rw [Atom.toks]
    exact ⟨_, _, rfl, rfl, fun h => (by cases h), fun _ => rfl⟩
  | .command name args, _, k => by
    rw [Atom.toks]
    exact ⟨_, _, rfl, rfl, fun h => (by cases h), fun _ => rfl⟩
  | .textCommand name ps, _, k => by
    rw [Atom.toks]
    exact ⟨_, _, rfl, rfl, fun h => (by cases h), fun _ => rfl⟩
  | .postfix base name, h, k => by
    rw [Atom.Ok] at h
    rw [Atom.toks]
    exact Atom.headTok base h.1 _
  | .prime base, h, k => by
    rw [Atom.Ok] at h
    rw [Atom.toks]
    exact Atom.headTok base h.1 _
  | .script base super s, h, k => by
    rw [Atom.Ok] at h
    rw [Atom.toks]
    exact Atom.headTok base h.1 _
  | .delimited l f r, _, k => by
    rw [Atom.toks]
    exact ⟨_, _, rfl, rfl, fun h => (by cases h), fun _ => rfl⟩
  | .over l name r, _, k => by
    rw [Atom.toks]
    exact ⟨_, _, rfl, rfl, fun h => (by cases h), fun _ => rfl⟩
  | .environment name args body, _, k => by
    rw [Atom.toks]
    exact ⟨_, _, rfl, rfl, fun h => (by cases h), fun _ => rfl⟩

theorem Atoms.soft {spec : CommandSpec} {as : Atoms} (h : as.Ok spec) {ts : List Tok} (hs : Soft ts) : Soft (as.toks ts) := by
  cases as with
  | nil => rw [Atoms.toks]; exact hs
  | cons a sp as =>
    rw [Atoms.Ok] at h
    rw [Atoms.toks]
    obtain ⟨t, r, h1, h2, h3, -⟩ := a.headTok h.1 (blankToks sp ++ as.toks ts)
    rw [h1]
    intro u hu
    cases hu
    exact ⟨h2, h3⟩

theorem Atoms.halted {spec : CommandSpec} {as : Atoms} (h : as.Ok spec) (ht : as.startsText = false) {ts : List Tok} (hs : Halted ts) :
    Halted (as.toks ts) := by
  cases as with
  | nil => rw [Atoms.toks]; exact hs
  | cons a sp as =>
    rw [Atoms.Ok] at h
    rw [Atoms.toks]
    obtain ⟨t, r, h1, -, -, h2⟩ := a.headTok h.1 (blankToks sp ++ as.toks ts)
    rw [h1]
    intro u hu
    cases hu
    exact h2 ht

end Mitex
