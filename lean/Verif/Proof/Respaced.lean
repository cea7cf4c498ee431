/-
Trees that differ in white space have templates that differ in white space (for C85).
-/
import Verif.Proof.BlankTree
import Verif.Spec.Respaced
import Verif.Spec.Tree

namespace Mitex

theorem Respaced.refl (t : Text) : Respaced t t := by
  induction t with
  | nil => exact .nil
  | cons c t ih => exact .char c ih

theorem Respaced.append {s s' t t' : Text} (h : Respaced s s') (k : Respaced t t') : Respaced (s ++ t) (s' ++ t') := by
  induction h with
  | nil => exact k
  | char c _ ih => exact .char c ih
  | space hw hw' _ ih => rw [List.append_assoc, List.append_assoc]; exact .space hw hw' ih

theorem Respaced.symm {s s' : Text} (h : Respaced s s') : Respaced s' s := by
  induction h with
  | nil => exact .nil
  | char c _ ih => exact .char c ih
  | space hw hw' _ ih => exact .space hw' hw ih

namespace Respace

/-- Alike trees whose parts that are read as they are, are the same. -/
inductive Kept : Elem → Elem → Prop
  | token (k : Kind) {t t' : Text} (h : t = t' ∨ k ∈ blankLeaves ∧ SpaceOrComment k t t') : Kept (.token k t) (.token k t')
  | node (k : Kind) {cs cs' : List Elem} (h : Both Kept cs cs') (hv : verbatim (.node k cs) = verbatim (.node k cs')) :
      Kept (.node k cs) (.node k cs')

abbrev Al : Elem → Elem → Prop := Alike SpaceOrComment

theorem Kept.alike (e : Elem) : ∀ ⦃e'⦄, Kept e e' → Al e e' := by
  induction e using Elem.ind with
  | ht k t =>
    intro e' h
    cases h with
    | token _ h => exact .token _ h
  | hn k cs ih =>
    intro e' h
    cases h with
    | @node _ _ cs' h hv =>
      refine .node k ?_
      clear hv
      induction h with
      | nil => exact .nil
      | @cons a b as bs h hs ihs => exact .cons (ih a (List.mem_cons_self ..) h) (ihs fun c hc => ih c (List.mem_cons_of_mem _ hc))

theorem kind {e e' : Elem} (h : Kept e e') : e.kind = e'.kind := by cases h <;> rfl
theorem isNode {e e' : Elem} (h : Kept e e') : e.isNode = e'.isNode := by cases h <;> rfl
theorem cmdName {e e' : Elem} (h : Kept e e') : e.cmdName = e'.cmdName := Blank.alike_cmdName (h.alike _)

theorem verb {e e' : Elem} (h : Kept e e') : verbatim e = verbatim e' := by
  cases h with
  | node _ _ hv => exact hv
  | @token k t t' h =>
    rcases h with rfl | ⟨h, _⟩
    · rfl
    · simp only [blankLeaves, List.mem_cons, List.not_mem_nil, or_false] at h
      rcases h with rfl | rfl | rfl <;> rfl

theorem children {e e' : Elem} (h : Kept e e') : Both Kept e.children e'.children := by
  cases h with
  | token => exact .nil
  | node k h => exact h

theorem childNodes {e e' : Elem} (h : Kept e e') : Both Kept e.childNodes e'.childNodes := (children h).filter fun a b k => isNode k

theorem arguments {e e' : Elem} (h : Kept e e') : Both Kept e.arguments e'.arguments := (childNodes h).filter fun a b k => by rw [kind k]

theorem envBegin {e e' : Elem} (h : Kept e e') : Blank.Opt Kept e.envBegin e'.envBegin :=
  Blank.find_both (fun a b k => by rw [kind k]) (childNodes h)

theorem envArguments {e e' : Elem} (h : Kept e e') : Both Kept e.envArguments e'.envArguments := by
  unfold Elem.envArguments
  have hb := envBegin h
  generalize e.envBegin = a at hb ⊢
  generalize e'.envBegin = b at hb ⊢
  cases hb with
  | none => exact .nil
  | some h => exact arguments h

theorem length_descendants (e : Elem) : ∀ ⦃e'⦄, Al e e' → e.descendants.length = e'.descendants.length := by
  induction e using Elem.ind with
  | ht k t =>
    intro e' h
    cases h with
    | token => rfl
  | hn k cs ih =>
    intro e' h
    cases h with
    | @node _ _ cs' h =>
      show (Elem.node k cs :: Elem.descendants.go cs).length = (Elem.node k cs' :: Elem.descendants.go cs').length
      rw [List.length_cons, List.length_cons]
      congr 1
      induction h with
      | nil => rfl
      | @cons a b as bs h hs ihs =>
        show (a.descendants ++ Elem.descendants.go as).length = (b.descendants ++ Elem.descendants.go bs).length
        rw [List.length_append, List.length_append, ih a (List.mem_cons_self ..) h, ihs fun c hc => ih c (List.mem_cons_of_mem _ hc)]

theorem kept_of (e : Elem) : ∀ ⦃e'⦄, Al e e' → SameVerbatim e e' → Kept e e' := by
  induction e using Elem.ind with
  | ht k t =>
    intro e' h _
    cases h with
    | token _ h => exact .token _ h
  | hn k cs ih =>
    intro e' h hv0
    cases h with
    | @node _ _ cs' h =>
      have hv : verbatim (.node k cs) :: (Elem.descendants.go cs).map verbatim = verbatim (.node k cs') :: (Elem.descendants.go cs').map verbatim := hv0
      clear hv0
      injection hv with h1 h2
      refine .node k ?_ h1
      clear h1
      induction h with
      | nil => exact .nil
      | @cons a b as bs h hs ihs =>
        have h2 : (a.descendants ++ Elem.descendants.go as).map verbatim = (b.descendants ++ Elem.descendants.go bs).map verbatim := h2
        rw [List.map_append, List.map_append] at h2
        obtain ⟨h3, h4⟩ := List.append_inj h2 (by rw [List.length_map, List.length_map, length_descendants _ h])
        exact .cons (ih a (List.mem_cons_self ..) h h3) (ihs (fun c hc => ih c (List.mem_cons_of_mem _ hc)) h4)

/-! ### Pieces -/

/-- Pieces that differ in white space. -/
inductive PA : Piece → Piece → Prop
  | text {t t' : Text} (h : Respaced t t') : PA (.text t) (.text t')
  | part (x : Place) {e e' : Elem} (h : Kept e e') : PA (.part x e) (.part x e')
  | blank {e e' : Elem} (h : Kept e e') (hk : e.kind = .tokenWhiteSpace) : PA (.blank e) (.blank e')
  | dropBlank : PA .dropBlank .dropBlank
  | keepLabel (l : Text) : PA (.keepLabel l) (.keepLabel l)
  | putLabel : PA .putLabel .putLabel

abbrev PS : List Piece → List Piece → Prop := Both PA

/-- Both are related, or both fail in the same way. -/
inductive RA {α : Type} (R : α → α → Prop) : Res α → Res α → Prop
  | ok {a b : α} (h : R a b) : RA R (.ok a) (.ok b)
  | error (f : Stop) : RA R (.error f) (.error f)

theorem RA.bind {α β : Type} {R : α → α → Prop} {S : β → β → Prop} {r r' : Res α} {f f' : α → Res β} (h : RA R r r')
    (k : ∀ a b, R a b → RA S (f a) (f' b)) : RA S (r.bind f) (r'.bind f') := by
  cases h with
  | ok h => exact k _ _ h
  | error e => exact .error e

theorem RA.map {α β : Type} {R : α → α → Prop} {S : β → β → Prop} {r r' : Res α} {f f' : α → β} (h : RA R r r')
    (k : ∀ a b, R a b → S (f a) (f' b)) : RA S (r.map f) (r'.map f') := by
  cases h with
  | ok h => exact .ok (k _ _ h)
  | error e => exact .error e

theorem RA.same {α : Type} {R : α → α → Prop} (r : Res α) (h : ∀ a, R a a) : RA R r r := by
  cases r with
  | ok a => exact .ok (h a)
  | error e => exact .error e

theorem txt (t : Text) : PS [.text t] [.text t] := .one (.text (.refl t))

theorem each_both (x : Place) {es es' : List Elem} (h : Both Kept es es') : PS (each x es) (each x es') := h.map fun _ _ k => .part x k

theorem inMode_both {m : Mode} {x : Place} {ps ps' : List Piece} (h : PS ps ps') : PS (inMode m x ps) (inMode m x ps') := by
  unfold inMode
  split
  · exact h
  · exact .nil

theorem flatMap_both {α β γ δ : Type} {R : α → β → Prop} {S : γ → δ → Prop} {f : α → List γ} {g : β → List δ}
    (h : ∀ a b, R a b → Both S (f a) (g b)) {as bs} (hb : Both R as bs) : Both S (as.flatMap f) (bs.flatMap g) := by
  induction hb with
  | nil => exact .nil
  | cons k _ ih => rw [List.flatMap_cons, List.flatMap_cons]; exact (h _ _ k).append ih

theorem all_both {α β : Type} {R : α → β → Prop} {p : α → Bool} {q : β → Bool} (h : ∀ a b, R a b → p a = q b) {as bs} (hb : Both R as bs) :
    as.all p = bs.all q := by
  induction hb with
  | nil => rfl
  | cons k _ ih => rw [List.all_cons, List.all_cons, h _ _ k, ih]

theorem commaList_both (k : Kind) (x : Place) {es es' : List Elem} (h : Both Kept es es') : PS (commaList k x es) (commaList k x es') := by
  induction h with
  | nil => exact .nil
  | @cons a b as bs h hs ih =>
    cases hs with
    | nil => exact .one (.part x h)
    | @cons a2 b2 as bs h2 hs =>
      rw [commaList, commaList, ← kind h]
      refine .cons (.part x h) (Both.append ?_ ih)
      split
      · exact txt _
      · exact .nil

theorem toList_inj {α : Type} {a b : Option α} (h : a.toList = b.toList) : a = b := by
  cases a <;> cases b <;> simp_all

/-! ### Formulas, groups, delimiters, scripts -/

theorem formula {x : Place} {e e' : Elem} (h : Kept e e') (hk : e.kind = .itemFormula) : RA PS (formulaTemplate x e) (formulaTemplate x e') := by
  have hv := verb h
  unfold verbatim at hv
  rw [← kind h, hk] at hv
  dsimp only at hv
  injection hv with h1 h2
  injection h2 with h2 _
  have h1 := toList_inj h1
  have h2 := toList_inj h2
  have e1 : e.isInline = e'.isInline := by unfold Elem.isInline; rw [h1]
  have e2 : e.isValidFormula = e'.isValidFormula := by unfold Elem.isValidFormula; rw [h1, h2]
  unfold formulaTemplate
  rw [e1, e2]
  split
  · exact .ok (((inMode_both (txt _)).append (each_both _ (children h))).append (inMode_both (txt _)))
  · exact .error _

theorem curly {x : Place} {e e' : Elem} (h : Kept e e') : PS (curlyTemplate x e) (curlyTemplate x e') := by
  unfold curlyTemplate
  refine (each_both _ (children h)).append (inMode_both ?_)
  rw [all_both (p := isEmptyGroupPart) (q := isEmptyGroupPart) (fun a b k => by unfold isEmptyGroupPart; rw [kind k]) (children h)]
  split
  · exact txt _
  · exact .nil

theorem dot {d d' : Elem} (h : Kept d d') : isDot d = isDot d' := by
  cases h with
  | @token k t t' h =>
    rcases h with rfl | ⟨h, _⟩
    · rfl
    · simp only [blankLeaves, List.mem_cons, List.not_mem_nil, or_false] at h
      rcases h with rfl | rfl | rfl <;> rfl
  | node => rfl

theorem delimiter {x : Place} {e e' : Elem} (h : Kept e e') (hk : e.kind = .clauseLR) : RA PS (delimiterTemplate x e) (delimiterTemplate x e') := by
  have hv := verb h
  cases h with
  | token => exact .error _
  | @node k cs cs' hc _ =>
    have hk : k = .clauseLR := hk
    subst hk
    unfold delimiterTemplate
    dsimp only [Elem.children]
    cases hc with
    | nil => exact .error _
    | @cons a b as bs h hs =>
      cases h with
      | node => exact .error _
      | @token k t t' h =>
        have hv : [[(k, t)]] = [[(k, t')]] := hv
        have ht : t = t' := by injection hv with hv _; injection hv with hv _; injection hv
        subst ht
        refine RA.map (R := Eq) (RA.same _ fun _ => rfl) ?_
        rintro n _ rfl
        refine Both.append (Both.append ?_ (flatMap_both (fun a b k => ?_) hs)) ?_
        · split
          · exact txt _
          · exact .nil
        · rw [dot k]
          refine Both.append ?_ (txt _)
          split
          · exact .nil
          · exact .one (.part x k)
        · split
          · exact txt _
          · exact .nil

theorem script {x : Place} {cs cs' : List Elem} (h : Both Kept cs cs') : PS (scriptTemplate x cs) (scriptTemplate x cs') := by
  have hm : ∀ a b, Kept a b → (!isScriptMark a) = !isScriptMark b := fun a b k => by unfold isScriptMark; rw [isNode k, kind k]
  have h1 := h.takeWhile (p := fun c => !isScriptMark c) (q := fun c => !isScriptMark c) hm
  have h2 := h.dropWhile (p := fun c => !isScriptMark c) (q := fun c => !isScriptMark c) hm
  have h3 : ∀ c, (cs.dropWhile fun c => !isScriptMark c).head? = some c → isScriptMark c = true := by
    intro c hc
    have := List.head?_dropWhile_not (fun c => !isScriptMark c) cs
    rw [hc] at this
    simpa using this
  unfold scriptTemplate
  dsimp only
  generalize (cs.dropWhile fun c => !isScriptMark c) = a at h2 h3 ⊢
  generalize (cs'.dropWhile fun c => !isScriptMark c) = b at h2 ⊢
  cases h2 with
  | nil => exact each_both x h
  | @cons a b as bs h2 hs =>
    have ht : a.text = b.text := by
      have hk := h3 a rfl
      cases h2 with
      | node => cases hk
      | @token k t t' h =>
        rcases h with rfl | ⟨h, _⟩
        · rfl
        · simp only [blankLeaves, List.mem_cons, List.not_mem_nil, or_false] at h
          rcases h with rfl | rfl | rfl <;> cases hk
    dsimp only
    rw [ht, all_both (p := isSpaceToken) (q := isSpaceToken) (fun a b k => by unfold isSpaceToken; rw [isNode k, kind k]) h1]
    refine ((((each_both x h1).append ?_).append (txt _)).append (each_both x hs)).append (txt _)
    split
    · exact txt _
    · exact .nil

end Respace
end Mitex
