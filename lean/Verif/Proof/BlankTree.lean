/-
Trees that differ in blanks only: their parts, the parts that are read as they are, and trees that differ in comments.
-/
import Verif.Proof.Blank
import Verif.Proof.ConvRel
import Verif.Proof.Template
import Verif.Props.ParserTree

namespace Mitex
namespace Blank

variable {Q : Kind → Text → Text → Prop}

/-- Leaves of alike trees. -/
def LeafAlike (Q : Kind → Text → Text → Prop) (l l' : Kind × Text) : Prop := l.1 = l'.1 ∧ (l.2 = l'.2 ∨ l.1 ∈ blankLeaves ∧ Q l.1 l.2 l'.2)

theorem alike_kind {e e' : Elem} (h : Alike Q e e') : e.kind = e'.kind := by cases h <;> rfl

theorem alike_isNode {e e' : Elem} (h : Alike Q e e') : e.isNode = e'.isNode := by cases h <;> rfl

theorem alike_children {e e' : Elem} (h : Alike Q e e') : Both (Alike Q) e.children e'.children := by
  cases h with
  | token => exact .nil
  | node k h => exact h

theorem alike_childNodes {e e' : Elem} (h : Alike Q e e') : Both (Alike Q) e.childNodes e'.childNodes :=
  (alike_children h).filter fun a b k => alike_isNode k

theorem alike_arguments {e e' : Elem} (h : Alike Q e e') : Both (Alike Q) e.arguments e'.arguments :=
  (alike_childNodes h).filter fun a b k => by rw [alike_kind k]

theorem alike_leaves (e : Elem) : ∀ ⦃e' : Elem⦄, Alike Q e e' → Both (LeafAlike Q) e.leaves e'.leaves := by
  induction e using Elem.ind with
  | ht k t =>
    intro e' h
    cases h with
    | token _ h => exact .one ⟨rfl, h⟩
  | hn k cs ih =>
    intro e' h
    cases h with
    | @node _ _ cs' h =>
      show Both (LeafAlike Q) (Elem.leaves.go cs) (Elem.leaves.go cs')
      induction h with
      | nil => exact .nil
      | @cons a b as bs h hs ihs => exact (ih a (List.mem_cons_self ..) h).append (ihs fun c hc => ih c (List.mem_cons_of_mem _ hc))

/-- Optional values. -/
inductive Opt {α β : Type} (R : α → β → Prop) : Option α → Option β → Prop
  | none : Opt R .none .none
  | some {a b} (h : R a b) : Opt R (.some a) (.some b)

theorem Opt.toList {α β : Type} {R : α → β → Prop} {a : Option α} {b : Option β} (h : Opt R a b) : Both R a.toList b.toList := by
  cases h with
  | none => exact .nil
  | some h => exact .one h

theorem find_both {α β : Type} {R : α → β → Prop} {p : α → Bool} {q : β → Bool} (h : ∀ a b, R a b → p a = q b) {as bs} (hb : Both R as bs) :
    Opt R (as.find? p) (bs.find? q) := by
  induction hb with
  | nil => exact .none
  | @cons a b as bs hh hs ih =>
    rw [List.find?_cons, List.find?_cons, ← h a b hh]
    cases p a with
    | true => exact .some hh
    | false => exact ih

theorem alike_firstToken (e : Elem) : ∀ ⦃e' : Elem⦄, Alike Q e e' → Opt (LeafAlike Q) e.firstToken e'.firstToken := by
  induction e using Elem.ind with
  | ht k t =>
    intro e' h
    cases h with
    | token _ h => exact .some ⟨rfl, h⟩
  | hn k cs ih =>
    intro e' h
    cases h with
    | node _ h =>
      cases h with
      | nil => exact .none
      | cons h hs =>
        have := ih _ (List.mem_cons_self ..) h
        exact this

theorem alike_lastToken (e : Elem) : ∀ ⦃e' : Elem⦄, Alike Q e e' → Opt (LeafAlike Q) e.lastToken e'.lastToken := by
  induction e using Elem.ind with
  | ht k t =>
    intro e' h
    cases h with
    | token _ h => exact .some ⟨rfl, h⟩
  | hn k cs ih =>
    intro e' h
    cases h with
    | @node _ _ cs' h =>
      show Opt (LeafAlike Q) (Elem.lastToken.go cs) (Elem.lastToken.go cs')
      induction h with
      | nil => exact .none
      | @cons a b as bs h hs ihs =>
        cases hs with
        | nil => exact ih a (List.mem_cons_self ..) h
        | cons h2 hs2 => exact ihs fun c hc => ih c (List.mem_cons_of_mem _ hc)

theorem alike_cmdName {e e' : Elem} (h : Alike Q e e') : e.cmdName = e'.cmdName := by
  unfold Elem.cmdName
  have hf := find_both (p := fun c : Elem => !c.isNode && decide (c.kind = .clauseCommandName)) (q := fun c => !c.isNode && decide (c.kind = .clauseCommandName))
    (fun a b k => by rw [alike_isNode k, alike_kind k]) (alike_children h)
  generalize ha : e.children.find? (fun c : Elem => !c.isNode && decide (c.kind = .clauseCommandName)) = a at hf ⊢
  generalize e'.children.find? (fun c : Elem => !c.isNode && decide (c.kind = .clauseCommandName)) = b at hf ⊢
  cases hf with
  | none => rfl
  | @some a b hh =>
    have := List.find?_some ha
    simp only [Bool.and_eq_true, decide_eq_true_eq] at this
    cases hh with
    | @token k t t' h =>
      rcases h with rfl | ⟨h, _⟩
      · rfl
      · have hk : k = .clauseCommandName := this.2
        subst hk
        exact absurd h (by decide)
    | node k h => rfl

theorem alike_envBegin {e e' : Elem} (h : Alike Q e e') : Opt (Alike Q) e.envBegin e'.envBegin :=
  find_both (fun a b k => by rw [alike_kind k]) (alike_childNodes h)

theorem alike_envArguments {e e' : Elem} (h : Alike Q e e') : Both (Alike Q) e.envArguments e'.envArguments := by
  unfold Elem.envArguments
  have hb := alike_envBegin h
  generalize e.envBegin = a at hb ⊢
  generalize e'.envBegin = b at hb ⊢
  cases hb with
  | none => exact .nil
  | some h => exact alike_arguments h

theorem leavesList {as bs : List Elem} (h : Both (Alike Q) as bs) : Both (Both (LeafAlike Q)) (as.map Elem.leaves) (bs.map Elem.leaves) :=
  h.map fun a _ k => alike_leaves a k

/-- The parts that are read as they are correspond. -/
theorem alike_verbatim {e e' : Elem} (h : Alike Q e e') : Both (Both (LeafAlike Q)) (verbatim e) (verbatim e') := by
  unfold verbatim
  rw [← alike_kind h]
  split
  · exact .one (alike_leaves e h)
  · exact .one (alike_leaves e h)
  · exact .cons (alike_firstToken e h).toList (.one (alike_lastToken e h).toList)
  · exact .one (alike_firstToken e h).toList
  · refine .cons ?_ (leavesList (alike_envArguments h))
    have hb := alike_envBegin h
    generalize e.envBegin = a at hb ⊢
    generalize e'.envBegin = b at hb ⊢
    cases hb with
    | none => exact .nil
    | some h => exact (alike_firstToken _ h).toList
  · rw [← alike_cmdName h]
    have ha := alike_arguments h
    extract_lets name
    by_cases c1 : name = some t!"label" ∨ name = some t!"includegraphics"
    · rw [if_pos c1, if_pos c1]; exact leavesList ha
    · rw [if_neg c1, if_neg c1]
      by_cases c2 : e.cmdName = some t!"\\color"
      · rw [if_pos c2, if_pos c2]
        generalize e.arguments = as at ha ⊢
        generalize e'.arguments = bs at ha ⊢
        cases ha with
        | nil => exact .nil
        | @cons a b _ _ h hs =>
          have hd := (alike_children h).dropWhile (p := fun c => blankKind c.kind) (q := fun c => blankKind c.kind) fun x y k => by rw [alike_kind k]
          show Both _ (match a.children.dropWhile fun c => blankKind c.kind with
            | [] => []
            | b :: cs => if b.kind = .tokenLBracket then (cs.takeWhile fun c => decide (c.kind ≠ .tokenRBracket)).map Elem.leaves else [])
            (match b.children.dropWhile fun c => blankKind c.kind with
            | [] => []
            | b :: cs => if b.kind = .tokenLBracket then (cs.takeWhile fun c => decide (c.kind ≠ .tokenRBracket)).map Elem.leaves else [])
          generalize (a.children.dropWhile fun c => blankKind c.kind) = x at hd ⊢
          generalize (b.children.dropWhile fun c => blankKind c.kind) = y at hd ⊢
          cases hd with
          | nil => exact .nil
          | @cons a b _ _ h hs =>
            show Both _ (if a.kind = .tokenLBracket then _ else []) (if b.kind = .tokenLBracket then _ else [])
            rw [← alike_kind h]
            split
            · exact leavesList (hs.takeWhile fun x y k => by rw [alike_kind k])
            · exact .nil
      · rw [if_neg c2, if_neg c2]
        split
        · exact leavesList (ha.take 1)
        · exact .nil
  · exact .nil

/-! ### Comments -/

/-- Leaves that are alike but for the texts of comments, and are no comments, are equal. -/
theorem leaf_eq {l l' : Kind × Text} (h : LeafAlike (fun k _ _ => k = .tokenComment) l l') (hn : l.1 ≠ .tokenComment) : l = l' := by
  obtain ⟨h1, h2⟩ := h
  rcases h2 with h2 | ⟨_, h2⟩
  · exact Prod.ext h1 h2
  · exact absurd h2 hn

theorem leaves_eq {as bs : List (Kind × Text)} (h : Both (LeafAlike fun k _ _ => k = .tokenComment) as bs) (hn : ∀ l ∈ as, l.1 ≠ .tokenComment) : as = bs := by
  induction h with
  | nil => rfl
  | cons h hs ih =>
    rw [leaf_eq h (hn _ (List.mem_cons_self ..)), ih fun l hl => hn l (List.mem_cons_of_mem _ hl)]

theorem parts_eq {as bs : List (List (Kind × Text))} (h : Both (Both (LeafAlike fun k _ _ => k = .tokenComment)) as bs)
    (hn : ∀ p ∈ as, ∀ l ∈ p, l.1 ≠ .tokenComment) : as = bs := by
  induction h with
  | nil => rfl
  | cons h hs ih =>
    rw [leaves_eq h (hn _ (List.mem_cons_self ..)), ih fun l hl => hn l (List.mem_cons_of_mem _ hl)]

/-- Trees that differ in the texts of comments only, none of them within a part that is read as it is, differ in comments only in the sense
of C43. -/
theorem alike_same (e : Elem) : ∀ ⦃e' : Elem⦄, Alike (fun k _ _ => k = .tokenComment) e e' →
    e.Forall (fun x => (∀ p ∈ verbatim x, ∀ l ∈ p, l.1 ≠ .tokenComment) ∧ (x.kind = .itemCmd → x.children.filter isBlock = [])) → Same e e' := by
  induction e using Elem.ind with
  | ht k t =>
    intro e' h hf
    cases h with
    | @token _ _ t' h =>
      rcases h with rfl | ⟨_, rfl⟩
      · exact .token ..
      · exact .comment ..
  | hn k cs ih =>
    intro e' h hf
    cases h with
    | @node _ _ cs' h =>
      obtain ⟨h1, h2⟩ := (Forall_node _ k cs).1 hf
      refine .node k ?_ (parts_eq (alike_verbatim (.node k h)) h1.1) ?_
      · clear hf h1
        induction h with
        | nil => exact .nil
        | @cons a b as bs h hs ihs =>
          exact .cons (ih a (List.mem_cons_self ..) h (h2 a (List.mem_cons_self ..))) (ihs (fun c hc => ih c (List.mem_cons_of_mem _ hc)) fun c hc => h2 c (List.mem_cons_of_mem _ hc))
      · intro hk
        have h3 : cs.filter isBlock = [] := h1.2 hk
        have h4 := h.filter (p := isBlock) (q := isBlock) fun a b k => by unfold isBlock; rw [alike_kind k]
        rw [h3] at h4 ⊢
        exact (List.length_eq_zero_iff.1 h4.length.symm).symm

end Blank
end Mitex
