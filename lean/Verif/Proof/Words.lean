/-
Names are never joined: lemmas about texts and pieces of templates.
-/
import Verif.Spec.Words
import Verif.Proof.NestingAll

namespace Mitex

/-- The first character is part of a word. -/
def startsW (t : Text) : Bool := t.head?.any inWord
/-- The last character is part of a word. -/
def endsW (t : Text) : Bool := t.getLast?.any inWord

theorem wordsOf_in {c : Char} {t : Text} (h : inWord c = true) (k : startsW t = true) :
    wordsOf (c :: t) = match wordsOf t with | w :: ws => (c :: w) :: ws | [] => [[c]] := by
  have k : t.head?.any inWord = true := k
  conv => lhs; unfold wordsOf
  rw [if_pos h, if_pos k]
  cases wordsOf t <;> rfl

theorem wordsOf_end {c : Char} {t : Text} (h : inWord c = true) (k : startsW t = false) : wordsOf (c :: t) = [c] :: wordsOf t := by
  have k : t.head?.any inWord = false := k
  conv => lhs; unfold wordsOf
  rw [if_pos h, if_neg (by rw [k]; decide)]

theorem wordsOf_out {c : Char} {t : Text} (h : ¬ inWord c = true) : wordsOf (c :: t) = wordsOf t := by
  conv => lhs; unfold wordsOf
  rw [if_neg h]

theorem wordsOf_ne {t : Text} (h : startsW t = true) : wordsOf t ≠ [] := by
  cases t with
  | nil => cases h
  | cons c t =>
    have h : inWord c = true := h
    cases k : startsW t with
    | true => rw [wordsOf_in h k]; cases wordsOf t <;> simp
    | false => rw [wordsOf_end h k]; simp

theorem wordsOf_append {a b : Text} (h : ¬ (endsW a = true ∧ startsW b = true)) : wordsOf (a ++ b) = wordsOf a ++ wordsOf b := by
  induction a with
  | nil => rfl
  | cons c a ih =>
    rw [List.cons_append]
    by_cases hc : inWord c = true
    · cases a with
      | nil =>
        have hb : startsW b = false := by
          cases hs : startsW b with
          | false => rfl
          | true => exact absurd ⟨by simpa [endsW] using hc, hs⟩ h
        rw [List.nil_append, wordsOf_end hc hb, wordsOf_end (t := []) hc rfl]
        rfl
      | cons d a =>
        have hl : endsW (c :: d :: a) = endsW (d :: a) := by unfold endsW; rw [List.getLast?_cons_cons]
        rw [hl] at h
        have ih := ih h
        have hs : startsW (d :: a ++ b) = startsW (d :: a) := rfl
        cases hd : startsW (d :: a) with
        | true =>
          rw [wordsOf_in hc (hs.trans hd), wordsOf_in hc hd, ih]
          cases hw : wordsOf (d :: a) with
          | nil => exact absurd hw (wordsOf_ne hd)
          | cons w ws => rfl
        | false =>
          rw [wordsOf_end hc (hs.trans hd), wordsOf_end hc hd, ih]
          rfl
    · rw [wordsOf_out hc, wordsOf_out hc]
      cases a with
      | nil => rfl
      | cons d a =>
        have hl : endsW (c :: d :: a) = endsW (d :: a) := by unfold endsW; rw [List.getLast?_cons_cons]
        rw [hl] at h
        exact ih h

/-- `b` says that the text before may end in a word, `b'` that this may be so after the text. -/
def Joins (b : Bool) (t : Text) (b' : Bool) : Prop :=
  (b = true → startsW t = false) ∧ (endsW t = true → b' = true) ∧ (t = [] → b = true → b' = true)

theorem Joins.append {a b c : Bool} {t u : Text} (h : Joins a t b) (k : Joins b u c) : Joins a (t ++ u) c := by
  refine ⟨fun ha => ?_, fun he => ?_, fun he ha => ?_⟩
  · cases t with
    | nil => exact k.1 (h.2.2 rfl ha)
    | cons d t => exact h.1 ha
  · by_cases hu : u = []
    · subst hu
      rw [List.append_nil] at he
      exact k.2.2 rfl (h.2.1 he)
    · refine k.2.1 ?_
      unfold endsW at he ⊢
      rw [List.getLast?_append, List.getLast?_eq_some_getLast hu] at he
      rw [List.getLast?_eq_some_getLast hu]
      exact he
  · obtain ⟨h1, h2⟩ := List.append_eq_nil_iff.1 he
    exact k.2.2 h2 (h.2.2 h1 ha)

theorem Joins.apart {a b c : Bool} {t u : Text} (h : Joins a t b) (k : Joins b u c) : wordsOf (t ++ u) = wordsOf t ++ wordsOf u :=
  wordsOf_append fun he => by
    have := k.1 (h.2.1 he.1)
    rw [he.2] at this
    cases this

/-- No character of the text is part of a word. -/
theorem Joins.blank {t : Text} (h : ∀ c ∈ t, inWord c = false) : Joins false t false := by
  refine ⟨fun h => (by cases h), fun he => ?_, fun _ h => (by cases h)⟩
  unfold endsW at he
  cases hl : t.getLast? with
  | none => rw [hl] at he; cases he
  | some c =>
    rw [hl] at he
    have := h c (List.mem_of_getLast? hl)
    have he : inWord c = true := he
    rw [this] at he
    cases he

theorem Joins.ends {t : Text} {c : Char} (hc : inWord c = false) : Joins false (t ++ [c]) false := by
  refine ⟨fun h => (by cases h), fun he => ?_, fun _ h => (by cases h)⟩
  unfold endsW at he
  rw [List.getLast?_append] at he
  have he : inWord c = true := he
  rw [hc] at he
  cases he

/-- A given text that starts with a character that is not part of a word, and ends with one. -/
theorem Joins.mark {b : Bool} {t : Text} (h : t ≠ [] ∧ startsW t = false ∧ endsW t = false) : Joins b t false :=
  ⟨fun _ => h.2.1, fun he => (by rw [h.2.2] at he; cases he), fun he => absurd he h.1⟩

theorem Joins.any {t : Text} : Joins false t true := ⟨fun h => (by cases h), fun _ => rfl, fun _ _ => rfl⟩

theorem Joins.closed {t : Text} (h : endsW t = false) : Joins false t false :=
  ⟨fun h => (by cases h), fun he => (by rw [h] at he; cases he), fun _ h => (by cases h)⟩

/-! ### Elements and pieces -/

/-- What is needed of an element. -/
def Fit (e : Elem) : Prop := e.Forall fun d => PartsOf d ∧ (d.kind = .itemTypstCode → endsW d.text = false)

theorem Fit.self {e : Elem} (h : Fit e) : PartsOf e ∧ (e.kind = .itemTypstCode → endsW e.text = false) := by
  cases e with
  | token k t => exact (Forall_token _ _ _).1 h
  | node k cs => exact ((Forall_node _ _ _).1 h).1

theorem Fit.child {e c : Elem} (h : Fit e) (hc : c ∈ e.children) : Fit c := by
  cases e with
  | token k t => cases hc
  | node k cs => exact ((Forall_node _ _ _).1 h).2 c hc

/-- The result of converting the element ends outside of a word. -/
def endsClosed (x : Place) (e : Elem) : Bool := decide (x.mode = .math ∧ e.kind ≠ .tokenCommandSym)

/-- What the pieces do. -/
inductive Spaced : Bool → List Piece → Bool → Prop
  | nil (b : Bool) : Spaced b [] b
  | text {t : Text} {ps : List Piece} {a b c : Bool} (h : Joins a t b) (k : Spaced b ps c) : Spaced a (.text t :: ps) c
  | part {x : Place} {e : Elem} {ps : List Piece} {c : Bool} (hp : Fit e) (k : Spaced (!endsClosed x e) ps c) : Spaced false (.part x e :: ps) c
  | blank {e : Elem} {ps : List Piece} {c : Bool} (h : ∀ k t, e = .token k t → ∀ d ∈ t, inWord d = false) (k : Spaced false ps c) :
      Spaced false (.blank e :: ps) c
  | dropBlank {ps : List Piece} {a c : Bool} (k : Spaced a ps c) : Spaced a (.dropBlank :: ps) c
  | keepLabel {l : Text} {ps : List Piece} {a c : Bool} (k : Spaced a ps c) : Spaced a (.keepLabel l :: ps) c

theorem Spaced.append {ps qs : List Piece} {a b c : Bool} (h : Spaced a ps b) (k : Spaced b qs c) : Spaced a (ps ++ qs) c := by
  induction h with
  | nil => exact k
  | text h _ ih => exact .text h (ih k)
  | part hp _ ih => exact .part hp (ih k)
  | blank h _ ih => exact .blank h (ih k)
  | dropBlank _ ih => exact .dropBlank (ih k)
  | keepLabel _ ih => exact .keepLabel (ih k)

theorem Spaced.split {ps qs : List Piece} {a c : Bool} (h : Spaced a (ps ++ qs) c) : ∃ b, Spaced a ps b ∧ Spaced b qs c := by
  induction ps generalizing a with
  | nil => exact ⟨a, .nil a, h⟩
  | cons p ps ih =>
    cases h with
    | text h k => obtain ⟨b, h1, h2⟩ := ih k; exact ⟨b, .text h h1, h2⟩
    | part hp k => obtain ⟨b, h1, h2⟩ := ih k; exact ⟨b, .part hp h1, h2⟩
    | blank h k => obtain ⟨b, h1, h2⟩ := ih k; exact ⟨b, .blank h h1, h2⟩
    | dropBlank k => obtain ⟨b, h1, h2⟩ := ih k; exact ⟨b, .dropBlank h1, h2⟩
    | keepLabel k => obtain ⟨b, h1, h2⟩ := ih k; exact ⟨b, .keepLabel h1, h2⟩

/-- The templates in formulas end outside of a word. -/
def TemplatesSpaced (spec : CommandSpec) : Prop :=
  ∀ x e ps, template spec x e = .ok ps → Fit e → x.mode = .math → e.kind ≠ .tokenCommandSym → Spaced false ps false

theorem printedAll_spaced {spec : CommandSpec} (ht : TemplatesSpaced spec) {ps : List Piece} {m m' : Mem} {t : Text} (h : PrintedAll spec ps m t m') :
    ∀ a b, Spaced a ps b → Joins a t b := by
  refine @PrintedAll.rec spec (fun x e m t m' _ => Fit e → Joins false t (!endsClosed x e))
    (fun ps m t m' _ => ∀ a b, Spaced a ps b → Joins a t b) ?_ ?_ ?_ ?_ ?_ ?_ ?_ ?_ ?_ ?_ ps m t m' h
  · intro x e ps m m' t hp _ ih hpe
    by_cases hc : x.mode = .math ∧ e.kind ≠ .tokenCommandSym
    · have : endsClosed x e = true := decide_eq_true hc
      rw [this]
      exact ih false false (ht x e ps hp hpe hc.1 hc.2)
    · have : endsClosed x e = false := decide_eq_false hc
      rw [this]
      exact .any
  · intro m a b hr
    cases hr
    exact ⟨fun _ => rfl, fun h => (by cases h), fun _ h => h⟩
  · intro ps m m' u t _ ih a b hr
    cases hr with
    | text h k => exact h.append (ih _ _ k)
  · intro x e ps m m' m'' t u _ _ ih1 ih2 a b hr
    cases hr with
    | part hp k => exact (ih1 hp).append (ih2 _ _ k)
  · intro k t ps m m' u _ _ ih a b hr
    cases hr with
    | blank h k => exact (Joins.blank (h _ _ rfl)).append (ih _ _ k)
  · intro e ps m m' u _ _ ih a b hr
    cases hr with
    | blank h k => exact ih _ _ k
  · intro ps m m' u _ ih a b hr
    cases hr with
    | dropBlank k => exact ih _ _ k
  · intro l ps m m' u _ ih a b hr
    cases hr with
    | keepLabel k => exact ih _ _ k
  · intro l ps m m' u hml _ ih a b hr
    cases hr
  · intro ps m m' u _ _ ih a b hr
    cases hr

end Mitex
