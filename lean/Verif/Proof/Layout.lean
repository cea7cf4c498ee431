/-
Texts with another layout have tokens that differ in white space (for C86).
-/
import Verif.Spec.Layout
import Verif.Spec.Rules
import Verif.Proof.Respaced
import Verif.Proof.AgreeLex

namespace Mitex
namespace Layout

theorem refl (s : Text) : SameLines s s := by
  induction s with
  | nil => exact .nil
  | cons c s ih =>
    by_cases h : isWs c = true
    · by_cases h2 : isNl c = true
      · exact .ends (w := [c]) (w' := [c]) ⟨List.cons_ne_nil _ _, List.cons_ne_nil _ _⟩ (by simp [h2]) ih
      · exact .blanks (w := [c]) (w' := [c]) ⟨List.cons_ne_nil _ _, List.cons_ne_nil _ _⟩ (by simp [isBlankChar, h, h2]) ih
    · exact .char (by simpa using h) ih

theorem symm {s s' : Text} (h : SameLines s s') : SameLines s' s := by
  induction h with
  | nil => exact .nil
  | char hc _ ih => exact .char hc ih
  | blanks hn hw _ ih => exact .blanks hn.symm (fun c hc => hw c (by rw [List.mem_append] at hc ⊢; exact hc.symm)) ih
  | ends hn hw _ ih => exact .ends hn.symm (fun c hc => hw c (by rw [List.mem_append] at hc ⊢; exact hc.symm)) ih

theorem nl_ws {c : Char} (h : isNl c = true) : isWs c = true := by
  simp only [isNl, Bool.or_eq_true, beq_iff_eq] at h
  rcases h with rfl | rfl <;> decide

theorem blank_ws {c : Char} (h : isBlankChar c = true) : isWs c = true := by
  unfold isBlankChar at h
  rw [Bool.and_eq_true] at h
  exact h.1

theorem blank_nl {c : Char} (h : isBlankChar c = true) : isNl c = false := by
  unfold isBlankChar at h
  rw [Bool.and_eq_true] at h
  simpa using h.2

/-- The class of a character: itself, a blank, or a line end. -/
inductive SameChar : Char → Char → Prop
  | char {c} (h : isWs c = false) : SameChar c c
  | blank {c d} (h : isBlankChar c = true) (h' : isBlankChar d = true) : SameChar c d
  | nl {c d} (h : isNl c = true) (h' : isNl d = true) : SameChar c d

theorem empty {s s' : Text} (h : SameLines s s') : s = [] ↔ s' = [] := by
  cases h with
  | nil => exact Iff.rfl
  | char => exact ⟨fun h => (by cases h), fun h => (by cases h)⟩
  | blanks hn => exact ⟨fun h => absurd (List.append_eq_nil_iff.1 h).1 hn.1, fun h => absurd (List.append_eq_nil_iff.1 h).1 hn.2⟩
  | ends hn => exact ⟨fun h => absurd (List.append_eq_nil_iff.1 h).1 hn.1, fun h => absurd (List.append_eq_nil_iff.1 h).1 hn.2⟩

theorem head {s s' : Text} (h : SameLines s s') : ∀ c, s'.head? = some c → ∃ d, s.head? = some d ∧ SameChar c d := by
  intro c hc
  cases h with
  | nil => cases hc
  | char hw => cases hc; exact ⟨_, rfl, .char hw⟩
  | @blanks w w' _ _ hn hw =>
    cases w with
    | nil => exact absurd rfl hn.1
    | cons d w =>
      cases w' with
      | nil => exact absurd rfl hn.2
      | cons e w' =>
        have hc : some e = some c := hc
        cases hc
        exact ⟨d, rfl, .blank (hw _ (by simp)) (hw _ (by simp))⟩
  | @ends w w' _ _ hn hw =>
    cases w with
    | nil => exact absurd rfl hn.1
    | cons d w =>
      cases w' with
      | nil => exact absurd rfl hn.2
      | cons e w' =>
        have hc : some e = some c := hc
        cases hc
        exact ⟨d, rfl, .nl (hw _ (by simp)) (hw _ (by simp))⟩

/-- Each character of the one text has one of the same class in the other. -/
theorem mem {s s' : Text} (h : SameLines s s') : ∀ c ∈ s', ∃ d ∈ s, SameChar c d := by
  induction h with
  | nil => intro c h; cases h
  | @char c s s' hc _ ih =>
    intro d hd
    rcases List.mem_cons.1 hd with rfl | hd
    · exact ⟨d, List.mem_cons_self, .char hc⟩
    · obtain ⟨e, he, hs⟩ := ih d hd
      exact ⟨e, List.mem_cons_of_mem _ he, hs⟩
  | @blanks w w' s s' hn hw _ ih =>
    intro d hd
    rcases List.mem_append.1 hd with hd | hd
    · cases w with
      | nil => exact absurd rfl hn.1
      | cons e w => exact ⟨e, by simp, .blank (hw d (List.mem_append_right _ hd)) (hw e (by simp))⟩
    · obtain ⟨e, he, hs⟩ := ih d hd
      exact ⟨e, List.mem_append_right _ he, hs⟩
  | @ends w w' s s' hn hw _ ih =>
    intro d hd
    rcases List.mem_append.1 hd with hd | hd
    · cases w with
      | nil => exact absurd rfl hn.1
      | cons e w => exact ⟨e, by simp, .nl (hw d (List.mem_append_right _ hd)) (hw e (by simp))⟩
    · obtain ⟨e, he, hs⟩ := ih d hd
      exact ⟨e, List.mem_append_right _ he, hs⟩

/-- A class of characters that does not tell blanks, or line ends, from each other. -/
def Coarse (p : Char → Prop) : Prop := ∀ c d, SameChar c d → p d → p c

theorem noMore {p : Char → Prop} (hp : ∀ c d, SameChar c d → p c → p d) {s s' : Text} (h : SameLines s s') (hn : NoMore p s) : NoMore p s' := by
  intro c hc k
  obtain ⟨d, hd, hs⟩ := head h c hc
  exact hn d hd (hp c d hs k)

theorem all {p : Char → Prop} (hp : ∀ c d, SameChar c d → p d → p c) {s s' : Text} (h : SameLines s s') (hn : ∀ c ∈ s, p c) : ∀ c ∈ s', p c := by
  intro c hc
  obtain ⟨d, hd, hs⟩ := mem h c hc
  exact hp c d hs (hn d hd)

/-- Texts without white space are the same. -/
theorem black {s s' : Text} (h : SameLines s s') (hb : ∀ c ∈ s, isWs c = false) : s' = s := by
  induction h with
  | nil => rfl
  | char _ _ ih => rw [ih fun c hc => hb c (List.mem_cons_of_mem _ hc)]
  | @blanks w w' _ _ hn hw =>
    cases w with
    | nil => exact absurd rfl hn.1
    | cons d w =>
      have := blank_ws (hw d (by simp))
      rw [hb d (by simp)] at this
      cases this
  | @ends w w' _ _ hn hw =>
    cases w with
    | nil => exact absurd rfl hn.1
    | cons d w =>
      have := nl_ws (hw d (by simp))
      rw [hb d (by simp)] at this
      cases this

/-- No stretch of white space goes over the place between `a` and `b`. -/
def Cut (a b : Text) : Prop := ∀ c d, a.getLast? = some c → b.head? = some d → ¬ (isBlankChar c = true ∧ isBlankChar d = true) ∧ ¬ (isNl c = true ∧ isNl d = true)

theorem split {s s' : Text} (h : SameLines s s') : ∀ a b, s = a ++ b → Cut a b → ∃ a' b', s' = a' ++ b' ∧ SameLines a a' ∧ SameLines b b' := by
  have keep : ∀ {w a b : Text}, a ≠ [] → Cut (w ++ a) b → Cut a b := by
    intro w a b ha hc c d h1 h2
    refine hc c d ?_ h2
    rw [List.getLast?_append, h1]
    rfl
  induction h with
  | nil =>
    intro a b hs _
    obtain ⟨rfl, rfl⟩ := List.append_eq_nil_iff.1 hs.symm
    exact ⟨[], [], rfl, .nil, .nil⟩
  | @char c s s' hc h ih =>
    intro a b hs hcut
    cases a with
    | nil => exact ⟨[], c :: s', rfl, .nil, by rw [List.nil_append] at hs; exact hs ▸ .char hc h⟩
    | cons a0 a =>
      rw [List.cons_append] at hs
      injection hs with h1 h2
      subst h1
      obtain ⟨a', b', rfl, h3, h4⟩ := ih a b h2 (by
        cases a with
        | nil => exact fun c d h => (by cases h)
        | cons a1 a => exact keep (w := [c]) (List.cons_ne_nil _ _) hcut)
      exact ⟨c :: a', b', rfl, .char hc h3, h4⟩
  | @blanks w w' s s' hn hw h ih =>
    intro a b hs hcut
    rcases List.append_eq_append_iff.1 hs with ⟨a1, rfl, rfl⟩ | ⟨b1, rfl, rfl⟩
    · obtain ⟨a', b', rfl, h3, h4⟩ := ih a1 b rfl (by
        cases a1 with
        | nil => exact fun c d h => (by cases h)
        | cons a1 a => exact keep (w := w) (List.cons_ne_nil _ _) hcut)
      exact ⟨w' ++ a', b', (List.append_assoc ..).symm, .blanks hn hw h3, h4⟩
    · cases b1 with
      | nil =>
        rw [List.append_nil] at hn hw
        have := SameLines.blanks hn hw .nil
        rw [List.append_nil, List.append_nil] at this
        exact ⟨w', s', rfl, this, h⟩
      | cons d b1 =>
        cases ha : a.getLast? with
        | none =>
          rw [List.getLast?_eq_none_iff] at ha
          subst ha
          exact ⟨[], w' ++ s', rfl, .nil, .blanks hn hw h⟩
        | some c =>
          refine absurd ⟨hw c ?_, hw d ?_⟩ (hcut c d ha rfl).1
          · have := List.mem_of_getLast? ha
            simp [this]
          · simp
  | @ends w w' s s' hn hw h ih =>
    intro a b hs hcut
    rcases List.append_eq_append_iff.1 hs with ⟨a1, rfl, rfl⟩ | ⟨b1, rfl, rfl⟩
    · obtain ⟨a', b', rfl, h3, h4⟩ := ih a1 b rfl (by
        cases a1 with
        | nil => exact fun c d h => (by cases h)
        | cons a1 a => exact keep (w := w) (List.cons_ne_nil _ _) hcut)
      exact ⟨w' ++ a', b', (List.append_assoc ..).symm, .ends hn hw h3, h4⟩
    · cases b1 with
      | nil =>
        rw [List.append_nil] at hn hw
        have := SameLines.ends hn hw .nil
        rw [List.append_nil, List.append_nil] at this
        exact ⟨w', s', rfl, this, h⟩
      | cons d b1 =>
        cases ha : a.getLast? with
        | none =>
          rw [List.getLast?_eq_none_iff] at ha
          subst ha
          exact ⟨[], w' ++ s', rfl, .nil, .ends hn hw h⟩
        | some c =>
          refine absurd ⟨hw c ?_, hw d ?_⟩ (hcut c d ha rfl).2
          · have := List.mem_of_getLast? ha
            simp [this]
          · simp

end Layout
end Mitex
