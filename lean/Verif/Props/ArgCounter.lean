/-
C27, the counter of arguments: it is a byte, and a maximum of 255 is allowed.
-/
import Verif.Model.ArgCounter

namespace Mitex

theorem taken_atMost (g : GlobFn) (max n : Nat) : ∀ ct, ct ≤ max → taken g (.atMost max ct) n = min n (max - ct) := by
  induction n with
  | zero => intro ct _; simp [taken]
  | succ n ih =>
    intro ct h
    rw [taken]
    simp only [ArgMatcher.tryMatch, ne_eq, not_true_eq_false, if_false]
    by_cases hc : ct < max
    · simp only [hc, decide_true]
      rw [ih (ct + 1) (by omega)]; omega
    · simp only [hc, decide_false]; omega

theorem byteTaken_eq (checked : Bool) (max : UInt8) (n : Nat) : ∀ ct : UInt8, ct ≤ max →
    byteTaken checked max ct n =
      if checked = true ∧ max = 255 ∧ 255 - ct.toNat < n then none else some (min n (max.toNat - ct.toNat)) := by
  induction n with
  | zero => intro ct _; simp [byteTaken]
  | succ n ih =>
    intro ct h
    have hle : ct.toNat ≤ max.toNat := UInt8.le_iff_toNat_le.1 h
    have hm : max.toNat < 256 := max.toNat_lt
    rw [byteTaken, byteTry]
    by_cases h1 : (checked && ct == 255) = true
    · rw [if_pos h1]
      have h2 : checked = true ∧ ct = 255 := by simpa using h1
      have e : ct.toNat = 255 := by rw [h2.2]; rfl
      have hmax : max = 255 := UInt8.toNat.inj (by show max.toNat = 255; omega)
      rw [if_pos ⟨h2.1, hmax, by omega⟩]
    · rw [if_neg h1]
      have h2 : ¬ (checked = true ∧ ct = 255) := by simpa using h1
      by_cases hc : ct < max
      · have hlt : ct.toNat < max.toNat := UInt8.lt_iff_toNat_lt.1 hc
        have e : (ct + 1).toNat = ct.toNat + 1 := by rw [UInt8.toNat_add]; show (ct.toNat + 1) % 256 = _; omega
        simp only [hc, decide_true]
        rw [ih (ct + 1) (UInt8.le_iff_toNat_le.2 (by omega)), e]
        by_cases h3 : checked = true ∧ max = 255 ∧ 255 - (ct.toNat + 1) < n
        · rw [if_pos h3, if_pos ⟨h3.1, h3.2.1, by omega⟩]; rfl
        · have hmax : max = 255 → max.toNat = 255 := fun h => by rw [h]; rfl
          rw [if_neg h3, if_neg (fun h => h3 ⟨h.1, h.2.1, by have := hmax h.2.1; omega⟩)]
          simp only [Option.map_some]
          congr 1; omega
      · have hlt : ¬ ct.toNat < max.toNat := fun h => hc (UInt8.lt_iff_toNat_lt.2 h)
        simp only [hc, decide_false]
        rw [if_neg]
        · congr 1; omega
        · rintro ⟨h3, h4, _⟩
          refine h2 ⟨h3, UInt8.toNat.inj ?_⟩
          have : max.toNat = 255 := by rw [h4]; rfl
          show ct.toNat = 255
          omega

/-- C27: in a release build, where the counter wraps around, a command with at most `max` arguments takes as many terms as there are, and
at most `max`, for every byte `max`; and so does the matcher of the model, whose counter is a number. -/
theorem C27_byte_release (g : GlobFn) (max : UInt8) (n : Nat) :
    byteTaken false max 0 n = some (min n max.toNat) ∧ taken g (.atMost max.toNat 0) n = min n max.toNat := by
  constructor
  · rw [byteTaken_eq false max n 0 (UInt8.le_iff_toNat_le.2 (Nat.zero_le _))]
    simp
  · rw [taken_atMost g _ n 0 (Nat.zero_le _)]; simp

/-- C27: in a build with debug assertions, the same for every maximum but 255; with 255, the program panics on 256 terms. -/
theorem C27_byte_debug (max : UInt8) (n : Nat) :
    (max ≠ 255 ∨ n ≤ 255 → byteTaken true max 0 n = some (min n max.toNat)) ∧
    (256 ≤ n → byteTaken true 255 0 n = none) := by
  constructor
  · intro h
    rw [byteTaken_eq true max n 0 (UInt8.le_iff_toNat_le.2 (Nat.zero_le _)), if_neg]
    · simp
    · rintro ⟨_, h1, h2⟩
      simp at h2
      rcases h with h | h
      · exact h h1
      · omega
  · intro h
    rw [byteTaken_eq true 255 n 0 (by decide), if_pos]
    exact ⟨rfl, rfl, by simp; omega⟩

/-- A fraction with three terms after it. -/
example : byteTaken true 2 0 3 = some 2 ∧ byteTaken false 2 0 1 = some 1 := by decide

end Mitex
