/-
Properties C35, C36: syntax kinds and formula delimiters (crates/mitex-parser/src/syntax.rs).
-/
import Verif.Model.Syntax

namespace Mitex

/-! ### C35 Syntax kinds round-trip -/

/-- C35: raw and back is the identity, for every kind. -/
theorem C35_kind_roundtrip (k : Kind) : Kind.fromRaw k.toRaw = some k := by
  cases k <;> rfl

/-- C35: a raw value is accepted only if it is the raw value of the kind returned, i.e. the two
conversions are inverse bijections between kinds and accepted raw values. -/
theorem C35_raw_roundtrip (n : Nat) (k : Kind) (h : Kind.fromRaw n = some k) : k.toRaw = n := by
  have hn : n < Kind.variants.length := by
    unfold Kind.fromRaw at h
    exact (List.getElem?_eq_some_iff.mp h).1
  have key : ∀ i : Fin 45, ∀ k, Kind.fromRaw i.val = some k → k.toRaw = i.val := by
    decide +kernel
  exact key ⟨n, hn⟩ k h

/-- C35: values out of range are rejected; the range is the 45 declared kinds. -/
theorem C35_out_of_range (n : Nat) : Kind.fromRaw n = none ↔ 45 ≤ n := by
  unfold Kind.fromRaw
  rw [List.getElem?_eq_none_iff]
  rfl

/-- C35: every raw value fits the `u16` of rowan. -/
theorem C35_raw_u16 (k : Kind) : k.toRaw < 2 ^ 16 := by
  cases k <;> decide

example : Kind.fromRaw 44 = some .scopeRoot ∧ Kind.fromRaw 45 = none := by decide

/-! ### C36 A formula is never both inline and display -/

/-- C36: no element is an inline and a display formula at once. -/
theorem C36_not_both (e : Elem) : ¬ (e.isInline = true ∧ e.isDisplay = true) := by
  unfold Elem.isInline Elem.isDisplay
  rintro ⟨h1, h2⟩
  cases h : e.firstToken with
  | none => simp [h] at h1
  | some p =>
    obtain ⟨k, t⟩ := p
    rw [h] at h1 h2
    simp only [Bool.or_eq_true, Bool.and_eq_true, decide_eq_true_eq] at h1 h2
    rcases h1 with ⟨a, b⟩ | ⟨a, b⟩ <;> rcases h2 with ⟨c, d⟩ | ⟨c, d⟩ <;> subst a b <;>
      simp at c d

/-- C36: a valid formula is exactly one of the two. -/
theorem C36_valid_exactly_one (e : Elem) (h : e.isValidFormula = true) :
    (e.isInline = true ∧ e.isDisplay = false) ∨ (e.isInline = false ∧ e.isDisplay = true) := by
  have key : e.isInline = true ∨ e.isDisplay = true := by
    unfold Elem.isValidFormula at h
    unfold Elem.isInline Elem.isDisplay
    cases h1 : e.firstToken with
    | none => simp [h1] at h
    | some p =>
      obtain ⟨k, t⟩ := p
      cases h2 : e.lastToken with
      | none => simp [h1, h2] at h
      | some q =>
        obtain ⟨k', t'⟩ := q
        rw [h1, h2] at h
        simp only at h
        split at h
        · rename_i hk
          simp only [Bool.or_eq_true, Bool.and_eq_true, decide_eq_true_eq] at h ⊢
          rcases h with h | h
          · exact .inl (.inl ⟨hk.1, h.1⟩)
          · exact .inr (.inl ⟨hk.1, h.1⟩)
        · split at h
          · rename_i hk
            simp only [Bool.or_eq_true, Bool.and_eq_true, decide_eq_true_eq] at h ⊢
            rcases h with h | h
            · exact .inl (.inr ⟨hk.1, h.1⟩)
            · exact .inr (.inr ⟨hk.1, h.1⟩)
          · exact absurd h (by simp)
  have nb := C36_not_both e
  cases h1 : e.isInline <;> cases h2 : e.isDisplay <;> simp_all

/-- Formulas as built by the parser: display and inline. -/
example : (Elem.node .itemFormula [.token .tokenDollar "$$".toList, .token .tokenWord "x".toList,
    .token .tokenDollar "$$".toList]).isValidFormula = true := by decide
example : (Elem.node .itemFormula [.token .tokenBeginMath "\\(".toList,
    .token .tokenEndMath "\\)".toList]).isInline = true := by decide

end Mitex
