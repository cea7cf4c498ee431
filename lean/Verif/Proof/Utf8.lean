/-
Facts about the decoding of UTF-8 (Model/Utf8).
-/
import Verif.Model.Utf8

namespace Mitex.Utf8
open Mitex (Text)
open Mitex.Glob (encodeChar bytes)

theorem toNat_ofNat {n : Nat} (h : n < 0xd800 ∨ (0xdfff < n ∧ n < 0x110000)) : (Char.ofNat n).toNat = n := by
  unfold Char.ofNat
  rw [dif_pos (show n.isValidChar from h)]
  rfl

theorem valid (c : Char) : c.toNat < 0xd800 ∨ (0xdfff < c.toNat ∧ c.toNat < 0x110000) := c.valid

theorem cont_iff {b : Nat} : cont b = true ↔ 0x80 ≤ b ∧ b < 0xc0 := by
  simp [cont]

theorem second3_iff {a b : Nat} : second3 a b = true ↔ (0x80 ≤ b ∧ b < 0xc0) ∧ (a = 0xe0 → 0xa0 ≤ b) ∧ (a = 0xed → b < 0xa0) := by
  unfold second3
  split
  · simp; omega
  · split
    · simp; omega
    · rw [cont_iff]; omega

theorem second4_iff {a b : Nat} : second4 a b = true ↔ (0x80 ≤ b ∧ b < 0xc0) ∧ (a = 0xf0 → 0x90 ≤ b) ∧ (a = 0xf4 → b < 0x90) := by
  unfold second4
  split
  · simp; omega
  · split
    · simp; omega
    · rw [cont_iff]; omega

/-- Decoding is the inverse of encoding. -/
theorem decode_encode (c : Char) (r : List Nat) : decodeOne (encodeChar c ++ r) = .ok (c, r) := by
  have hv := valid c
  have hc : Char.ofNat c.toNat = c := Char.ofNat_toNat c
  unfold encodeChar
  simp only []
  split
  · rename_i h
    simp only [List.cons_append, List.nil_append, decodeOne]
    rw [if_pos h, hc]
  · split
    · simp only [List.cons_append, List.nil_append, decodeOne]
      rw [if_neg (by omega), if_neg (by omega), if_pos (by omega), if_pos (cont_iff.2 (by omega))]
      rw [show (0xc0 + c.toNat / 0x40) % 0x20 * 0x40 + (0x80 + c.toNat % 0x40) % 0x40 = c.toNat by omega, hc]
    · split
      · simp only [List.cons_append, List.nil_append, decodeOne]
        rw [if_neg (by omega), if_neg (by omega), if_neg (by omega), if_pos (by omega), if_pos (second3_iff.2 (by omega)), if_pos (cont_iff.2 (by omega))]
        rw [show (0xe0 + c.toNat / 0x1000) % 0x10 * 0x1000 + (0x80 + c.toNat / 0x40 % 0x40) % 0x40 * 0x40 + (0x80 + c.toNat % 0x40) % 0x40 = c.toNat by omega, hc]
      · simp only [List.cons_append, List.nil_append, decodeOne]
        rw [if_neg (by omega), if_neg (by omega), if_neg (by omega), if_neg (by omega), if_pos (by omega), if_pos (second4_iff.2 (by omega)),
          if_pos (cont_iff.2 (by omega)), if_pos (cont_iff.2 (by omega))]
        rw [show (0xf0 + c.toNat / 0x40000) % 8 * 0x40000 + (0x80 + c.toNat / 0x1000 % 0x40) % 0x40 * 0x1000 + (0x80 + c.toNat / 0x40 % 0x40) % 0x40 * 0x40 +
          (0x80 + c.toNat % 0x40) % 0x40 = c.toNat by omega, hc]

theorem encode1 {a : Nat} (h : a < 0x80) : encodeChar (Char.ofNat a) = [a] := by
  unfold encodeChar
  rw [toNat_ofNat (by omega)]
  simp [h]

theorem encode2 {a b : Nat} (h1 : 0xc2 ≤ a) (h2 : a < 0xe0) (hb : cont b = true) : encodeChar (Char.ofNat (a % 0x20 * 0x40 + b % 0x40)) = [a, b] := by
  rw [cont_iff] at hb
  unfold encodeChar
  rw [toNat_ofNat (by omega)]
  simp only []
  rw [if_neg (by omega), if_pos (by omega)]
  simp only [List.cons.injEq, and_true]
  omega

theorem encode3 {a b c : Nat} (h1 : 0xe0 ≤ a) (h2 : a < 0xf0) (hb : second3 a b = true) (hc : cont c = true) :
    encodeChar (Char.ofNat (a % 0x10 * 0x1000 + b % 0x40 * 0x40 + c % 0x40)) = [a, b, c] := by
  rw [cont_iff] at hc
  rw [second3_iff] at hb
  unfold encodeChar
  rw [toNat_ofNat (by omega)]
  simp only []
  rw [if_neg (by omega), if_neg (by omega), if_pos (by omega)]
  simp only [List.cons.injEq, and_true]
  omega

theorem encode4 {a b c d : Nat} (h1 : 0xf0 ≤ a) (h2 : a < 0xf5) (hb : second4 a b = true) (hc : cont c = true) (hd : cont d = true) :
    encodeChar (Char.ofNat (a % 8 * 0x40000 + b % 0x40 * 0x1000 + c % 0x40 * 0x40 + d % 0x40)) = [a, b, c, d] := by
  rw [cont_iff] at hc hd
  rw [second4_iff] at hb
  unfold encodeChar
  rw [toNat_ofNat (by omega)]
  simp only []
  rw [if_neg (by omega), if_neg (by omega), if_neg (by omega)]
  simp only [List.cons.injEq, and_true]
  omega

/-- What is decoded is what was encoded. -/
theorem encode_decode {s r : List Nat} {c : Char} (h : decodeOne s = .ok (c, r)) : s = encodeChar c ++ r := by
  unfold decodeOne at h
  repeat' split at h
  all_goals first | (cases h; done) | skip
  · cases h; rw [encode1 (by assumption)]; rfl
  · cases h; rw [encode2 (by omega) (by assumption) (by assumption)]; rfl
  · cases h; rw [encode3 (by omega) (by assumption) (by assumption) (by assumption)]; rfl
  · cases h; rw [encode4 (by omega) (by assumption) (by assumption) (by assumption) (by assumption)]; rfl

/-- An error that is not at the end stays, whatever follows. -/
theorem error_append {s : List Nat} {n : Nat} (h : decodeOne s = .error (some n)) (x : List Nat) : decodeOne (s ++ x) = .error (some n) := by
  unfold decodeOne at h
  repeat' split at h
  all_goals first | (cases h; done) | skip
  all_goals
    cases h
    simp only [*, List.cons_append, decodeOne, ↓reduceIte, Bool.false_eq_true]

/-- At the end: what is there begins a character. -/
theorem incomplete {s : List Nat} (h : decodeOne s = .error none) (hs : s ≠ []) : ∃ c x, x ≠ [] ∧ encodeChar c = s ++ x := by
  have c80 : cont 0x80 = true := by decide
  have s3 : ∀ a, 0xe0 ≤ a → second3 a (if a = 0xe0 then 0xa0 else 0x80) = true := fun a ha => second3_iff.2 (by split <;> omega)
  have s4 : ∀ a, 0xf0 ≤ a → second4 a (if a = 0xf0 then 0x90 else 0x80) = true := fun a ha => second4_iff.2 (by split <;> omega)
  unfold decodeOne at h
  repeat' split at h
  all_goals first | (cases h; done) | skip
  · exact absurd rfl hs
  · exact ⟨_, [_], by simp, encode2 (by omega) (by assumption) c80⟩
  · exact ⟨_, [_, _], by simp, encode3 (by omega) (by assumption) (s3 _ (by omega)) c80⟩
  · exact ⟨_, [_], by simp, encode3 (by omega) (by assumption) (by assumption) c80⟩
  · exact ⟨_, [_, _, _], by simp, encode4 (by omega) (by assumption) (s4 _ (by omega)) c80 c80⟩
  · exact ⟨_, [_, _], by simp, encode4 (by omega) (by assumption) (by assumption) c80 c80⟩
  · exact ⟨_, [_], by simp, encode4 (by omega) (by assumption) (by assumption) (by assumption) c80⟩

/-- An error that is not at the end: the part at fault is the longest that begins a character, or one byte. -/
theorem error_length {s : List Nat} {n : Nat} (h : decodeOne s = .error (some n)) :
    1 ≤ n ∧ n ≤ 3 ∧ n ≤ s.length ∧ (n = 1 ∨ ∃ c, s.take n <+: encodeChar c) ∧ ∀ c, ¬ s.take (n + 1) <+: encodeChar c := by
  have c80 : cont 0x80 = true := by decide
  have no : ∀ c, ¬ s.take (n + 1) <+: encodeChar c := by
    intro c hc
    obtain ⟨x, hx⟩ := hc
    have hd := decode_encode c []
    rw [List.append_nil, ← hx] at hd
    have he : decodeOne (s.take (n + 1)) = .error (some n) := by
      unfold decodeOne at h
      repeat' split at h
      all_goals first | (cases h; done) | skip
      all_goals
        cases h
        simp only [*, List.take_succ_cons, decodeOne, ↓reduceIte, Bool.false_eq_true]
    rw [error_append he] at hd
    cases hd
  refine ⟨?_, ?_, ?_, ?_, no⟩
  · unfold decodeOne at h
    repeat' split at h
    all_goals first | (cases h; done) | (cases h; omega)
  · unfold decodeOne at h
    repeat' split at h
    all_goals first | (cases h; done) | (cases h; omega)
  · unfold decodeOne at h
    repeat' split at h
    all_goals first | (cases h; done) | (cases h; simp)
  · clear no
    unfold decodeOne at h
    repeat' split at h
    all_goals first | (cases h; done) | (cases h; exact .inl rfl) | skip
    · cases h
      right
      exact ⟨_, [0x80], (encode3 (by omega) (by assumption) (by assumption) c80).symm⟩
    · cases h
      right
      exact ⟨_, [0x80], (encode4 (by omega) (by assumption) (by assumption) (by assumption) c80).symm⟩
    · cases h
      right
      exact ⟨_, [0x80, 0x80], (encode4 (by omega) (by assumption) (by assumption) c80 c80).symm⟩

/-- What is decoded stays, whatever follows. -/
theorem ok_append {s r : List Nat} {c : Char} (h : decodeOne s = .ok (c, r)) (x : List Nat) : decodeOne (s ++ x) = .ok (c, r ++ x) := by
  rw [encode_decode h, List.append_assoc, decode_encode]

theorem ok_shorter {s r : List Nat} {c : Char} (h : decodeOne s = .ok (c, r)) : r.length < s.length := by
  have := encode_decode h
  rw [this, List.length_append]
  have : (encodeChar c).length ≠ 0 := by
    unfold encodeChar
    simp only []
    repeat' split
    all_goals simp
  omega

theorem bytes_cons (c : Char) (t : Text) : bytes (c :: t) = encodeChar c ++ bytes t := by
  simp [bytes]

theorem decodeFrom_cons {n k a : Nat} {s : List Nat} : decodeFrom (n + 1) k (a :: s) =
    match decodeOne (a :: s) with
    | .ok (c, r) =>
      match decodeFrom n (k + (s.length + 1 - r.length)) r with
      | .ok t => .ok (c :: t)
      | .error e => .error e
    | .error l => .error ⟨k, l⟩ := rfl

theorem decodeFrom_bytes (t : Text) : ∀ n k, (bytes t).length ≤ n → decodeFrom n k (bytes t) = .ok t := by
  induction t with
  | nil => intro n k _; cases n <;> rfl
  | cons c t ih =>
    intro n k hn
    have hd := decode_encode c (bytes t)
    have hs := ok_shorter hd
    rw [bytes_cons] at hn ⊢
    generalize encodeChar c ++ bytes t = s at *
    cases s with
    | nil => simp at hs
    | cons a s =>
      cases n with
      | zero => simp at hn
      | succ n =>
        simp only [List.length_cons] at hs hn
        rw [decodeFrom_cons, hd]
        simp only []
        rw [ih _ _ (by omega)]

theorem decodeFrom_ok {n : Nat} : ∀ {k : Nat} {s : List Nat} {t : Text}, s.length ≤ n → decodeFrom n k s = .ok t → s = bytes t := by
  induction n with
  | zero =>
    intro k s t hn h
    cases h
    exact List.eq_nil_of_length_eq_zero (by omega)
  | succ n ih =>
    intro k s t hn h
    cases s with
    | nil => cases h; rfl
    | cons a s =>
      rw [decodeFrom_cons] at h
      split at h
      · rename_i c r hd
        have hs := ok_shorter hd
        simp only [List.length_cons] at hs hn
        split at h
        · rename_i t' ht
          cases h
          rw [bytes_cons, ← ih (by omega) ht]
          exact encode_decode hd
        · cases h
      · cases h

/-- An error: the part before it is decoded, and the character there is not. -/
theorem decodeFrom_error {n : Nat} : ∀ {k : Nat} {s : List Nat} {e : Error}, s.length ≤ n → decodeFrom n k s = .error e →
    ∃ (t : Text) (r : List Nat), s = bytes t ++ r ∧ e.validUpTo = k + (bytes t).length ∧ decodeOne r = .error e.errorLen ∧ r ≠ [] := by
  induction n with
  | zero => intro k s t hn h; cases h
  | succ n ih =>
    intro k s e hn h
    cases s with
    | nil => cases h
    | cons a s =>
      rw [decodeFrom_cons] at h
      split at h
      · rename_i c r hd
        have hs := ok_shorter hd
        simp only [List.length_cons] at hs hn
        split at h
        · cases h
        · rename_i e' he
          cases h
          obtain ⟨t, r', h1, h2, h3, h4⟩ := ih (by omega) he
          refine ⟨c :: t, r', ?_, ?_, h3, h4⟩
          · rw [bytes_cons, List.append_assoc, ← h1]; exact encode_decode hd
          · have he := congrArg List.length (encode_decode hd)
            rw [List.length_append] at he
            simp only [List.length_cons] at he
            rw [bytes_cons, List.length_append, h2]
            omega
      · rename_i l hd
        cases h
        exact ⟨[], a :: s, rfl, rfl, hd, by simp⟩

end Mitex.Utf8
