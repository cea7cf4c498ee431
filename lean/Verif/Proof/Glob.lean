/-
Lemmas about the glob matcher (crates/mitex-glob/src/lib.rs).
-/
import Verif.Model.ArgMatch

namespace Mitex.Glob

/-! ### UTF-8 is a prefix code -/

theorem encodeChar_ne_nil (c : Char) : encodeChar c ≠ [] := by
  unfold encodeChar; simp only; split
  · simp
  · split
    · simp
    · split <;> simp

theorem encodeChar_prefix (c d : Char) (x y : List Nat)
    (h : encodeChar c ++ x <+: encodeChar d ++ y) : c = d ∧ x <+: y := by
  suffices hs : c.toNat = d.toNat by
    have : c = d := Char.toNat_inj.mp hs
    subst this
    exact ⟨rfl, (List.prefix_append_right_inj _).mp h⟩
  unfold encodeChar at h
  simp only at h
  by_cases c1 : c.toNat < 0x80 <;> by_cases c2 : c.toNat < 0x800 <;> by_cases c3 : c.toNat < 0x10000 <;>
  by_cases d1 : d.toNat < 0x80 <;> by_cases d2 : d.toNat < 0x800 <;> by_cases d3 : d.toNat < 0x10000 <;>
    simp only [c1, c2, c3, d1, d2, d3, if_true, if_false, List.cons_append, List.nil_append,
      List.cons_prefix_cons] at h <;> omega

theorem bytes_cons (c : Char) (t : Text) : bytes (c :: t) = encodeChar c ++ bytes t := by
  simp [bytes]

/-- Byte prefixes of texts are character prefixes. -/
theorem bytes_prefix (a b : Text) : bytes a <+: bytes b ↔ a <+: b := by
  induction a generalizing b with
  | nil => simp [bytes]
  | cons c a ih =>
    cases b with
    | nil =>
      rw [bytes_cons]
      constructor
      · intro h
        have h1 := List.prefix_nil.mp h
        simp [encodeChar_ne_nil] at h1
      · intro h; simp at h
    | cons d b =>
      rw [bytes_cons, bytes_cons, List.cons_prefix_cons, ← ih]
      constructor
      · exact encodeChar_prefix c d _ _
      · rintro ⟨rfl, h⟩
        exact (List.prefix_append_right_inj _).mpr h

theorem bytes_inj (a b : Text) : bytes a = bytes b ↔ a = b := by
  constructor
  · intro h
    have h1 : a <+: b := (bytes_prefix a b).mp (h ▸ List.prefix_refl _)
    have h2 : b <+: a := (bytes_prefix b a).mp (h ▸ List.prefix_refl _)
    exact h1.eq_of_length_le h2.length_le
  · rintro rfl; rfl

/-- Every byte of an ASCII text is the code of its character, other bytes are at least 128. -/
theorem mem_bytes (t : Text) (b : Nat) (h : b ∈ bytes t) : (∃ c ∈ t, c.toNat = b) ∨ 128 ≤ b := by
  induction t with
  | nil => simp [bytes] at h
  | cons c t ih =>
    rw [bytes_cons, List.mem_append] at h
    rcases h with h | h
    · unfold encodeChar at h
      simp only at h
      split at h
      · simp at h; exact .inl ⟨c, by simp, h.symm⟩
      · right
        split at h
        · simp at h; omega
        · split at h <;> simp at h <;> omega
    · rcases ih h with ⟨d, hd, he⟩ | h
      · exact .inl ⟨d, by simp [hd], he⟩
      · exact .inr h

/-! ### Literal parts of a pattern -/

/-- Bytes without special meaning outside of braces. -/
def Lit (b : Nat) : Prop := b ≠ bStar ∧ b ≠ bQuest ∧ b ≠ bLBrack ∧ b ≠ bLBrace ∧ b ≠ bBack

instance (b : Nat) : Decidable (Lit b) := by unfold Lit; infer_instance

theorem drop_eq_cons {α : Type} {l : List α} {i : Nat} {a : α} (h : l[i]? = some a) :
    l.drop i = a :: l.drop (i + 1) := by
  obtain ⟨hlt, he⟩ := List.getElem?_eq_some_iff.mp h
  rw [List.drop_eq_getElem_cons hlt, he]

theorem drop_eq_nil' {α : Type} {l : List α} {i : Nat} (h : l[i]? = none) : l.drop i = [] :=
  List.drop_eq_nil_of_le (List.getElem?_eq_none_iff.mp h)

/-- Running over the literal rest of a pattern outside of braces and stars compares. -/
theorem run_literal (glob path : List Nat) (isPrefix : Bool) (n : Nat) :
    ∀ (s : State) (L : Int), s.wild.p = 0 → s.path ≤ path.length →
      (∀ b ∈ glob.drop s.glob, Lit b) → s.glob ≤ glob.length → path.length + 1 < n + s.path →
      run glob path isPrefix false n s ⟨[], L⟩ = .ok (if isPrefix
        then decide (path.drop s.path <+: glob.drop s.glob)
        else decide (path.drop s.path = glob.drop s.glob)) := by
  induction n with
  | zero => intro s L _ h1 _ _ h2; omega
  | succ n ih =>
    intro s L hw hp hlit hg hn
    rw [run]
    cases hgi : glob[s.glob]? with
    | none =>
      have hgl : glob.length ≤ s.glob := List.getElem?_eq_none_iff.mp hgi
      cases hpi : path[s.path]? with
      | none =>
        have hpl : path.length ≤ s.path := List.getElem?_eq_none_iff.mp hpi
        rw [if_neg (by omega), if_neg (by simp)]
        rw [drop_eq_nil' hgi, drop_eq_nil' hpi]
        simp
      | some pc =>
        have hpl : s.path < path.length := (List.getElem?_eq_some_iff.mp hpi).1
        rw [if_pos (.inr hpl)]
        simp only [step, hgi, afterMismatch, hw]
        rw [drop_eq_nil' hgi, drop_eq_cons hpi]
        cases isPrefix <;> simp
        omega
    | some g =>
      have hgl : s.glob < glob.length := (List.getElem?_eq_some_iff.mp hgi).1
      rw [if_pos (.inl hgl)]
      have hdg := drop_eq_cons hgi
      have hgl' : Lit g := hlit g (by rw [hdg]; simp)
      obtain ⟨l1, l2, l3, l4, l5⟩ := hgl'
      cases hpi : path[s.path]? with
      | none =>
        have hpl : path.length ≤ s.path := List.getElem?_eq_none_iff.mp hpi
        have hpe : s.path = path.length := by omega
        simp only [step, hgi, hpi, l1, if_false, ne_eq, not_true_eq_false, and_false, afterMismatch, hw]
        rw [drop_eq_nil' hpi, hdg]
        cases isPrefix <;> simp [hpe]
      | some pc =>
        have hpl : s.path < path.length := (List.getElem?_eq_some_iff.mp hpi).1
        have hun : unescape g glob s.glob = some (g, s.glob) := by simp [unescape, l5]
        have hmatch : (if g = bSlash then pc = bSlash else pc = g) ↔ pc = g := by
          by_cases h : g = bSlash <;> simp [h]
        have hdp := drop_eq_cons hpi
        by_cases heq : pc = g
        · subst heq
          simp only [step, hgi, hpi, l1, l2, l3, l4, if_false, ne_eq, not_true_eq_false, and_false,
            hun, false_and]
          rw [if_pos (show (if pc = bSlash then pc = bSlash else True) by split <;> first | assumption | trivial)]
          simp only []
          have := ih ⟨s.path + 1, s.glob + 1, s.wild, if pc ≠ bSlash then ⟨s.star.g, 0⟩ else s.star⟩ L
            hw (by simp; omega)
            (fun b hb => hlit b (by rw [hdg]; exact List.mem_cons_of_mem _ hb)) (by simp; omega)
            (by simp only; omega)
          simp only [ne_eq] at this
          rw [this, hdg, hdp]
          simp
        · simp only [step, hgi, hpi, l1, l2, l3, l4, if_false, ne_eq, not_true_eq_false, and_false,
            hun, false_and, heq, afterMismatch, hw]
          rw [hdg, hdp]
          rw [if_neg (by split <;> simp_all)]
          cases isPrefix <;> simp [heq] <;> omega

theorem leadingBangs_zero (glob : List Nat) (h : glob.head? ≠ some bBang) : leadingBangs glob = 0 := by
  cases glob with
  | nil => rfl
  | cons g gs => simp at h; simp [leadingBangs, h]

/-- Running `{,x}w` from the start, in prefix mode. -/
theorem run_optional (x : Nat) (w path : List Nat) (n : Nat) (hx : Lit x) (hx2 : x ≠ bRBrace) (hx3 : x ≠ bComma)
    (hx4 : x ≠ bRBrack) (hw : ∀ b ∈ w, Lit b) (hn : path.length + 6 ≤ n) :
    run (bLBrace :: bComma :: x :: bRBrace :: w) path true false n {} {} =
      .ok (decide (path <+: w) && decide (path.head? ≠ some x) || decide (path <+: x :: w)) := by
  obtain ⟨m, rfl⟩ : ∃ m, n = m + 4 := ⟨n - 4, by omega⟩
  obtain ⟨l1, l2, l3, l4, l5⟩ := hx
  cases path with
  | nil =>
    rw [run, if_pos (by simp)]
    have : step (bLBrace :: bComma :: x :: bRBrace :: w) [] true false {} {} = .ret true := by
      simp [step, bLBrace, bStar, afterMismatch]
    rw [this]; simp
  | cons h t =>
    have hlit := run_literal (bLBrace :: bComma :: x :: bRBrace :: w) (h :: t) true
    have s1 : step (bLBrace :: bComma :: x :: bRBrace :: w) (h :: t) true false {} {} =
        .cont ⟨0, 1, {}, {}⟩ ⟨[{}], -1⟩ := by
      simp [step, bLBrace, bStar, bQuest, bLBrack, push]
    have s2 : step (bLBrace :: bComma :: x :: bRBrace :: w) (h :: t) true false ⟨0, 1, {}, {}⟩ ⟨[{}], -1⟩ =
        .cont ⟨0, 2, {}, {}⟩ ⟨[{}], 0⟩ := by
      simp [step, bLBrace, bStar, bQuest, bLBrack, bComma, bRBrace]
      rfl
    rw [run, if_pos (by simp), s1]
    simp only
    rw [run, if_pos (by simp), s2]
    simp only
    rw [run, if_pos (by simp)]
    by_cases hh : h = x
    · subst hh
      have s3 : step (bLBrace :: bComma :: h :: bRBrace :: w) (h :: t) true false ⟨0, 2, {}, {}⟩ ⟨[{}], 0⟩ =
          .cont ⟨1, 3, {}, {}⟩ ⟨[{}], 0⟩ := by
        simp [step, l1, l2, l3, l4, l5, hx2, hx3, hx4, unescape]
        rw [if_neg (by decide)]
        simp
      have s4 : step (bLBrace :: bComma :: h :: bRBrace :: w) (h :: t) true false ⟨1, 3, {}, {}⟩ ⟨[{}], 0⟩ =
          .cont ⟨1, 4, {}, {}⟩ ⟨[], -1⟩ := by
        simp [step, bRBrace, bLBrace, bStar, bQuest, bLBrack, pop]
        cases t <;> rfl
      rw [s3]
      simp only
      rw [run, if_pos (by simp), s4]
      simp only
      rw [hlit m ⟨1, 4, {}, {}⟩ (-1) rfl (by simp) (by simpa using hw) (by simp) (by simp at hn ⊢; omega)]
      simp
    · have s3 : step (bLBrace :: bComma :: x :: bRBrace :: w) (h :: t) true false ⟨0, 2, {}, {}⟩ ⟨[{}], 0⟩ =
          .cont ⟨0, 4, {}, {}⟩ ⟨[], -1⟩ := by
        have hk : skipBraces (bLBrace :: bComma :: x :: bRBrace :: w) true
            ((bLBrace :: bComma :: x :: bRBrace :: w).length + 1) 2 1 false = (.endBrace, 4) := by
          rw [List.length_cons, skipBraces]
          simp [l1, l2, l3, l4, l5, hx2, hx3, hx4]
          rw [skipBraces]
          simp [bRBrace, bLBrace]
          rw [skipBraces]
          simp
        have hc : ¬ (if x = bSlash then h = bSlash else h = x) := by split <;> simp_all
        simp only [step, List.getElem?_cons_succ, List.getElem?_cons_zero, l1, l2, l3, l4, hx2, hx3, unescape,
          l5, if_false, false_and, hc, afterMismatch, hk, pop]
        simp
      rw [s3]
      simp only
      rw [hlit (m+1) ⟨0, 4, {}, {}⟩ (-1) rfl (by simp) (by simpa using hw) (by simp) (by simp at hn ⊢; omega)]
      simp [hh]

end Mitex.Glob
