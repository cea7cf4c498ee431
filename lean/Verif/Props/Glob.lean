/-
C24, C25, C26: glob patterns (crates/mitex-glob).
-/
import Verif.Proof.GlobStar
import Verif.Spec.Glob
import Verif.Model.StandardSpec

namespace Mitex
open Glob

/-! ### C24 -/

/-- A pattern text without special characters: no `*`, `?`, `[`, `{` or `\`, and no leading `!`. -/
def Literal (pat : Text) : Prop :=
  (∀ c ∈ pat, c ∉ ['*', '?', '[', '{', '\\']) ∧ pat.head? ≠ some '!'

theorem Literal.lit {pat : Text} (h : ∀ c ∈ pat, c ∉ ['*', '?', '[', '{', '\\']) : ∀ b ∈ bytes pat, Lit b := by
  intro b hb
  rcases mem_bytes pat b hb with ⟨c, hc, he⟩ | h
  · have := h c hc
    simp at this
    subst he
    have key : ∀ d : Char, c ≠ d → c.toNat ≠ d.toNat := fun d h1 h2 => h1 (Char.toNat_inj.mp h2)
    exact ⟨key '*' this.1, key '?' this.2.1, key '[' this.2.2.1, key '{' this.2.2.2.1, key '\\' this.2.2.2.2⟩
  · simp only [Lit, bStar, bQuest, bLBrack, bLBrace, bBack]; omega

theorem Literal.bangs {pat : Text} (h : pat.head? ≠ some '!') : leadingBangs (bytes pat) = 0 := by
  cases pat with
  | nil => rfl
  | cons c t =>
    apply leadingBangs_zero
    rw [bytes_cons]
    intro h2
    have : (encodeChar c).head? = some bBang := by
      cases he : encodeChar c with
      | nil => exact absurd he (encodeChar_ne_nil c)
      | cons a l => rw [he] at h2; simpa using h2
    unfold encodeChar at this
    simp only at this
    split at this
    · simp at this
      exact h (by simp; exact Char.toNat_inj.mp this)
    · split at this
      · simp [bBang] at this; omega
      · split at this <;> simp [bBang] at this <;> omega

/-- C24, prefix matching: a pattern without special characters accepts exactly its prefixes. -/
theorem C24_literal_prefix (pat s : Text) (h : Literal pat) (fuel : Nat) (hf : (bytes s).length + 2 ≤ fuel) :
    matchPrefix fuel pat s = .ok (decide (s <+: pat)) := by
  unfold matchPrefix matchInternal
  simp only [Literal.bangs h.2]
  have := run_literal (bytes pat) (bytes s) true fuel {} (-1) rfl (by simp)
    (by simpa using Literal.lit h.1) (by simp) (by simp; omega)
  rw [show (0 % 2 == 1) = false by decide, this]
  simp [bytes_prefix]

/-- C24, full matching: a pattern without special characters accepts exactly itself. -/
theorem C24_literal_full (pat s : Text) (h : Literal pat) (fuel : Nat) (hf : (bytes s).length + 2 ≤ fuel) :
    matchFull fuel pat s = .ok (decide (s = pat)) := by
  unfold matchFull matchInternal
  simp only [Literal.bangs h.2]
  have := run_literal (bytes pat) (bytes s) false fuel {} (-1) rfl (by simp)
    (by simpa using Literal.lit h.1) (by simp) (by simp; omega)
  rw [show (0 % 2 == 1) = false by decide, this]
  simp [bytes_inj]

example : Literal "tt,é}".toList ∧ matchPrefix 9 "tt,é}".toList "tt,é".toList = .ok true
    ∧ matchFull 9 "tt,é}".toList "tt,é".toList = .ok false := by
  refine ⟨⟨by decide, by decide⟩, by decide, by decide⟩

/-! ### C25 -/

/-- C25, for any optional first letter: `{,x}w` accepts exactly the prefixes of `w` and of `xw`
(`w` a literal not starting with `x`), provided the matcher is given at least as many rounds as the
text has bytes, plus six. -/
theorem C25_optional_first (x : Char) (w s : Text) (hx : x.toNat < 128)
    (hx2 : x ∉ ['*', '?', '[', '{', '\\', '}', ',', ']']) (hw : ∀ c ∈ w, c ∉ ['*', '?', '[', '{', '\\'])
    (hne : w.head? ≠ some x) (fuel : Nat) (hf : (bytes s).length + 6 ≤ fuel) :
    matchPrefix fuel ("{,".toList ++ x :: '}' :: w) s = .ok (decide (s <+: w ∨ s <+: x :: w)) := by
  have hbx : encodeChar x = [x.toNat] := by simp [encodeChar, hx]
  have hb : bytes ("{,".toList ++ x :: '}' :: w) = bLBrace :: bComma :: x.toNat :: bRBrace :: bytes w := by
    show bytes ('{' :: ',' :: x :: '}' :: w) = _
    simp only [bytes_cons, hbx]
    rfl
  have hlx : ∀ d : Char, x ≠ d → x.toNat ≠ d.toNat := fun d h1 h2 => h1 (Char.toNat_inj.mp h2)
  simp at hx2
  obtain ⟨x1, x2, x3, x4, x5, x6, x7, x8⟩ := hx2
  unfold matchPrefix matchInternal
  simp only [hb]
  rw [show leadingBangs (bLBrace :: bComma :: x.toNat :: bRBrace :: bytes w) = 0 from rfl,
    show (0 % 2 == 1) = false by decide]
  rw [run_optional x.toNat (bytes w) (bytes s) fuel
    ⟨hlx '*' x1, hlx '?' x2, hlx '[' x3, hlx '{' x4, hlx '\\' x5⟩
    (hlx '}' x6) (hlx ',' x7) (hlx ']' x8) (Literal.lit hw) hf]
  have hxw : x.toNat :: bytes w = bytes (x :: w) := by rw [bytes_cons, hbx]; rfl
  rw [hxw]
  congr 1
  rw [Bool.eq_iff_iff]
  simp only [Bool.or_eq_true, Bool.and_eq_true, decide_eq_true_eq, bytes_prefix]
  constructor
  · rintro (⟨h, _⟩ | h)
    · exact .inl h
    · exact .inr h
  · rintro (h | h)
    · cases s with
      | nil => right; simp
      | cons c t =>
        left
        refine ⟨h, ?_⟩
        cases w with
        | nil => simp at h
        | cons d w =>
          simp at hne
          have hcd := (List.cons_prefix_cons.mp h).1
          subst hcd
          rw [bytes_cons]
          intro h2
          have h3 : (encodeChar c).head? = some x.toNat := by
            cases he : encodeChar c with
            | nil => exact absurd he (encodeChar_ne_nil c)
            | cons a l => rw [he] at h2; simpa using h2
          unfold encodeChar at h3
          simp only at h3
          split at h3
          · simp at h3; exact hne (Char.toNat_inj.mp h3)
          · split at h3
            · simp at h3; omega
            · split at h3 <;> simp at h3 <;> omega
    · exact .inr h

/-- C25: `{,b}t`, the pattern of `\sqrt`, accepts exactly the prefixes of `t` and of `bt`. -/
theorem C25_optional_bracket_term (s : Text) (fuel : Nat) (hf : (bytes s).length + 6 ≤ fuel) :
    matchPrefix fuel "{,b}t".toList s = .ok (decide (s <+: "t".toList ∨ s <+: "bt".toList)) :=
  C25_optional_first 'b' ['t'] s (by decide) (by decide) (by decide) (by decide) fuel hf

/-- C25: `{,b}tt` accepts exactly the prefixes of `tt` and of `btt`. -/
theorem C25_optional_bracket_two_terms (s : Text) (fuel : Nat) (hf : (bytes s).length + 6 ≤ fuel) :
    matchPrefix fuel "{,b}tt".toList s = .ok (decide (s <+: "tt".toList ∨ s <+: "btt".toList)) :=
  C25_optional_first 'b' ['t', 't'] s (by decide) (by decide) (by decide) (by decide) fuel hf

/-- C25: `{,b}` accepts exactly the prefixes of `b`. -/
theorem C25_optional_bracket (s : Text) (fuel : Nat) (hf : (bytes s).length + 6 ≤ fuel) :
    matchPrefix fuel "{,b}".toList s = .ok (decide (s <+: "b".toList)) := by
  have := C25_optional_first 'b' [] s (by decide) (by decide) (by decide) (by decide) fuel hf
  rw [show "{,b}".toList = "{,".toList ++ 'b' :: '}' :: [] from rfl, this]
  congr 1
  rw [decide_eq_decide]
  constructor
  · rintro (h | h)
    · rw [List.prefix_nil.mp h]; simp
    · exact h
  · exact .inr

/-- The glob pattern of an item of a specification, if it has one. -/
def globPatternOf : SpecItem → Option Text
  | .cmd ⟨.right (.glob re), _⟩ => some re
  | .env ⟨.glob re, _, _⟩ => some re
  | _ => none

/-- The three optional-argument patterns. -/
def stdPatterns : List Text := ["{,b}".toList, "{,b}t".toList, "{,b}tt".toList]

theorem std_patterns_all :
    defaultItems.all (fun e => match globPatternOf e.2 with
      | none => true
      | some re => stdPatterns.contains re) = true := by
  decide +kernel

theorem mem_of_lookup' {α : Type} (l : List (Text × α)) (k : Text) (v : α) (h : l.lookup k = some v) :
    (k, v) ∈ l := by
  induction l with
  | nil => simp at h
  | cons e l ih =>
    obtain ⟨k', v'⟩ := e
    rw [List.lookup_cons] at h
    split at h
    · rename_i hk
      simp at h hk; simp [h, hk]
    · exact List.mem_cons_of_mem _ (ih h)

/-- C25: every glob pattern of the standard specification is one of the three above. -/
theorem C25_standard_patterns (name : Text) (item : SpecItem) (re : Text)
    (h : defaultSpec name = some item) (hre : globPatternOf item = some re) : re ∈ stdPatterns := by
  have hm : (name, item) ∈ defaultItems := by
    unfold defaultSpec specOfMap at h
    exact mem_of_lookup' _ _ _ h
  have := List.all_eq_true.mp std_patterns_all _ hm
  simp only [hre] at this
  simpa using this

theorem bytes_length_le (s : Text) : (bytes s).length ≤ 4 * s.length := by
  induction s with
  | nil => simp [bytes]
  | cons c s ih =>
    rw [bytes_cons, List.length_append, List.length_cons]
    have : (encodeChar c).length ≤ 4 := by
      unfold encodeChar; simp only; split
      · simp
      · split
        · simp
        · split <;> simp
    omega

theorem fuel_bound (n k b : Nat) (h : b ≤ 4 * k) : b + 6 ≤ 32 * (n + 1 + 1 + 1 + 1 + 2) * (k + 2) := by
  have h1 : 16 * (k + 2) ≤ 32 * (n + 1 + 1 + 1 + 1 + 2) * (k + 2) := Nat.mul_le_mul_right _ (by omega)
  omega

/-- C25: on the patterns of the standard specification, the matcher as the parser calls it accepts exactly
the prefixes of the pattern with and without the optional bracket argument. -/
theorem C25_parser_matcher (n : Nat) (hn : n ≤ 2) (s : Text) :
    globPrefix ("{,b}".toList ++ List.replicate n 't') s =
      decide (s <+: List.replicate n 't' ∨ s <+: 'b' :: List.replicate n 't') := by
  unfold globPrefix
  have h := C25_optional_first 'b' (List.replicate n 't') s (by decide) (by decide)
    (by intro c hc; rw [List.mem_replicate] at hc; rw [hc.2]; decide)
    (by cases n <;> simp [List.replicate])
    (32 * (("{,b}".toList ++ List.replicate n 't').length + 2) * (s.length + 2))
    (by have := bytes_length_le s; simp; exact fuel_bound n s.length _ this)
  have he : "{,b}".toList ++ List.replicate n 't' = "{,".toList ++ 'b' :: '}' :: List.replicate n 't' := rfl
  rw [he] at h ⊢
  rw [h]

example : (∃ item, defaultSpec "sqrt".toList = some item ∧ globPatternOf item = some "{,b}t".toList) ∧
    matchPrefix 20 "{,b}t".toList "bt".toList = .ok true ∧
    matchPrefix 20 "{,b}t".toList "tb".toList = .ok false := by
  refine ⟨⟨.cmd ⟨.right (.glob "{,b}t".toList), some "mitexsqrt".toList⟩, by decide +kernel, by decide +kernel⟩,
    by decide, by decide⟩

/-! ### C26 -/

/-- C26: matching never panics, whatever the pattern, the text and the number of rounds. -/
theorem C26_no_panic (fuel : Nat) (pat s : Text) :
    matchPrefix fuel pat s ≠ .error .panic ∧ matchFull fuel pat s ≠ .error .panic := by
  constructor <;>
    exact run_no_panic _ _ _ _ _ _ _ ⟨leadingBangs_le _, by simp, by simp⟩ (by simp)

/-- C26, for patterns without `*`: matching ends with an answer after at most as many rounds as the pattern has bytes, plus one. -/
theorem C26_terminates_without_stars (pat s : Text) (h : '*' ∉ pat) (fuel : Nat) (hf : (bytes pat).length + 1 ≤ fuel) :
    (∃ b, matchPrefix fuel pat s = .ok b) ∧ (∃ b, matchFull fuel pat s = .ok b) := by
  have hs : bStar ∉ bytes pat := by
    intro hm
    rcases mem_bytes _ _ hm with ⟨c, hc, he⟩ | h2
    · have : c = '*' := Char.toNat_inj.mp he
      exact h (this ▸ hc)
    · simp only [bStar] at h2; omega
  constructor <;>
    exact run_terminates _ _ _ _ hs _ _ _ ⟨leadingBangs_le _, by simp, by simp⟩ (by simp) rfl (by simp)
      (by simp only; omega)

example : '*' ∉ "{a,{b,c}?}[d-e]".toList ∧ matchFull 30 "{a,{b,c}?}[d-e]".toList "bxd".toList = .ok true := by
  decide

theorem stars_noted (pat : Text) : ∀ (k : Nat) (m : Bool), GlobSpec.starsOutside k m pat = true →
    ∀ g : Nat, (bytes pat)[g]? = some bStar → (((bytes pat).take g).foldl note (k, m)).1 = 0 := by
  induction pat with
  | nil => intro k m _ g hg; simp [bytes] at hg
  | cons c cs ih =>
    intro k m h g hg
    rw [bytes_cons] at hg ⊢
    by_cases hc : c.toNat < 0x80
    · have he : encodeChar c = [c.toNat] := by simp [encodeChar, hc]
      have key : ∀ d : Char, c ≠ d → c.toNat ≠ d.toNat := fun d h1 h2 => h1 (Char.toNat_inj.mp h2)
      rw [he] at hg ⊢
      rw [GlobSpec.starsOutside] at h
      cases g with
      | zero =>
        have hcs : c = '*' := Char.toNat_inj.mp (by simpa using hg)
        rw [if_pos hcs] at h
        simp only [Bool.and_eq_true, beq_iff_eq] at h
        exact h.1
      | succ g =>
        simp only [List.cons_append, List.nil_append, List.getElem?_cons_succ, List.take_succ_cons, List.foldl_cons] at hg ⊢
        by_cases h1 : c = '*'
        · rw [if_pos h1] at h
          simp only [Bool.and_eq_true] at h
          rw [h1]
          exact ih k m h.2 g hg
        rw [if_neg h1] at h
        by_cases h2 : c = '{'
        · rw [if_pos h2] at h
          rw [show note (k, m) c.toNat = (k + 1, m) by rw [h2]; rfl]
          exact ih _ _ h g hg
        rw [if_neg h2] at h
        by_cases h3 : c = '}'
        · rw [if_pos h3] at h
          rw [show note (k, m) c.toNat = (if m then k else k - 1, m) by rw [h3]; cases m <;> rfl]
          exact ih _ _ h g hg
        rw [if_neg h3] at h
        by_cases h4 : c = '[' ∨ c = '\\'
        · rw [if_pos h4] at h
          rw [show note (k, m) c.toNat = (k, m || decide (0 < k)) by rcases h4 with h4 | h4 <;> rw [h4] <;> rfl]
          exact ih _ _ h g hg
        · rw [if_neg h4] at h
          have : note (k, m) c.toNat = (k, m) := by
            unfold note
            rw [if_neg (show c.toNat ≠ bLBrace from key '{' h2), if_neg (show c.toNat ≠ bRBrace from key '}' h3), if_neg]
            rintro (h | h)
            · exact key '[' (fun h => h4 (.inl h)) h
            · exact key '\\' (fun h => h4 (.inr h)) h
          rw [this]
          exact ih _ _ h g hg
    · -- other characters are of no importance
      have hch : ∀ d : Char, d.toNat < 0x80 → c ≠ d := fun d hd he => hc (he ▸ hd)
      have h' : GlobSpec.starsOutside k m cs = true := by
        rw [GlobSpec.starsOutside, if_neg (hch '*' (by decide)), if_neg (hch '{' (by decide)), if_neg (hch '}' (by decide)),
          if_neg (fun h => h.elim (hch '[' (by decide)) (hch '\\' (by decide)))] at h
        exact h
      have hb : ∀ b ∈ encodeChar c, 128 ≤ b := by
        intro b hb
        unfold encodeChar at hb
        simp only [if_neg hc] at hb
        split at hb
        · simp at hb; omega
        · split at hb <;> simp at hb <;> omega
      have hfold : ∀ l : List Nat, (∀ b ∈ l, 128 ≤ b) → l.foldl note (k, m) = (k, m) := by
        intro l
        induction l with
        | nil => intro _; rfl
        | cons b l ihl =>
          intro hl
          have h1 := hl b List.mem_cons_self
          rw [List.foldl_cons]
          have : note (k, m) b = (k, m) := by
            unfold note
            rw [if_neg (by simp only [bLBrace]; omega), if_neg (by simp only [bRBrace]; omega), if_neg (by simp only [bLBrack, bBack]; omega)]
          rw [this]
          exact ihl fun b hb => hl b (List.mem_cons_of_mem _ hb)
      by_cases hg2 : g < (encodeChar c).length
      · rw [List.getElem?_append_left hg2] at hg
        have := hb _ (List.mem_of_getElem? hg)
        simp only [bStar] at this
        omega
      · rw [List.getElem?_append_right (by omega)] at hg
        rw [List.take_append, List.take_of_length_le (by omega), List.foldl_append, hfold _ hb]
        exact ih k m h' _ hg

/-- C26, for patterns whose stars stand outside of braces: matching ends with an answer, within a number of rounds that is bounded by the
product of the lengths. -/
theorem C26_terminates (pat s : Text) (h : GlobSpec.starsOutside 0 false pat = true) (fuel : Nat)
    (hf : 2 * ((bytes s).length + 2) * ((bytes pat).length + 1) ≤ fuel) :
    (∃ b, matchPrefix fuel pat s = .ok b) ∧ (∃ b, matchFull fuel pat s = .ok b) :=
  ⟨match_terminates _ _ _ (stars_noted pat 0 false h) fuel hf, match_terminates _ _ _ (stars_noted pat 0 false h) fuel hf⟩

example : GlobSpec.starsOutside 0 false "**/a*{b,c{d,e}}[x-z]*.{rs,[t]s}".toList = true ∧
    matchFull 500 "**/a*{b,c{d,e}}[x-z]*.{rs,[t]s}".toList "q/abbz.c.ts".toList = .ok true := by
  decide +kernel

theorem run_mono (glob path : List Nat) (p ng : Bool) (n m : Nat) (h : n ≤ m) : ∀ s b r, run glob path p ng n s b = .ok r →
    run glob path p ng m s b = .ok r := by
  induction n generalizing m with
  | zero => intro s b r h; cases h
  | succ n ih =>
    intro s b r hr
    obtain ⟨m, rfl⟩ : ∃ k, m = k + 1 := ⟨m - 1, by omega⟩
    rw [run] at hr ⊢
    split at hr
    · next hc =>
      rw [if_pos hc]
      split at hr
      · exact ih m (by omega) _ _ _ hr
      · exact hr
      · cases hr
    · next hc =>
      rw [if_neg hc]
      exact hr

/-- C26: the answer does not depend on the number of rounds. -/
theorem C26_answer_unique (pat s : Text) (m n : Nat) (a b : Bool) :
    (matchPrefix m pat s = .ok a → matchPrefix n pat s = .ok b → a = b) ∧ (matchFull m pat s = .ok a → matchFull n pat s = .ok b → a = b) := by
  constructor <;> intro h1 h2 <;> rcases Nat.le_total m n with h | h
  · exact Except.ok.inj ((run_mono _ _ _ _ _ _ h _ _ _ h1).symm.trans h2)
  · exact Except.ok.inj (h1.symm.trans (run_mono _ _ _ _ _ _ h _ _ _ h2))
  · exact Except.ok.inj ((run_mono _ _ _ _ _ _ h _ _ _ h1).symm.trans h2)
  · exact Except.ok.inj (h1.symm.trans (run_mono _ _ _ _ _ _ h _ _ _ h2))

/-- C26, for the argument patterns of commands: the parser gets the answer of the matcher, for every pattern whose stars stand outside of
braces. -/
theorem C26_parser_matcher (pat s : Text) (h : GlobSpec.starsOutside 0 false pat = true) :
    ∃ n, matchPrefix n pat s = .ok (globPrefix pat s) := by
  have hb : 2 * ((bytes s).length + 2) * ((bytes pat).length + 1) ≤ 32 * (pat.length + 2) * (s.length + 2) := by
    have h1 := bytes_length_le s
    have h2 := bytes_length_le pat
    have h3 : 2 * ((bytes s).length + 2) ≤ 8 * (s.length + 2) := by omega
    have h4 : (bytes pat).length + 1 ≤ 4 * (pat.length + 2) := by omega
    refine Nat.le_trans (Nat.mul_le_mul h3 h4) (Nat.le_of_eq ?_)
    rw [Nat.mul_comm (8 * _), Nat.mul_assoc 4, ← Nat.mul_assoc _ 8, Nat.mul_comm _ 8, ← Nat.mul_assoc 4, ← Nat.mul_assoc 4]
  obtain ⟨b, hr⟩ := (C26_terminates pat s h _ hb).1
  refine ⟨32 * (pat.length + 2) * (s.length + 2), ?_⟩
  rw [hr]
  unfold globPrefix
  rw [hr]

/-- The states through which the matcher circulates on `{//**//bb,*` and `//b/`. -/
theorem glob_cycle (p : Bool) (n : Nat) :
    run (bytes "{//**//bb,*".toList) (bytes "//b/".toList) p false (n + 15)
      ⟨3, 3, ⟨3, 3⟩, ⟨3, 3⟩⟩ ⟨[{}], -1⟩ =
    run (bytes "{//**//bb,*".toList) (bytes "//b/".toList) p false n
      ⟨3, 3, ⟨3, 3⟩, ⟨3, 3⟩⟩ ⟨[{}], -1⟩ := by
  cases p <;> rfl

theorem glob_cycle_fuel (p : Bool) (n : Nat) :
    run (bytes "{//**//bb,*".toList) (bytes "//b/".toList) p false n
      ⟨3, 3, ⟨3, 3⟩, ⟨3, 3⟩⟩ ⟨[{}], -1⟩ = .error .fuel := by
  induction n using Nat.strongRecOn with
  | _ n ih =>
    by_cases h : n < 15
    · have : ∀ m < 15, ∀ p : Bool, run (bytes "{//**//bb,*".toList) (bytes "//b/".toList) p false m
        ⟨3, 3, ⟨3, 3⟩, ⟨3, 3⟩⟩ ⟨[{}], -1⟩ = .error .fuel := by decide
      exact this n h p
    · obtain ⟨m, rfl⟩ : ∃ m, n = m + 15 := ⟨n - 15, by omega⟩
      rw [glob_cycle]
      exact ih m (by omega)

/-- C26, the exception: matching `//b/` against `{//**//bb,*`, which has stars inside of a brace, is still running after any number of
rounds, in both modes. -/
theorem C26_not_total (fuel : Nat) :
    matchPrefix fuel "{//**//bb,*".toList "//b/".toList = .error .fuel ∧
    matchFull fuel "{//**//bb,*".toList "//b/".toList = .error .fuel := by
  by_cases h : fuel < 5
  · have : ∀ m < 5, matchPrefix m "{//**//bb,*".toList "//b/".toList = .error .fuel ∧
        matchFull m "{//**//bb,*".toList "//b/".toList = .error .fuel := by decide
    exact this fuel h
  · obtain ⟨m, rfl⟩ : ∃ m, fuel = m + 5 := ⟨fuel - 5, by omega⟩
    exact ⟨glob_cycle_fuel true m, glob_cycle_fuel false m⟩

end Mitex
