/-
C73: what the glob matcher captures.
-/
import Verif.Proof.GlobWalk
import Verif.Proof.GlobBounds
import Verif.Props.GlobStars

namespace Mitex
open Glob GlobSpec

/-- C73: matching with captures gives the answer of matching without, for every pattern and text: captures exactly if the text is matched, and
as few rounds. -/
theorem C73_same (fuel : Nat) (pat s : Text) : (matchCaptures fuel pat s).map Option.isSome = matchFull fuel pat s := by
  have h := matchInternalC_plain fuel (bytes pat) (bytes s) false
  unfold matchCaptures matchFull
  rw [← h]
  cases h2 : matchInternalC fuel (bytes pat) (bytes s) false with
  | error e => rfl
  | ok r =>
    obtain ⟨b, caps⟩ := r
    cases b <;> rfl

/-- C73: no panic, and every capture lies within the text, for every pattern and text. -/
theorem C73_bounds (fuel : Nat) (pat s : Text) :
    matchCaptures fuel pat s ≠ .error .panic ∧
    ∀ caps, matchCaptures fuel pat s = .ok (some caps) → ∀ c ∈ caps, c.1 ≤ (bytes s).length ∧ c.2 ≤ (bytes s).length := by
  constructor
  · intro h
    have := C73_same fuel pat s
    rw [h] at this
    exact (C26_no_panic fuel pat s).2 this.symm
  · intro caps h
    unfold matchCaptures at h
    cases h2 : matchInternalC fuel (bytes pat) (bytes s) false with
    | error e => rw [h2] at h; cases h
    | ok r =>
      obtain ⟨b, caps'⟩ := r
      rw [h2] at h
      cases b
      · cases h
      · cases h
        exact Placed.run (path := bytes s) _ _ _ _ ⟨Nat.zero_le _, fun t ht => (by cases ht), by simp, fun c hc => (by cases hc)⟩ _ _ h2

/-- What captures are: those of a match, one for each wildcard, from left to right. -/
theorem captures_match {ps : List Bit} {p : Nat} {r : List Nat} {cs : List (Nat × Nat)} (h : Captures ps p r cs) : Matches ps r := by
  induction h with
  | nil => exact .nil
  | lit _ ih => exact .atom (by simp [Atom.has]) ih
  | any hc _ ih => exact .atom (by simpa [Atom.has] using hc) ih
  | cls hc _ ih => exact .atom hc ih
  | star hx _ ih => exact .star hx ih

theorem match_captures {ps : List Bit} {r : List Nat} (h : Matches ps r) : ∀ p, ∃ cs, Captures ps p r cs := by
  induction h with
  | nil => exact fun _ => ⟨_, .nil⟩
  | @atom a c ps r ha _ ih =>
    intro p
    obtain ⟨cs, h⟩ := ih (p + 1)
    cases a with
    | lit s =>
      have : c = s.val := by simpa [Atom.has] using ha
      rw [this]
      exact ⟨_, .lit h⟩
    | any => exact ⟨_, .any (by simpa [Atom.has] using ha) h⟩
    | cls neg items => exact ⟨_, .cls ha h⟩
  | @star d x ps r hx _ ih =>
    intro p
    obtain ⟨cs, h⟩ := ih (p + x.length)
    exact ⟨_, .star hx h⟩

/-- C73: for every well-written pattern of atoms and stars that is steady, and every text: if the text is matched, the captures are those of
the match with the first stars as short as possible; otherwise there are none. -/
theorem C73_right (ps : List Bit) (hok : bitsOk ps) (hs : steady .start ps = true) (hb : ps.head? ≠ some (.atom (.lit (.plain '!'.toNat))))
    (pat s : Text) (hpat : bytes pat = starBytes 0 ps) (hdb : plainDoubles ps (bytes s)) (fuel : Nat)
    (hf : 2 * ((bytes s).length + 2) * ((bytes pat).length + 2) ≤ fuel) :
    (Matches ps (bytes s) ∧ ∃ caps, matchCaptures fuel pat s = .ok (some caps) ∧ Captures ps 0 (bytes s) caps ∧
      ∀ cs, Captures ps 0 (bytes s) cs → cs = caps ∨ Later caps cs) ∨
    (¬ Matches ps (bytes s) ∧ matchCaptures fuel pat s = .ok none) := by
  obtain ⟨b, h1, h2⟩ := C69_full 0 ps hok hb pat s hpat hdb fuel hf
  have hsame := C73_same fuel pat s
  rw [h1] at hsame
  cases hm : matchCaptures fuel pat s with
  | error e => rw [hm] at hsame; cases hsame
  | ok o =>
    rw [hm] at hsame
    injection hsame with hsame
    simp only [Nat.zero_mod, Nat.zero_ne_one, decide_false, Bool.bne_false] at hsame
    cases o with
    | none =>
      refine .inr ⟨fun h => ?_, rfl⟩
      rw [← hsame] at h2
      exact absurd (h2.2 h) (by simp)
    | some caps =>
      rw [← hsame] at h2
      refine .inl ⟨h2.1 rfl, caps, rfl, ?_⟩
      unfold matchCaptures at hm
      cases h3 : matchInternalC fuel (bytes pat) (bytes s) false with
      | error e => rw [h3] at hm; cases hm
      | ok r =>
        obtain ⟨b', caps'⟩ := r
        rw [h3] at hm
        cases b' with
        | false => cases hm
        | true =>
          cases hm
          have hl : leadingBangs (bytes pat) = 0 := by rw [hpat]; exact bangs_replicate 0 _ (head_bits hok hb)
          unfold matchInternalC at h3
          rw [hl] at h3
          refine runC_captures fuel _ ps [] .start caps hok hs ?_ (Nat.zero_le _) ?_ ?_ (.inl ⟨rfl, Nat.le_refl _⟩) (fun h => absurd h (Nat.lt_irrefl _)) h3
          · rw [hpat]; simp [starBytes]
          · by_cases h : Bit.star true ∈ ps
            · obtain ⟨g1, g2⟩ := hdb h
              exact .inl ⟨by rw [hpat]; simpa [starBytes] using g1, g2⟩
            · exact .inr ⟨h, rfl⟩
          · exact .closed (by simp) rfl ⟨fun cs h => by simpa using h, fun cs' h => .inl ⟨cs', by simp, h⟩⟩

/-- `a?*[x-z].x*y` -/
def someWild : List Bit := [.atom (.lit (.plain 'a'.toNat)), .atom .any, .star false,
  .atom (.cls none [.range (.plain 'x'.toNat) (.plain 'z'.toNat)]), .atom (.lit (.plain '.'.toNat)), .atom (.lit (.plain 'x'.toNat)), .star false,
  .atom (.lit (.plain 'y'.toNat))]

example : steady .start someWild = true ∧ someWild.head? ≠ some (.atom (.lit (.plain '!'.toNat))) ∧
    bytes "a?*[x-z].x*y".toList = starBytes 0 someWild ∧ plainDoubles someWild (bytes "abz.bz.xccyy".toList) ∧
    matchCaptures 500 "a?*[x-z].x*y".toList "abz.bz.xccyy".toList = .ok (some [(1, 2), (2, 5), (5, 6), (8, 11)]) :=
  ⟨by decide, by decide, by decide, by simp [plainDoubles, someWild], by decide +kernel⟩

example : bitsOk someWild := by
  refine ⟨by simp [Atom.ok], by simp [Atom.has, Sym.val], by simp [Atom.ok], by simp [Atom.has], fun _ e => (by simp), by simp [Atom.ok, itemsOk, Item.start, symOk],
    fun h => absurd h (by decide), by simp [Atom.ok], by simp [Atom.has, Sym.val], by simp [Atom.ok], by simp [Atom.has, Sym.val], fun _ e => (by simp),
    by simp [Atom.ok], by simp [Atom.has, Sym.val], trivial⟩

theorem runC_mono (glob path : List Nat) (pre neg : Bool) : ∀ m n, m ≤ n → ∀ s b caps r,
    runC glob path pre neg m s b caps = .ok r → runC glob path pre neg n s b caps = .ok r := by
  intro m
  induction m with
  | zero => intro n _ s b caps r h; cases h
  | succ m ih =>
    intro n hn s b caps r h
    obtain ⟨n, rfl⟩ : ∃ k, n = k + 1 := ⟨n - 1, by omega⟩
    rw [runC] at h ⊢
    split at h
    · rename_i hc
      rw [if_pos hc]
      split at h
      · exact ih n (by omega) _ _ _ _ h
      · exact h
      · cases h
    · rename_i hc
      rw [if_neg hc]
      exact h

/-- C73: more rounds do not change the captures. -/
theorem C73_unique (pat s : Text) (m n : Nat) (a b : Option (List (Nat × Nat))) (h1 : matchCaptures m pat s = .ok a)
    (h2 : matchCaptures n pat s = .ok b) : a = b := by
  have mono : ∀ m n, m ≤ n → ∀ o, matchCaptures m pat s = .ok o → matchCaptures n pat s = .ok o := by
    intro m n hmn o h
    unfold matchCaptures at h ⊢
    cases h3 : matchInternalC m (bytes pat) (bytes s) false with
    | error e => rw [h3] at h; cases h
    | ok r =>
      have h4 : matchInternalC n (bytes pat) (bytes s) false = .ok r := runC_mono _ _ _ _ _ _ hmn _ _ _ _ h3
      rw [h4]
      rw [h3] at h
      exact h
  rcases Nat.le_total m n with h | h
  · exact Except.ok.inj ((mono _ _ h _ h1).symm.trans h2)
  · exact Except.ok.inj (h1.symm.trans (mono _ _ h _ h2))

/-- C73, what fails for other patterns: captures of abandoned attempts stay in the result — `*??` has three wildcards, but four captures are
reported for `abc`, and for `*a?b` on `axcaxb` the place of `?` in an abandoned attempt is reported besides the right one.  With nested braces
a capture may end before it begins, so that the text cannot be sliced with it. -/
theorem C73_abandoned :
    matchCaptures 60 "*??".toList "abc".toList = .ok (some [(0, 1), (1, 2), (1, 2), (2, 3)]) ∧
    matchCaptures 60 "*a?b".toList "axcaxb".toList = .ok (some [(0, 3), (1, 2), (4, 5)]) ∧
    matchCaptures 60 "{b,bb{x,y}}bz".toList "bbz".toList = .ok (some [(0, 1), (2, 1)]) := by
  decide +kernel

/-- C73: captures are of bytes; they may split a character. -/
theorem C73_bytes : matchCaptures 60 "??".toList "é".toList = .ok (some [(0, 1), (1, 2)]) := by decide +kernel

end Mitex
