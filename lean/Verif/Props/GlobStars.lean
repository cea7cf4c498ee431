/-
C69: what glob patterns with stars mean.
-/
import Verif.Proof.GlobStars
import Verif.Props.Glob

namespace Mitex
open Glob GlobSpec

theorem head_bits {ps : List Bit} (hok : bitsOk ps) (hb : ps.head? ≠ some (.atom (.lit (.plain 33)))) : (ps.flatMap Bit.bytes).head? ≠ some 33 := by
  cases ps with
  | nil => simp
  | cons p ps =>
    cases p with
    | star d => cases d <;> simp [Bit.bytes]
    | atom a =>
      cases a with
      | any => simp [Bit.bytes, Atom.bytes]
      | cls neg items => simp [Bit.bytes, Atom.bytes]
      | lit s =>
        cases s with
        | plain b =>
          simp only [List.head?_cons, ne_eq, Option.some.injEq, Bit.atom.injEq, Atom.lit.injEq, Sym.plain.injEq] at hb
          simpa [Bit.bytes, Atom.bytes, Sym.bytes] using hb
        | esc b => simp [Bit.bytes, Atom.bytes, Sym.bytes]

theorem star_match {bangs : Nat} {ps : List Bit} (hok : bitsOk ps) (hb : ps.head? ≠ some (.atom (.lit (.plain 33)))) {r : List Nat}
    (hdb : plainDoubles ps r) {isPrefix : Bool} (hpre : isPrefix = true → 47 ∉ r) {fuel : Nat}
    (hf : 2 * (r.length + 2) * ((starBytes bangs ps).length + 2) ≤ fuel) :
    ∃ b, matchInternal fuel (starBytes bangs ps) r isPrefix = .ok (b != decide (bangs % 2 = 1)) ∧ (b = true ↔ Acc isPrefix ps r) := by
  unfold matchInternal
  have hl : leadingBangs (starBytes bangs ps) = bangs := bangs_replicate bangs _ (head_bits hok hb)
  simp only [hl]
  have hd : (starBytes bangs ps).drop bangs = ps.flatMap Bit.bytes := by
    have := drop_add (l := starBytes bangs ps) (i := 0) (x := List.replicate bangs 33) rfl
    simpa using this
  have hD : (47 ∉ starBytes bangs ps ∧ 47 ∉ r) ∨ (Bit.star true ∉ ps ∧ ({ glob := bangs } : State).star.p = 0) := by
    by_cases h : Bit.star true ∈ ps
    · obtain ⟨h1, h2⟩ := hdb h
      refine .inl ⟨fun hm => ?_, h2⟩
      rcases List.mem_append.1 hm with hm | hm
      · exact absurd (List.eq_of_mem_replicate hm) (by decide)
      · exact h1 hm
    · exact .inr ⟨h, rfl⟩
  have hr : 2 * rounds (starBytes bangs ps) r { glob := bangs } ≤ fuel := by
    refine Nat.le_trans ?_ hf
    rw [Nat.mul_assoc]
    refine Nat.mul_le_mul_left 2 ?_
    show (r.length + 2 - 1) * ((starBytes bangs ps).length + 2) + ((starBytes bangs ps).length + 1 - bangs) ≤ _
    have : (r.length + 2) * ((starBytes bangs ps).length + 2) =
        (r.length + 2 - 1) * ((starBytes bangs ps).length + 2) + ((starBytes bangs ps).length + 2) := by
      rw [← Nat.succ_mul]
      congr 1
    omega
  obtain ⟨b, h1, h2⟩ := run_stars (glob := starBytes bangs ps) (path := r) (isPrefix := isPrefix) (negated := bangs % 2 == 1) hpre fuel
    { glob := bangs } ps False hok hd (Nat.zero_le _) hD (.no rfl) hr
  refine ⟨b, ?_, by simpa using h2⟩
  rw [h1]
  rfl

/-- C69: the matcher decides exactly whether the pattern matches the text, for every well-written pattern of atoms and stars and every text;
each leading `!` negates the answer.  (Doubled stars: if there is no separator.) -/
theorem C69_full (bangs : Nat) (ps : List Bit) (hok : bitsOk ps) (hb : ps.head? ≠ some (.atom (.lit (.plain '!'.toNat)))) (pat s : Text)
    (hpat : bytes pat = starBytes bangs ps) (hdb : plainDoubles ps (bytes s)) (fuel : Nat)
    (hf : 2 * ((bytes s).length + 2) * ((bytes pat).length + 2) ≤ fuel) :
    ∃ b, matchFull fuel pat s = .ok (b != decide (bangs % 2 = 1)) ∧ (b = true ↔ Matches ps (bytes s)) := by
  unfold matchFull
  rw [hpat] at hf ⊢
  exact star_match (isPrefix := false) hok hb hdb (fun h => by cases h) hf

/-- C69, prefix mode, for texts without separators: it decides exactly whether a beginning of the pattern matches the text. -/
theorem C69_prefix (bangs : Nat) (ps : List Bit) (hok : bitsOk ps) (hb : ps.head? ≠ some (.atom (.lit (.plain '!'.toNat)))) (pat s : Text)
    (hpat : bytes pat = starBytes bangs ps) (hdb : plainDoubles ps (bytes s)) (hs : '/' ∉ s) (fuel : Nat)
    (hf : 2 * ((bytes s).length + 2) * ((bytes pat).length + 2) ≤ fuel) :
    ∃ b, matchPrefix fuel pat s = .ok (b != decide (bangs % 2 = 1)) ∧ (b = true ↔ MatchesStart ps (bytes s)) := by
  unfold matchPrefix
  rw [hpat] at hf ⊢
  refine star_match (isPrefix := true) hok hb hdb (fun _ h => ?_) hf
  rcases mem_bytes _ _ h with ⟨c, hc, e⟩ | h
  · have : c = '/' := Char.toNat_inj.1 e
    subst this
    exact hs hc
  · omega

/-- A beginning of the pattern matches the text iff the text can be continued to a match, provided that every atom of the pattern
matches something. -/
theorem start_continues {ps : List Bit} (hsat : ∀ a, Bit.atom a ∈ ps → ∃ c, a.has c = true) (r : List Nat) :
    MatchesStart ps r ↔ ∃ x, Matches ps (r ++ x) := by
  constructor
  · rintro ⟨p, ⟨q, rfl⟩, h⟩
    have hq : ∃ x, Matches q x := by
      clear h
      induction q with
      | nil => exact ⟨[], .nil⟩
      | cons b q ih =>
        obtain ⟨x, hx⟩ := ih (fun a ha => hsat a (by
          rcases List.mem_append.1 ha with ha | ha
          · exact List.mem_append_left _ ha
          · exact List.mem_append_right _ (List.mem_cons_of_mem _ ha)))
        cases b with
        | star d => exact ⟨[] ++ x, .star (by simp) hx⟩
        | atom a =>
          obtain ⟨c, hc⟩ := hsat a (by simp)
          exact ⟨c :: x, .atom hc hx⟩
    obtain ⟨x, hx⟩ := hq
    refine ⟨x, ?_⟩
    clear hsat
    induction h with
    | nil => exact hx
    | atom ha _ ih => exact .atom ha ih
    | star hy _ ih => rw [List.append_assoc]; exact .star hy ih
  · rintro ⟨x, h⟩
    generalize hl : r ++ x = l at h
    clear hsat
    induction h generalizing r x with
    | nil =>
      obtain ⟨rfl, rfl⟩ := List.append_eq_nil_iff.1 hl
      exact start_empty _
    | @atom a c ps l ha h ih =>
      cases r with
      | nil => exact start_empty _
      | cons c' r =>
        injection hl with e1 e2
        subst e1
        obtain ⟨p, hp, hm⟩ := ih r x e2
        exact ⟨.atom a :: p, by simpa using hp, .atom ha hm⟩
    | @star d y ps l hy h ih =>
      by_cases hle : y.length ≤ r.length
      · obtain ⟨r', rfl⟩ : ∃ r', r = y ++ r' := by
          have : y <+: r := List.prefix_of_prefix_length_le ⟨l, hl.symm⟩ ⟨x, rfl⟩ hle
          obtain ⟨t, e⟩ := this
          exact ⟨t, e.symm⟩
        rw [List.append_assoc] at hl
        obtain ⟨p, hp, hm⟩ := ih r' x (List.append_cancel_left hl)
        exact ⟨.star d :: p, by simpa using hp, .star hy hm⟩
      · have : r <+: y := List.prefix_of_prefix_length_le ⟨x, rfl⟩ ⟨l, hl.symm⟩ (by omega)
        refine ⟨[.star d], by simp, ?_⟩
        have := Matches.star (d := d) (x := r) (ps := []) (r := []) (fun hm => hy (this.subset hm)) .nil
        simpa using this

/-- C69, for argument patterns: the parser goes on collecting arguments exactly as long as what it has collected can be continued to a match
of the pattern. -/
theorem C69_arguments (ps : List Bit) (hok : bitsOk ps) (hb : ps.head? ≠ some (.atom (.lit (.plain '!'.toNat)))) (pat s : Text)
    (hpat : bytes pat = starBytes 0 ps) (hp : '/' ∉ pat) (hs : '/' ∉ s) (hsat : ∀ a, Bit.atom a ∈ ps → ∃ c, a.has c = true) :
    globPrefix pat s = true ↔ ∃ x, Matches ps (bytes s ++ x) := by
  have no47 : ∀ t : Text, '/' ∉ t → 47 ∉ bytes t := by
    intro t ht h
    rcases mem_bytes _ _ h with ⟨c, hc, e⟩ | h
    · have : c = '/' := Char.toNat_inj.1 e
      subst this
      exact ht hc
    · omega
  have hdb : plainDoubles ps (bytes s) := by
    refine fun _ => ⟨?_, no47 s hs⟩
    have := no47 pat hp
    rw [hpat] at this
    simpa [starBytes] using this
  have hf : 2 * ((bytes s).length + 2) * ((bytes pat).length + 2) ≤ 32 * (pat.length + 2) * (s.length + 2) := by
    have h1 := bytes_length_le s
    have h2 := bytes_length_le pat
    have h3 : 2 * ((bytes s).length + 2) ≤ 8 * (s.length + 2) := by omega
    have h4 : (bytes pat).length + 2 ≤ 4 * (pat.length + 2) := by omega
    refine Nat.le_trans (Nat.mul_le_mul h3 h4) (Nat.le_of_eq ?_)
    rw [Nat.mul_comm (8 * _), Nat.mul_assoc 4, ← Nat.mul_assoc _ 8, Nat.mul_comm _ 8, ← Nat.mul_assoc 4, ← Nat.mul_assoc 4]
  obtain ⟨b, h1, h2⟩ := C69_prefix 0 ps hok hb pat s hpat hdb hs _ hf
  rw [← start_continues hsat, ← h2]
  unfold globPrefix
  rw [h1]
  simp

/-- `b*t?`: a bracket, any arguments, a term and one more. -/
def someArgs : List Bit := [.atom (.lit (.plain 'b'.toNat)), .star false, .atom (.lit (.plain 't'.toNat)), .atom .any]

example : bitsOk someArgs ∧ someArgs.head? ≠ some (.atom (.lit (.plain '!'.toNat))) ∧ bytes "b*t?".toList = starBytes 0 someArgs ∧
    (∀ a, Bit.atom a ∈ someArgs → ∃ c, a.has c = true) ∧ (globPrefix "b*t?".toList "bttbt".toList = true) := by
  refine ⟨?_, by decide, by decide, ?_, by decide +kernel⟩
  · refine ⟨by simp [Atom.ok], by simp [Atom.has, Sym.val], fun _ e => (by simp), by simp [Atom.ok], by simp [Atom.has, Sym.val], by simp [Atom.ok],
      by simp [Atom.has], trivial⟩
  · intro a ha
    simp only [someArgs, List.mem_cons, Bit.atom.injEq, reduceCtorEq, List.not_mem_nil, or_false, false_or] at ha
    rcases ha with rfl | rfl | rfl
    · exact ⟨'b'.toNat, by decide⟩
    · exact ⟨'t'.toNat, by decide⟩
    · exact ⟨'b'.toNat, by decide⟩

/-- C69, why atoms must not match the separator besides other bytes, and why prefix mode is restricted: `*[!a]*b` does not match `x/yb`, though
`x`, `/`, `y`, `b` fit; and in prefix mode `*a/b` refuses `xa/`, though `xa/b` is matched. -/
theorem C69_limits (fuel : Nat) (hf : 50 ≤ fuel) :
    matchFull fuel "*[!a]*b".toList "x/yb".toList = .ok false ∧
    matchPrefix fuel "*a/b".toList "xa/".toList = .ok false ∧ matchFull fuel "*a/b".toList "xa/b".toList = .ok true := by
  have h1 : matchFull 50 "*[!a]*b".toList "x/yb".toList = .ok false := by decide +kernel
  have h2 : matchPrefix 50 "*a/b".toList "xa/".toList = .ok false := by decide +kernel
  have h3 : matchFull 50 "*a/b".toList "xa/b".toList = .ok true := by decide +kernel
  exact ⟨run_mono _ _ _ _ _ _ hf _ _ _ h1, run_mono _ _ _ _ _ _ hf _ _ _ h2, run_mono _ _ _ _ _ _ hf _ _ _ h3⟩

end Mitex
