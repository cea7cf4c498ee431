/-
The matcher on patterns with stars and without braces (C69): going back to the last star is enough.
-/
import Verif.Proof.GlobExact
import Verif.Spec.GlobStars

namespace Mitex.Glob
open Mitex.GlobSpec

/-! ### Facts about the specification -/

/-- What is to be decided, in both modes. -/
def Acc (pre : Bool) (ps : List Bit) (r : List Nat) : Prop := if pre then MatchesStart ps r else Matches ps r

theorem matches_nil {r : List Nat} : Matches [] r ↔ r = [] :=
  ⟨fun h => by cases h; rfl, fun h => by subst h; exact .nil⟩

theorem matches_atom {a : Atom} {ps : List Bit} {r : List Nat} :
    Matches (.atom a :: ps) r ↔ ∃ c r', r = c :: r' ∧ a.has c = true ∧ Matches ps r' :=
  ⟨fun h => by cases h with | atom ha h => exact ⟨_, _, rfl, ha, h⟩, fun ⟨_, _, e, ha, h⟩ => by subst e; exact .atom ha h⟩

theorem matches_star {d : Bool} {ps : List Bit} {r : List Nat} :
    Matches (.star d :: ps) r ↔ ∃ x y, r = x ++ y ∧ 47 ∉ x ∧ Matches ps y :=
  ⟨fun h => by cases h with | star hx h => exact ⟨_, _, rfl, hx, h⟩, fun ⟨_, _, e, hx, h⟩ => by subst e; exact .star hx h⟩

theorem prefix_cons {α : Type} {a : α} {l p : List α} : p <+: a :: l ↔ p = [] ∨ ∃ p', p = a :: p' ∧ p' <+: l := by
  cases p with
  | nil => simp
  | cons b p =>
    rw [List.cons_prefix_cons]
    constructor
    · rintro ⟨rfl, h⟩; exact .inr ⟨p, rfl, h⟩
    · rintro (h | ⟨p', h, h'⟩)
      · cases h
      · injection h with h1 h2; subst h1 h2; exact ⟨rfl, h'⟩

theorem start_empty (ps : List Bit) : MatchesStart ps [] := ⟨[], List.nil_prefix, .nil⟩

theorem acc_nil {pre : Bool} {r : List Nat} : Acc pre [] r ↔ r = [] := by
  cases pre with
  | false => exact matches_nil
  | true =>
    refine ⟨fun ⟨p, hp, h⟩ => ?_, fun h => by subst h; exact start_empty _⟩
    have : p = [] := List.prefix_nil.1 hp
    subst this
    exact matches_nil.1 h

theorem acc_end {pre : Bool} {a : Atom} {ps : List Bit} : Acc pre (.atom a :: ps) [] ↔ pre = true := by
  cases pre with
  | false =>
    refine ⟨fun h => ?_, fun h => by cases h⟩
    obtain ⟨c, r', e, -⟩ := matches_atom.1 h
    cases e
  | true => exact ⟨fun _ => rfl, fun _ => start_empty _⟩

theorem acc_atom {pre : Bool} {a : Atom} {ps : List Bit} {c : Nat} {r : List Nat} :
    Acc pre (.atom a :: ps) (c :: r) ↔ a.has c = true ∧ Acc pre ps r := by
  cases pre with
  | false =>
    refine ⟨fun h => ?_, fun ⟨h1, h2⟩ => .atom h1 h2⟩
    obtain ⟨c', r', e, h1, h2⟩ := matches_atom.1 h
    injection e with e1 e2
    subst e1 e2
    exact ⟨h1, h2⟩
  | true =>
    refine ⟨fun ⟨p, hp, h⟩ => ?_, fun ⟨h1, p, hp, h⟩ => ⟨.atom a :: p, by simpa using hp, .atom h1 h⟩⟩
    rcases prefix_cons.1 hp with rfl | ⟨p', rfl, hp'⟩
    · cases matches_nil.1 h
    · obtain ⟨c', r', e, h1, h2⟩ := matches_atom.1 h
      injection e with e1 e2
      subst e1 e2
      exact ⟨h1, p', hp', h2⟩

theorem acc_star {pre d : Bool} {ps : List Bit} {r : List Nat} :
    Acc pre (.star d :: ps) r ↔ ∃ x y, r = x ++ y ∧ 47 ∉ x ∧ Acc pre ps y := by
  cases pre with
  | false => exact matches_star
  | true =>
    constructor
    · rintro ⟨p, hp, h⟩
      rcases prefix_cons.1 hp with rfl | ⟨p', rfl, hp'⟩
      · have := matches_nil.1 h
        subst this
        exact ⟨[], [], rfl, by simp, start_empty _⟩
      · obtain ⟨x, y, e, hx, h⟩ := matches_star.1 h
        exact ⟨x, y, e, hx, p', hp', h⟩
    · rintro ⟨x, y, rfl, hx, p, hp, h⟩
      exact ⟨.star d :: p, by simpa using hp, .star hx h⟩

/-- A star takes nothing, or one byte and goes on. -/
theorem acc_unfold {pre d : Bool} {ps : List Bit} {r : List Nat} :
    Acc pre (.star d :: ps) r ↔ Acc pre ps r ∨ ∃ c r', r = c :: r' ∧ c ≠ 47 ∧ Acc pre (.star d :: ps) r' := by
  rw [acc_star]
  constructor
  · rintro ⟨x, y, rfl, hx, h⟩
    cases x with
    | nil => exact .inl h
    | cons c x =>
      simp only [List.mem_cons, not_or] at hx
      exact .inr ⟨c, x ++ y, rfl, fun e => hx.1 e.symm, acc_star.2 ⟨x, y, rfl, hx.2, h⟩⟩
  · rintro (h | ⟨c, r', rfl, hc, h⟩)
    · exact ⟨[], r, rfl, by simp, h⟩
    · obtain ⟨x, y, rfl, hx, h⟩ := acc_star.1 h
      refine ⟨c :: x, y, rfl, ?_, h⟩
      simp only [List.mem_cons, not_or]
      exact ⟨fun e => hc e.symm, hx⟩

/-- Atoms in a row. -/
theorem acc_atoms {pre : Bool} {ps : List Bit} : ∀ {seg : List Atom} {r : List Nat}, Acc pre (seg.map .atom ++ ps) r →
    (∃ u v, r = u ++ v ∧ fits seg u = true ∧ Acc pre ps v) ∨ (pre = true ∧ ∃ seg1, seg1 <+: seg ∧ fits seg1 r = true)
  | [], r, h => .inl ⟨[], r, rfl, rfl, h⟩
  | a :: seg, [], h => .inr ⟨acc_end.1 h, [], List.nil_prefix, rfl⟩
  | a :: seg, c :: r, h => by
    obtain ⟨h1, h2⟩ := acc_atom.1 (show Acc pre (.atom a :: (seg.map .atom ++ ps)) (c :: r) from h)
    rcases acc_atoms h2 with ⟨u, v, rfl, hu, hv⟩ | ⟨hp, seg1, hs, hf⟩
    · exact .inl ⟨c :: u, v, rfl, by simp [fits, h1, hu], hv⟩
    · exact .inr ⟨hp, a :: seg1, by simpa using hs, by simp [fits, h1, hf]⟩

/-- Atoms that match the separator match nothing else. -/
def Sharp (seg : List Atom) : Prop := ∀ a ∈ seg, a.has 47 = true → ∀ c, a.has c = true → c = 47

/-- The separators are at the same places in everything the atoms match. -/
theorem sharp_place : ∀ {seg seg1 : List Atom} {u u1 : List Nat}, Sharp seg → seg1 <+: seg → fits seg u = true → fits seg1 u1 = true →
    ∀ m : Nat, u1[m]? = some 47 → u[m]? = some 47
  | _, [], _, u1, _, _, _, h1, m => by
    cases u1 with
    | nil => simp
    | cons c r => simp [fits] at h1
  | [], a :: seg1, _, _, _, hp, _, _, _ => by simp at hp
  | b :: seg, a :: seg1, u, u1, hs, hp, h, h1, m => by
    rw [List.cons_prefix_cons] at hp
    obtain ⟨rfl, hp⟩ := hp
    cases u with
    | nil => simp [fits] at h
    | cons c u =>
      cases u1 with
      | nil => simp
      | cons c1 u1 =>
        simp only [fits, Bool.and_eq_true] at h h1
        intro hm
        cases m with
        | zero =>
          simp only [List.getElem?_cons_zero, Option.some.injEq] at hm ⊢
          subst hm
          exact hs a (by simp) h1.1 c h.1
        | succ m =>
          simp only [List.getElem?_cons_succ] at hm ⊢
          exact sharp_place (fun x hx => hs x (by simp [hx])) hp h.2 h1.2 m hm

/-- If the atoms match at the beginning, and also after bytes without separators, there is no separator in the whole. -/
theorem no_slash {cx u1 u v w : List Nat} (hne : cx ≠ []) (hcx : 47 ∉ cx) (he : u ++ v = cx ++ (u1 ++ w))
    (hpl : ∀ m : Nat, u1[m]? = some 47 → u[m]? = some 47) : ∀ k : Nat, k < (cx ++ u1).length → (cx ++ u1)[k]? ≠ some 47 := by
  intro k
  induction k using Nat.strongRecOn with
  | ind k ih =>
    intro hk hc
    by_cases h : k < cx.length
    · rw [List.getElem?_append_left h] at hc
      exact hcx (List.mem_of_getElem? hc)
    · rw [List.getElem?_append_right (by omega)] at hc
      have h1 := hpl _ hc
      have hl : 0 < cx.length := List.length_pos_iff.2 hne
      refine ih (k - cx.length) (by omega) (by omega) ?_
      have h2 : (u ++ v)[k - cx.length]? = some 47 := by
        rw [List.getElem?_append_left (List.getElem?_eq_some_iff.1 h1).1]
        exact h1
      rw [he, ← List.append_assoc, List.getElem?_append_left (by omega)] at h2
      exact h2

theorem mem_iff_get {l : List Nat} : (47 ∈ l) ↔ ∃ k : Nat, k < l.length ∧ l[k]? = some 47 := by
  rw [List.mem_iff_getElem?]
  exact ⟨fun ⟨k, h⟩ => ⟨k, (List.getElem?_eq_some_iff.1 h).1, h⟩, fun ⟨k, _, h⟩ => ⟨k, h⟩⟩

/-- The next star is as good as the one before, if it is reached at all: what stands between has matched as early as possible. -/
theorem dominance {pre d e : Bool} {seg : List Atom} {ps : List Bit} {c : Nat} {r u v : List Nat} (hs : Sharp seg) (hc : c ≠ 47)
    (he : c :: r = u ++ v) (hu : fits seg u = true) (h : Acc pre (.star d :: (seg.map .atom ++ .star e :: ps)) r) : Acc pre (.star e :: ps) v := by
  obtain ⟨x, y, rfl, hx, h⟩ := acc_star.1 h
  have hcx : 47 ∉ c :: x := by simp only [List.mem_cons, not_or]; exact ⟨fun e => hc e.symm, hx⟩
  rcases acc_atoms h with ⟨u1, v1, rfl, hu1, h⟩ | ⟨hp, seg1, hs1, hf⟩
  · have hno := no_slash (cx := c :: x) (u1 := u1) (u := u) (v := v) (w := v1) (by simp) hcx (by rw [← he]; simp)
      (sharp_place hs (List.prefix_refl _) hu hu1)
    obtain ⟨x', y', rfl, hx', h⟩ := acc_star.1 h
    have hlen : u.length ≤ ((c :: x) ++ u1).length := by
      have h1 := fits_length _ _ hu
      have h2 := fits_length _ _ hu1
      simp only [List.length_append, List.length_cons]
      omega
    refine acc_star.2 ⟨((c :: x) ++ u1).drop u.length ++ x', y', ?_, ?_, h⟩
    · have := congrArg (List.drop u.length) he
      rw [List.drop_left] at this
      rw [← this, List.append_assoc, ← List.drop_append_of_le_length hlen]
      simp
    · rw [List.mem_append, not_or]
      refine ⟨fun hm => ?_, hx'⟩
      obtain ⟨k, hk, hk2⟩ := mem_iff_get.1 (List.mem_of_mem_drop hm)
      exact hno k hk hk2
  · subst hp
    have hno := no_slash (cx := c :: x) (u1 := y) (u := u) (v := v) (w := []) (by simp) hcx (by rw [← he]; simp) (sharp_place hs hs1 hu hf)
    refine acc_star.2 ⟨v, [], by simp, fun hm => ?_, start_empty _⟩
    have hm : 47 ∈ (c :: x) ++ y := by
      rw [show (c :: x) ++ y = c :: (x ++ y) from rfl, he]
      exact List.mem_append_right _ hm
    obtain ⟨k, hk, hk2⟩ := mem_iff_get.1 hm
    exact hno k hk hk2

/-! ### The matcher -/

section
variable {glob path : List Nat} {isPrefix negated : Bool}

/-- A round at a star. -/
theorem star_step {s : State} {d : Bool} {tl : List Nat} (hd : glob.drop s.glob = (Bit.star d).bytes ++ tl)
    (hn : d = false → tl.head? ≠ some 42) (hD : (47 ∉ glob ∧ 47 ∉ path) ∨ (d = false ∧ s.star.p = 0)) :
    ∃ w, (d = false → s.star.p = 0 → w.p = 0) ∧ step glob path isPrefix negated s ⟨[], -1⟩ =
      .cont ⟨s.path, s.glob + (Bit.star d).bytes.length, ⟨s.glob, if path[s.path]? = some 47 then 0 else s.path + 1⟩, w⟩ ⟨[], -1⟩ := by
  cases d with
  | false =>
    have hg : glob[s.glob]? = some 42 := by simpa [Bit.bytes] using get_drop0 hd
    have hg1 : ¬ glob[s.glob + 1]? = some 42 := by
      have := get_drop hd 1
      simp only [Bit.bytes, Bool.false_eq_true, if_false, Char.reduceToNat, List.singleton_append, List.getElem?_cons_succ] at this
      rw [this, ← List.head?_eq_getElem?]
      exact hn rfl
    unfold step
    simp only [hg, bStar, if_true, starArm, hg1, decide_false, Bool.false_eq_true, if_false, Bit.bytes, List.length_singleton, ne_eq,
      not_true_eq_false, false_and]
    by_cases hp : path[s.path]? = some 47
    · have h0 : s.star.p = 0 := by
        rcases hD with ⟨-, h⟩ | ⟨-, h⟩
        · exact absurd (List.mem_of_getElem? hp) h
        · exact h
      rw [if_pos (show ¬ s.star.p = s.path + 1 ∧ path[s.path]? = some bSlash from ⟨by omega, hp⟩),
        if_neg (show ¬ (0 < s.star.p ∧ s.path + 1 < path.length) by omega), if_pos hp]
      exact ⟨_, fun _ _ => h0, rfl⟩
    · rw [if_neg (show ¬ (¬ s.star.p = s.path + 1 ∧ path[s.path]? = some bSlash) from fun h => hp h.2), if_neg hp]
      exact ⟨_, fun _ h => h, rfl⟩
  | true =>
    obtain ⟨hg47, hp47⟩ : 47 ∉ glob ∧ 47 ∉ path := by
      rcases hD with h | ⟨h, -⟩
      · exact h
      · cases h
    have hg : glob[s.glob]? = some 42 := by simpa [Bit.bytes] using get_drop0 hd
    have hg1 : glob[s.glob + 1]? = some 42 := by simpa [Bit.bytes] using get_drop hd 1
    have hsk : skipGlobstars glob glob.length (s.glob + 2) = s.glob + 2 := by
      have hlt := lt_of_get hg
      cases hl : glob.length with
      | zero => omega
      | succ m =>
        rw [skipGlobstars, if_neg]
        rintro ⟨h, -⟩
        exact hg47 (List.mem_of_getElem? h)
    have hp : ¬ path[s.path]? = some 47 := fun h => hp47 (List.mem_of_getElem? h)
    have hs : ¬ glob[s.glob + 2]? = some 47 := fun h => hg47 (List.mem_of_getElem? h)
    unfold step
    simp only [hg, bStar, if_true, starArm, hg1, decide_true, hsk, Nat.add_sub_cancel, Bit.bytes, List.length_cons, List.length_nil, bSlash, hs,
      and_false, if_false, ne_eq, not_true_eq_false, false_and, hp]
    by_cases hl : glob.length = s.glob + 2
    · simp only [if_pos hl]
      exact ⟨_, fun h => (by cases h), rfl⟩
    · simp only [if_neg hl]
      rw [if_neg (show ¬ (¬ s.star.p = s.path + 1 ∧ path[s.path]? = some 47) from fun h => hp h.2)]
      exact ⟨_, fun h => (by cases h), rfl⟩

/-- Where the matcher can go back to, and what it would find there. -/
inductive Back (glob path : List Nat) (pre : Bool) (s : State) (ps : List Bit) : Prop → Prop
  | no (h : s.wild.p = 0) : Back glob path pre s ps False
  | star {d : Bool} {seg : List Atom} {u : List Nat}
      (hg : glob.drop s.wild.g = (Bit.star d :: (seg.map .atom ++ ps)).flatMap Bit.bytes)
      (hok : bitsOk (.star d :: (seg.map .atom ++ ps))) (hD : (47 ∉ glob ∧ 47 ∉ path) ∨ (Bit.star true ∉ Bit.star d :: ps))
      (h1 : 0 < s.wild.p) (h2 : s.wild.p ≤ s.path + 1)
      (hu : path.drop (s.wild.p - 1) = u ++ path.drop s.path) (hf : fits seg u = true) (hc : path[s.wild.p - 1]? ≠ some 47) :
      Back glob path pre s ps (s.wild.p ≤ path.length ∧ Acc pre (.star d :: (seg.map .atom ++ ps)) (path.drop s.wild.p))

theorem bitsOk_sharp {ps : List Bit} : ∀ {seg : List Atom}, bitsOk (seg.map .atom ++ ps) → Sharp seg
  | [], _ => fun _ h => (by cases h)
  | a :: seg, h => by
    obtain ⟨-, h2, h3⟩ : a.ok ∧ (a.has 47 = true → ∀ c, a.has c = true → c = 47) ∧ bitsOk (seg.map Bit.atom ++ ps) := h
    intro b hb
    rcases List.mem_cons.1 hb with rfl | hb
    · exact h2
    · exact bitsOk_sharp h3 b hb

/-- The lowest place a new attempt can start from. -/
def low (s : State) : Nat := if 0 < s.wild.p then s.wild.p else s.path + 1

/-- How many rounds are left, at most. -/
def rounds (glob path : List Nat) (s : State) : Nat := (path.length + 2 - low s) * (glob.length + 2) + (glob.length + 1 - s.glob)

theorem star_next {ps : List Bit} (h : bitsOk ps) (hn : ∀ e, ps.head? ≠ some (.star e)) : (ps.flatMap Bit.bytes).head? ≠ some 42 := by
  cases ps with
  | nil => simp
  | cons p ps =>
    cases p with
    | star e => exact absurd rfl (hn e)
    | atom a =>
      have ha : a.ok := h.1
      cases a with
      | any => simp [Bit.bytes, Atom.bytes]
      | cls neg items => simp [Bit.bytes, Atom.bytes]
      | lit sy =>
        cases sy with
        | plain b =>
          have := ha.1
          simpa [Bit.bytes, Atom.bytes, Sym.bytes] using this
        | esc b => simp [Bit.bytes, Atom.bytes, Sym.bytes]

/-- The state after a star. -/
theorem star_after {s : State} {d : Bool} {ps : List Bit} (hd : glob.drop s.glob = (Bit.star d :: ps).flatMap Bit.bytes)
    (hok : bitsOk (.star d :: ps))
    (hD : (47 ∉ glob ∧ 47 ∉ path) ∨ (Bit.star true ∉ Bit.star d :: ps ∧ s.star.p = 0)) :
    ∃ s' X, step glob path isPrefix negated s ⟨[], -1⟩ = .cont s' ⟨[], -1⟩ ∧ s'.path = s.path ∧ glob.drop s'.glob = ps.flatMap Bit.bytes ∧
      s.glob < s'.glob ∧ low s' = s.path + 1 ∧ ((47 ∉ glob ∧ 47 ∉ path) ∨ (Bit.star true ∉ ps ∧ s'.star.p = 0)) ∧
      Back glob path isPrefix s' ps X ∧
      (Acc isPrefix (.star d :: ps) (path.drop s.path) ↔ Acc isPrefix ps (path.drop s.path) ∨ X) := by
  have hd' : glob.drop s.glob = (Bit.star d).bytes ++ ps.flatMap Bit.bytes := by rw [hd]; rfl
  have hlen : 0 < (Bit.star d).bytes.length := by cases d <;> simp [Bit.bytes]
  obtain ⟨w, hw, hst⟩ := star_step (path := path) (isPrefix := isPrefix) (negated := negated) hd' (fun e => star_next hok.2 (hok.1 e))
    (hD.imp id fun ⟨h1, h2⟩ => ⟨by cases d with | false => rfl | true => exact absurd (List.mem_cons_self) h1, h2⟩)
  have hD' : (47 ∉ glob ∧ 47 ∉ path) ∨ (Bit.star true ∉ ps ∧ w.p = 0) := hD.imp id fun ⟨h1, h2⟩ =>
    ⟨fun h => h1 (List.mem_cons_of_mem _ h), hw (by cases d with | false => rfl | true => exact absurd (List.mem_cons_self) h1) h2⟩
  by_cases h47 : path[s.path]? = some 47
  · rw [if_pos h47] at hst
    refine ⟨_, False, hst, rfl, drop_add hd', by dsimp only; omega, rfl, hD', .no rfl, ?_⟩
    rw [acc_unfold]
    refine or_congr Iff.rfl ⟨?_, False.elim⟩
    rintro ⟨c, r', e, hc, -⟩
    rw [drop_eq_cons h47] at e
    injection e with e1 e2
    exact hc e1.symm
  · rw [if_neg h47] at hst
    refine ⟨_, _, hst, rfl, drop_add hd', by dsimp only; omega, by simp [low], hD',
      .star (d := d) (seg := []) (u := []) hd hok (hD.imp id fun h => h.1) (Nat.succ_pos _) (Nat.le_refl _) rfl rfl h47, ?_⟩
    rw [acc_unfold]
    refine or_congr Iff.rfl ⟨?_, ?_⟩
    · rintro ⟨c, r', e, hc, h⟩
      have hlt : s.path < path.length := by
        refine Nat.lt_of_not_le fun hle => ?_
        rw [List.drop_eq_nil_of_le hle] at e
        cases e
      refine ⟨hlt, ?_⟩
      have : path.drop (s.path + 1) = r' := by
        rw [← List.drop_drop, e]
        rfl
      rw [show path.drop (s.path + 1) = r' from this]
      exact h
    · rintro ⟨h1, h2⟩
      have h1 : s.path < path.length := h1
      refine ⟨path[s.path], path.drop (s.path + 1), List.drop_eq_getElem_cons h1, fun e => h47 ?_, h2⟩
      rw [List.getElem?_eq_getElem h1, e]

theorem fits_snoc {a : Atom} {c : Nat} (ha : a.has c = true) : ∀ {seg : List Atom} {u : List Nat}, fits seg u = true → fits (seg ++ [a]) (u ++ [c]) = true
  | [], [], _ => by simp [fits, ha]
  | [], _ :: _, h => by simp [fits] at h
  | _ :: _, [], h => by simp [fits] at h
  | b :: seg, d :: u, h => by
    simp only [fits, Bool.and_eq_true, List.cons_append] at h ⊢
    exact ⟨h.1, fits_snoc ha h.2⟩

/-- After an atom has matched, the way back is the same. -/
theorem Back.atom {s s' : State} {a : Atom} {c : Nat} {ps : List Bit} {X : Prop} (h : Back glob path isPrefix s (.atom a :: ps) X)
    (ha : a.has c = true) (hp : path[s.path]? = some c) (h1 : s'.wild = s.wild) (h2 : s'.path = s.path + 1) : Back glob path isPrefix s' ps X := by
  cases h with
  | no h => exact .no (by rw [h1]; exact h)
  | star hg hok hD g1 g2 hu hf hc =>
    rename_i d seg u
    have e : ∀ l : List Bit, seg.map Bit.atom ++ .atom a :: l = (seg ++ [a]).map Bit.atom ++ l := by simp
    rw [e] at hg hok ⊢
    rw [← h1] at hg g1 g2 hu hc ⊢
    refine .star (u := u ++ [c]) hg hok ?_ g1 (by omega) ?_ (fits_snoc ha hf) hc
    · refine hD.imp id fun h hm => h ?_
      rcases List.mem_cons.1 hm with hm | hm
      · rw [hm]; exact List.mem_cons_self
      · exact List.mem_cons_of_mem _ (List.mem_cons_of_mem _ hm)
    · rw [hu, drop_eq_cons hp, h2]
      simp

/-- At the next star, the way back is not needed any more. -/
theorem Back.useless {s : State} {d : Bool} {ps : List Bit} {X : Prop} (h : Back glob path isPrefix s (.star d :: ps) X) (hX : X) :
    Acc isPrefix (.star d :: ps) (path.drop s.path) := by
  cases h with
  | no h => exact hX.elim
  | star hg hok hD g1 g2 hu hf hc =>
    obtain ⟨hX1, hX2⟩ := hX
    have hlt : s.wild.p - 1 < path.length := by omega
    have e := List.drop_eq_getElem_cons hlt
    rw [show s.wild.p - 1 + 1 = s.wild.p by omega] at e
    rw [e] at hu
    refine dominance (bitsOk_sharp hok.2) (fun e => hc ?_) hu hf hX2
    rw [List.getElem?_eq_getElem hlt, e]

theorem low_le {s : State} {ps : List Bit} {X : Prop} (h : Back glob path isPrefix s ps X) : low s ≤ s.path + 1 := by
  unfold low
  cases h with
  | no h => simp [h]
  | star hg hok hD g1 g2 hu hf hc => rw [if_pos g1]; exact g2

theorem bits_length {ps : List Bit} {p : Bit} {s : State} (hd : glob.drop s.glob = (p :: ps).flatMap Bit.bytes) : s.glob < glob.length := by
  have hl : 0 < p.bytes.length := by
    cases p with
    | atom a => exact atom_length a
    | star d => cases d <;> simp [Bit.bytes]
  refine Nat.lt_of_not_le fun h => ?_
  rw [List.drop_eq_nil_of_le h] at hd
  have := congrArg List.length hd
  simp at this
  omega

theorem rounds_more {s s' : State} (h1 : low s ≤ low s') (h2 : s.glob < s'.glob) (h3 : s.glob < glob.length) :
    rounds glob path s' + 1 ≤ rounds glob path s := by
  unfold rounds
  have := Nat.mul_le_mul_right (glob.length + 2) (show path.length + 2 - low s' ≤ path.length + 2 - low s by omega)
  omega

theorem rounds_back {s s' : State} (h1 : low s < low s') (h2 : low s ≤ path.length + 1) :
    rounds glob path s' + 1 ≤ rounds glob path s := by
  unfold rounds
  have := Nat.mul_le_mul_right (glob.length + 2) (show path.length + 2 - low s' + 1 ≤ path.length + 2 - low s by omega)
  rw [Nat.add_mul, Nat.one_mul] at this
  omega

/-- Going on after a mismatch: back to the last star, or the answer. -/
theorem mismatch_next {s : State} {ps : List Bit} {X : Prop} (h : Back glob path isPrefix s ps X) (i : Nat)
    (hD : (47 ∉ glob ∧ 47 ∉ path) ∨ s.star.p = 0) (hpre : isPrefix = true → 47 ∉ path)
    (hno : Acc isPrefix ps (path.drop s.path) ↔ isPrefix = true ∧ s.path = path.length) :
    (afterMismatch glob path isPrefix negated { s with glob := i } ⟨[], -1⟩ = .ret (decide (isPrefix = true ∧ s.path = path.length) != negated) ∧ ¬ X) ∨
    ((Acc isPrefix ps (path.drop s.path) → X) ∧ ∃ s' d qs, afterMismatch glob path isPrefix negated { s with glob := i } ⟨[], -1⟩ = .cont s' ⟨[], -1⟩ ∧
      s'.path = s.wild.p ∧ s'.path ≤ path.length ∧ low s = s.wild.p ∧ glob.drop s'.glob = (Bit.star d :: qs).flatMap Bit.bytes ∧
      bitsOk (.star d :: qs) ∧ ((47 ∉ glob ∧ 47 ∉ path) ∨ (Bit.star true ∉ Bit.star d :: qs ∧ s'.star.p = 0)) ∧
      (X ↔ Acc isPrefix (.star d :: qs) (path.drop s'.path))) := by
  have fin : ¬ (0 < s.wild.p ∧ s.wild.p ≤ path.length) →
      afterMismatch glob path isPrefix negated { s with glob := i } ⟨[], -1⟩ = .ret (decide (isPrefix = true ∧ s.path = path.length) != negated) := by
    intro hw
    unfold afterMismatch
    rw [if_neg hw]
    by_cases e : s.path = path.length <;> cases isPrefix <;> cases negated <;> simp [e]
  cases h with
  | no h => exact .inl ⟨fin (by omega), id⟩
  | star hg hok hDb g1 g2 hu hf hc =>
    rename_i d seg u
    by_cases hle : s.wild.p ≤ path.length
    · refine .inr ⟨fun ha => ⟨hle, ?_⟩, ⟨s.wild.p, s.wild.g, s.wild, s.star⟩, d, seg.map .atom ++ ps, ?_, rfl, hle, by simp [low, g1], hg, hok, ?_, ?_⟩
      · obtain ⟨rfl, -⟩ := hno.1 ha
        refine acc_star.2 ⟨path.drop s.wild.p, [], by simp, fun hm => hpre rfl (List.mem_of_mem_drop hm), start_empty _⟩
      · unfold afterMismatch
        rw [if_pos ⟨g1, hle⟩]
      · by_cases h47 : 47 ∉ glob ∧ 47 ∉ path
        · exact .inl h47
        · refine .inr ⟨fun hm => hDb.resolve_left h47 ?_, hD.resolve_left h47⟩
          rcases List.mem_cons.1 hm with hm | hm
          · rw [hm]; exact List.mem_cons_self
          · refine List.mem_cons_of_mem _ ?_
            rcases List.mem_append.1 hm with hm | hm
            · simp at hm
            · exact hm
      · exact ⟨fun h => h.2, fun h => ⟨hle, h⟩⟩
    · exact .inl ⟨fin (by omega), fun h => hle h.1⟩

/-- The matcher on a pattern with stars. -/
theorem run_stars (hpre : isPrefix = true → 47 ∉ path) : ∀ (n : Nat) (s : State) (ps : List Bit) (X : Prop), bitsOk ps →
    glob.drop s.glob = ps.flatMap Bit.bytes → s.path ≤ path.length →
    ((47 ∉ glob ∧ 47 ∉ path) ∨ (Bit.star true ∉ ps ∧ s.star.p = 0)) → Back glob path isPrefix s ps X → 2 * rounds glob path s ≤ n →
    ∃ b, run glob path isPrefix negated n s ⟨[], -1⟩ = .ok (b != negated) ∧ (b = true ↔ Acc isPrefix ps (path.drop s.path) ∨ X) := by
  intro n
  induction n using Nat.strongRecOn with
  | ind n ih =>
    intro s ps X hok hd hp hD hB hn
    have hlow := low_le hB
    have hr1 : glob.length + 2 ≤ rounds glob path s := by
      unfold rounds
      have := Nat.mul_le_mul_right (glob.length + 2) (show 1 ≤ path.length + 2 - low s by omega)
      omega
    obtain ⟨n, rfl⟩ : ∃ k, n = k + 1 := ⟨n - 1, by omega⟩
    -- what happens after a mismatch
    have miss : ∀ i, (s.glob < glob.length ∨ s.path < path.length) →
        step glob path isPrefix negated s ⟨[], -1⟩ = afterMismatch glob path isPrefix negated { s with glob := i } ⟨[], -1⟩ →
        (Acc isPrefix ps (path.drop s.path) ↔ isPrefix = true ∧ s.path = path.length) →
        ∃ b, run glob path isPrefix negated (n + 1) s ⟨[], -1⟩ = .ok (b != negated) ∧ (b = true ↔ Acc isPrefix ps (path.drop s.path) ∨ X) := by
      intro i hc hst hno
      rw [run, if_pos hc, hst]
      rcases mismatch_next (negated := negated) hB i (hD.imp id And.right) hpre hno with ⟨e, hX⟩ | ⟨hX, s', d, qs, e, e1, e2, e3, e4, e5, e6, e7⟩
      · rw [e]
        refine ⟨_, rfl, ?_⟩
        rw [hno]
        simp [hX]
      · rw [e]
        dsimp only
        obtain ⟨s2, Y, f1, f2, f3, f4, f5, f6, f7, f8⟩ := star_after (path := path) (isPrefix := isPrefix) (negated := negated) e4 e5 e6
        obtain ⟨n, rfl⟩ : ∃ k, n = k + 1 := ⟨n - 1, by omega⟩
        rw [run, if_pos (.inl (bits_length e4)), f1]
        dsimp only
        have hr := rounds_back (glob := glob) (path := path) (s := s) (s' := s2) (by rw [f5, e1, e3]; omega) (by omega)
        obtain ⟨b, g1, g2⟩ := ih n (by omega) s2 qs Y e5.2 f3 (by rw [f2]; exact e2) f6 f7 (by omega)
        refine ⟨b, g1, ?_⟩
        rw [g2, f2, ← f8, ← e7]
        exact ⟨.inr, fun h => h.elim hX id⟩
    cases ps with
    | nil =>
      have hgl : glob.length ≤ s.glob := List.drop_eq_nil_iff.1 hd
      have hgi : glob[s.glob]? = none := List.getElem?_eq_none_iff.2 hgl
      by_cases hpl : s.path < path.length
      · refine miss s.glob (.inr hpl) (by simp only [step, hgi]) ?_
        rw [acc_nil]
        constructor
        · intro e
          have := List.drop_eq_nil_iff.1 e
          omega
        · rintro ⟨-, e⟩
          omega
      · rw [run, if_neg (by omega), if_neg (by simp)]
        refine ⟨true, by cases negated <;> rfl, ?_⟩
        simp only [true_iff]
        exact .inl (acc_nil.2 (List.drop_eq_nil_of_le (by omega)))
    | cons p ps =>
      have hlt := bits_length hd
      cases p with
      | star d =>
        obtain ⟨s2, Y, f1, f2, f3, f4, f5, f6, f7, f8⟩ := star_after (path := path) (isPrefix := isPrefix) (negated := negated) hd hok hD
        rw [run, if_pos (.inl hlt), f1]
        dsimp only
        have hr := rounds_more (glob := glob) (path := path) (s := s) (s' := s2) (by rw [f5]; exact hlow) f4 hlt
        obtain ⟨b, g1, g2⟩ := ih n (by omega) s2 ps Y hok.2 f3 (by rw [f2]; exact hp) f6 f7 (by omega)
        refine ⟨b, g1, ?_⟩
        rw [g2, f2, ← f8]
        exact ⟨.inl, fun h => h.elim id hB.useless⟩
      | atom a =>
        obtain ⟨hoka, -, hokps⟩ := hok
        have hd' : glob.drop s.glob = a.bytes ++ ps.flatMap Bit.bytes := by rw [hd]; simp [Bit.bytes]
        cases hpi : path[s.path]? with
        | none =>
          have hpe : s.path = path.length := by
            have := List.getElem?_eq_none_iff.mp hpi
            omega
          refine miss s.glob (.inl hlt) (atom_end hoka hd' hpi (.inl rfl)) ?_
          rw [drop_eq_nil' hpi, acc_end]
          exact ⟨fun h => ⟨h, hpe⟩, And.left⟩
        | some c =>
          have hpl := lt_of_get hpi
          have hst := atom_step (isPrefix := isPrefix) (negated := negated) (b := ⟨[], -1⟩) hoka hd' hpi (.inl rfl)
          by_cases hh : a.has c = true
          · rw [if_pos hh] at hst
            obtain ⟨w, hw, hst⟩ := hst
            rw [run, if_pos (.inl hlt), hst]
            dsimp only
            have hlen := atom_length a
            have hB' := Back.atom (s' := ⟨s.path + 1, s.glob + a.bytes.length, s.wild, w⟩) hB hh hpi rfl rfl
            have hr := rounds_more (glob := glob) (path := path) (s := s) (s' := ⟨s.path + 1, s.glob + a.bytes.length, s.wild, w⟩)
              (by unfold low; dsimp only; split <;> omega) (by dsimp only; omega) hlt
            obtain ⟨b, g1, g2⟩ := ih n (by omega) _ ps X hokps (drop_add hd') (by dsimp only; omega)
              (hD.imp id fun ⟨h1, h2⟩ => ⟨fun h => h1 (List.mem_cons_of_mem _ h), hw h2⟩) hB' (by omega)
            refine ⟨b, g1, ?_⟩
            rw [g2, drop_eq_cons hpi, acc_atom]
            simp [hh]
          · rw [if_neg hh] at hst
            obtain ⟨i, x, h1, h2, h3, h4⟩ := hst
            refine miss i (.inl hlt) h4 ?_
            rw [drop_eq_cons hpi, acc_atom]
            constructor
            · rintro ⟨h, -⟩; exact absurd h hh
            · rintro ⟨-, h⟩; omega

end

end Mitex.Glob
