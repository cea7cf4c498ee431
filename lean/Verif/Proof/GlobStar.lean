/-
Termination of the glob matcher for patterns whose stars are outside of braces.
-/
import Verif.Proof.GlobSafe

namespace Mitex.Glob

/-! ### Stars -/

theorem skip_star (glob : List Nat) (n : Nat) : ∀ i, 2 ≤ i → glob[i-2]? = some bStar → glob[i-1]? = some bStar →
    2 ≤ skipGlobstars glob n i ∧ glob[skipGlobstars glob n i - 2]? = some bStar ∧ glob[skipGlobstars glob n i - 1]? = some bStar := by
  induction n with
  | zero => intro i h0 h1 h2; exact ⟨h0, h1, h2⟩
  | succ n ih =>
    intro i h0 h1 h2
    rw [skipGlobstars]
    split
    · next hc =>
      exact ih (i + 3) (by omega) (by rw [show i + 3 - 2 = i + 1 by omega]; exact hc.2.1) (by rw [show i + 3 - 1 = i + 2 by omega]; exact hc.2.2)
    · exact ⟨h0, h1, h2⟩

theorem skip_done (glob : List Nat) (n : Nat) : ∀ i, glob.length ≤ i + 3 * n →
    ¬ (glob[skipGlobstars glob n i]? = some bSlash ∧ glob[skipGlobstars glob n i + 1]? = some bStar ∧ glob[skipGlobstars glob n i + 2]? = some bStar) := by
  induction n with
  | zero =>
    intro i h hc
    have := lt_of_get hc.1
    simp only [skipGlobstars] at this
    omega
  | succ n ih =>
    intro i h
    rw [skipGlobstars]
    split
    · exact ih (i + 3) (by omega)
    · next hc => exact hc

theorem skip_again (glob : List Nat) (m n i : Nat) (h : glob.length ≤ i + 3 * n) :
    skipGlobstars glob m (skipGlobstars glob n i) = skipGlobstars glob n i := by
  cases m with
  | zero => rfl
  | succ m => rw [skipGlobstars, if_neg (skip_done glob n i h)]

/-- A `**` that may match separators: the last one of the pattern, or a whole component. -/
def Full (glob : List Nat) (g : Nat) : Prop :=
  glob[g]? = some bStar ∧ glob[g+1]? = some bStar ∧
    (glob.length = skipGlobstars glob glob.length (g + 2) ∨
     ((skipGlobstars glob glob.length (g + 2) < 3 ∨ glob[skipGlobstars glob glob.length (g + 2) - 3]? = some bSlash) ∧
       glob[skipGlobstars glob glob.length (g + 2)]? = some bSlash))

theorem Full.last {glob : List Nat} {g : Nat} (h : Full glob g) : Full glob (skipGlobstars glob glob.length (g + 2) - 2) := by
  obtain ⟨h1, h2, h3⟩ := h
  have hs := skip_star glob glob.length (g + 2) (by omega) (by rw [Nat.add_sub_cancel]; exact h1) (by rw [show g + 2 - 1 = g + 1 by omega]; exact h2)
  have he : skipGlobstars glob glob.length (g + 2) - 2 + 2 = skipGlobstars glob glob.length (g + 2) := by omega
  have he1 : skipGlobstars glob glob.length (g + 2) - 2 + 1 = skipGlobstars glob glob.length (g + 2) - 1 := by omega
  refine ⟨hs.2.1, by rw [he1]; exact hs.2.2, ?_⟩
  rw [he, skip_again _ _ _ _ (by omega)]
  exact h3

/-! ### The invariant -/

/-- A bound for the number of open braces at each index of the pattern, by which no star is inside of braces. -/
structure Deep (glob : List Nat) (d : Nat → Nat) : Prop where
  star : ∀ g, glob[g]? = some bStar → d g = 0
  opening : ∀ g, glob[g]? = some bLBrace → d g + 1 ≤ d (g + 1)
  closing : ∀ g, glob[g]? = some bRBrace → d g ≤ d (g + 1) + 1
  other : ∀ g c, glob[g]? = some c → c ≠ bLBrace → c ≠ bRBrace → d g ≤ d (g + 1)
  escape : ∀ g, glob[g]? = some bBack → d g ≤ d (g + 2)
  range : ∀ g c m i, glob[g]? = some bLBrack →
    classLoop glob c (glob.length + 1) (if glob[g+1]? = some bCaret ∨ glob[g+1]? = some bBang then g + 1 + 1 else g + 1) true false = some (m, i) →
    i < glob.length → d g ≤ d (i + 1)
  comma : ∀ g i, skipBraces glob true (glob.length + 1) g 1 false = (.comma, i) → d g ≤ d i
  finish : ∀ g i, skipBraces glob true (glob.length + 1) g 1 false = (.endBrace, i) → d g ≤ d i + 1

/-- The state outside of all braces. -/
def outer (s : State) (b : Braces) : State := b.stack.getLast?.getD s

/-- The matcher never again looks at the text before this index. -/
def floor (s : State) (b : Braces) : Nat := if 0 < (outer s b).wild.p then (outer s b).wild.p - 1 else (outer s b).path

structure Inv (glob path : List Nat) (d : Nat → Nat) (s : State) (b : Braces) : Prop where
  deep : b.stack.length ≤ d s.glob
  glen : s.glob ≤ glob.length
  inner : b.stack ≠ [] → s.wild.p = 0 ∧ s.star.p = 0
  inners : ∀ t ∈ b.stack.dropLast, t.wild.p = 0 ∧ t.star.p = 0
  wild : 0 < (outer s b).wild.p → glob[(outer s b).wild.g]? = some bStar
  star : 0 < (outer s b).star.p → Full glob (outer s b).star.g
  low : floor s b ≤ s.path
  high : s.path ≤ path.length
  lows : ∀ t ∈ b.stack, floor s b ≤ t.path ∧ t.path ≤ path.length
  long : 0 ≤ b.longest → floor s b ≤ b.longest.toNat ∧ b.longest.toNat ≤ path.length ∧ b.stack ≠ []

open Classical in
/-- How much of the text is still to be looked at. -/
noncomputable def ahead (glob : List Nat) (s : State) (b : Braces) : Nat := if glob[s.glob]? = some bStar then s.path else floor s b

open Classical in
/-- Can the matcher jump back to a `**` without having looked at more of the text? -/
noncomputable def jump (glob : List Nat) (s : State) (b : Braces) : Nat :=
  if 0 < (outer s b).star.p ∧ (outer s b).star.p ≠ ahead glob s b + 1 ∧ ¬ Full glob s.glob then 1 else 0

/-- It gets smaller in each round. -/
noncomputable def measure (glob path : List Nat) (s : State) (b : Braces) : Nat :=
  (2 * (path.length + 1 - ahead glob s b) + jump glob s b) * (glob.length + 1) + (glob.length - s.glob)

theorem jump_le (glob : List Nat) (s : State) (b : Braces) : jump glob s b ≤ 1 := by
  unfold jump
  split <;> omega

theorem Inv.ahead_le {glob path : List Nat} {d : Nat → Nat} {s : State} {b : Braces} (h : Inv glob path d s b) : ahead glob s b ≤ path.length := by
  unfold ahead
  have := h.low
  have := h.high
  split <;> omega

theorem Inv.floor_le {glob path : List Nat} {d : Nat → Nat} {s : State} {b : Braces} (h : Inv glob path d s b) : floor s b ≤ ahead glob s b := by
  unfold ahead
  have := h.low
  split <;> omega

theorem mul_drop {a a' n x : Nat} (h : a' < a) (hx : x ≤ n) : a' * (n + 1) + x < a * (n + 1) := by
  have : (a' + 1) * (n + 1) ≤ a * (n + 1) := Nat.mul_le_mul_right _ h
  rw [Nat.add_mul] at this
  omega

/-- Looking at more of the text. -/
theorem measure_ahead {glob path : List Nat} {d : Nat → Nat} {s s' : State} {b b' : Braces} (h' : Inv glob path d s' b')
    (ha : ahead glob s b < ahead glob s' b') : measure glob path s' b' < measure glob path s b := by
  unfold measure
  have h1 := jump_le glob s' b'
  have h2 := h'.ahead_le
  refine Nat.lt_of_lt_of_le (mul_drop (a := 2 * (path.length + 1 - ahead glob s b) + jump glob s b) ?_ (by omega)) (by omega)
  omega

/-- Looking at as much of the text. -/
theorem measure_same {glob path : List Nat} {s s' : State} {b b' : Braces} (ha : ahead glob s' b' = ahead glob s b)
    (hj : jump glob s' b' < jump glob s b ∨ (jump glob s' b' = jump glob s b ∧ glob.length - s'.glob < glob.length - s.glob)) :
    measure glob path s' b' < measure glob path s b := by
  unfold measure
  rw [ha]
  rcases hj with hj | ⟨hj, hg⟩
  · exact Nat.lt_of_lt_of_le (mul_drop (a := 2 * (path.length + 1 - ahead glob s b) + jump glob s b) (by omega) (by omega)) (by omega)
  · rw [hj]; omega

/-- Going on in the pattern. -/
theorem measure_on {glob path : List Nat} {d : Nat → Nat} {s s' : State} {b b' : Braces} (h' : Inv glob path d s' b')
    (hns : glob[s.glob]? ≠ some bStar) (hf : floor s b ≤ floor s' b')
    (hs : (outer s' b').star.p = 0 ∨ (outer s' b').star.p = (outer s b).star.p) (hg : s.glob < s'.glob) :
    measure glob path s' b' < measure glob path s b := by
  have ha : ahead glob s b = floor s b := by unfold ahead; rw [if_neg hns]
  have hle := h'.floor_le
  by_cases h : ahead glob s b < ahead glob s' b'
  · exact measure_ahead h' h
  · have hae : ahead glob s' b' = ahead glob s b := by omega
    refine measure_same hae ?_
    have hG : glob.length - s'.glob < glob.length - s.glob := by have := h'.glen; omega
    have hnf : ¬ Full glob s.glob := fun h => hns h.1
    have h1 := jump_le glob s b
    by_cases hj : jump glob s' b' = 0
    · by_cases hj' : jump glob s b = 0
      · exact .inr ⟨by omega, hG⟩
      · exact .inl (by omega)
    · have hjs : jump glob s b = 1 := by
        unfold jump at hj ⊢
        split at hj
        · next hc =>
          rw [if_pos]
          rcases hs with hs | hs
          · rw [hs] at hc; omega
          · rw [← hs, ← hae]
            exact ⟨hc.1, hc.2.1, hnf⟩
        · exact absurd rfl hj
      have := jump_le glob s' b'
      exact .inr ⟨by omega, hG⟩

/-! ### Rounds -/

/-- A round keeps the invariant, and makes the measure smaller. -/
def Down (glob path : List Nat) (d : Nat → Nat) (s : State) (b : Braces) : Out → Prop
  | .cont s' b' => Inv glob path d s' b' ∧ measure glob path s' b' < measure glob path s b
  | _ => True

theorem outer_nil {s : State} {b : Braces} (h : b.stack = []) : outer s b = s := by
  unfold outer
  rw [h]
  rfl

theorem outer_in {s s' : State} {b b' : Braces} (h : b'.stack = b.stack) (hne : b.stack ≠ []) : outer s' b' = outer s b := by
  unfold outer
  rw [h]
  cases hl : b.stack.getLast? with
  | none => exact absurd (List.getLast?_eq_none_iff.mp hl) hne
  | some t => rfl

theorem outer_cons {s' t : State} {b b' : Braces} (h : b'.stack = t :: b.stack) : outer s' b' = outer t b := by
  unfold outer
  rw [h, List.getLast?_cons]
  rfl

/-- Outside of braces. -/
theorem move_out {glob path : List Nat} {d : Nat → Nat} {s : State} {b : Braces} (h : Inv glob path d s b) (hb : b.stack = [])
    (hns : glob[s.glob]? ≠ some bStar) (g q : Nat) (st : Wild) (hg : s.glob < g) (hgl : g ≤ glob.length) (hq : s.path ≤ q) (hql : q ≤ path.length)
    (hst : st.p = 0 ∨ st = s.star) :
    Down glob path d s b (.cont { s with glob := g, path := q, star := st } b) := by
  have ho := outer_nil (s := s) hb
  have ho' := outer_nil (s := { s with glob := g, path := q, star := st }) hb
  have hf : floor s b ≤ floor { s with glob := g, path := q, star := st } b := by
    unfold floor
    rw [ho, ho']
    dsimp only
    split <;> omega
  have hfq : floor { s with glob := g, path := q, star := st } b ≤ q := by
    have := h.low
    unfold floor at this ⊢
    rw [ho] at this
    rw [ho']
    dsimp only
    split at this <;> split <;> omega
  have hi : Inv glob path d { s with glob := g, path := q, star := st } b := by
    refine ⟨by rw [hb]; exact Nat.zero_le _, hgl, fun h => absurd hb h, by rw [hb]; exact fun t ht => (by cases ht), ?_, ?_, hfq, hql,
      by rw [hb]; exact fun t ht => (by cases ht), fun hl => absurd hb (h.long hl).2.2⟩
    · have := h.wild
      rw [ho] at this
      rw [ho']
      exact this
    · have := h.star
      rw [ho] at this
      rw [ho']
      rcases hst with h0 | h0
      · intro h1
        dsimp only at h1
        omega
      · rw [h0]
        exact this
  refine ⟨hi, measure_on hi hns hf ?_ hg⟩
  rw [ho, ho']
  rcases hst with h0 | h0
  · exact .inl h0
  · rw [h0]; exact .inr rfl

/-- Inside of braces. -/
theorem move_in {glob path : List Nat} {d : Nat → Nat} {s s' : State} {b b' : Braces} (h : Inv glob path d s b) (hne : b.stack ≠ [])
    (hb' : b'.stack = b.stack) (hns : glob[s.glob]? ≠ some bStar) (hg : s.glob < s'.glob) (hgl : s'.glob ≤ glob.length)
    (hd : b.stack.length ≤ d s'.glob) (hw : s'.wild.p = 0 ∧ s'.star.p = 0)
    (hq : floor s b ≤ s'.path) (hql : s'.path ≤ path.length)
    (hl : 0 ≤ b'.longest → floor s b ≤ b'.longest.toNat ∧ b'.longest.toNat ≤ path.length) : Down glob path d s b (.cont s' b') := by
  have ho : outer s' b' = outer s b := outer_in hb' hne
  have hf : floor s' b' = floor s b := by unfold floor; rw [ho]
  have hi : Inv glob path d s' b' := by
    refine ⟨by rw [hb']; exact hd, hgl, fun _ => hw, by rw [hb']; exact h.inners, by rw [ho]; exact h.wild, by rw [ho]; exact h.star,
      by rw [hf]; exact hq, hql, by rw [hb', hf]; exact h.lows, fun hl' => ?_⟩
    rw [hf, hb']
    exact ⟨(hl hl').1, (hl hl').2, hne⟩
  exact ⟨hi, measure_on hi hns (Nat.le_of_eq hf.symm) (.inr (by rw [ho])) hg⟩

/-- Going on after a match of one character. -/
theorem move_on {glob path : List Nat} {d : Nat → Nat} {s : State} {b : Braces} (h : Inv glob path d s b)
    (hns : glob[s.glob]? ≠ some bStar) (g q : Nat) (st : Wild) (hg : s.glob < g) (hgl : g ≤ glob.length) (hd : b.stack.length ≤ d g)
    (hq : s.path ≤ q) (hql : q ≤ path.length) (hst : st.p = 0 ∨ st = s.star) :
    Down glob path d s b (.cont { s with glob := g, path := q, star := st } b) := by
  by_cases hb : b.stack = []
  · exact move_out h hb hns g q st hg hgl hq hql hst
  · refine move_in h hb rfl hns hg hgl hd ⟨(h.inner hb).1, ?_⟩ (Nat.le_trans h.low hq) hql (fun hl => ⟨(h.long hl).1, (h.long hl).2.1⟩)
    rcases hst with h0 | h0
    · exact h0
    · dsimp only
      rw [h0]
      exact (h.inner hb).2

/-- Entering braces. -/
theorem enter {glob path : List Nat} {d : Nat → Nat} (D : Deep glob d) {s : State} {b : Braces} (h : Inv glob path d s b)
    (hg : glob[s.glob]? = some bLBrace) : Down glob path d s b (.cont (push b s).1 (push b s).2) := by
  have hlt := lt_of_get hg
  have ho : outer (push b s).1 (push b s).2 = outer s b := outer_cons rfl
  have hf : floor (push b s).1 (push b s).2 = floor s b := by unfold floor; rw [ho]
  have hi : Inv glob path d (push b s).1 (push b s).2 := by
    refine ⟨?_, hlt, fun _ => ⟨rfl, rfl⟩, ?_, by rw [ho]; exact h.wild, by rw [ho]; exact h.star,
      by rw [hf]; exact h.low, h.high, ?_, fun hl => ?_⟩
    · have := D.opening _ hg
      have := h.deep
      show (s :: b.stack).length ≤ d (s.glob + 1)
      rw [List.length_cons]
      omega
    · show ∀ t ∈ (s :: b.stack).dropLast, _
      cases hb : b.stack with
      | nil => exact fun t ht => (by cases ht)
      | cons t ts =>
        rw [List.dropLast_cons_cons]
        intro u hu
        rcases List.mem_cons.mp hu with rfl | hu
        · exact h.inner (by rw [hb]; exact List.cons_ne_nil _ _)
        · exact h.inners u (by rw [hb]; exact hu)
    · rw [hf]
      intro t ht
      rcases List.mem_cons.mp ht with rfl | ht
      · exact ⟨h.low, h.high⟩
      · exact h.lows t ht
    · rw [hf]
      exact ⟨(h.long hl).1, (h.long hl).2.1, List.cons_ne_nil _ _⟩
  refine ⟨hi, measure_on hi (by rw [hg]; decide) (Nat.le_of_eq hf.symm) (.inr (by rw [ho])) (Nat.lt_succ_self _)⟩

/-- Leaving braces. -/
theorem leave {glob path : List Nat} {d : Nat → Nat} {s s1 s' : State} {b b1 b' : Braces} (h : Inv glob path d s b)
    (hns : glob[s.glob]? ≠ some bStar) (hb1 : b1.stack = b.stack) (hp : pop b1 s1 = some (s', b')) (g q : Nat) (st : Wild)
    (hg : s.glob < g) (hgl : g ≤ glob.length) (hd : b.stack.length ≤ d g + 1) (hq : b1.longest.toNat ≤ q) (hql : q ≤ path.length)
    (hl : floor s b ≤ b1.longest.toNat ∧ b1.longest.toNat ≤ path.length) (hst : st.p = 0 ∨ st = s'.star) :
    Down glob path d s b (.cont { s' with glob := g, path := q, star := st } b') := by
  unfold pop at hp
  rw [hb1] at hp
  cases hb : b.stack with
  | nil => rw [hb] at hp; cases hp
  | cons top rest =>
    rw [hb] at hp hd
    simp only [Option.some.injEq, Prod.mk.injEq] at hp
    obtain ⟨rfl, rfl⟩ := hp
    dsimp only at *
    rw [List.length_cons] at hd
    cases rest with
    | nil =>
      have ho : outer s b = top := by unfold outer; rw [hb]; rfl
      have ho' := outer_nil (s := { path := q, glob := g, wild := top.wild, star := st }) (b := ⟨[], if ([] : List State) = [] then -1 else b1.longest⟩) rfl
      have hf : floor s b ≤ floor { path := q, glob := g, wild := top.wild, star := st } ⟨[], if ([] : List State) = [] then -1 else b1.longest⟩ := by
        have := hl.1
        unfold floor at this ⊢
        rw [ho] at this ⊢
        rw [ho']
        dsimp only
        split at this <;> split <;> omega
      have hi : Inv glob path d { path := q, glob := g, wild := top.wild, star := st } ⟨[], if ([] : List State) = [] then -1 else b1.longest⟩ := by
        refine ⟨Nat.zero_le _, hgl, fun h => absurd rfl h, fun t ht => (by cases ht), ?_, ?_, ?_, hql, fun t ht => (by cases ht), fun hl => ?_⟩
        · have := h.wild
          rw [ho] at this
          rw [ho']
          exact this
        · have := h.star
          rw [ho] at this
          rw [ho']
          rcases hst with h0 | h0
          · intro h1
            dsimp only at h1
            omega
          · rw [h0]
            exact this
        · have := hl.1
          unfold floor at this ⊢
          rw [ho] at this
          rw [ho']
          dsimp only
          split at this <;> split <;> omega
        · rw [if_pos rfl] at hl
          exact absurd hl (by decide)
      refine ⟨hi, measure_on hi hns hf ?_ hg⟩
      rw [ho, ho']
      rcases hst with h0 | h0
      · exact .inl h0
      · rw [h0]; exact .inr rfl
    | cons t ts =>
      have hin := h.inners top (by rw [hb, List.dropLast_cons_cons]; exact List.mem_cons_self)
      have ho : outer { path := q, glob := g, wild := top.wild, star := st } ⟨t :: ts, if t :: ts = [] then -1 else b1.longest⟩ = outer s b := by
        unfold outer
        rw [hb]
        show (t :: ts).getLast?.getD _ = (top :: t :: ts).getLast?.getD _
        rw [List.getLast?_cons, List.getLast?_cons, List.getLast?_cons]
        rfl
      have hf : floor { path := q, glob := g, wild := top.wild, star := st } ⟨t :: ts, if t :: ts = [] then -1 else b1.longest⟩ = floor s b := by
        unfold floor; rw [ho]
      have hi : Inv glob path d { path := q, glob := g, wild := top.wild, star := st } ⟨t :: ts, if t :: ts = [] then -1 else b1.longest⟩ := by
        refine ⟨by dsimp only; omega, hgl, fun _ => ⟨hin.1, ?_⟩, fun u hu => h.inners u ?_, by rw [ho]; exact h.wild, by rw [ho]; exact h.star,
          by rw [hf]; dsimp only; omega, hql, fun u hu => ?_, fun hl' => ?_⟩
        · rcases hst with h0 | h0
          · exact h0
          · dsimp only
            rw [h0]
            exact hin.2
        · rw [hb, List.dropLast_cons_cons]
          exact List.mem_cons_of_mem _ hu
        · rw [hf]
          exact h.lows u (by rw [hb]; exact List.mem_cons_of_mem _ hu)
        · rw [hf]
          rw [if_neg (List.cons_ne_nil _ _)]
          exact ⟨hl.1, hl.2, List.cons_ne_nil _ _⟩
      exact ⟨hi, measure_on hi hns (Nat.le_of_eq hf.symm) (.inr (by rw [ho])) hg⟩

/-- Back to the last star. -/
theorem back {glob path : List Nat} {d : Nat → Nat} {s s1 : State} {b b1 : Braces} (h : Inv glob path d s b) (hns : glob[s.glob]? ≠ some bStar)
    (hb : b1.stack = []) (hbl : b1.longest < 0) (hw : s1.wild = (outer s b).wild) (hst : s1.star = (outer s b).star) (hp : 0 < s1.wild.p)
    (hpl : s1.wild.p ≤ path.length) : Down glob path d s b (.cont { s1 with glob := s1.wild.g, path := s1.wild.p } b1) := by
  have ho := outer_nil (s := { s1 with glob := s1.wild.g, path := s1.wild.p }) hb
  have hstar : glob[s1.wild.g]? = some bStar := by
    have := h.wild
    rw [← hw] at this
    exact this hp
  have hi : Inv glob path d { s1 with glob := s1.wild.g, path := s1.wild.p } b1 := by
    refine ⟨by rw [hb]; exact Nat.zero_le _, Nat.le_of_lt (lt_of_get hstar), fun h => absurd hb h, by rw [hb]; exact fun t ht => (by cases ht), ?_, ?_, ?_,
      hpl, by rw [hb]; exact fun t ht => (by cases ht), fun hl => by omega⟩
    · rw [ho]
      exact fun _ => hstar
    · rw [ho]
      dsimp only
      rw [hst]
      exact h.star
    · unfold floor
      rw [ho]
      dsimp only
      rw [if_pos hp]
      omega
  refine ⟨hi, measure_ahead hi ?_⟩
  have h1 : ahead glob s b = s1.wild.p - 1 := by
    unfold ahead floor
    rw [if_neg hns, ← hw, if_pos hp]
  have h2 : ahead glob { s1 with glob := s1.wild.g, path := s1.wild.p } b1 = s1.wild.p := by
    unfold ahead
    rw [if_pos hstar]
  rw [h1, h2]
  omega

theorem mismatch_down {glob path : List Nat} {d : Nat → Nat} (D : Deep glob d) (isPrefix negated : Bool) {s : State} {b : Braces}
    (h : Inv glob path d s b) (hns : glob[s.glob]? ≠ some bStar) (j : Nat) (hj : s.glob ≤ j) (hd : b.stack.length ≤ d j) :
    Down glob path d s b (afterMismatch glob path isPrefix negated { s with glob := j } b) := by
  unfold afterMismatch
  dsimp only
  split
  · next hc =>
    have hb : b.stack = [] := Classical.byContradiction fun hne => by
      have := (h.inner hne).1
      omega
    have ho := outer_nil (s := s) hb
    exact back h hns hb (Int.not_le.mp fun hl => (h.long hl).2.2 hb) (s1 := { s with glob := j }) (by rw [ho]) (by rw [ho]) hc.1 hc.2
  · split
    · trivial
    · next top rest hb =>
      have hne : b.stack ≠ [] := by rw [hb]; exact List.cons_ne_nil _ _
      have hk := skipBraces_bounds glob true (glob.length + 1) j 1 false (by simp)
      split
      · trivial
      · next i hi =>
        rw [hi] at hk
        have hk := hk (by simp)
        have hlt := hk.2.2 (by decide)
        dsimp only at hlt hk
        have := D.comma _ _ hi
        have ht := h.lows top (by rw [hb]; exact List.mem_cons_self)
        exact move_in h hne rfl hns (by dsimp only; omega) hk.2.1 (by dsimp only; omega) (h.inner hne) ht.1 ht.2
          (fun hl => ⟨(h.long hl).1, (h.long hl).2.1⟩)
      · next i hi =>
        rw [hi] at hk
        have hk := hk (by simp)
        have hlt := hk.2.2 (by decide)
        dsimp only at hlt hk
        have hfin := D.finish _ _ hi
        split
        · next hl =>
          split
          · trivial
          · next s' b' hp =>
            have := leave h hns rfl hp i s'.path s'.star (by omega) hk.2.1 (by omega) (by unfold pop at hp; rw [hb] at hp; cases hp; exact Nat.le_refl _)
              (by unfold pop at hp; rw [hb] at hp; cases hp; exact (h.long hl).2.1) ⟨(h.long hl).1, (h.long hl).2.1⟩ (.inr rfl)
            have he : s'.glob = i := by unfold pop at hp; rw [hb] at hp; cases hp; rfl
            rw [← he] at this
            exact this
        · next hl =>
          split
          · next hc =>
            have hrest : rest = [] := by
              cases rest with
              | nil => rfl
              | cons t ts =>
                have := (h.inners top (by rw [hb, List.dropLast_cons_cons]; exact List.mem_cons_self)).1
                omega
            subst hrest
            have ho : outer s b = top := by unfold outer; rw [hb]; rfl
            exact back h hns (b1 := ⟨[], b.longest⟩) rfl (Int.not_le.mp hl) (s1 := top) (by rw [ho]) (by rw [ho]) hc.1 hc.2
          · trivial

theorem star_down {glob path : List Nat} {d : Nat → Nat} (D : Deep glob d) {s : State} {b : Braces} (h : Inv glob path d s b)
    (hg : glob[s.glob]? = some bStar) : Down glob path d s b (starArm glob path s b) := by
  have hlt := lt_of_get hg
  have hb : b.stack = [] := by
    have := h.deep
    rw [D.star _ hg] at this
    exact List.length_eq_zero_iff.mp (Nat.le_zero.mp this)
  have ho := outer_nil (s := s) hb
  have hlong : b.longest < 0 := Int.not_le.mp fun hl => (h.long hl).2.2 hb
  have hah : ahead glob s b = s.path := by unfold ahead; rw [if_pos hg]
  unfold starArm
  simp only
  generalize hsg : (if decide (glob[s.glob + 1]? = some bStar) = true then _ else _ : State) = sg1
  -- what the first part does
  have h1 : s.glob < sg1.glob ∧ sg1.glob ≤ glob.length ∧ sg1.path = s.path ∧ sg1.wild.p = s.path + 1 ∧ glob[sg1.wild.g]? = some bStar ∧
      ((Full glob s.glob ∧ sg1.star = sg1.wild ∧ Full glob sg1.star.g) ∨ (¬ Full glob s.glob ∧ sg1.star = s.star)) := by
    rw [← hsg]
    by_cases h2 : glob[s.glob + 1]? = some bStar
    · have hl2 := lt_of_get h2
      have hbd := skipGlobstars_bounds glob glob.length (s.glob + 2) (by omega)
      have hss := skip_star glob glob.length (s.glob + 2) (by omega) (by rw [Nat.add_sub_cancel]; exact hg)
        (by rw [show s.glob + 2 - 1 = s.glob + 1 by omega]; exact h2)
      have hr : skipGlobstars glob glob.length (s.glob + 2) - 2 + 2 = skipGlobstars glob glob.length (s.glob + 2) := by omega
      simp only [h2, decide_true, if_true, hr]
      split
      · next hc =>
        have hF : Full glob s.glob := ⟨hg, h2, .inl hc⟩
        exact ⟨by dsimp only; omega, hbd.2, rfl, rfl, hss.2.1, .inl ⟨hF, rfl, hF.last⟩⟩
      · next hc =>
        split
        · next hc2 =>
          have hF : Full glob s.glob := ⟨hg, h2, .inr hc2⟩
          have := lt_of_get hc2.2
          refine ⟨?_, ?_, rfl, rfl, hss.2.1, .inl ⟨hF, rfl, hF.last⟩⟩
          · dsimp only
            split <;> omega
          · dsimp only
            split <;> omega
        · next hc2 =>
          refine ⟨by dsimp only; omega, hbd.2, rfl, rfl, hss.2.1, .inr ⟨?_, rfl⟩⟩
          rintro ⟨-, -, hF | hF⟩
          · exact hc hF
          · exact hc2 hF
    · simp only [h2, decide_false, Bool.false_eq_true, if_false]
      refine ⟨Nat.lt_succ_self _, hlt, ?_, ?_, hg, .inr ⟨fun hF => h2 hF.2.1, ?_⟩⟩ <;> first | trivial | rfl
  obtain ⟨hg1, hg2, hp1, hw1, hw2, hst⟩ := h1
  generalize hsg2 : (if sg1.star.p ≠ sg1.wild.p ∧ path[sg1.path]? = some bSlash then _ else sg1 : State) = sg2
  have h2 : Inv glob path d sg2 b ∧ measure glob path sg2 b < measure glob path s b := by
    rw [← hsg2]
    clear hsg2 sg2 hsg
    have hstar1 : 0 < sg1.star.p → Full glob sg1.star.g := by
      intro h0
      rcases hst with ⟨-, -, h3⟩ | ⟨-, h3⟩
      · exact h3
      · rw [h3] at h0 ⊢
        have := h.star
        rw [ho] at this
        exact this h0
    have hhigh := h.high
    -- going on
    have hgo : ∀ w : Wild, w = sg1.wild ∨ w.p = 0 → Inv glob path d { sg1 with wild := w } b ∧
        measure glob path { sg1 with wild := w } b < measure glob path s b := by
      intro w hw
      have ho1 := outer_nil (s := { sg1 with wild := w }) hb
      have hf1 : floor { sg1 with wild := w } b = s.path := by
        unfold floor
        rw [ho1]
        dsimp only
        rcases hw with rfl | hw
        · rw [if_pos (by omega)]; omega
        · rw [if_neg (by omega)]; exact hp1
      have hi : Inv glob path d { sg1 with wild := w } b := by
        refine ⟨by rw [hb]; exact Nat.zero_le _, hg2, fun h => absurd hb h, by rw [hb]; exact fun t ht => (by cases ht), ?_, ?_, ?_,
          by dsimp only; omega, by rw [hb]; exact fun t ht => (by cases ht), fun hl => by omega⟩
        · rw [ho1]
          dsimp only
          intro h0
          rcases hw with rfl | hw
          · exact hw2
          · omega
        · rw [ho1]
          exact hstar1
        · rw [hf1]
          exact Nat.le_of_eq hp1.symm
      refine ⟨hi, ?_⟩
      have ha1 : ahead glob { sg1 with wild := w } b = s.path := by
        unfold ahead
        split
        · exact hp1
        · exact hf1
      refine measure_same (by rw [ha1, hah]) ?_
      have hG : glob.length - sg1.glob < glob.length - s.glob := by omega
      have hj1 := jump_le glob { sg1 with wild := w } b
      have hj2 := jump_le glob s b
      by_cases hj : jump glob { sg1 with wild := w } b = 0
      · by_cases hj' : jump glob s b = 0
        · exact .inr ⟨by omega, hG⟩
        · exact .inl (by omega)
      · have hjs : jump glob s b = 1 := by
          unfold jump at hj ⊢
          split at hj
          · next hc =>
            rw [ha1, ho1] at hc
            dsimp only at hc
            rcases hst with ⟨-, h3, -⟩ | ⟨h4, h3⟩
            · rw [h3] at hc
              omega
            · rw [h3] at hc
              rw [if_pos]
              rw [hah, ho]
              exact ⟨hc.1, hc.2.1, h4⟩
          · exact absurd rfl hj
        exact .inr ⟨by omega, hG⟩
    split
    · next hc =>
      split
      · next hc2 =>
        -- the jump
        have hnF : ¬ Full glob s.glob ∧ sg1.star = s.star := by
          rcases hst with ⟨-, h3, -⟩ | h3
          · exact absurd (by rw [h3]) hc.1
          · exact h3
        have hF := hstar1 hc2.1
        have ho1 := outer_nil (s := { sg1 with glob := sg1.star.g, wild := { sg1.wild with g := sg1.star.g } }) hb
        have hf1 : floor { sg1 with glob := sg1.star.g, wild := { sg1.wild with g := sg1.star.g } } b = s.path := by
          unfold floor
          rw [ho1]
          dsimp only
          rw [if_pos (by omega)]
          omega
        have hi : Inv glob path d { sg1 with glob := sg1.star.g, wild := { sg1.wild with g := sg1.star.g } } b := by
          refine ⟨by rw [hb]; exact Nat.zero_le _, Nat.le_of_lt (lt_of_get hF.1), fun h => absurd hb h, by rw [hb]; exact fun t ht => (by cases ht),
            ?_, ?_, ?_, by dsimp only; omega, by rw [hb]; exact fun t ht => (by cases ht), fun hl => by omega⟩
          · rw [ho1]
            exact fun _ => hF.1
          · rw [ho1]
            exact fun _ => hF
          · rw [hf1]
            exact Nat.le_of_eq hp1.symm
        refine ⟨hi, measure_same ?_ (.inl ?_)⟩
        · rw [hah]
          unfold ahead
          rw [if_pos hF.1]
          exact hp1
        · have hj0 : jump glob { sg1 with glob := sg1.star.g, wild := { sg1.wild with g := sg1.star.g } } b = 0 := by
            unfold jump
            rw [if_neg]
            exact fun hc => hc.2.2 hF
          have hj1 : jump glob s b = 1 := by
            unfold jump
            rw [if_pos]
            rw [hah, ho, ← hnF.2]
            exact ⟨hc2.1, by rw [← hw1]; exact hc.1, hnF.1⟩
          exact Nat.lt_of_le_of_lt (Nat.le_of_eq hj0) (by rw [hj1]; exact Nat.zero_lt_one)
      · exact hgo _ (.inr rfl)
    · exact hgo sg1.wild (.inl rfl)
  rw [if_neg (fun hc => hc.1 hb)]
  exact h2

theorem step_down {glob path : List Nat} {d : Nat → Nat} (D : Deep glob d) (isPrefix negated : Bool) {s : State} {b : Braces}
    (h : Inv glob path d s b) : Down glob path d s b (step glob path isPrefix negated s b) := by
  unfold step
  split
  · next hg => exact mismatch_down D _ _ h (by rw [hg]; exact fun h => (by cases h)) s.glob (Nat.le_refl _) h.deep
  · next g hg =>
    have hlt := lt_of_get hg
    have hstay : glob[s.glob]? ≠ some bStar → Down glob path d s b (afterMismatch glob path isPrefix negated s b) :=
      fun hns => mismatch_down D _ _ h hns s.glob (Nat.le_refl _) h.deep
    have hpop : g = bRBrace → b.stack ≠ [] → 
        Down glob path d s b (match pop { b with longest := max b.longest s.path } { s with glob := s.glob + 1 } with
          | none => .panic
          | some (s, b) => .cont s b) := by
      intro hr hne
      split
      · trivial
      · next s' b' hp =>
        have hm : (max b.longest (s.path : Int)).toNat = max b.longest.toNat s.path := by omega
        have hl : floor s b ≤ (max b.longest (s.path : Int)).toNat ∧ (max b.longest (s.path : Int)).toNat ≤ path.length := by
          have h1 := h.low
          have h2 := h.high
          by_cases h0 : 0 ≤ b.longest
          · have := h.long h0; omega
          · omega
        have hc := D.closing _ (hr ▸ hg)
        have hd := h.deep
        have hp' : s'.path = (max b.longest (s.path : Int)).toNat ∧ s'.glob = s.glob + 1 := by
          unfold pop at hp
          split at hp
          · cases hp
          · cases hp; exact ⟨rfl, rfl⟩
        have := leave (b1 := { b with longest := max b.longest s.path }) h (by rw [hg, hr]; decide) rfl hp (s.glob + 1) s'.path s'.star (Nat.lt_succ_self _) hlt (by omega) (Nat.le_of_eq hp'.1.symm)
          (by rw [hp'.1]; exact hl.2) hl (.inr rfl)
        rw [← hp'.2] at this
        exact this
    have hcomma : g = bComma → b.stack ≠ [] → Down glob path d s b (match b.stack with
        | [] => .panic
        | top :: _ =>
          .cont { s with path := top.path, glob := s.glob + 1, wild := {}, star := {} }
            { b with longest := max b.longest s.path }) := by
      intro hr hne
      split
      · trivial
      · next top rest hb =>
        have ht := h.lows top (by rw [hb]; exact List.mem_cons_self)
        have := D.other _ _ hg (by rw [hr]; decide) (by rw [hr]; decide)
        have hd := h.deep
        refine move_in h hne rfl (by rw [hg, hr]; decide) (Nat.lt_succ_self _) hlt (by dsimp only; omega) ⟨rfl, rfl⟩ ht.1 ht.2 (fun _ => ?_)
        have h1 := h.low
        have h2 := h.high
        dsimp only
        by_cases h0 : 0 ≤ b.longest
        · have := h.long h0; omega
        · omega
    split
    · next hst => exact star_down D h (hst ▸ hg)
    · next hst =>
      have hns : glob[s.glob]? ≠ some bStar := by
        rw [hg]
        exact fun h => hst (Option.some.inj h)
      have hd := h.deep
      split
      · next pc hpc =>
        have hpl := lt_of_get hpc
        split
        · next hq =>
          have := D.other _ _ hg (by rw [hq]; decide) (by rw [hq]; decide)
          split
          · exact move_on h hns (s.glob + 1) (s.path + 1) s.star (Nat.lt_succ_self _) hlt (by omega) (Nat.le_succ _) hpl (.inr rfl)
          · exact hstay hns
        · split
          · next hq =>
            simp only
            split
            · trivial
            · next m i hcl =>
              split
              · trivial
              · next hi =>
                have hr := D.range s.glob pc m i (hq ▸ hg) (by simpa using hcl) (by omega)
                have hcl := classLoop_le _ _ _ _ _ _ _ _ hcl
                have : s.glob < i + 1 := by
                  split at hcl <;> omega
                split
                · exact move_on h hns (i + 1) (s.path + 1) s.star this (by omega) (by omega) (Nat.le_succ _) hpl (.inr rfl)
                · exact mismatch_down D _ _ h hns (i + 1) (by omega) (by omega)
          · split
            · next hq =>
              split
              · trivial
              · exact enter D h (hq ▸ hg)
            · next hnb =>
              split
              · next hc => exact hpop hc.1 hc.2
              · next hnr =>
                split
                · next hc => exact hcomma hc.1 hc.2
                · split
                  · trivial
                  · next c i hu =>
                    have hub := unescape_bounds hu hlt
                    have hdi : b.stack.length ≤ d i ∧ b.stack.length ≤ d (i + 1) := by
                      by_cases hbk : g = bBack
                      · have h1 := D.other _ _ hg (by rw [hbk]; decide) (by rw [hbk]; decide)
                        have h2 := D.escape _ (hbk ▸ hg)
                        have hi : i = s.glob + 1 := by
                          unfold unescape at hu
                          rw [if_pos hbk] at hu
                          split at hu
                          · cases hu
                          · cases hu; rfl
                        subst hi
                        exact ⟨by omega, by rw [show s.glob + 1 + 1 = s.glob + 2 from rfl]; omega⟩
                      · have hi : i = s.glob := by
                          unfold unescape at hu
                          rw [if_neg hbk] at hu
                          cases hu; rfl
                        subst hi
                        refine ⟨hd, ?_⟩
                        by_cases hrb : g = bRBrace
                        · have : b.stack = [] := Classical.byContradiction fun hne => hnr ⟨hrb, hne⟩
                          rw [this]
                          exact Nat.zero_le _
                        · exact Nat.le_trans hd (D.other _ _ hg hnb hrb)
                    simp only
                    by_cases hcond : (if c = bSlash then pc = bSlash else pc = c)
                    · rw [if_pos hcond]
                      split
                      · trivial
                      · next s' b' hn =>
                        by_cases hc2 : b.stack ≠ [] ∧ 0 < i ∧ glob[i-1]? = some bRBrace
                        · rw [if_pos hc2] at hn
                          have hp' : s'.path = s.path ∧ s'.glob = i := by
                            unfold pop at hn
                            split at hn
                            · cases hn
                            · cases hn; exact ⟨rfl, rfl⟩
                          rw [hp'.1, hp'.2]
                          exact leave (b1 := { b with longest := s.path }) h hns rfl hn (i + 1) (s.path + 1) _ (by omega) hub.2 (by omega)
                            (by dsimp only; omega) hpl ⟨by dsimp only; exact h.low, by dsimp only; exact h.high⟩ (by split <;> first | exact .inl rfl | exact .inr rfl)
                        · rw [if_neg hc2] at hn
                          cases hn
                          exact move_on h hns (i + 1) (s.path + 1) _ (by omega) hub.2 hdi.2 (Nat.le_succ _) hpl (by split <;> first | exact .inl rfl | exact .inr rfl)
                    · rw [if_neg hcond]
                      exact mismatch_down D _ _ h hns i hub.1 hdi.1
      · split
        · next hc => exact hpop hc.1 hc.2
        · split
          · next hc => exact hcomma hc.1 hc.2
          · exact hstay hns

theorem run_down {glob path : List Nat} {d : Nat → Nat} (D : Deep glob d) (isPrefix negated : Bool) (n : Nat) : ∀ s b, Inv glob path d s b →
    measure glob path s b < n → run glob path isPrefix negated n s b ≠ .error .fuel := by
  induction n with
  | zero => intro s b _ h; omega
  | succ n ih =>
    intro s b hi hm
    have hd := step_down D isPrefix negated hi
    rw [run]
    split
    · split
      · next s' b' he =>
        rw [he] at hd
        exact ih _ _ hd.1 (by have := hd.2; omega)
      · exact fun h => (by cases h)
      · exact fun h => (by cases h)
    · split
      · exact fun h => (by cases h)
      · exact fun h => (by cases h)

/-! ### A bound for the open braces -/

/-- One more code of the pattern: the number of open braces, and whether a class or an escape has been seen inside of braces
(from then on no brace counts as closed). -/
def note (k : Nat × Bool) (c : Nat) : Nat × Bool :=
  if c = bLBrace then (k.1 + 1, k.2)
  else if c = bRBrace then (if k.2 then k else (k.1 - 1, k.2))
  else if c = bLBrack ∨ c = bBack then (k.1, k.2 || decide (0 < k.1))
  else k

/-- The braces open after these codes. -/
def noted (l : List Nat) : Nat × Bool := l.foldl note (0, false)

theorem noted_succ {glob : List Nat} {g c : Nat} (h : glob[g]? = some c) : noted (glob.take (g + 1)) = note (noted (glob.take g)) c := by
  unfold noted
  rw [List.take_add_one, h, Option.toList_some, List.foldl_append]
  rfl

theorem noted_end {glob : List Nat} {g : Nat} (h : glob[g]? = none) : noted (glob.take (g + 1)) = noted (glob.take g) := by
  unfold noted
  rw [List.take_add_one, h, Option.toList_none, List.append_nil]

/-- Once frozen, the number only grows. -/
theorem frozen {glob : List Nat} {g : Nat} (h : (noted (glob.take g)).2 = true) (n : Nat) :
    (noted (glob.take (g + n))).2 = true ∧ (noted (glob.take g)).1 ≤ (noted (glob.take (g + n))).1 := by
  induction n with
  | zero => exact ⟨h, Nat.le_refl _⟩
  | succ n ih =>
    rw [← Nat.add_assoc]
    cases hg : glob[g + n]? with
    | none => rw [noted_end hg]; exact ih
    | some c =>
      rw [noted_succ hg]
      unfold note
      rw [ih.1]
      split
      · exact ⟨rfl, Nat.le_succ_of_le ih.2⟩
      · split
        · rw [if_pos rfl]; exact ih
        · split
          · exact ⟨rfl, ih.2⟩
          · exact ih

theorem frozen_le {glob : List Nat} {g : Nat} (h : (noted (glob.take g)).2 = true) {i : Nat} (hi : g ≤ i) :
    (noted (glob.take g)).1 ≤ (noted (glob.take i)).1 := by
  obtain ⟨n, rfl⟩ := Nat.exists_eq_add_of_le hi
  exact (frozen h n).2

/-- After a class or an escape inside of braces. -/
theorem frozen_at {glob : List Nat} {g c : Nat} (hg : glob[g]? = some c) (hc : c = bLBrack ∨ c = bBack) {i : Nat} (hi : g + 1 ≤ i) :
    (noted (glob.take g)).1 ≤ (noted (glob.take i)).1 := by
  have hs := noted_succ hg
  have : note (noted (glob.take g)) c = ((noted (glob.take g)).1, (noted (glob.take g)).2 || decide (0 < (noted (glob.take g)).1)) := by
    unfold note
    rw [if_neg (by rcases hc with rfl | rfl <;> decide), if_neg (by rcases hc with rfl | rfl <;> decide), if_pos hc]
  rw [this] at hs
  by_cases h0 : 0 < (noted (glob.take g)).1
  · have hf : (noted (glob.take (g + 1))).2 = true := by rw [hs]; simp [h0]
    have := frozen_le hf hi
    rw [hs] at this
    exact this
  · omega

theorem skips {glob : List Nat} (hstar : ∀ g : Nat, glob[g]? = some bStar → (noted (glob.take g)).1 = 0) (K : Nat) (hK : 0 < K) (n : Nat) :
    ∀ i br, K + br ≤ (noted (glob.take i)).1 + 1 → (br = 0 → i ≤ glob.length) →
      (∀ j, skipBraces glob true n i br false = (.comma, j) → K ≤ (noted (glob.take j)).1) ∧
      (∀ j, skipBraces glob true n i br false = (.endBrace, j) → K ≤ (noted (glob.take j)).1 + 1) := by
  induction n with
  | zero =>
    intro i br h hb
    constructor
    · intro j hj
      rw [skipBraces] at hj
      split at hj <;> cases hj
    · intro j hj
      rw [skipBraces] at hj
      split at hj
      · cases hj
      · next h0 => cases hj; omega
  | succ n ih =>
    intro i br h hb
    by_cases hbr : br = 0
    · constructor
      · intro j hj
        rw [skipBraces, if_pos hbr] at hj
        cases hj
      · intro j hj
        rw [skipBraces, if_pos hbr] at hj
        cases hj
        omega
    · -- what follows from a frozen place
      have hlate : ∀ k : Nat, K ≤ (noted (glob.take k)).1 → (∀ i, k ≤ i → (noted (glob.take k)).1 ≤ (noted (glob.take i)).1) → ∀ (m i' br' : Nat) (inBr : Bool),
          k ≤ i' → br' ≠ 0 →
          (∀ j, skipBraces glob true m i' br' inBr = (.comma, j) → K ≤ (noted (glob.take j)).1) ∧
          (∀ j, skipBraces glob true m i' br' inBr = (.endBrace, j) → K ≤ (noted (glob.take j)).1 + 1) := by
        intro k hk hm m i' br' inBr hi' hbr'
        have hbd := skipBraces_bounds glob true m i' br' inBr (fun h => absurd h hbr')
        constructor
        · intro j hj
          rw [hj] at hbd
          have h1 := (hbd (by simp)).1
          have := hm j (by dsimp only at h1; omega)
          omega
        · intro j hj
          rw [hj] at hbd
          have h1 := (hbd (by simp)).1
          have := hm j (by dsimp only at h1; omega)
          omega
      cases hf : (noted (glob.take i)).2 with
      | true => exact hlate i (by omega) (fun j hj => frozen_le hf hj) (n + 1) i br false (Nat.le_refl _) hbr
      | false =>
        rw [skipBraces, if_neg hbr]
        cases hg : glob[i]? with
        | none => exact ⟨fun j hj => (by cases hj), fun j hj => (by cases hj)⟩
        | some c =>
          have hlt := lt_of_get hg
          have hs := noted_succ hg
          dsimp only
          split
          · next hc =>
            rw [note, if_pos hc.1] at hs
            exact ih _ _ (by rw [hs]; dsimp only; omega) (fun _ => hlt)
          · next hc1 =>
            have hc1 : c ≠ bLBrace := fun h => hc1 ⟨h, rfl⟩
            split
            · next hc =>
              rw [note, if_neg hc1, if_pos hc.1, hf, if_neg (by decide)] at hs
              exact ih _ _ (by rw [hs]; dsimp only; omega) (fun _ => hlt)
            · next hc2 =>
              have hc2 : c ≠ bRBrace := fun h => hc2 ⟨h, rfl⟩
              rw [note, if_neg hc1, if_neg hc2] at hs
              split
              · next hc =>
                rw [if_neg (by rw [hc.1]; decide)] at hs
                refine ⟨fun j hj => ?_, fun j hj => (by cases hj)⟩
                cases hj
                rw [hs]
                omega
              · split
                · next hc =>
                  have hns : c ≠ bStar := by
                    intro he
                    have := hstar i (he ▸ hg)
                    omega
                  rw [if_neg (fun h => hns h.1)]
                  by_cases hb2 : c = bLBrack
                  · exact hlate i (by omega) (fun j hj => by
                      rcases Nat.lt_or_ge i j with h | h
                      · exact frozen_at hg (.inl hb2) h
                      · rw [Nat.le_antisymm h hj]; exact Nat.le_refl _) n (i + 1) br _ (Nat.le_succ _) hbr
                  · rw [if_neg (by
                      rcases hc.1 with h | h | h
                      · exact absurd h hns
                      · rw [h]; decide
                      · exact absurd h hb2)] at hs
                    have : (false || c == bLBrack) = false := by simp [hb2]
                    rw [this]
                    exact ih _ _ (by rw [hs]; omega) (fun _ => hlt)
                · next hc3 =>
                  split
                  · next hc =>
                    rw [if_neg (by rw [hc]; decide)] at hs
                    exact ih _ _ (by rw [hs]; omega) (fun _ => hlt)
                  · split
                    · next hc =>
                      exact hlate i (by omega) (fun j hj => by
                        rcases Nat.lt_or_ge i j with h | h
                        · exact frozen_at hg (.inr hc) h
                        · rw [Nat.le_antisymm h hj]; exact Nat.le_refl _) n (i + 2) br _ (Nat.le_add_right _ _) hbr
                    · next hc =>
                      rw [if_neg (by
                        rintro (h | h)
                        · exact hc3 ⟨.inr (.inr h), rfl⟩
                        · exact hc h)] at hs
                      exact ih _ _ (by rw [hs]; omega) (fun _ => hlt)

/-- It is a bound, if no star stands inside of braces. -/
theorem deep_noted {glob : List Nat} (hstar : ∀ g : Nat, glob[g]? = some bStar → (noted (glob.take g)).1 = 0) :
    Deep glob fun g => (noted (glob.take g)).1 where
  star := hstar
  opening g hg := by
    rw [noted_succ hg, note, if_pos rfl]
    exact Nat.le_refl _
  closing g hg := by
    rw [noted_succ hg, note, if_neg (by decide), if_pos rfl]
    split
    · exact Nat.le_succ _
    · dsimp only; omega
  other g c hg h1 h2 := by
    rw [noted_succ hg, note, if_neg h1, if_neg h2]
    split <;> exact Nat.le_refl _
  escape g hg := frozen_at hg (.inr rfl) (Nat.le_succ _)
  range g c m i hg hcl _ := by
    have := classLoop_le _ _ _ _ _ _ _ _ hcl
    refine frozen_at hg (.inl rfl) ?_
    split at this <;> omega
  comma g i hi := by
    by_cases h0 : 0 < (noted (glob.take g)).1
    · exact (skips hstar _ h0 _ g 1 (Nat.le_refl _) (fun h => absurd h (by decide))).1 i hi
    · omega
  finish g i hi := by
    by_cases h0 : 0 < (noted (glob.take g)).1
    · exact (skips hstar _ h0 _ g 1 (Nat.le_refl _) (fun h => absurd h (by decide))).2 i hi
    · omega

/-- The whole of it. -/
theorem match_terminates (glob path : List Nat) (isPrefix : Bool)
    (hstar : ∀ g : Nat, glob[g]? = some bStar → (noted (glob.take g)).1 = 0) (fuel : Nat)
    (hf : 2 * (path.length + 2) * (glob.length + 1) ≤ fuel) : ∃ r, matchInternal fuel glob path isPrefix = .ok r := by
  unfold matchInternal
  dsimp only
  have hi : Inv glob path (fun g => (noted (glob.take g)).1) { glob := leadingBangs glob } {} := by
    refine ⟨Nat.zero_le _, leadingBangs_le glob, fun h => absurd rfl h, fun t ht => (by cases ht), fun h => ?_, fun h => ?_, ?_, Nat.zero_le _,
      fun t ht => (by cases ht), fun h => ?_⟩
    · exact absurd h (Nat.lt_irrefl 0)
    · exact absurd h (Nat.lt_irrefl 0)
    · exact Nat.le_refl _
    · exact absurd h (by decide)
  have hm : measure glob path { glob := leadingBangs glob } {} < fuel := by
    unfold measure
    have h1 := jump_le glob { glob := leadingBangs glob } {}
    refine Nat.lt_of_lt_of_le (mul_drop (a := 2 * (path.length + 2)) ?_ (Nat.sub_le _ _)) hf
    omega
  have h1 := run_down (deep_noted hstar) isPrefix (leadingBangs glob % 2 == 1) fuel _ _ hi hm
  have h2 := run_no_panic glob path isPrefix (leadingBangs glob % 2 == 1) fuel { glob := leadingBangs glob } {}
    ⟨leadingBangs_le _, Nat.zero_le _, Nat.zero_le _⟩ (fun t ht => (by cases ht))
  cases hr : run glob path isPrefix (leadingBangs glob % 2 == 1) fuel { glob := leadingBangs glob } {} with
  | ok r => exact ⟨r, rfl⟩
  | error e =>
    rw [hr] at h1 h2
    cases e with
    | fuel => exact absurd rfl h1
    | panic => exact absurd rfl h2
    | error m =>
      exfalso
      have : ∀ n s b, run glob path isPrefix (leadingBangs glob % 2 == 1) n s b ≠ .error (.error m) := by
        intro n
        induction n with
        | zero => intro s b h; cases h
        | succ n ih =>
          intro s b h
          rw [run] at h
          split at h
          · split at h
            · exact ih _ _ h
            · cases h
            · cases h
          · split at h <;> cases h
      exact this _ _ _ hr

end Mitex.Glob
