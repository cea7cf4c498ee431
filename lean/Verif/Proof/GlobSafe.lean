/-
Safety and (star-free) termination of the glob matcher.
-/
import Verif.Proof.Glob

namespace Mitex.Glob

theorem lt_of_get {l : List Nat} {i a : Nat} (h : l[i]? = some a) : i < l.length :=
  (List.getElem?_eq_some_iff.mp h).1

theorem skipGlobstars_bounds (glob : List Nat) (n : Nat) : ∀ i, i ≤ glob.length →
    i ≤ skipGlobstars glob n i ∧ skipGlobstars glob n i ≤ glob.length := by
  induction n with
  | zero => intro i h; simp [skipGlobstars, h]
  | succ n ih =>
    intro i h
    rw [skipGlobstars]
    split
    · rename_i hc
      have := lt_of_get hc.2.2
      have := ih (i + 3) (by omega)
      omega
    · simp [h]

theorem unescape_bounds {c : Nat} {glob : List Nat} {i d j : Nat} (h : unescape c glob i = some (d, j))
    (hi : i < glob.length) : i ≤ j ∧ j < glob.length := by
  unfold unescape at h
  split at h
  · split at h
    · cases h
    · rename_i hd
      have := lt_of_get hd
      simp at h; omega
  · simp at h; omega

theorem skipBraces_bounds (glob : List Nat) (stop : Bool) (n : Nat) : ∀ i br inBr,
    (br = 0 → i ≤ glob.length) → (skipBraces glob stop n i br inBr).1 ≠ .invalid →
    i ≤ (skipBraces glob stop n i br inBr).2 ∧ (skipBraces glob stop n i br inBr).2 ≤ glob.length ∧
    (br ≠ 0 → i < (skipBraces glob stop n i br inBr).2) := by
  induction n with
  | zero =>
    intro i br inBr h0 h
    unfold skipBraces at h ⊢
    by_cases hb : br = 0
    · simp [hb, h0 hb]
    · simp [hb] at h
  | succ n ih =>
    intro i br inBr h0 h
    rw [skipBraces] at h ⊢
    by_cases hb : br = 0
    · simp [hb, h0 hb]
    · simp only [hb, if_false] at h ⊢
      cases hg : glob[i]? with
      | none => simp [hg] at h
      | some c =>
        have hlt := lt_of_get hg
        simp only [hg] at h ⊢
        split
        · rename_i hc
          rw [if_pos hc] at h
          have := ih _ _ _ (by omega) h; omega
        · rename_i hc
          rw [if_neg hc] at h
          split
          · rename_i hc
            rw [if_pos hc] at h
            have := ih _ _ _ (by omega) h; omega
          · rename_i hc
            rw [if_neg hc] at h
            split
            · simp; omega
            · rename_i hc
              rw [if_neg hc] at h
              split
              · rename_i hc
                rw [if_pos hc] at h
                have h1 : i + 1 ≤ (if c = bStar ∧ glob[i+1]? = some bStar then
                    skipGlobstars glob glob.length (i + 2) - 2 + 1 else i) + 1 := by
                  split
                  · rename_i h2
                    have := lt_of_get h2.2
                    have := skipGlobstars_bounds glob glob.length (i + 2) (by omega)
                    omega
                  · omega
                have := ih _ _ _ (by omega) h; omega
              · rename_i hc
                rw [if_neg hc] at h
                split
                · rename_i hc
                  rw [if_pos hc] at h
                  have := ih _ _ _ (by omega) h; omega
                · rename_i hc
                  rw [if_neg hc] at h
                  split
                  · rename_i hc
                    rw [if_pos hc] at h
                    have := ih _ _ _ (by omega) h; omega
                  · rename_i hc
                    rw [if_neg hc] at h
                    have := ih _ _ _ (by omega) h; omega

/-- All pattern indices of a state are in range. -/
def SOk (glob : List Nat) (s : State) : Prop :=
  s.glob ≤ glob.length ∧ s.wild.g ≤ glob.length ∧ s.star.g ≤ glob.length

/-- The outcome of a round is not a panic, and a following state is in range. -/
def OutOk (glob : List Nat) : Out → Prop
  | .cont s b => SOk glob s ∧ ∀ t ∈ b.stack, SOk glob t
  | .ret _ => True
  | .panic => False

theorem pop_ok {glob : List Nat} {b b' : Braces} {s s' : State} (h : pop b s = some (s', b'))
    (hs : SOk glob s) (hb : ∀ t ∈ b.stack, SOk glob t) : SOk glob s' ∧ ∀ t ∈ b'.stack, SOk glob t := by
  unfold pop at h
  split at h
  · cases h
  · rename_i top rest he
    simp at h
    obtain ⟨rfl, rfl⟩ := h
    have h1 := hb top (by simp [he])
    exact ⟨⟨hs.1, h1.2.1, h1.2.2⟩, fun t ht => hb t (by simp [he, ht])⟩

theorem pop_some {b : Braces} {s : State} (h : b.stack ≠ []) : ∃ r, pop b s = some r := by
  unfold pop; split
  · contradiction
  · exact ⟨_, rfl⟩

theorem afterMismatch_ok (glob path : List Nat) (p ng : Bool) (s : State) (b : Braces)
    (hs : SOk glob s) (hb : ∀ t ∈ b.stack, SOk glob t) : OutOk glob (afterMismatch glob path p ng s b) := by
  unfold afterMismatch
  simp only
  split
  · exact ⟨⟨hs.2.1, hs.2.1, hs.2.2⟩, hb⟩
  · split
    · trivial
    · rename_i top rest he
      have hk := skipBraces_bounds glob true (glob.length + 1) s.glob 1 false (by simp)
      split
      · trivial
      · rename_i i hi
        rw [hi] at hk
        have := hk (by simp)
        exact ⟨⟨this.2.1, hs.2.1, hs.2.2⟩, hb⟩
      · rename_i i hi
        rw [hi] at hk
        have hk := hk (by simp)
        split
        · obtain ⟨⟨s', b'⟩, hr⟩ := pop_some (b := b) (s := { s with glob := i }) (by simp [he])
          rw [hr]
          exact pop_ok hr ⟨hk.2.1, hs.2.1, hs.2.2⟩ hb
        · have ht := hb top (by simp [he])
          split
          · exact ⟨⟨ht.2.1, ht.2.1, ht.2.2⟩, fun t h => hb t (by simp [he, h])⟩
          · trivial

theorem starArm_ok (glob path : List Nat) (s : State) (b : Braces) (hg : glob[s.glob]? = some bStar)
    (hs : SOk glob s) (hb : ∀ t ∈ b.stack, SOk glob t) : OutOk glob (starArm glob path s b) := by
  have hlt := lt_of_get hg
  unfold starArm
  simp only
  generalize hsg : (if decide (glob[s.glob + 1]? = some bStar) = true then _ else _ : State) = sg1
  have h1 : SOk glob sg1 := by
    rw [← hsg]
    by_cases h2 : glob[s.glob + 1]? = some bStar
    · have := lt_of_get h2
      have hb := skipGlobstars_bounds glob glob.length (s.glob + 2) (by omega)
      simp only [h2, decide_true, if_true]
      split
      · simp only [SOk]; omega
      · split
        · rename_i hc
          have := lt_of_get hc.2
          simp only [SOk]
          split <;> omega
        · have := hs.2.2
          simp only [SOk]; omega
    · have := hs.2.2
      simp only [h2, decide_false, Bool.false_eq_true, if_false, SOk]; omega
  generalize hsg2 : (if sg1.star.p ≠ sg1.wild.p ∧ path[sg1.path]? = some bSlash then _ else sg1 : State) = sg2
  have h2 : SOk glob sg2 := by
    rw [← hsg2]
    obtain ⟨a1, a2, a3⟩ := h1
    split
    · split
      · exact ⟨a3, a3, a3⟩
      · exact ⟨a1, a2, a3⟩
    · exact ⟨a1, a2, a3⟩
  split
  · have hk := skipBraces_bounds glob false (glob.length + 1) sg2.glob 1 false (by simp)
    split
    · trivial
    · rename_i i hne hi
      rw [hi] at hk
      have := hk (by intro h; subst h; exact hne rfl)
      exact ⟨⟨this.2.1, h2.2.1, h2.2.2⟩, hb⟩
  · exact ⟨h2, hb⟩

theorem step_ok (glob path : List Nat) (p ng : Bool) (s : State) (b : Braces)
    (hs : SOk glob s) (hb : ∀ t ∈ b.stack, SOk glob t) : OutOk glob (step glob path p ng s b) := by
  unfold step
  split
  · exact afterMismatch_ok _ _ _ _ _ _ hs hb
  · rename_i g hg
    have hlt := lt_of_get hg
    have hs1 : ∀ q, SOk glob { s with glob := s.glob + 1, path := q } := fun q => ⟨hlt, hs.2.1, hs.2.2⟩
    have hpop : ∀ L : Int, b.stack ≠ [] →
        OutOk glob (match pop { b with longest := L } { s with glob := s.glob + 1 } with
          | none => .panic
          | some (s, b) => .cont s b) := by
      intro L hne
      obtain ⟨⟨s', b'⟩, hr⟩ := pop_some (b := { b with longest := L }) (s := { s with glob := s.glob + 1 }) hne
      rw [hr]
      exact pop_ok hr (hs1 _) hb
    have hcomma : b.stack ≠ [] → OutOk glob (match b.stack with
        | [] => .panic
        | top :: _ =>
          .cont { s with path := top.path, glob := s.glob + 1, wild := {}, star := {} }
            { b with longest := max b.longest s.path }) := by
      intro hne
      split
      · contradiction
      · exact ⟨⟨hlt, by simp, by simp⟩, hb⟩
    split
    · rename_i hst; exact starArm_ok _ _ _ _ (hst ▸ hg) hs hb
    · split
      · rename_i pc hpc
        split
        · split
          · exact ⟨hs1 _, hb⟩
          · exact afterMismatch_ok _ _ _ _ _ _ hs hb
        · split
          · simp only
            split
            · trivial
            · split
              · trivial
              · rename_i i _ hi
                split
                · exact ⟨⟨by simp; omega, hs.2.1, hs.2.2⟩, hb⟩
                · exact afterMismatch_ok _ _ _ _ _ _ ⟨by simp; omega, hs.2.1, hs.2.2⟩ hb
          · split
            · split
              · trivial
              · refine ⟨⟨hlt, by simp [push], by simp [push]⟩, ?_⟩
                intro t ht
                simp [push] at ht
                rcases ht with rfl | ht
                · exact hs
                · exact hb t ht
            · split
              · rename_i hc; exact hpop _ hc.2
              · split
                · rename_i hc; exact hcomma hc.2
                · split
                  · trivial
                  · rename_i c i hu
                    have hu := unescape_bounds hu hlt
                    simp only
                    have hs2 : SOk glob { s with glob := i } := ⟨by simp; omega, hs.2.1, hs.2.2⟩
                    by_cases hcond : (if c = bSlash then pc = bSlash else pc = c)
                    · rw [if_pos hcond]
                      split
                      · rename_i hn
                        by_cases hc2 : b.stack ≠ [] ∧ 0 < i ∧ glob[i-1]? = some bRBrace
                        · rw [if_pos hc2] at hn
                          obtain ⟨r, hr⟩ := pop_some (b := { b with longest := s.path }) (s := { s with glob := i }) hc2.1
                          rw [hr] at hn; cases hn
                        · rw [if_neg hc2] at hn; cases hn
                      · rename_i s' b' hn
                        have hh : SOk glob s' ∧ s'.glob = i ∧ ∀ t ∈ b'.stack, SOk glob t := by
                          by_cases hc2 : b.stack ≠ [] ∧ 0 < i ∧ glob[i-1]? = some bRBrace
                          · rw [if_pos hc2] at hn
                            have h3 := pop_ok hn hs2 hb
                            refine ⟨h3.1, ?_, h3.2⟩
                            unfold pop at hn
                            split at hn
                            · cases hn
                            · simp at hn; rw [← hn.1]
                          · rw [if_neg hc2] at hn
                            simp at hn
                            obtain ⟨rfl, rfl⟩ := hn
                            exact ⟨hs2, rfl, hb⟩
                        refine ⟨⟨by simp [hh.2.1]; omega, hh.1.2.1, ?_⟩, hh.2.2⟩
                        simp only
                        split
                        · exact hh.1.2.2
                        · exact hh.1.2.2
                    · rw [if_neg hcond]; exact afterMismatch_ok _ _ _ _ _ _ hs2 hb
      · split
        · rename_i hc; exact hpop _ hc.2
        · split
          · rename_i hc; exact hcomma hc.2
          · exact afterMismatch_ok _ _ _ _ _ _ hs hb

theorem run_no_panic (glob path : List Nat) (p ng : Bool) (n : Nat) : ∀ s b,
    SOk glob s → (∀ t ∈ b.stack, SOk glob t) → run glob path p ng n s b ≠ .error .panic := by
  induction n with
  | zero => intro s b _ _; simp [run]
  | succ n ih =>
    intro s b hs hb
    rw [run]
    split
    · have hk := step_ok glob path p ng s b hs hb
      split
      · rename_i s' b' he
        rw [he] at hk
        exact ih _ _ hk.1 hk.2
      · simp
      · rename_i he
        rw [he] at hk
        exact hk.elim
    · have := hs.1
      rw [if_neg (by omega)]
      simp

theorem leadingBangs_le (glob : List Nat) : leadingBangs glob ≤ glob.length := by
  induction glob with
  | nil => simp [leadingBangs]
  | cons g gs ih => rw [leadingBangs]; split <;> simp <;> omega

/-! ### Termination without stars -/

/-- The matcher is not inside a star. -/
def WOk (s : State) : Prop := s.wild.p = 0

/-- A following state has a larger pattern index and is not inside a star. -/
def Adv (k : Nat) : Out → Prop
  | .cont s b => k < s.glob ∧ WOk s ∧ ∀ t ∈ b.stack, WOk t
  | _ => True

theorem pop_adv {b b' : Braces} {s s' : State} (h : pop b s = some (s', b'))
    (hb : ∀ t ∈ b.stack, WOk t) : s'.glob = s.glob ∧ WOk s' ∧ ∀ t ∈ b'.stack, WOk t := by
  unfold pop at h
  split at h
  · cases h
  · rename_i top rest he
    simp at h
    obtain ⟨rfl, rfl⟩ := h
    have h1 := hb top (by simp [he])
    exact ⟨rfl, h1, fun t ht => hb t (by simp [he, ht])⟩

theorem afterMismatch_adv (glob path : List Nat) (p ng : Bool) (s : State) (b : Braces) 
    (hs : WOk s) (hb : ∀ t ∈ b.stack, WOk t) : Adv s.glob (afterMismatch glob path p ng s b) := by
  unfold afterMismatch
  simp only
  rw [if_neg (by rw [WOk] at hs; omega)]
  split
  · trivial
  · rename_i top rest he
    have hk := skipBraces_bounds glob true (glob.length + 1) s.glob 1 false (by simp)
    split
    · trivial
    · rename_i i hi
      rw [hi] at hk
      have := hk (by simp)
      exact ⟨this.2.2 (by simp), hs, hb⟩
    · rename_i i hi
      rw [hi] at hk
      have hk := hk (by simp)
      split
      · split
        · trivial
        · rename_i hr
          have := pop_adv hr hb
          refine ⟨?_, this.2⟩
          rw [this.1]; exact hk.2.2 (by simp)
      · have ht := hb top (by simp [he])
        rw [if_neg (by rw [WOk] at ht; omega)]
        trivial

theorem Adv.mono {k l : Nat} {o : Out} (h : k ≤ l) : Adv l o → Adv k o := by
  cases o <;> simp only [Adv] <;> intro h2
  · exact ⟨by omega, h2.2⟩
  · trivial
  · trivial

theorem classLoop_le (glob : List Nat) (c : Nat) (n : Nat) : ∀ i first m r j,
    classLoop glob c n i first m = some (r, j) → i ≤ j := by
  induction n with
  | zero => intro i first m r j h; simp [classLoop] at h; omega
  | succ n ih =>
    intro i first m r j h
    rw [classLoop] at h
    split at h
    · simp at h; omega
    · rename_i g hg
      have hlt := lt_of_get hg
      split at h
      · simp at h; omega
      · split at h
        · cases h
        · rename_i low i' hu
          have hu := unescape_bounds hu hlt
          simp only at h
          split at h
          · cases h
          · rename_i high i2 hh
            have := ih _ _ _ _ _ h
            split at hh
            · rename_i hc
              split at hh
              · cases hh
              · rename_i hu2
                obtain ⟨v, hv⟩ := Option.isSome_iff_exists.mp hc.2.1
                have hu2 := unescape_bounds hu2 (lt_of_get hv)
                simp at hh; omega
            · simp at hh; omega

theorem step_adv (glob path : List Nat) (p ng : Bool) (s : State) (b : Braces) (hstar : bStar ∉ glob)
    (hs : WOk s) (hb : ∀ t ∈ b.stack, WOk t) : Adv s.glob (step glob path p ng s b) := by
  unfold step
  split
  · exact afterMismatch_adv _ _ _ _ _ _ hs hb
  · rename_i g hg
    have hlt := lt_of_get hg
    have hpop : ∀ L : Int, 
        Adv s.glob (match pop { b with longest := L } { s with glob := s.glob + 1 } with
          | none => .panic
          | some (s, b) => .cont s b) := by
      intro L
      split
      · trivial
      · rename_i hr
        have := pop_adv hr hb
        exact ⟨by rw [this.1]; simp, this.2⟩
    have hcomma : Adv s.glob (match b.stack with
        | [] => .panic
        | top :: _ =>
          .cont { s with path := top.path, glob := s.glob + 1, wild := {}, star := {} }
            { b with longest := max b.longest s.path }) := by
      split
      · trivial
      · exact ⟨by simp, rfl, hb⟩
    split
    · rename_i hst
      subst hst
      exact absurd (List.mem_of_getElem? hg) hstar
    · split
      · rename_i pc hpc
        split
        · split
          · exact ⟨by simp, hs, hb⟩
          · exact afterMismatch_adv _ _ _ _ _ _ hs hb
        · split
          · simp only
            split
            · trivial
            · split
              · trivial
              · rename_i i hcl hi
                have hcl := classLoop_le _ _ _ _ _ _ _ _ hcl
                have : s.glob < i + 1 := by
                  split at hcl <;> omega
                split
                · exact ⟨by simp; omega, hs, hb⟩
                · exact (afterMismatch_adv glob path p ng { s with glob := i + 1 } b hs hb).mono (by simp; omega)
          · split
            · split
              · trivial
              · refine ⟨by simp [push], by simp [push, WOk], ?_⟩
                intro t ht
                simp [push] at ht
                rcases ht with rfl | ht
                · exact hs
                · exact hb t ht
            · split
              · exact hpop _
              · split
                · exact hcomma
                · split
                  · trivial
                  · rename_i c i hu
                    have hu := unescape_bounds hu hlt
                    simp only
                    by_cases hcond : (if c = bSlash then pc = bSlash else pc = c)
                    · rw [if_pos hcond]
                      split
                      · trivial
                      · rename_i s' b' hn
                        have hh : s'.glob = i ∧ WOk s' ∧ ∀ t ∈ b'.stack, WOk t := by
                          by_cases hc2 : b.stack ≠ [] ∧ 0 < i ∧ glob[i-1]? = some bRBrace
                          · rw [if_pos hc2] at hn
                            exact pop_adv hn hb
                          · rw [if_neg hc2] at hn
                            simp at hn
                            obtain ⟨rfl, rfl⟩ := hn
                            exact ⟨rfl, hs, hb⟩
                        exact ⟨by simp [hh.1]; omega, hh.2.1, hh.2.2⟩
                    · rw [if_neg hcond]; exact (afterMismatch_adv glob path p ng { s with glob := i } b hs hb).mono (by simp; omega)
      · split
        · exact hpop _
        · split
          · exact hcomma
          · exact afterMismatch_adv _ _ _ _ _ _ hs hb

theorem run_terminates (glob path : List Nat) (p ng : Bool) (hstar : bStar ∉ glob) (n : Nat) : ∀ s b,
    SOk glob s → (∀ t ∈ b.stack, SOk glob t) → WOk s → (∀ t ∈ b.stack, WOk t) → glob.length < n + s.glob →
    ∃ r, run glob path p ng n s b = .ok r := by
  induction n with
  | zero => intro s b hs _ _ _ hn; have := hs.1; omega
  | succ n ih =>
    intro s b hs hb hws hwb hn
    have hk := step_ok glob path p ng s b hs hb
    have ha := step_adv glob path p ng s b hstar hws hwb
    have hnp := run_no_panic glob path p ng (n+1) s b hs hb
    rw [run] at hnp ⊢
    split
    · split
      · rename_i s' b' he
        rw [he] at hk ha
        exact ih _ _ hk.1 hk.2 ha.2.1 ha.2.2 (by have := ha.1; omega)
      · exact ⟨_, rfl⟩
      · rename_i he
        rw [he] at hk
        exact hk.elim
    · have := hs.1
      rw [if_neg (by omega)]
      exact ⟨_, rfl⟩

end Mitex.Glob
