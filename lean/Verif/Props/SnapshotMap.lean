/-
Properties C22, C23: the scoped macro table (crates/mitex-lexer/src/snapshot_map.rs).
-/
import Verif.Model.SnapshotMap
import Verif.Spec.ScopedMap

namespace Mitex
open ScopedMap (Op Out Nested)

section
variable {K V : Type} [DecidableEq K]

/-- A user of the API: the table and the tokens of the open snapshots, innermost first. -/
structure Client (K V : Type) where
  tbl : SnapMap K V
  toks : List Snapshot

/-- One API call of the client.  `commit`/`rollback_to` consume the innermost token; without an open
snapshot there is no token to call them with, and nothing happens.  After `clear` no snapshot is open: the client
drops its tokens. -/
def Client.step : Op K V → Client K V → Res (Out V × Client K V)
  | .insert k v, c => let r := c.tbl.insert k v; .ok (.flag r.1, { c with tbl := r.2 })
  | .remove k, c => let r := c.tbl.remove k; .ok (.flag r.1, { c with tbl := r.2 })
  | .get k, c => .ok (.value (c.tbl.get k), c)
  | .snapshot, c => let r := c.tbl.snapshot; .ok (.unit, ⟨r.2, r.1 :: c.toks⟩)
  | .commit, c => match c.toks with
    | [] => .ok (.unit, c)
    | t :: ts => match c.tbl.commit t with
      | .ok m => .ok (.unit, ⟨m, ts⟩)
      | .error e => .error e
  | .rollback, c => match c.toks with
    | [] => .ok (.unit, c)
    | t :: ts => match c.tbl.rollbackTo t with
      | .ok m => .ok (.unit, ⟨m, ts⟩)
      | .error e => .error e
  | .clear, c => .ok (.unit, ⟨c.tbl.clear, []⟩)

/-- A history of API calls. -/
def Client.run : List (Op K V) → Client K V → Res (List (Out V) × Client K V)
  | [], c => .ok ([], c)
  | o :: os, c => match c.step o with
    | .error e => .error e
    | .ok (r, c) => match Client.run os c with
      | .error e => .error e
      | .ok (rs, c) => .ok (r :: rs, c)

/-- The fresh table. -/
def Client.init : Client K V := ⟨SnapMap.empty, []⟩

/-- Tokens and saved copies agree: unwinding to a token restores the copy. -/
def SavedOk (m : K → Option V) (log : List (Undo K V)) :
    List Snapshot → List (K → Option V) → Prop
  | [], [] => True
  | t :: ts, s :: ss => t ≤ log.length ∧ (∀ u ∈ ts, u ≤ t) ∧ (SnapMap.unwind t m log).1 = s
      ∧ SavedOk m log ts ss ∧ (ts = [] → t = 0)
  | _, _ => False

/-- The refinement relation. -/
def Refines (c : Client K V) (s : ScopedMap.State K V) : Prop :=
  c.tbl.map = s.cur ∧ c.tbl.opened = c.toks.length ∧ (c.toks = [] → c.tbl.log = [])
    ∧ SavedOk c.tbl.map c.tbl.log c.toks s.saved

theorem unwind_push (n : Nat) (m m' : K → Option V) (u : Undo K V) (log : List (Undo K V))
    (hn : n ≤ log.length) (hu : SnapMap.reverse m' u = m) :
    SnapMap.unwind n m' (u :: log) = SnapMap.unwind n m log := by
  rw [SnapMap.unwind, if_pos (by simp; omega), hu]

theorem unwind_self (m : K → Option V) (log : List (Undo K V)) :
    SnapMap.unwind log.length m log = (m, log) := by
  cases log with
  | nil => rfl
  | cons u us => rw [SnapMap.unwind, if_neg (by omega)]

theorem unwind_length (n : Nat) (m : K → Option V) (log : List (Undo K V)) (h : n ≤ log.length) :
    (SnapMap.unwind n m log).2.length = n := by
  induction log generalizing m with
  | nil => simp at h; simp [SnapMap.unwind, h]
  | cons u us ih =>
    rw [SnapMap.unwind]
    split
    · rename_i hlt
      exact ih _ (by simp at hlt; omega)
    · rename_i hlt
      simp at h hlt ⊢; omega

theorem unwind_unwind (n k : Nat) (m : K → Option V) (log : List (Undo K V)) (h : k ≤ n)
    (hn : n ≤ log.length) :
    SnapMap.unwind k (SnapMap.unwind n m log).1 (SnapMap.unwind n m log).2 = SnapMap.unwind k m log := by
  induction log generalizing m with
  | nil => rfl
  | cons u us ih =>
    by_cases hlt : n < (u :: us).length
    · have e1 : SnapMap.unwind n m (u :: us) = SnapMap.unwind n (SnapMap.reverse m u) us := by
        rw [SnapMap.unwind, if_pos hlt]
      have e2 : SnapMap.unwind k m (u :: us) = SnapMap.unwind k (SnapMap.reverse m u) us := by
        rw [SnapMap.unwind, if_pos (by omega)]
      rw [e1, e2]
      exact ih _ (by simp at hlt; omega)
    · have e1 : SnapMap.unwind n m (u :: us) = (m, u :: us) := by rw [SnapMap.unwind, if_neg hlt]
      rw [e1]

theorem savedOk_push (m m' : K → Option V) (u : Undo K V) (log : List (Undo K V))
    (hu : SnapMap.reverse m' u = m) (ts : List Snapshot) (ss : List (K → Option V))
    (h : SavedOk m log ts ss) : SavedOk m' (u :: log) ts ss := by
  induction ts generalizing ss with
  | nil => cases ss <;> simp_all [SavedOk]
  | cons t ts ih =>
    cases ss with
    | nil => simp [SavedOk] at h
    | cons s ss =>
      obtain ⟨h1, h2, h3, h4, h5⟩ := h
      refine ⟨Nat.le_succ_of_le h1, h2, ?_, ih ss h4, h5⟩
      rw [unwind_push t m m' u log h1 hu]; exact h3

theorem savedOk_unwind (m : K → Option V) (log : List (Undo K V)) (n : Nat) (hn : n ≤ log.length)
    (ts : List Snapshot) (ss : List (K → Option V)) (hts : ∀ u ∈ ts, u ≤ n)
    (h : SavedOk m log ts ss) :
    SavedOk (SnapMap.unwind n m log).1 (SnapMap.unwind n m log).2 ts ss := by
  induction ts generalizing ss with
  | nil => cases ss <;> simp_all [SavedOk]
  | cons t ts ih =>
    cases ss with
    | nil => simp [SavedOk] at h
    | cons s ss =>
      obtain ⟨h1, h2, h3, h4, h5⟩ := h
      have ht : t ≤ n := hts t List.mem_cons_self
      refine ⟨by rw [unwind_length n m log hn]; exact ht, h2, ?_,
        ih ss (fun u hu => hts u (List.mem_cons_of_mem _ hu)) h4, h5⟩
      rw [unwind_unwind n t m log ht hn]
      exact h3

theorem upd_upd_cancel (m : K → Option V) (k : K) (v w : Option V) (h : m k = w) :
    SnapMap.upd (SnapMap.upd m k v) k w = m := by
  funext x
  unfold SnapMap.upd
  by_cases hx : x = k
  · subst hx; simp [h]
  · simp [hx]

/-- Simulation of one operation. -/
theorem refines_step (o : Op K V) (c : Client K V) (s : ScopedMap.State K V) (h : Refines c s) :
    ∃ c', c.step o = .ok ((ScopedMap.step o s).1, c') ∧ Refines c' (ScopedMap.step o s).2 := by
  obtain ⟨⟨m, log, opened⟩, toks⟩ := c
  obtain ⟨cur, saved⟩ := s
  obtain ⟨h1, h2, h3, h4⟩ := h
  simp only at h1 h2 h3 h4
  subst h1
  -- a write that records undo entry `u`
  have hwrite : ∀ (m' : K → Option V) (u : Undo K V), SnapMap.reverse m' u = m →
      Refines ⟨SnapMap.push u ⟨m', log, opened⟩, toks⟩ ⟨m', saved⟩ := by
    intro m' u hu
    unfold SnapMap.push
    simp only
    split
    · rename_i ho
      refine ⟨rfl, h2, ?_, savedOk_push m m' u log hu toks saved h4⟩
      intro ht; simp only at ht; subst ht; simp at h2; omega
    · rename_i ho
      have hnil : toks = [] := by
        cases toks with
        | nil => rfl
        | cons t ts => simp at h2; omega
      subst hnil
      cases saved with
      | nil => exact ⟨rfl, h2, h3, trivial⟩
      | cons _ _ => simp [SavedOk] at h4
  cases o with
  | insert k v =>
    simp only [Client.step, SnapMap.insert, ScopedMap.step]
    cases hk : m k with
    | none =>
      refine ⟨_, rfl, hwrite _ _ ?_⟩
      exact upd_upd_cancel m k (some v) none hk
    | some old =>
      refine ⟨_, rfl, hwrite _ _ ?_⟩
      exact upd_upd_cancel m k (some v) (some old) hk
  | remove k =>
    simp only [Client.step, SnapMap.remove, ScopedMap.step]
    cases hk : m k with
    | none =>
      refine ⟨_, rfl, ?_⟩
      have : ScopedMap.set m k none = m := by
        funext x; unfold ScopedMap.set
        by_cases hx : x = k
        · subst hx; simp [hk]
        · simp [hx]
      rw [this]
      exact ⟨rfl, h2, h3, h4⟩
    | some old =>
      refine ⟨_, rfl, hwrite _ _ ?_⟩
      exact upd_upd_cancel m k none (some old) hk
  | get k => exact ⟨_, rfl, rfl, h2, h3, h4⟩
  | snapshot =>
    refine ⟨_, rfl, rfl, by simp [SnapMap.snapshot, h2], by simp, ?_⟩
    simp only [SnapMap.snapshot, ScopedMap.step]
    refine ⟨Nat.le_refl _, ?_, ?_, h4, ?_⟩
    · -- tokens are at most the log length
      clear h2 h3 hwrite
      induction toks generalizing saved with
      | nil => simp
      | cons t ts ih =>
        cases saved with
        | nil => simp [SavedOk] at h4
        | cons a ss =>
          obtain ⟨q1, q2, q3, q4, q5⟩ := h4
          intro u hu
          rcases List.mem_cons.mp hu with rfl | hu
          · exact q1
          · exact ih ss q4 u hu
    · show (SnapMap.unwind log.length m log).1 = m
      rw [unwind_self]
    · intro ht; rw [h3 ht]; rfl
  | commit =>
    cases toks with
    | nil =>
      cases saved with
      | nil => exact ⟨_, rfl, rfl, h2, h3, h4⟩
      | cons _ _ => simp [SavedOk] at h4
    | cons t ts =>
      cases saved with
      | nil => simp [SavedOk] at h4
      | cons a ss =>
        obtain ⟨q1, q2, q3, q4, q5⟩ := h4
        simp only [Client.step, SnapMap.commit, ScopedMap.step]
        have ho : 0 < opened := by rw [h2]; simp
        rw [if_pos ⟨q1, ho⟩]
        by_cases h1 : opened = 1
        · have hts : ts = [] := by
            rw [h2] at h1; simpa using h1
          have ht := q5 hts
          rw [if_pos h1, if_pos ht]
          refine ⟨_, rfl, rfl, by simp [hts], by simp, ?_⟩
          subst hts
          cases ss with
          | nil => trivial
          | cons _ _ => simp [SavedOk] at q4
        · rw [if_neg h1]
          refine ⟨_, rfl, rfl, by simp [h2], ?_, q4⟩
          intro hts
          simp only at hts
          subst hts; simp at h2; exact absurd h2 h1
  | rollback =>
    cases toks with
    | nil =>
      cases saved with
      | nil => exact ⟨_, rfl, rfl, h2, h3, h4⟩
      | cons _ _ => simp [SavedOk] at h4
    | cons t ts =>
      cases saved with
      | nil => simp [SavedOk] at h4
      | cons a ss =>
        obtain ⟨q1, q2, q3, q4, q5⟩ := h4
        simp only [Client.step, SnapMap.rollbackTo, ScopedMap.step]
        have ho : 0 < opened := by rw [h2]; simp
        rw [if_pos ⟨q1, ho⟩]
        refine ⟨_, rfl, q3, by simp [h2], ?_, ?_⟩
        · intro hts
          have : (SnapMap.unwind t m log).2.length = 0 := by
            rw [unwind_length t m log q1]; exact q5 hts
          exact List.eq_nil_of_length_eq_zero this
        · exact savedOk_unwind m log t q1 ts ss q2 q4
  | clear => exact ⟨_, rfl, rfl, rfl, fun _ => rfl, trivial⟩

theorem refines_init : Refines (Client.init : Client K V) ⟨fun _ => none, []⟩ :=
  ⟨rfl, rfl, fun _ => rfl, trivial⟩

theorem refines_run (os : List (Op K V)) (c : Client K V) (s : ScopedMap.State K V)
    (h : Refines c s) :
    ∃ c', Client.run os c = .ok ((ScopedMap.run os s).1, c') ∧ Refines c' (ScopedMap.run os s).2 := by
  induction os generalizing c s with
  | nil => exact ⟨c, rfl, h⟩
  | cons o os ih =>
    obtain ⟨c1, e1, r1⟩ := refines_step o c s h
    obtain ⟨c2, e2, r2⟩ := ih c1 _ r1
    refine ⟨c2, ?_, r2⟩
    rw [Client.run, e1]
    simp only [e2]
    rfl

/-! ### Facts about the specification machine -/

theorem spec_run_append (a b : List (Op K V)) (s : ScopedMap.State K V) :
    (ScopedMap.run (a ++ b) s).2 = (ScopedMap.run b (ScopedMap.run a s).2).2 := by
  induction a generalizing s with
  | nil => rfl
  | cons o os ih => exact ih _

/-- A nested history leaves the saved copies below it alone. -/
theorem spec_nested (h : List (Op K V)) : ∀ (m : K → Option V) (pre base : List (K → Option V)),
    Nested pre.length h →
    (ScopedMap.run h ⟨m, pre ++ base⟩).2.saved = base := by
  induction h with
  | nil =>
    intro m pre base hn
    have : pre = [] := List.eq_nil_of_length_eq_zero hn
    subst this; rfl
  | cons o os ih =>
    intro m pre base hn
    cases o with
    | insert k v => exact ih _ pre base hn
    | remove k => exact ih _ pre base hn
    | get k => exact ih _ pre base hn
    | snapshot => exact ih m (m :: pre) base hn
    | commit =>
      obtain ⟨hpos, hn⟩ := hn
      cases pre with
      | nil => simp at hpos
      | cons p pre => exact ih m pre base hn
    | rollback =>
      obtain ⟨hpos, hn⟩ := hn
      cases pre with
      | nil => simp at hpos
      | cons p pre => exact ih p pre base hn
    | clear => exact absurd hn (by simp [Nested])

/-! ### C22 Scope rollback is exact -/

/-- C22: after any history `h₀`, taking a snapshot, running any properly nested history `h` and rolling
back never panics and leaves every binding as it was when the snapshot was taken. -/
theorem C22_rollback_exact (h₀ h : List (Op K V)) (hn : Nested 0 h) :
    ∃ outs outs' c c', Client.run h₀ Client.init = .ok (outs, c) ∧
      Client.run (h₀ ++ [.snapshot] ++ h ++ [.rollback]) Client.init = .ok (outs', c') ∧
      ∀ k, c'.tbl.get k = c.tbl.get k := by
  obtain ⟨c, e, r⟩ := refines_run h₀ Client.init _ (refines_init (K := K) (V := V))
  obtain ⟨c', e', r'⟩ := refines_run (h₀ ++ [.snapshot] ++ h ++ [.rollback]) Client.init _
    (refines_init (K := K) (V := V))
  refine ⟨_, _, c, c', e, e', ?_⟩
  intro k
  show c'.tbl.map k = c.tbl.map k
  rw [r'.1, r.1, spec_run_append, spec_run_append, spec_run_append]
  generalize (ScopedMap.run h₀ ⟨fun _ => none, []⟩).2 = st
  obtain ⟨m, sv⟩ := st
  have hsaved := spec_nested h m [] (m :: sv) hn
  have key : ∀ st' : ScopedMap.State K V, st'.saved = m :: sv →
      (ScopedMap.run [.rollback] st').2.cur = m := by
    rintro ⟨m', sv'⟩ hs
    simp only at hs
    subst hs
    rfl
  exact congrFun (key _ hsaved) k

/-- C22: the scoped table refines the specification "map with saved copies": all reported results
and all bindings agree, for every history, and no call panics. -/
theorem C22_refinement (h : List (Op K V)) :
    ∃ c, Client.run h Client.init = .ok ((ScopedMap.run h ⟨fun _ => none, []⟩).1, c) ∧
      ∀ k, c.tbl.get k = (ScopedMap.run h ⟨fun _ => none, []⟩).2.cur k := by
  obtain ⟨c, e, r⟩ := refines_run h Client.init _ (refines_init (K := K) (V := V))
  exact ⟨c, e, fun k => by show c.tbl.map k = _; rw [r.1]⟩

/-! ### C23 The scoped table is a map -/

/-- C23: after a history without rollbacks and clears, `get k` returns the value of the last insertion of `k`,
provided it was not removed afterwards, and nothing if `k` was never inserted or removed last. -/
theorem C23_get_last (h : List (Op K V)) (hr : ∀ o ∈ h, o ≠ .rollback ∧ o ≠ .clear) (k : K) :
    ∃ outs c, Client.run h Client.init = .ok (outs, c) ∧
      (∀ v, c.tbl.get k = some v ↔ ∃ pre post, h = pre ++ .insert k v :: post ∧
        ∀ o ∈ post, (∀ w, o ≠ .insert k w) ∧ o ≠ .remove k) := by
  obtain ⟨c, e, hc⟩ := C22_refinement h
  refine ⟨_, c, e, ?_⟩
  intro v
  rw [hc k]
  -- generalise over the start state
  have gen : ∀ (h : List (Op K V)) (s : ScopedMap.State K V), (∀ o ∈ h, o ≠ .rollback ∧ o ≠ .clear) →
      ((ScopedMap.run h s).2.cur k = some v ↔
        (∃ pre post, h = pre ++ .insert k v :: post ∧
          ∀ o ∈ post, (∀ w, o ≠ .insert k w) ∧ o ≠ .remove k) ∨
        (s.cur k = some v ∧ ∀ o ∈ h, (∀ w, o ≠ .insert k w) ∧ o ≠ .remove k)) := by
    intro h
    induction h with
    | nil => intro s _; simp [ScopedMap.run]
    | cons o os ih =>
      intro s hr
      have hro := hr o List.mem_cons_self
      have ih := ih (ScopedMap.step o s).2 (fun o ho => hr o (List.mem_cons_of_mem _ ho))
      show (ScopedMap.run os (ScopedMap.step o s).2).2.cur k = some v ↔ _
      rw [ih]
      -- is `o` a write to `k`?
      by_cases hw : (∀ w, o ≠ .insert k w) ∧ o ≠ .remove k
      · have hsame : (ScopedMap.step o s).2.cur k = s.cur k := by
          cases o with
          | insert k' w =>
            have : k ≠ k' := by rintro rfl; exact hw.1 w rfl
            simp [ScopedMap.step, ScopedMap.set, this]
          | remove k' =>
            have : k ≠ k' := by rintro rfl; exact hw.2 rfl
            simp [ScopedMap.step, ScopedMap.set, this]
          | get _ => rfl
          | snapshot => rfl
          | commit => rfl
          | rollback => exact absurd rfl hro.1
          | clear => exact absurd rfl hro.2
        rw [hsame]
        constructor
        · rintro (⟨pre, post, rfl, hp⟩ | ⟨h1, h2⟩)
          · exact .inl ⟨o :: pre, post, rfl, hp⟩
          · refine .inr ⟨h1, ?_⟩
            intro o' ho'
            rcases List.mem_cons.mp ho' with rfl | ho'
            · exact hw
            · exact h2 o' ho'
        · rintro (⟨pre, post, heq, hp⟩ | ⟨h1, h2⟩)
          · cases pre with
            | nil => injection heq with h3 h4; exact absurd h3 (hw.1 v)
            | cons p pre => injection heq with h3 h4; exact .inl ⟨pre, post, h4, hp⟩
          · exact .inr ⟨h1, fun o' ho' => h2 o' (List.mem_cons_of_mem _ ho')⟩
      · constructor
        · rintro (⟨pre, post, rfl, hp⟩ | ⟨h1, h2⟩)
          · exact .inl ⟨o :: pre, post, rfl, hp⟩
          · cases o with
            | insert k' w =>
              have hk : k' = k := by
                apply Classical.byContradiction
                intro hne
                exact hw ⟨fun w' hc => by injection hc with hc1 hc2; exact hne hc1, fun hc => by cases hc⟩
              subst hk
              simp [ScopedMap.step, ScopedMap.set] at h1
              subst h1
              exact .inl ⟨[], os, rfl, h2⟩
            | remove k' =>
              have hk : k' = k := by
                apply Classical.byContradiction
                intro hne
                exact hw ⟨fun w' hc => (by cases hc), fun hc => (by injection hc with hc1; exact hne hc1)⟩
              subst hk
              simp [ScopedMap.step, ScopedMap.set] at h1
            | get _ => exact absurd ⟨fun w hc => (by cases hc), fun hc => (by cases hc)⟩ hw
            | snapshot => exact absurd ⟨fun w hc => (by cases hc), fun hc => (by cases hc)⟩ hw
            | commit => exact absurd ⟨fun w hc => (by cases hc), fun hc => (by cases hc)⟩ hw
            | rollback => exact absurd rfl hro.1
            | clear => exact absurd rfl hro.2
        · rintro (⟨pre, post, heq, hp⟩ | ⟨h1, h2⟩)
          · cases pre with
            | nil =>
              injection heq with h3 h4
              subst h3 h4
              exact .inr ⟨by simp [ScopedMap.step, ScopedMap.set], hp⟩
            | cons p pre => injection heq with h3 h4; exact .inl ⟨pre, post, h4, hp⟩
          · exact absurd (h2 o List.mem_cons_self) hw
  have := gen h ⟨fun _ => none, []⟩ hr
  rw [this]
  simp

/-- C23: after `clear` the table behaves as a new one, whatever happened before, and a snapshot taken before
the `clear` cannot be committed or rolled back any more: the call panics and changes nothing. -/
theorem C23_clear (h₀ h : List (Op K V)) :
    ∃ outs outs' outs₁ c c' c₁, Client.run h₀ Client.init = .ok (outs, c) ∧
      Client.run h Client.init = .ok (outs', c') ∧
      Client.run (h₀ ++ .clear :: h) Client.init = .ok (outs ++ outs₁, c₁) ∧ outs₁ = .unit :: outs' ∧
      (∀ k, c₁.tbl.get k = c'.tbl.get k) ∧
      ∀ t ∈ c.toks, c.tbl.clear.commit t = .error .panic ∧ c.tbl.clear.rollbackTo t = .error .panic := by
  obtain ⟨c, e, r⟩ := refines_run h₀ Client.init _ (refines_init (K := K) (V := V))
  obtain ⟨c', e', r'⟩ := refines_run h Client.init _ (refines_init (K := K) (V := V))
  obtain ⟨c₁, e₁, r₁⟩ := refines_run (h₀ ++ .clear :: h) Client.init _ (refines_init (K := K) (V := V))
  have ho : ∀ (a b : List (Op K V)) (s : ScopedMap.State K V),
      (ScopedMap.run (a ++ b) s).1 = (ScopedMap.run a s).1 ++ (ScopedMap.run b (ScopedMap.run a s).2).1 := by
    intro a b
    induction a with
    | nil => intro s; rfl
    | cons o os ih => intro s; exact congrArg (List.cons _) (ih _)
  refine ⟨_, _, _, c, c', c₁, e, e', ?_, rfl, ?_, ?_⟩
  · rw [e₁, ho]; rfl
  · intro k
    show c₁.tbl.map k = c'.tbl.map k
    rw [r₁.1, r'.1, spec_run_append]
    rfl
  · intro t _
    simp [SnapMap.clear, SnapMap.commit, SnapMap.rollbackTo]

/-- C23: `insert` reports whether the key was new, `remove` whether it was present; the other keys
keep their values. -/
theorem C23_insert_remove (s : SnapMap K V) (k : K) (v : V) :
    (s.insert k v).1 = (s.get k).isNone ∧ (s.remove k).1 = (s.get k).isSome ∧
    (s.insert k v).2.get k = some v ∧ (s.remove k).2.get k = none ∧
    (∀ x, x ≠ k → (s.insert k v).2.get x = s.get x ∧ (s.remove k).2.get x = s.get x) := by
  unfold SnapMap.insert SnapMap.remove SnapMap.get
  have hp : ∀ (u : Undo K V) (t : SnapMap K V), (SnapMap.push u t).map = t.map := by
    intro u t; unfold SnapMap.push; split <;> rfl
  cases hk : s.map k with
  | none =>
    refine ⟨rfl, rfl, ?_, ?_, fun x hx => ⟨?_, ?_⟩⟩ <;> simp_all [SnapMap.upd]
  | some old =>
    refine ⟨rfl, rfl, ?_, ?_, fun x hx => ⟨?_, ?_⟩⟩ <;> simp_all [SnapMap.upd]

omit [DecidableEq K] in
/-- C23: snapshot and commit never change any binding. -/
theorem C23_commit_unobservable (s s' : SnapMap K V) (n : Snapshot) (k : K) :
    s.snapshot.2.get k = s.get k ∧ (s.commit n = .ok s' → s'.get k = s.get k) := by
  refine ⟨rfl, ?_⟩
  unfold SnapMap.commit
  split
  · split
    · split
      · intro h; injection h with h; subst h; rfl
      · intro h; cases h
    · intro h; injection h with h; subst h; rfl
  · intro h; cases h

end

/-- A nested history with an inner rollback and an inner commit. -/
example : Nested 0 ([.insert 1 2, .snapshot, .remove 1, .rollback, .snapshot, .insert 3 4, .commit] :
    List (Op Nat Nat)) := by simp [Nested]

end Mitex
