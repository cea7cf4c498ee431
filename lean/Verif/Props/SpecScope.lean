/-
Property C79: the handlers of a package are in scope under the names that the converter writes.
-/
import Verif.Props.SpecJson

namespace Mitex
open SpecJson

namespace SpecScope

/-- The name under which the handler of a definition is found: its alias without a leading `#`, or the name of the command. -/
inductive FoundAs (key : Text) : Option Text → Text → Prop
  | hash (rest) : FoundAs key (some ('#' :: rest)) rest
  | alias (a) : a.head? ≠ some '#' → FoundAs key (some a) a
  | command : FoundAs key none key

/-- The definition offers the handler under the name. -/
def Offers {α : Type} (d : Text × Json × Option (ScopeItem α)) (n : Text) (h : α) : Prop :=
  ∃ it, d.2.2 = some it ∧ FoundAs d.1 it.alias n ∧ it.handle = h

theorem scopeKey_iff (key : Text) (a : Option Text) (n : Text) : scopeKey key a = n ↔ FoundAs key a n := by
  cases a with
  | none =>
    constructor
    · rintro rfl; exact .command
    · intro h; cases h; rfl
  | some a =>
    constructor
    · rintro rfl
      match a with
      | [] => exact .alias [] (by simp)
      | c :: r =>
        by_cases hc : c = '#'
        · subst hc; exact .hash r
        · have : scopeKey key (some (c :: r)) = c :: r := by
            unfold scopeKey
            dsimp only
            split
            · rename_i h; injection h with h; exact absurd h hc
            · rfl
          rw [this]
          exact .alias _ (by simpa using hc)
    · intro h
      cases h with
      | hash => rfl
      | alias _ h =>
        match n, h with
        | [], _ => rfl
        | c :: r, h =>
          have hc : c ≠ '#' := by simpa using h
          unfold scopeKey
          dsimp only
          split
          · rename_i h; injection h with h; exact absurd h hc
          · rfl

theorem dict_get {β : Type} (m : List (Text × β)) (k : Text) (v : β) (n : Text) :
    (dictInsert m k v).lookup n = if n = k then some v else m.lookup n := by
  induction m with
  | nil =>
    by_cases h : n = k
    · simp [dictInsert, h]
    · have : (n == k) = false := by simpa using h
      simp [dictInsert, h, List.lookup_cons, this]
  | cons e m ih =>
    obtain ⟨k', v'⟩ := e
    rw [dictInsert]
    by_cases hk : k' = k
    · subst hk
      rw [if_pos rfl, List.lookup_cons, List.lookup_cons]
      by_cases h : n = k'
      · simp [h]
      · have : (n == k') = false := by simpa using h
        simp [this, h]
    · rw [if_neg hk, List.lookup_cons, List.lookup_cons, ih]
      by_cases h : n = k'
      · subst h; simp [hk]
      · have : (n == k') = false := by simpa using h
        simp [this]

/-- The two dictionaries after the definitions, name by name. -/
theorem process_get {α : Type} (defs : List (Text × Json × Option (ScopeItem α))) :
    (∀ n, (processSpec defs).1.lookup n = lastOf n (defs.map fun d => (d.1, d.2.1))) ∧
    ∀ n, (processSpec defs).2.lookup n = lastOf n (defs.filterMap fun d => d.2.2.map fun it => (scopeKey d.1 it.alias, it.handle)) := by
  have gen : ∀ (defs : List (Text × Json × Option (ScopeItem α))) (acc : List (Text × Json) × List (Text × α)),
      (∀ n, (defs.foldl processStep acc).1.lookup n
        = (lastOf n (defs.map fun d => (d.1, d.2.1))).or (acc.1.lookup n)) ∧
      ∀ n, (defs.foldl processStep acc).2.lookup n
        = (lastOf n (defs.filterMap fun d => d.2.2.map fun it => (scopeKey d.1 it.alias, it.handle))).or (acc.2.lookup n) := by
    intro defs
    induction defs with
    | nil => intro acc; simp [lastOf]
    | cons d defs ih =>
      intro acc
      obtain ⟨k, j, s⟩ := d
      constructor
      · intro n
        rw [List.foldl_cons, (ih _).1, processStep, dict_get, List.map_cons, lastOf_cons, Option.or_assoc]
        congr 1
        by_cases h : n = k
        · simp [h]
        · have : ¬ k = n := fun h' => h h'.symm
          simp [h, this]
      · intro n
        rw [List.foldl_cons, (ih _).2, processStep]
        cases s with
        | none => simp
        | some it =>
          simp only [List.filterMap_cons, Option.map_some]
          rw [dict_get, lastOf_cons, Option.or_assoc]
          congr 1
          by_cases h : n = scopeKey k it.alias
          · simp [h]
          · have : ¬ scopeKey k it.alias = n := fun h' => h h'.symm
            simp [h, this]
  constructor
  · intro n; have := (gen defs ([], [])).1 n; simpa [processSpec] using this
  · intro n; have := (gen defs ([], [])).2 n; simpa [processSpec] using this

theorem lastOf_iff {α : Type} (n : Text) (l : List (Text × α)) (v : α) :
    lastOf n l = some v ↔ ∃ pre post, l = pre ++ (n, v) :: post ∧ ∀ e ∈ post, e.1 ≠ n := by
  induction l with
  | nil => simp [lastOf]
  | cons e l ih =>
    rw [lastOf_cons]
    cases hl : lastOf n l with
    | some w =>
      rw [hl] at ih
      refine Iff.trans ih ?_
      constructor
      · rintro ⟨pre, post, rfl, hp⟩
        exact ⟨e :: pre, post, rfl, hp⟩
      · rintro ⟨pre, post, heq, hp⟩
        cases pre with
        | nil =>
          injection heq with h1 h2
          subst h2
          rw [(lastOf_none _ _).mpr hp] at hl; cases hl
        | cons a pre =>
          injection heq with h1 h2
          exact ⟨pre, post, h2, hp⟩
    | none =>
      have hno := (lastOf_none _ _).mp hl
      constructor
      · intro h
        by_cases he : e.1 = n
        · simp only [if_pos he, Option.none_or] at h
          injection h with h
          exact ⟨[], l, by rw [← he, ← h]; rfl, hno⟩
        · simp [he] at h
      · rintro ⟨pre, post, heq, hp⟩
        cases pre with
        | nil => injection heq with h1 h2; simp [h1]
        | cons a pre =>
          injection heq with h1 h2
          exact absurd rfl (hno (n, v) (by rw [h2]; simp))

theorem filterMap_last {α β : Type} (f : α → Option (Text × β)) (l : List α) (n : Text) (v : β) :
    lastOf n (l.filterMap f) = some v ↔ ∃ pre d post, l = pre ++ d :: post ∧ f d = some (n, v) ∧ ∀ e ∈ post, ∀ w, f e ≠ some (n, w) := by
  have hnone : ∀ l : List α, lastOf n (l.filterMap f) = none ↔ ∀ e ∈ l, ∀ w, f e ≠ some (n, w) := by
    intro l
    rw [lastOf_none]
    constructor
    · intro h e he w hw
      exact h (n, w) (List.mem_filterMap.mpr ⟨e, he, hw⟩) rfl
    · rintro h ⟨k, w⟩ he rfl
      obtain ⟨a, ha, hw⟩ := List.mem_filterMap.mp he
      exact h a ha w hw
  induction l with
  | nil => simp [lastOf]
  | cons a l ih =>
    have hc : lastOf n ((a :: l).filterMap f) = (lastOf n (l.filterMap f)).or (match f a with
        | some e => if e.1 = n then some e.2 else none
        | none => none) := by
      rw [List.filterMap_cons]
      cases f a with
      | none => simp
      | some e => rw [lastOf_cons]
    rw [hc]
    cases hl : lastOf n (l.filterMap f) with
    | some w =>
      rw [hl] at ih
      refine Iff.trans ih ?_
      constructor
      · rintro ⟨pre, d, post, rfl, h1, h2⟩
        exact ⟨a :: pre, d, post, rfl, h1, h2⟩
      · rintro ⟨pre, d, post, heq, h1, h2⟩
        cases pre with
        | nil =>
          injection heq with h3 h4
          subst h4
          rw [(hnone _).mpr h2] at hl; cases hl
        | cons b pre =>
          injection heq with h3 h4
          exact ⟨pre, d, post, h4, h1, h2⟩
    | none =>
      have hno := (hnone l).mp hl
      constructor
      · intro h
        cases hf : f a with
        | none => rw [hf] at h; simp at h
        | some e =>
          rw [hf] at h
          by_cases he : e.1 = n
          · simp only [if_pos he, Option.none_or] at h
            injection h with h
            exact ⟨[], a, l, rfl, by rw [hf, ← he, ← h], hno⟩
          · simp [he] at h
      · rintro ⟨pre, d, post, heq, h1, h2⟩
        cases pre with
        | nil => injection heq with h3 h4; subst h3; rw [h1]; simp
        | cons b pre =>
          injection heq with h3 h4
          exact absurd h1 (hno d (by rw [h4]; simp) v)

end SpecScope

open SpecScope

/-- C79: `process-spec` keeps of each command its last definition, and puts into the scope, under each name, the handler last
offered under it: that of a definition with this alias (a leading `#` dropped) or, without alias, with this command name. -/
theorem C79_process {α : Type} (defs : List (Text × Json × Option (ScopeItem α))) :
    (∀ n j, (processSpec defs).1.lookup n = some j ↔ ∃ pre s post, defs = pre ++ (n, j, s) :: post ∧ ∀ d ∈ post, d.1 ≠ n) ∧
    ∀ n h, (processSpec defs).2.lookup n = some h ↔ ∃ pre d post, defs = pre ++ d :: post ∧ Offers d n h ∧ ∀ e ∈ post, ∀ h', ¬ Offers e n h' := by
  have hoff : ∀ (d : Text × Json × Option (ScopeItem α)) n h,
      (d.2.2.map fun it => (scopeKey d.1 it.alias, it.handle)) = some (n, h) ↔ Offers d n h := by
    intro d n h
    unfold Offers
    rw [Option.map_eq_some_iff]
    constructor
    · rintro ⟨it, h1, h2⟩
      injection h2 with h2 h3
      exact ⟨it, h1, (scopeKey_iff _ _ _).mp h2, h3⟩
    · rintro ⟨it, h1, h2, h3⟩
      exact ⟨it, h1, by rw [(scopeKey_iff _ _ _).mpr h2, h3]⟩
  constructor
  · intro n j
    rw [(process_get defs).1, lastOf_iff]
    constructor
    · rintro ⟨pre, post, heq, hp⟩
      obtain ⟨pre', rest, rfl, h1, h2⟩ := List.map_eq_append_iff.mp heq
      obtain ⟨d, post', rfl, h3, h4⟩ := List.map_eq_cons_iff.mp h2
      obtain ⟨k, j', s⟩ := d
      injection h3 with h3 h5
      dsimp only at h3 h5
      subst h3 h5
      exact ⟨pre', s, post', rfl, fun d hd => hp (d.1, d.2.1) (by rw [← h4]; exact List.mem_map_of_mem hd)⟩
    · rintro ⟨pre, s, post, rfl, hp⟩
      refine ⟨pre.map fun d => (d.1, d.2.1), post.map fun d => (d.1, d.2.1), by simp, ?_⟩
      intro e he
      obtain ⟨d, hd, rfl⟩ := List.mem_map.mp he
      exact hp d hd
  · intro n h
    rw [(process_get defs).2, filterMap_last]
    simp only [hoff, ne_eq]

/-- C79: the scope for `eval` holds, of each name, the entry of the last package that has it. -/
theorem C79_scope {α : Type} (scopes : List (List (Text × α))) (hd : ∀ s ∈ scopes, (s.map Prod.fst).Nodup) (n : Text) (h : α) :
    (mitexScope scopes).lookup n = some h ↔ ∃ pre s post, scopes = pre ++ s :: post ∧ (n, h) ∈ s ∧ ∀ s' ∈ post, ∀ e ∈ s', e.1 ≠ n := by
  have hin : ∀ (s acc : List (Text × α)), (s.foldl (fun acc e => dictInsert acc e.1 e.2) acc).lookup n = (lastOf n s).or (acc.lookup n) := by
    intro s
    induction s with
    | nil => intro acc; simp [lastOf]
    | cons e s ih =>
      intro acc
      rw [List.foldl_cons, ih, dict_get, lastOf_cons, Option.or_assoc]
      congr 1
      by_cases h : n = e.1
      · simp [h]
      · have : ¬ e.1 = n := fun h' => h h'.symm
        simp [h, this]
  have happ : ∀ (a b : List (Text × α)), lastOf n (a ++ b) = (lastOf n b).or (lastOf n a) := by
    intro a b
    induction a with
    | nil => simp [lastOf]
    | cons e a ih => rw [List.cons_append, lastOf_cons, ih, lastOf_cons, Option.or_assoc]
  have hall : ∀ (scopes : List (List (Text × α))) (acc : List (Text × α)),
      (scopes.foldl (fun acc s => s.foldl (fun acc e => dictInsert acc e.1 e.2) acc) acc).lookup n
        = (lastOf n scopes.flatten).or (acc.lookup n) := by
    intro scopes
    induction scopes with
    | nil => intro acc; simp [lastOf]
    | cons s scopes ih => intro acc; rw [List.foldl_cons, ih, hin, List.flatten_cons, happ, Option.or_assoc]
  unfold mitexScope
  rw [hall, List.lookup_nil, Option.or_none]
  have hmem : ∀ s : List (Text × α), (s.map Prod.fst).Nodup → (lastOf n s = some h ↔ (n, h) ∈ s) := by
    intro s hs
    rw [lastOf_iff]
    constructor
    · rintro ⟨pre, post, rfl, _⟩; simp
    · intro hm
      obtain ⟨pre, post, rfl⟩ := List.append_of_mem hm
      refine ⟨pre, post, rfl, ?_⟩
      intro e he hc
      rw [List.map_append, List.map_cons, List.nodup_append] at hs
      exact (List.nodup_cons.mp hs.2.1).1 (List.mem_map.mpr ⟨e, he, hc⟩)
  have hno : ∀ scopes : List (List (Text × α)), lastOf n scopes.flatten = none ↔ ∀ s ∈ scopes, ∀ e ∈ s, e.1 ≠ n := by
    intro scopes
    rw [lastOf_none]
    constructor
    · intro h s hs e he; exact h e (List.mem_flatten.mpr ⟨s, hs, he⟩)
    · intro h e he
      obtain ⟨s, hs, he⟩ := List.mem_flatten.mp he
      exact h s hs e he
  induction scopes with
  | nil => simp [lastOf]
  | cons s scopes ih =>
    rw [List.flatten_cons, happ]
    have ih := ih fun s hs => hd s (by simp [hs])
    cases hl : lastOf n scopes.flatten with
    | some w =>
      rw [hl] at ih
      refine Iff.trans ih ?_
      constructor
      · rintro ⟨pre, t, post, rfl, h1, h2⟩; exact ⟨s :: pre, t, post, rfl, h1, h2⟩
      · rintro ⟨pre, t, post, heq, h1, h2⟩
        cases pre with
        | nil =>
          injection heq with h3 h4; subst h4
          rw [(hno _).mpr h2] at hl; cases hl
        | cons b pre => injection heq with h3 h4; exact ⟨pre, t, post, h4, h1, h2⟩
    | none =>
      rw [Option.none_or, hmem s (hd s (by simp))]
      constructor
      · intro hm; exact ⟨[], s, scopes, rfl, hm, (hno _).mp hl⟩
      · rintro ⟨pre, t, post, heq, h1, h2⟩
        cases pre with
        | nil => injection heq with h3 h4; subst h3; exact h1
        | cons b pre =>
          injection heq with h3 h4
          exact absurd rfl ((hno _).mp hl t (by rw [h4]; simp) _ h1)

/-- Satisfiability: two commands sharing an alias, one without alias. -/
theorem C79_example :
    let defs : List (Text × Json × Option (ScopeItem Nat)) :=
      [(t!"over", defineInfixCmd t!"frac", some ⟨some t!"frac", 1⟩), (t!"cite", defineCmd 1 (some t!"#mitexcite"), some ⟨some t!"#mitexcite", 2⟩),
       (t!"alpha", sym, none), (t!"negthinspace", sym, some ⟨none, 3⟩), (t!"atop", defineInfixCmd t!"frac", some ⟨some t!"frac", 4⟩)]
    (processSpec defs).2 = [(t!"frac", 4), (t!"mitexcite", 2), (t!"negthinspace", 3)] := by
  decide

end Mitex
