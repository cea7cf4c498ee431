/-
Properties C50-C52: specifications (crates/mitex-spec).
-/
import Verif.Model.SpecQuery
import Verif.Model.StandardSpec

namespace Mitex

/-! ### Lemmas about maps -/

theorem HMap.get_insert {α : Type} (m : HMap α) (k : Text) (v : α) (n : Text) :
    (m.insert k v).get n = if n = k then some v else m.get n := by
  unfold HMap.insert HMap.get
  by_cases h : n = k
  · subst h; simp
  · have hb : (n == k) = false := by simpa using h
    simp only [List.lookup_cons, hb, if_neg h]
    induction m with
    | nil => rfl
    | cons e m ih =>
      by_cases he : e.1 = k
      · have : (n == e.1) = false := by rw [he]; exact hb
        rw [List.filter_cons_of_neg (by simp [he]), ih, List.lookup_cons, this]
      · rw [List.filter_cons_of_pos (by simp [he]), List.lookup_cons, List.lookup_cons, ih]

/-- The last value paired with `n` in a list of pairs. -/
def lastOf {α : Type} (n : Text) : List (Text × α) → Option α
  | [] => none
  | e :: es => match lastOf n es with
    | some v => some v
    | none => if e.1 = n then some e.2 else none

theorem lastOf_cons {α : Type} (n : Text) (e : Text × α) (es : List (Text × α)) :
    lastOf n (e :: es) = (lastOf n es).or (if e.1 = n then some e.2 else none) := by
  rw [lastOf]; cases lastOf n es <;> rfl

theorem foldl_insert_get {α : Type} (es : List (Text × α)) (m : HMap α) (n : Text) :
    HMap.get (es.foldl (fun acc e => HMap.insert acc e.1 e.2) m) n = (lastOf n es).or (m.get n) := by
  induction es generalizing m with
  | nil => simp [lastOf]
  | cons e es ih =>
    rw [List.foldl_cons, ih, HMap.get_insert]
    have hd := lastOf_cons n e es
    rw [hd]
    cases lastOf n es with
    | some v => rfl
    | none =>
      by_cases h : n = e.1
      · simp [h]
      · have : ¬ e.1 = n := fun h' => h h'.symm
        simp [h, this]

/-- Insertion never duplicates a key. -/
theorem HMap.insert_nodup {α : Type} (m : HMap α) (k : Text) (v : α) (h : (m.map Prod.fst).Nodup) :
    ((m.insert k v).map Prod.fst).Nodup := by
  unfold HMap.insert
  rw [List.map_cons, List.nodup_cons]
  constructor
  · simp
  · exact (List.filter_sublist.map _).nodup h

/-! ### C50 Sugared specs canonicalise -/

/-- The meaning of each sugar, spelled out (documentation of crates/mitex-spec/src/query.rs:27-98). -/
inductive SugarMeans : SugarItem → SpecItem → Prop
  | cmd (s) : SugarMeans (.cmd s) (.cmd s)
  | env (s) : SugarMeans (.env s) (.env s)
  | sym : SugarMeans .symbol (.cmd { args := .right .none, alias := none })
  | cmd0 : SugarMeans .command0 (.cmd { args := .right (.fixedLen 0), alias := none })
  | cmd1 : SugarMeans .command1 (.cmd { args := .right (.fixedLen 1), alias := none })
  | cmd2 : SugarMeans .command2 (.cmd { args := .right (.fixedLen 2), alias := none })
  | left1 : SugarMeans .cmdLeft1 (.cmd { args := .left1, alias := none })
  | matrixEnv : SugarMeans .envMatrix (.env { args := .none, ctx := .isMatrix, alias := none })
  | normalEnv : SugarMeans .envNormal (.env { args := .none, ctx := .none, alias := none })
  | globEnv (p a c) :
      SugarMeans (.envGlob p a c) (.env { args := .glob p, ctx := c, alias := some a })
  | aliasSym (a) : SugarMeans (.symAlias a) (.cmd { args := .right .none, alias := some a })
  | greedy (a) : SugarMeans (.cmdGreedy a) (.cmd { args := .right .greedy, alias := some a })
  | infixCmd (a) : SugarMeans (.cmdInfix a) (.cmd { args := .infixGreedy, alias := some a })
  | globCmd (p a) : SugarMeans (.cmdGlob p a) (.cmd { args := .right (.glob p), alias := some a })

/-- C50: an item means its canonical form and nothing else. -/
theorem C50_item (s : SugarItem) (c : SpecItem) : s.canon = c ↔ SugarMeans s c := by
  constructor
  · rintro rfl
    cases s <;> constructor
  · rintro (_|_) <;> rfl

theorem lookup_eq_lastOf {α : Type} (m : HMap α) (n : Text) (h : (m.map Prod.fst).Nodup) :
    m.get n = lastOf n m := by
  induction m with
  | nil => rfl
  | cons e m ih =>
    rw [List.map_cons, List.nodup_cons] at h
    unfold HMap.get at *
    have hd := lastOf_cons n e m
    rw [hd, List.lookup_cons]
    by_cases hn : n = e.1
    · subst hn
      have hnone : lastOf e.1 m = none := by
        rw [← ih h.2, List.lookup_eq_none_iff]
        intro p hp
        have : p.1 ≠ e.1 := fun hc => h.1 (hc ▸ List.mem_map_of_mem hp)
        simpa using fun hc => this hc.symm
      simp [hnone]
    · have hb : (n == e.1) = false := by simpa using hn
      have : ¬ e.1 = n := fun h' => hn h'.symm
      rw [hb, ih h.2]
      cases lastOf n m <;> simp [this]

theorem lastOf_map {α β : Type} (f : α → β) (n : Text) (es : List (Text × α)) :
    lastOf n (es.map fun e => (e.1, f e.2)) = (lastOf n es).map f := by
  induction es with
  | nil => rfl
  | cons e es ih =>
    simp only [List.map_cons, lastOf, ih]
    cases lastOf n es with
    | some v => rfl
    | none => by_cases h : e.1 = n <;> simp [h]

/-- C50: converting a sugared specification (any hash map, in any iteration order) yields for every
name exactly the canonical shape of its sugar, and defines no other names. -/
theorem C50_canonicalise (m : HMap SugarItem) (hm : (m.map Prod.fst).Nodup) (n : Text) :
    specOfMap (canonRepr m) n = (m.get n).map SugarItem.canon := by
  unfold specOfMap canonRepr
  rw [foldl_insert_get, lastOf_map, lookup_eq_lastOf m n hm]
  simp [HMap.get]

example : specOfMap (canonRepr [("over".toList, .cmdInfix "frac".toList), ("alpha".toList, .symbol)])
    "over".toList = some (.cmd ⟨.infixGreedy, some "frac".toList⟩) := by decide

/-! ### C51 Later packages override earlier ones -/

/-- The item of a name in the last package of the list that defines it. -/
def lastDefinition (n : Text) : List (HMap SugarItem) → Option SugarItem
  | [] => none
  | p :: ps => match lastDefinition n ps with
    | some v => some v
    | none => p.get n

/-- C51. Packages are hash maps (no key twice), in any iteration order. -/
theorem C51_merge (pkgs : List (HMap SugarItem)) (h : ∀ p ∈ pkgs, (p.map Prod.fst).Nodup)
    (n : Text) : (mergePackages pkgs).get n = lastDefinition n pkgs := by
  have gen : ∀ (acc : HMap SugarItem), HMap.get (pkgs.foldl (fun acc pkg =>
      pkg.foldl (fun acc e => HMap.insert acc e.1 e.2) acc) acc) n
      = (lastDefinition n pkgs).or (acc.get n) := by
    induction pkgs with
    | nil => intro acc; simp [lastDefinition]
    | cons p ps ih =>
      intro acc
      rw [List.foldl_cons, ih (fun q hq => h q (List.mem_cons_of_mem _ hq)), foldl_insert_get,
        ← lookup_eq_lastOf p n (h p List.mem_cons_self)]
      have hd : lastDefinition n (p :: ps) = match lastDefinition n ps with
        | some v => some v
        | none => p.get n := rfl
      rw [hd]
      cases lastDefinition n ps with
      | some v => rfl
      | none => cases p.get n <;> simp
  have := gen []
  unfold mergePackages
  rw [this]
  simp [HMap.get]

example : (mergePackages [[("a".toList, .symbol)], [("b".toList, .command1), ("a".toList, .command2)]]).get
    "a".toList = some .command2 := by decide

/-! ### C52 A name is a command or an environment, never both -/

/-- C52: `get_cmd` and `get_env` never both succeed. -/
theorem C52_exclusive (spec : CommandSpec) (n : Text) :
    ¬ ((getCmd spec n).isSome ∧ (getEnv spec n).isSome) := by
  unfold getCmd getEnv
  cases spec n with
  | none => simp
  | some i => cases i <;> simp

/-- C52: one of them succeeds iff the name is specified. -/
theorem C52_covering (spec : CommandSpec) (n : Text) :
    (spec n).isSome ↔ (getCmd spec n).isSome ∨ (getEnv spec n).isSome := by
  unfold getCmd getEnv
  cases spec n with
  | none => simp
  | some i => cases i <;> simp

/-- C52: what they return is the specified item. -/
theorem C52_faithful (spec : CommandSpec) (n : Text) :
    (∀ c, getCmd spec n = some c ↔ spec n = some (.cmd c)) ∧
    (∀ c, getEnv spec n = some c ↔ spec n = some (.env c)) := by
  unfold getCmd getEnv
  cases spec n with
  | none => simp
  | some i => cases i <;> simp

/-- C52: `SpecBuilder` keeps the last added item per name and nothing else. -/
theorem C52_builder (adds : List (Text × SpecItem)) (n : Text) (v : SpecItem) :
    specOfMap (specBuilder adds) n = some v ↔
      ∃ pre post, adds = pre ++ (n, v) :: post ∧ ∀ e ∈ post, e.1 ≠ n := by
  have h : specOfMap (specBuilder adds) n = lastOf n adds := by
    unfold specOfMap specBuilder
    rw [foldl_insert_get]; simp [HMap.get]
  rw [h]
  have hnone : ∀ l : List (Text × SpecItem), lastOf n l = none ↔ ∀ e ∈ l, e.1 ≠ n := by
    intro l
    induction l with
    | nil => simp [lastOf]
    | cons e l ih =>
      have hd := lastOf_cons n e l
      rw [hd]
      cases hl : lastOf n l with
      | some v =>
        simp only [List.mem_cons, Option.some_or, reduceCtorEq, false_iff]
        intro hc
        have := ih.mpr (fun e he => hc e (.inr he))
        rw [hl] at this; cases this
      | none =>
        by_cases he : e.1 = n
        · simp [he]
        · simpa [he] using ih.mp hl
  induction adds with
  | nil => simp [lastOf]
  | cons e adds ih =>
    have ih := ih (by unfold specOfMap specBuilder; rw [foldl_insert_get]; simp [HMap.get])
    have hd := lastOf_cons n e adds
    rw [hd]
    cases hl : lastOf n adds with
    | some w =>
      rw [hl] at ih
      refine Iff.trans ih ?_
      constructor
      · rintro ⟨pre, post, rfl, hp⟩
        exact ⟨e :: pre, post, rfl, hp⟩
      · rintro ⟨pre, post, heq, hp⟩
        cases pre with
        | nil =>
          injection heq with h1 h2
          subst h2
          rw [(hnone _).mpr hp] at hl; cases hl
        | cons a pre =>
          injection heq with h1 h2
          exact ⟨pre, post, h2, hp⟩
    | none =>
      have hno := (hnone _).mp hl
      constructor
      · intro h
        by_cases he : e.1 = n
        · rw [if_pos he] at h
          injection h with h
          exact ⟨[], adds, by rw [← he, ← h]; rfl, hno⟩
        · rw [if_neg he] at h; cases h
      · rintro ⟨pre, post, heq, hp⟩
        cases pre with
        | nil =>
          injection heq with h1 h2
          simp [h1]
        | cons a pre =>
          injection heq with h1 h2
          exact absurd rfl (hno (n, v) (by rw [h2]; simp))

example : specOfMap (specBuilder [("a".toList, texSymbol), ("b".toList, texCmd1), ("a".toList, texLeft1)])
    "a".toList = some texLeft1 := by decide

/-- C52: what a specification built with the helpers says about the name (after any other additions of other names). -/
theorem C52_helpers (adds post : List (Text × SpecItem)) (n : Text) (hp : ∀ e ∈ post, e.1 ≠ n) (len : Nat) (num : Option Nat) (alias reg : Text)
    (ctx : CtxFeature) :
    getCmd (specOfMap (specBuilder (adds ++ (n, defineCommand len) :: post))) n = some { args := .right (.fixedLen len), alias := none } ∧
    getCmd (specOfMap (specBuilder (adds ++ (n, defineCommandWithAlias len alias) :: post))) n
      = some { args := .right (.fixedLen len), alias := some alias } ∧
    getCmd (specOfMap (specBuilder (adds ++ (n, defineGlobCommand reg alias) :: post))) n = some { args := .right (.glob reg), alias := some alias } ∧
    getCmd (specOfMap (specBuilder (adds ++ (n, defineSymbol alias) :: post))) n = some { args := .right .none, alias := some alias } ∧
    getCmd (specOfMap (specBuilder (adds ++ (n, defineGreedyCommand alias) :: post))) n = some { args := .right .greedy, alias := some alias } ∧
    getEnv (specOfMap (specBuilder (adds ++ (n, defineGlobEnv reg alias ctx) :: post))) n
      = some { args := .glob reg, ctx := ctx, alias := some alias } ∧
    (∃ sh, getEnv (specOfMap (specBuilder (adds ++ (n, defineMatrixEnv num alias) :: post))) n = some sh ∧ sh.ctx = .isMatrix ∧
      sh.alias = some alias ∧ (num = none → sh.args = .none) ∧ ∀ k, num = some k → sh.args = .fixedLen k) ∧
    ∃ sh, getEnv (specOfMap (specBuilder (adds ++ (n, defineNormalEnv num alias) :: post))) n = some sh ∧ sh.ctx = .none ∧
      sh.alias = some alias ∧ (num = none → sh.args = .none) ∧ ∀ k, num = some k → sh.args = .fixedLen k := by
  have h : ∀ v, specOfMap (specBuilder (adds ++ (n, v) :: post)) n = some v := fun v => (C52_builder _ n v).2 ⟨adds, post, rfl, hp⟩
  unfold getCmd getEnv
  simp only [h]
  refine ⟨rfl, rfl, rfl, rfl, rfl, rfl, ⟨_, rfl, rfl, rfl, ?_, ?_⟩, _, rfl, rfl, rfl, ?_, ?_⟩
  · rintro rfl; rfl
  · rintro k rfl; rfl
  · rintro rfl; rfl
  · rintro k rfl; rfl

example : getEnv (specOfMap (specBuilder [("pmatrix".toList, defineMatrixEnv none "pmat".toList), ("x".toList, defineCommand 1)])) "pmatrix".toList
    = some ⟨.none, .isMatrix, some "pmat".toList⟩ := by decide

/-- C52: what a specification built with the constants of the prelude says about the name. -/
theorem C52_constants (adds post : List (Text × SpecItem)) (n : Text) (hp : ∀ e ∈ post, e.1 ≠ n) :
    let added (v : SpecItem) : CommandSpec := specOfMap (specBuilder (adds ++ (n, v) :: post))
    getCmd (added texCmd0) n = some ⟨.right (.fixedLen 0), none⟩ ∧ getCmd (added texCmd1) n = some ⟨.right (.fixedLen 1), none⟩ ∧
    getCmd (added texCmd2) n = some ⟨.right (.fixedLen 2), none⟩ ∧ getCmd (added texSymbol) n = some ⟨.right .none, none⟩ ∧
    getCmd (added texLeft1) n = some ⟨.left1, none⟩ ∧ getCmd (added texGreedy) n = some ⟨.right .greedy, none⟩ ∧
    getCmd (added texInfix) n = some ⟨.infixGreedy, none⟩ ∧ getEnv (added texMatrixEnv) n = some ⟨.none, .isMatrix, none⟩ ∧
    getEnv (added texNormalEnv) n = some ⟨.none, .none, none⟩ := by
  have h : ∀ v, specOfMap (specBuilder (adds ++ (n, v) :: post)) n = some v := fun v => (C52_builder _ n v).2 ⟨adds, post, rfl, hp⟩
  dsimp only
  unfold getCmd getEnv
  simp only [h]
  exact ⟨rfl, rfl, rfl, rfl, rfl, rfl, rfl, rfl, rfl⟩

example : getCmd (specOfMap (specBuilder [("over".toList, texInfix), ("sum".toList, texGreedy)])) "over".toList = some ⟨.infixGreedy, none⟩ := by decide

end Mitex
