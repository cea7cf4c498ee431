/-
Reading JSON specifications: `readItem` reads exactly what `Says` says.
-/
import Verif.Spec.SpecJson

namespace Mitex.SpecJson

theorem fieldOf_has {o : List (Text × Json)} {k : Text} {v : Json} : fieldOf o k = some (some v) ↔ Has o k v := by
  unfold fieldOf Has
  constructor
  · intro h
    split at h
    · cases h
    · rename_i e he
      injection h with h; injection h with h
      have := List.filter_eq_cons_iff.mp he
      obtain ⟨pre, post, rfl, h1, h2, h3⟩ := this
      have hk : e.1 = k := by simpa using h2
      refine ⟨pre, post, ?_, fun e he => by simpa using h1 e he, ?_⟩
      · rw [← hk, ← h]
      · intro e he
        have := List.filter_eq_nil_iff.mp h3 e he
        simpa using this
    · cases h
  · rintro ⟨pre, post, rfl, h1, h2⟩
    have e1 : pre.filter (fun e => decide (e.1 = k)) = [] := List.filter_eq_nil_iff.mpr fun e he => by simpa using h1 e he
    have e2 : post.filter (fun e => decide (e.1 = k)) = [] := List.filter_eq_nil_iff.mpr fun e he => by simpa using h2 e he
    rw [List.filter_append, e1, List.filter_cons_of_pos (by simp), e2]
    rfl

theorem fieldOf_lacks {o : List (Text × Json)} {k : Text} : fieldOf o k = some none ↔ Lacks o k := by
  unfold fieldOf Lacks
  constructor
  · intro h
    split at h
    · rename_i he
      intro e hm
      simpa using List.filter_eq_nil_iff.mp he e hm
    · cases h
    · cases h
  · intro h
    have e1 : o.filter (fun e => decide (e.1 = k)) = [] := List.filter_eq_nil_iff.mpr fun e he => by simpa using h e he
    rw [e1]

theorem fieldsOf_iff {o : List (Text × Json)} {ks : List Text} {vs : List (Option Json)} : fieldsOf o ks = some vs ↔ Members o ks vs := by
  induction ks generalizing vs with
  | nil =>
    constructor
    · intro h; injection h with h; subst h; exact .nil
    · intro h; cases h; rfl
  | cons k ks ih =>
    rw [fieldsOf]
    constructor
    · intro h
      cases hf : fieldOf o k with
      | none => rw [hf] at h; cases h
      | some v =>
        cases hr : fieldsOf o ks with
        | none => rw [hf, hr] at h; cases h
        | some r =>
          rw [hf, hr] at h
          injection h with h; subst h
          cases v with
          | none => exact .missing (fieldOf_lacks.mp hf) (ih.mp hr)
          | some v => exact .given (fieldOf_has.mp hf) (ih.mp hr)
    · intro h
      cases h with
      | given h1 h2 => rw [fieldOf_has.mpr h1, ih.mpr h2]
      | missing h1 h2 => rw [fieldOf_lacks.mpr h1, ih.mpr h2]

theorem structFields_iff {names : List Text} {vs : List (Option Json)} {j : Json} : structFields names j = some vs ↔ Structure names vs j := by
  constructor
  · intro h
    cases j with
    | obj o => exact .object (fieldsOf_iff.mp h)
    | arr l =>
      rw [structFields] at h
      by_cases hl : l.length = names.length
      · rw [if_pos hl] at h; injection h with h; subst h; exact .array hl
      · rw [if_neg hl] at h; cases h
    | _ => cases h
  · intro h
    cases h with
    | object h => exact fieldsOf_iff.mpr h
    | array h => rw [structFields, if_pos h]

theorem variantName_iff {nested : Bool} {vars : List Text} {v : Json} {t : Text} :
    variantName nested vars v = some t ↔ Names nested vars v t := by
  constructor
  · intro h
    cases v with
    | str s =>
      rw [variantName] at h
      by_cases hc : vars.contains s = true
      · rw [if_pos hc] at h; injection h with h; subst h; exact .word (by simpa using hc)
      · rw [if_neg hc] at h; cases h
    | int n =>
      rw [variantName] at h
      by_cases hc : (nested && decide (0 ≤ n)) = true
      · rw [if_pos hc] at h
        rw [Bool.and_eq_true, decide_eq_true_eq] at hc
        have : n = (n.toNat : Int) := by omega
        rw [this]
        exact .index hc.1 h
      · rw [if_neg hc] at h; cases h
    | _ => cases h
  · intro h
    cases h with
    | word h => rw [variantName, if_pos (by simpa using h)]
    | index h1 h2 => rw [variantName, if_pos (by simp [h1])]; simpa using h2

theorem members_rest {o : List (Text × Json)} {q : Text} {ks : List Text} (hq : q ∉ ks) {vs : List (Option Json)} :
    Members (o.filter fun e => e.1 ≠ q) ks vs ↔ Members o ks vs := by
  rw [← fieldsOf_iff, ← fieldsOf_iff]
  have hf : ∀ k, k ≠ q → fieldOf (o.filter fun e => e.1 ≠ q) k = fieldOf o k := by
    intro k hk
    unfold fieldOf
    rw [List.filter_filter]
    have : (fun e : Text × Json => decide (e.1 = k) && decide (e.1 ≠ q)) = fun e => decide (e.1 = k) := by
      funext e
      by_cases h : e.1 = k
      · simp [h, hk]
      · simp [h]
    rw [this]
  have : fieldsOf (o.filter fun e => e.1 ≠ q) ks = fieldsOf o ks := by
    clear vs
    induction ks with
    | nil => rfl
    | cons k ks ih =>
      rw [fieldsOf, fieldsOf, hf k (fun h => hq (by rw [h]; simp)), ih (fun h => hq (by simp [h]))]
  rw [this]

/-- A variant and its fields, as read. -/
theorem kind_iff {nested : Bool} {vars : List Text} {t : Text} {names : List Text} (hq : t!"kind" ∉ names) {vs : List (Option Json)} {j : Json} :
    Kind nested vars t names vs j ↔ ∃ c, tagged nested vars j = some (t, c) ∧ structFields names c = some vs := by
  constructor
  · intro h
    cases h with
    | @object o v _ h1 h2 h3 =>
      refine ⟨.obj (o.filter fun e => e.1 ≠ t!"kind"), ?_, ?_⟩
      · have hk := fieldOf_has.mpr h1
        unfold fieldOf at hk
        unfold tagged
        simp only
        split at hk
        · cases hk
        · rename_i e he
          injection hk with hk; injection hk with hk
          rw [he]
          simp only
          rw [hk, variantName_iff.mpr h2]; rfl
        · cases hk
      · exact fieldsOf_iff.mpr ((members_rest hq).mpr h3)
    | @array v l h1 h2 =>
      refine ⟨.arr l, ?_, ?_⟩
      · rw [tagged, variantName_iff.mpr h1]; rfl
      · rw [structFields, if_pos h2]
  · rintro ⟨c, h1, h2⟩
    cases j with
    | obj o =>
      rw [tagged] at h1
      split at h1
      · rename_i e he
        cases hv : variantName nested vars e.2 with
        | none => rw [hv] at h1; cases h1
        | some t' =>
          rw [hv] at h1
          injection h1 with h1
          injection h1 with h1 h3
          subst h1 h3
          refine .object (v := e.2) ?_ (variantName_iff.mp hv) ((members_rest hq).mp (fieldsOf_iff.mp h2))
          exact fieldOf_has.mp (by unfold fieldOf; rw [he])
      · cases h1
    | arr l =>
      cases l with
      | nil => cases h1
      | cons v l =>
        rw [tagged] at h1
        cases hv : variantName nested vars v with
        | none => rw [hv] at h1; cases h1
        | some t' =>
          rw [hv] at h1
          injection h1 with h1
          injection h1 with h1 h3
          subst h1 h3
          rw [structFields] at h2
          by_cases hl : l.length = names.length
          · rw [if_pos hl] at h2; injection h2 with h2; subst h2; exact .array (variantName_iff.mp hv) hl
          · rw [if_neg hl] at h2; cases h2
    | _ => cases h1

theorem tagged_mem {nested : Bool} {vars : List Text} {j c : Json} {t : Text} (h : tagged nested vars j = some (t, c)) : t ∈ vars := by
  have hv : ∀ v, variantName nested vars v = some t → t ∈ vars := by
    intro v h
    cases variantName_iff.mp h with
    | word h' => exact h'
    | index _ h' => exact List.mem_of_getElem? h'
  cases j with
  | obj o =>
    rw [tagged] at h
    split at h
    · rename_i e he
      cases hx : variantName nested vars e.2 with
      | none => rw [hx] at h; cases h
      | some t' => rw [hx] at h; injection h with h; injection h with h1 _; subst h1; exact hv _ hx
    · cases h
  | arr l =>
    cases l with
    | nil => cases h
    | cons v l =>
      rw [tagged] at h
      cases hx : variantName nested vars v with
      | none => rw [hx] at h; cases h
      | some t' => rw [hx] at h; injection h with h; injection h with h1 _; subst h1; exact hv _ hx
  | _ => cases h

theorem readU8_iff {v : Option Json} {n : Nat} : readU8 v = some n ↔ v = some (.int n) ∧ n < 256 := by
  constructor
  · intro h
    match v, h with
    | some (.int m), h =>
      rw [readU8] at h
      by_cases hc : 0 ≤ m ∧ m ≤ 255
      · rw [if_pos hc] at h; injection h with h; subst h
        refine ⟨?_, by omega⟩
        have : m = (m.toNat : Int) := by omega
        rw [← this]
      · rw [if_neg hc] at h; cases h
  · rintro ⟨rfl, h⟩
    rw [readU8, if_pos (by omega)]; simp

theorem readText_iff {v : Option Json} {s : Text} : readText v = some s ↔ v = some (.str s) := by
  constructor
  · intro h
    match v, h with
    | some (.str m), h => injection h with h; rw [h]
  · rintro rfl; rfl

theorem readOption_iff {v : Option Json} {s : Option Text} : readOption v = some s ↔ Maybe v s := by
  constructor
  · intro h
    match v, h with
    | none, h => injection h with h; subst h; exact .missing
    | some .null, h => injection h with h; subst h; exact .null
    | some (.str m), h => injection h with h; subst h; exact .text m
  · intro h; cases h <;> rfl

theorem unitVariant_iff {α : Type} {a b : α} {c : Json} : unitVariant a c = some b ↔ structFields [] c = some [] ∧ a = b := by
  unfold unitVariant
  cases h : structFields [] c with
  | none => simp
  | some l =>
    have : l = [] := by
      cases structFields_iff.mp h with
      | object h' => cases h'; rfl
      | array h' => rw [List.length_eq_zero_iff.mp h']; rfl
    subst this
    simp

theorem members_length {o : List (Text × Json)} {names : List Text} {vs : List (Option Json)} (h : Members o names vs) :
    vs.length = names.length := by
  induction h with
  | nil => rfl
  | given _ _ ih => simp [ih]
  | missing _ _ ih => simp [ih]

theorem structFields_length {names : List Text} {c : Json} {vs : List (Option Json)} (h : structFields names c = some vs) :
    vs.length = names.length := by
  cases structFields_iff.mp h with
  | object h' => exact members_length h'
  | array h' => simpa using h'

theorem kind_none : t!"kind" ∉ ([] : List Text) := by simp

theorem readPattern_iff {j : Json} {p : ArgPattern} : readPattern (some j) = some p ↔ SaysPattern j p := by
  constructor
  · intro h
    rw [readPattern] at h
    cases ht : tagged true patternKinds j with
    | none => rw [ht] at h; cases h
    | some r =>
      obtain ⟨k, c⟩ := r
      rw [ht] at h
      dsimp only at h
      have hm := tagged_mem ht
      by_cases h1 : k = t!"none"
      · rw [if_pos h1] at h; subst h1
        obtain ⟨hs, rfl⟩ := unitVariant_iff.mp h
        exact .none ((kind_iff (by decide)).mpr ⟨c, ht, hs⟩)
      rw [if_neg h1] at h
      by_cases h2 : k = t!"fixed-len"
      · rw [if_pos h2] at h; subst h2
        split at h
        · rename_i l hs
          obtain ⟨n, hn, rfl⟩ := Option.map_eq_some_iff.mp h
          obtain ⟨rfl, hlt⟩ := readU8_iff.mp hn
          exact .fixedLen ((kind_iff (by decide)).mpr ⟨c, ht, hs⟩) hlt
        · cases h
      rw [if_neg h2] at h
      by_cases h3 : k = t!"range-len"
      · rw [if_pos h3] at h; subst h3
        split at h
        · rename_i a b hs
          split at h
          · rename_i x y ha hb
            injection h with h; subst h
            obtain ⟨rfl, hlt⟩ := readU8_iff.mp ha
            obtain ⟨rfl, hlt'⟩ := readU8_iff.mp hb
            exact .rangeLen ((kind_iff (by decide)).mpr ⟨c, ht, hs⟩) hlt hlt'
          · cases h
        · cases h
      rw [if_neg h3] at h
      by_cases h4 : k = t!"greedy"
      · rw [if_pos h4] at h; subst h4
        obtain ⟨hs, rfl⟩ := unitVariant_iff.mp h
        exact .greedy ((kind_iff (by decide)).mpr ⟨c, ht, hs⟩)
      rw [if_neg h4] at h
      have h5 : k = t!"glob" := by
        simp only [patternKinds, List.mem_cons, List.not_mem_nil, or_false] at hm
        rcases hm with h | h | h | h | h
        · exact absurd h h1
        · exact absurd h h2
        · exact absurd h h3
        · exact absurd h h4
        · exact h
      subst h5
      split at h
      · rename_i l hs
        obtain ⟨n, hn, rfl⟩ := Option.map_eq_some_iff.mp h
        obtain rfl := readText_iff.mp hn
        exact .glob ((kind_iff (by decide)).mpr ⟨c, ht, hs⟩)
      · cases h
  · intro h
    rw [readPattern]
    cases h with
    | none h =>
      obtain ⟨c, ht, hs⟩ := (kind_iff (by decide)).mp h
      rw [ht]; dsimp only
      rw [if_pos rfl]; exact unitVariant_iff.mpr ⟨hs, rfl⟩
    | fixedLen h hn =>
      obtain ⟨c, ht, hs⟩ := (kind_iff (by decide)).mp h
      rw [ht]; dsimp only
      rw [if_neg (by decide), if_pos rfl, hs]; dsimp only
      rw [readU8_iff.mpr ⟨rfl, hn⟩]; rfl
    | rangeLen h hn hm =>
      obtain ⟨c, ht, hs⟩ := (kind_iff (by decide)).mp h
      rw [ht]; dsimp only
      rw [if_neg (by decide), if_neg (by decide), if_pos rfl, hs]; dsimp only
      rw [readU8_iff.mpr ⟨rfl, hn⟩, readU8_iff.mpr ⟨rfl, hm⟩]
    | greedy h =>
      obtain ⟨c, ht, hs⟩ := (kind_iff (by decide)).mp h
      rw [ht]; dsimp only
      rw [if_neg (by decide), if_neg (by decide), if_neg (by decide), if_pos rfl]; exact unitVariant_iff.mpr ⟨hs, rfl⟩
    | glob h =>
      obtain ⟨c, ht, hs⟩ := (kind_iff (by decide)).mp h
      rw [ht]; dsimp only
      rw [if_neg (by decide), if_neg (by decide), if_neg (by decide), if_neg (by decide), hs]
      rfl

theorem readShape_iff {j : Json} {p : ArgShape} : readShape (some j) = some p ↔ SaysShape j p := by
  constructor
  · intro h
    rw [readShape] at h
    cases ht : tagged true shapeKinds j with
    | none => rw [ht] at h; cases h
    | some r =>
      obtain ⟨k, c⟩ := r
      rw [ht] at h
      dsimp only at h
      have hm := tagged_mem ht
      by_cases h1 : k = t!"right"
      · rw [if_pos h1] at h; subst h1
        split at h
        · rename_i l hs
          obtain ⟨n, hn, rfl⟩ := Option.map_eq_some_iff.mp h
          cases l with
          | none => cases hn
          | some l => exact .right ((kind_iff (by decide)).mpr ⟨c, ht, hs⟩) (readPattern_iff.mp hn)
        · cases h
      rw [if_neg h1] at h
      by_cases h2 : k = t!"left1"
      · rw [if_pos h2] at h; subst h2
        obtain ⟨hs, rfl⟩ := unitVariant_iff.mp h
        exact .left1 ((kind_iff (by decide)).mpr ⟨c, ht, hs⟩)
      rw [if_neg h2] at h
      have h3 : k = t!"infix-greedy" := by
        simp only [shapeKinds, List.mem_cons, List.not_mem_nil, or_false] at hm
        rcases hm with h | h | h
        · exact absurd h h1
        · exact absurd h h2
        · exact h
      subst h3
      obtain ⟨hs, rfl⟩ := unitVariant_iff.mp h
      exact .infixGreedy ((kind_iff (by decide)).mpr ⟨c, ht, hs⟩)
  · intro h
    rw [readShape]
    cases h with
    | right h hp =>
      obtain ⟨c, ht, hs⟩ := (kind_iff (by decide)).mp h
      rw [ht]; dsimp only
      rw [if_pos rfl, hs]; dsimp only
      rw [readPattern_iff.mpr hp]; rfl
    | left1 h =>
      obtain ⟨c, ht, hs⟩ := (kind_iff (by decide)).mp h
      rw [ht]; dsimp only
      rw [if_neg (by decide), if_pos rfl]; exact unitVariant_iff.mpr ⟨hs, rfl⟩
    | infixGreedy h =>
      obtain ⟨c, ht, hs⟩ := (kind_iff (by decide)).mp h
      rw [ht]; dsimp only
      rw [if_neg (by decide), if_neg (by decide)]; exact unitVariant_iff.mpr ⟨hs, rfl⟩

theorem readFeature_iff {j : Json} {p : CtxFeature} : readFeature (some j) = some p ↔ SaysFeature j p := by
  unfold SaysFeature
  rw [kind_iff (by decide), readFeature]
  cases ht : tagged true featureKinds j with
  | none => simp
  | some r =>
    obtain ⟨k, c⟩ := r
    have hm := tagged_mem ht
    have key : ∀ f, (k = featureName f → (unitVariant f c = some p ↔ ∃ c', some (k, c) = some (featureName p, c') ∧ structFields [] c' = some [])) := by
      intro f hk
      rw [unitVariant_iff]
      constructor
      · rintro ⟨h, rfl⟩; exact ⟨c, by rw [hk], h⟩
      · rintro ⟨c', h, hs⟩
        injection h with h; injection h with h h'; subst h'
        refine ⟨hs, ?_⟩
        rw [hk] at h
        revert h
        cases f <;> cases p <;> decide
    simp only [featureKinds, List.mem_cons, List.not_mem_nil, or_false] at hm
    dsimp only
    rcases hm with h | h | h | h | h | h | h | h <;> subst h
    · exact key .none rfl
    · exact key .isMath rfl
    · exact key .isMatrix rfl
    · exact key .isCases rfl
    · exact key .isFigure rfl
    · exact key .isTable rfl
    · exact key .isItemize rfl
    · exact key .isEnumerate rfl

theorem readCmd_iff {c : Json} {s : CmdShape} :
    readCmd c = some s ↔ ∃ a al, structFields [t!"args", t!"alias"] c = some [some a, al] ∧ SaysShape a s.args ∧ Maybe al s.alias := by
  rw [readCmd]
  constructor
  · intro h
    split at h
    · rename_i a al hs
      split at h
      · rename_i x y hx hy
        injection h with h; subst h
        cases a with
        | none => cases hx
        | some a => exact ⟨a, al, hs, readShape_iff.mp hx, readOption_iff.mp hy⟩
      · cases h
    · cases h
  · rintro ⟨a, al, hs, hx, hy⟩
    rw [hs]; dsimp only
    rw [readShape_iff.mpr hx, readOption_iff.mpr hy]

theorem readEnv_iff {c : Json} {s : EnvShape} :
    readEnv c = some s ↔ ∃ a f al, structFields [t!"args", t!"ctx_feature", t!"alias"] c = some [some a, some f, al] ∧ SaysPattern a s.args ∧
      SaysFeature f s.ctx ∧ Maybe al s.alias := by
  rw [readEnv]
  constructor
  · intro h
    split at h
    · rename_i a f al hs
      split at h
      · rename_i x y z hx hy hz
        injection h with h; subst h
        cases a with
        | none => cases hx
        | some a =>
          cases f with
          | none => cases hy
          | some f => exact ⟨a, f, al, hs, readPattern_iff.mp hx, readFeature_iff.mp hy, readOption_iff.mp hz⟩
      · cases h
    · cases h
  · rintro ⟨a, f, al, hs, hx, hy, hz⟩
    rw [hs]; dsimp only
    rw [readPattern_iff.mpr hx, readFeature_iff.mpr hy, readOption_iff.mpr hz]

/-- An item is read exactly as its JSON says. -/
theorem readItem_iff {j : Json} {it : SugarItem} : readItem j = some it ↔ Says j it := by
  constructor
  · intro h
    rw [readItem] at h
    cases ht : tagged false itemKinds j with
    | none => rw [ht] at h; cases h
    | some r =>
      obtain ⟨k, c⟩ := r
      rw [ht] at h
      dsimp only at h
      have hm := tagged_mem ht
      simp only [itemKinds, List.mem_cons, List.not_mem_nil, or_false] at hm
      rcases hm with h' | h' | h' | h' | h' | h' | h' | h' | h' | h' | h' | h' | h' | h' <;> subst h'
      · rw [if_pos rfl] at h
        obtain ⟨s, hs, rfl⟩ := Option.map_eq_some_iff.mp h
        obtain ⟨a, al, h1, h2, h3⟩ := readCmd_iff.mp hs
        exact .cmd ((kind_iff (by decide)).mpr ⟨c, ht, h1⟩) h2 h3
      · rw [if_neg (by decide), if_pos rfl] at h
        obtain ⟨s, hs, rfl⟩ := Option.map_eq_some_iff.mp h
        obtain ⟨a, f, al, h1, h2, h3, h4⟩ := readEnv_iff.mp hs
        exact .env ((kind_iff (by decide)).mpr ⟨c, ht, h1⟩) h2 h3 h4
      · obtain ⟨hs, rfl⟩ := unitVariant_iff.mp h
        exact .symbol ((kind_iff (by decide)).mpr ⟨c, ht, hs⟩)
      · obtain ⟨hs, rfl⟩ := unitVariant_iff.mp h
        exact .command0 ((kind_iff (by decide)).mpr ⟨c, ht, hs⟩)
      · obtain ⟨hs, rfl⟩ := unitVariant_iff.mp h
        exact .command1 ((kind_iff (by decide)).mpr ⟨c, ht, hs⟩)
      · obtain ⟨hs, rfl⟩ := unitVariant_iff.mp h
        exact .command2 ((kind_iff (by decide)).mpr ⟨c, ht, hs⟩)
      · obtain ⟨hs, rfl⟩ := unitVariant_iff.mp h
        exact .cmdLeft1 ((kind_iff (by decide)).mpr ⟨c, ht, hs⟩)
      · obtain ⟨hs, rfl⟩ := unitVariant_iff.mp h
        exact .envMatrix ((kind_iff (by decide)).mpr ⟨c, ht, hs⟩)
      · obtain ⟨hs, rfl⟩ := unitVariant_iff.mp h
        exact .envNormal ((kind_iff (by decide)).mpr ⟨c, ht, hs⟩)
      · iterate 9 rw [if_neg (by decide)] at h
        rw [if_pos rfl] at h
        split at h
        · rename_i p al f hs
          split at h
          · rename_i x y z hx hy hz
            injection h with h; subst h
            obtain rfl := readText_iff.mp hx
            obtain rfl := readText_iff.mp hy
            cases f with
            | none => cases hz
            | some f => exact .envGlob ((kind_iff (by decide)).mpr ⟨c, ht, hs⟩) (readFeature_iff.mp hz)
          · cases h
        · cases h
      · iterate 10 rw [if_neg (by decide)] at h
        rw [if_pos rfl] at h
        split at h
        · rename_i l hs
          obtain ⟨n, hn, rfl⟩ := Option.map_eq_some_iff.mp h
          obtain rfl := readText_iff.mp hn
          exact .symAlias ((kind_iff (by decide)).mpr ⟨c, ht, hs⟩)
        · cases h
      · iterate 11 rw [if_neg (by decide)] at h
        rw [if_pos rfl] at h
        split at h
        · rename_i l hs
          obtain ⟨n, hn, rfl⟩ := Option.map_eq_some_iff.mp h
          obtain rfl := readText_iff.mp hn
          exact .cmdGreedy ((kind_iff (by decide)).mpr ⟨c, ht, hs⟩)
        · cases h
      · iterate 12 rw [if_neg (by decide)] at h
        rw [if_pos rfl] at h
        split at h
        · rename_i l hs
          obtain ⟨n, hn, rfl⟩ := Option.map_eq_some_iff.mp h
          obtain rfl := readText_iff.mp hn
          exact .cmdInfix ((kind_iff (by decide)).mpr ⟨c, ht, hs⟩)
        · cases h
      · iterate 13 rw [if_neg (by decide)] at h
        split at h
        · rename_i p al hs
          split at h
          · rename_i x y hx hy
            injection h with h; subst h
            obtain rfl := readText_iff.mp hx
            obtain rfl := readText_iff.mp hy
            exact .cmdGlob ((kind_iff (by decide)).mpr ⟨c, ht, hs⟩)
          · cases h
        · cases h
  · intro h
    rw [readItem]
    cases h with
    | cmd h h1 h2 =>
      obtain ⟨c, ht, hs⟩ := (kind_iff (by decide)).mp h
      rw [ht]; dsimp only
      rw [if_pos rfl, readCmd_iff (s := ⟨_, _⟩).mpr ⟨_, _, hs, h1, h2⟩]; rfl
    | env h h1 h2 h3 =>
      obtain ⟨c, ht, hs⟩ := (kind_iff (by decide)).mp h
      rw [ht]; dsimp only
      rw [if_neg (by decide), if_pos rfl, readEnv_iff (s := ⟨_, _, _⟩).mpr ⟨_, _, _, hs, h1, h2, h3⟩]; rfl
    | envGlob h h1 =>
      obtain ⟨c, ht, hs⟩ := (kind_iff (by decide)).mp h
      rw [ht]; dsimp only
      iterate 9 rw [if_neg (by decide)]
      rw [if_pos rfl, hs]; dsimp only
      rw [readFeature_iff.mpr h1]; rfl
    | symAlias h =>
      obtain ⟨c, ht, hs⟩ := (kind_iff (by decide)).mp h
      rw [ht]; dsimp only
      iterate 10 rw [if_neg (by decide)]
      rw [if_pos rfl, hs]; rfl
    | cmdGreedy h =>
      obtain ⟨c, ht, hs⟩ := (kind_iff (by decide)).mp h
      rw [ht]; dsimp only
      iterate 11 rw [if_neg (by decide)]
      rw [if_pos rfl, hs]; rfl
    | cmdInfix h =>
      obtain ⟨c, ht, hs⟩ := (kind_iff (by decide)).mp h
      rw [ht]; dsimp only
      iterate 12 rw [if_neg (by decide)]
      rw [if_pos rfl, hs]; rfl
    | cmdGlob h =>
      obtain ⟨c, ht, hs⟩ := (kind_iff (by decide)).mp h
      rw [ht]; dsimp only
      iterate 13 rw [if_neg (by decide)]
      rw [hs]; rfl
    | _ h =>
      obtain ⟨c, ht, hs⟩ := (kind_iff (by decide)).mp h
      rw [ht]; dsimp only
      exact unitVariant_iff.mpr ⟨hs, rfl⟩

theorem readEntries_iff {o : List (Text × Json)} {its : List (Text × SugarItem)} : readEntries o = some its ↔ Entries o its := by
  induction o generalizing its with
  | nil =>
    constructor
    · intro h; injection h with h; subst h; exact .nil
    · intro h; cases h; rfl
  | cons e o ih =>
    rw [readEntries]
    constructor
    · intro h
      split at h
      · rename_i it r h1 h2
        injection h with h; subst h
        exact .cons (readItem_iff.mp h1) (ih.mp h2)
      · cases h
    · intro h
      cases h with
      | cons h1 h2 => rw [readItem_iff.mpr h1, ih.mpr h2]

/-- The map holding the entries, the last one of each name. -/
def mapOf {α : Type} (es : List (Text × α)) : HMap α := es.foldl (fun acc e => acc.insert e.1 e.2) []

theorem readRepr_iff {j : Json} {m : HMap SugarItem} : readRepr (some j) = some m ↔ ∃ its, SaysRepr j its ∧ m = mapOf its := by
  rw [readRepr]
  constructor
  · intro h
    split at h
    · rename_i v hs
      match v, h with
      | some (.obj o), h =>
        rw [readMap] at h
        obtain ⟨its, h1, rfl⟩ := Option.map_eq_some_iff.mp h
        exact ⟨its, ⟨o, structFields_iff.mp hs, readEntries_iff.mp h1⟩, rfl⟩
    · cases h
  · rintro ⟨its, ⟨o, h1, h2⟩, rfl⟩
    rw [structFields_iff.mpr h1]; dsimp only
    rw [readMap, readEntries_iff.mpr h2]; rfl

theorem readPackage_iff {j : Json} {n : Text} {m : HMap SugarItem} : readPackage j = some (n, m) ↔ ∃ its, SaysPackage j n its ∧ m = mapOf its := by
  rw [readPackage]
  constructor
  · intro h
    split at h
    · rename_i a b hs
      split at h
      · rename_i x y hx hy
        injection h with h; injection h with h1 h2; subst h1 h2
        obtain rfl := readText_iff.mp hx
        cases b with
        | none => cases hy
        | some b =>
          obtain ⟨its, h1, h2⟩ := readRepr_iff.mp hy
          exact ⟨its, ⟨b, structFields_iff.mp hs, h1⟩, h2⟩
      · cases h
    · cases h
  · rintro ⟨its, ⟨s, h1, h2⟩, rfl⟩
    rw [structFields_iff.mpr h1]; dsimp only
    rw [readRepr_iff.mpr ⟨its, h2, rfl⟩]; rfl

theorem readPackages_iff {l : List Json} {ms : List (HMap SugarItem)} :
    (∃ ps, readPackages l = some ps ∧ ps.map Prod.snd = ms) ↔ ∃ pss, Packages l pss ∧ ms = pss.map mapOf := by
  induction l generalizing ms with
  | nil =>
    constructor
    · rintro ⟨ps, h, rfl⟩; injection h with h; subst h; exact ⟨[], .nil, rfl⟩
    · rintro ⟨pss, h, rfl⟩; cases h; exact ⟨[], rfl, rfl⟩
  | cons j l ih =>
    constructor
    · rintro ⟨ps, h, rfl⟩
      rw [readPackages] at h
      split at h
      · rename_i p r h1 h2
        injection h with h; subst h
        obtain ⟨pss, h3, h4⟩ := ih.mp ⟨r, h2, rfl⟩
        obtain ⟨n, m⟩ := p
        obtain ⟨its, h5, h6⟩ := readPackage_iff.mp h1
        exact ⟨its :: pss, .cons h5 h3, by rw [List.map_cons, List.map_cons, h4, ← h6]⟩
      · cases h
    · rintro ⟨pss, h, rfl⟩
      cases h with
      | @cons _ n p _ ps h1 h2 =>
        obtain ⟨r, h3, h4⟩ := ih.mpr ⟨_, h2, rfl⟩
        refine ⟨(n, mapOf p) :: r, ?_, by rw [List.map_cons, List.map_cons, h4]⟩
        rw [readPackages, readPackage_iff.mpr ⟨p, h1, rfl⟩, h3]

end Mitex.SpecJson
