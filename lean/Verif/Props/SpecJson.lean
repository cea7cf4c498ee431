/-
Property C78: specifications written as JSON mean what they say.
-/
import Verif.Proof.SpecJsonAlike
import Verif.Props.SpecQuery
import Verif.Proof.StandardNames

namespace Mitex
open SpecJson

/-- The item of the last entry with the name. -/
def LastEntry (its : List (Text × SugarItem)) (n : Text) (it : SugarItem) : Prop :=
  ∃ pre post, its = pre ++ (n, it) :: post ∧ ∀ e ∈ post, e.1 ≠ n

theorem lastOf_none {α : Type} (n : Text) (l : List (Text × α)) : lastOf n l = none ↔ ∀ e ∈ l, e.1 ≠ n := by
  induction l with
  | nil => simp [lastOf]
  | cons e l ih =>
    rw [lastOf_cons]
    cases hl : lastOf n l with
    | some v =>
      simp only [List.mem_cons, Option.some_or, reduceCtorEq, false_iff]
      intro hc
      have := ih.mpr (fun e he => hc e (.inr he))
      rw [hl] at this; cases this
    | none =>
      by_cases he : e.1 = n
      · simp [he]
      · simpa [he] using ih.mp hl

theorem lastOf_entry (n : Text) (its : List (Text × SugarItem)) (it : SugarItem) : lastOf n its = some it ↔ LastEntry its n it := by
  unfold LastEntry
  induction its with
  | nil => simp [lastOf]
  | cons e its ih =>
    rw [lastOf_cons]
    cases hl : lastOf n its with
    | some w =>
      rw [hl] at ih
      refine Iff.trans ih ?_
      constructor
      · rintro ⟨pre, post, rfl, hp⟩
        exact ⟨e :: pre, post, rfl, hp⟩
      · rintro ⟨pre, post, heq, hp⟩
        cases pre with
        | nil =>
          injection heq with h1 h2
          subst h2
          rw [(lastOf_none _ _).mpr hp] at hl; cases hl
        | cons a pre =>
          injection heq with h1 h2
          exact ⟨pre, post, h2, hp⟩
    | none =>
      have hno := (lastOf_none _ _).mp hl
      constructor
      · intro h
        by_cases he : e.1 = n
        · simp only [if_pos he, Option.none_or] at h
          injection h with h
          exact ⟨[], its, by rw [← he, ← h]; rfl, hno⟩
        · simp [he] at h
      · rintro ⟨pre, post, heq, hp⟩
        cases pre with
        | nil => injection heq with h1 h2; simp [h1]
        | cons a pre =>
          injection heq with h1 h2
          exact absurd rfl (hno (n, it) (by rw [h2]; simp))

/-- What a specification with these entries knows: of each name, the canonical form of its last entry. -/
def Knows (spec : CommandSpec) (its : List (Text × SugarItem)) : Prop :=
  (∀ n it, LastEntry its n it → ∃ c, spec n = some c ∧ SugarMeans it c) ∧ ∀ n, (∀ e ∈ its, e.1 ≠ n) → spec n = none

theorem mapOf_nodup {α : Type} (its : List (Text × α)) : ((mapOf its).map Prod.fst).Nodup := by
  unfold mapOf
  have : ∀ (its : List (Text × α)) (m : HMap α), (m.map Prod.fst).Nodup →
      ((its.foldl (fun acc e => HMap.insert acc e.1 e.2) m).map Prod.fst).Nodup := by
    intro its
    induction its with
    | nil => intro m h; exact h
    | cons e es ih => intro m h; exact ih _ (HMap.insert_nodup _ _ _ h)
  exact this its [] (by simp)

theorem mapOf_get {α : Type} (its : List (Text × α)) (n : Text) : (mapOf its).get n = lastOf n its := by
  unfold mapOf
  rw [foldl_insert_get]
  simp [HMap.get]

theorem knows_of {spec : CommandSpec} {its : List (Text × SugarItem)} (h : ∀ n, spec n = (lastOf n its).map SugarItem.canon) : Knows spec its := by
  constructor
  · intro n it hl
    rw [h, (lastOf_entry n its it).mpr hl]
    exact ⟨it.canon, rfl, (C50_item _ _).mp rfl⟩
  · intro n hn
    rw [h, (lastOf_none n its).mpr hn]; rfl

/-- A specification is determined by what it knows. -/
theorem C78_determined (s s' : CommandSpec) (its : List (Text × SugarItem)) (h : Knows s its) (h' : Knows s' its) : s = s' := by
  funext n
  cases hl : lastOf n its with
  | none => rw [h.2 n ((lastOf_none n its).mp hl), h'.2 n ((lastOf_none n its).mp hl)]
  | some it =>
    obtain ⟨c, h1, h2⟩ := h.1 n it ((lastOf_entry n its it).mp hl)
    obtain ⟨c', h3, h4⟩ := h'.1 n it ((lastOf_entry n its it).mp hl)
    rw [h1, h3, ← (C50_item _ _).mpr h2, ← (C50_item _ _).mpr h4]

/-- C78: `compile_spec` accepts exactly the JSON that says a specification, and what it writes stands for the specification that
is said: of each name the canonical form of its last entry, and nothing else. -/
theorem C78_compile (json : List Nat → Except Text Json) (bytes : HMap SpecItem → List Nat) (message : Json → Text) (input : List Nat) :
    ((∃ b, compileSpec json bytes message input = .ok b) ↔ ∃ j its, json input = .ok j ∧ SaysRepr j its) ∧
    ∀ j its, json input = .ok j → SaysRepr j its →
      ∃ m, compileSpec json bytes message input = .ok (bytes m) ∧ Knows (specOfMap m) its := by
  have key : ∀ j its, json input = .ok j → SaysRepr j its →
      ∃ m, compileSpec json bytes message input = .ok (bytes m) ∧ Knows (specOfMap m) its := by
    intro j its hj hs
    refine ⟨canonRepr (mapOf its), ?_, knows_of fun n => ?_⟩
    · unfold compileSpec
      rw [hj]; dsimp only
      rw [readRepr_iff.mpr ⟨its, hs, rfl⟩]
    · rw [C50_canonicalise _ (mapOf_nodup its), mapOf_get]
  refine ⟨⟨?_, ?_⟩, key⟩
  · rintro ⟨b, h⟩
    unfold compileSpec at h
    split at h
    · cases h
    · rename_i j hj
      split at h
      · cases h
      · rename_i m hm
        obtain ⟨its, h1, _⟩ := readRepr_iff.mp hm
        exact ⟨j, its, hj, h1⟩
  · rintro ⟨j, its, hj, hs⟩
    obtain ⟨m, h, _⟩ := key j its hj hs
    exact ⟨_, h⟩

/-- C78: JSON says at most one specification. -/
theorem C78_unambiguous (j : Json) (its its' : List (Text × SugarItem)) (h : SaysRepr j its) (h' : SaysRepr j its') : its = its' := by
  obtain ⟨o, h1, h2⟩ := h
  obtain ⟨o', h1', h2'⟩ := h'
  have := structFields_iff.mpr h1
  rw [structFields_iff.mpr h1'] at this
  injection this with this; injection this with this; injection this with this; injection this with this; subst this
  have := readEntries_iff.mpr h2
  rw [readEntries_iff.mpr h2'] at this
  injection this with this
  exact this.symm

/-- C78: converting through the WASM interface with a compiled specification is converting with the specification that the
JSON says.  `utf8`, `json` and the pair `bytes`/`decode` are the readings done by libraries; of the pair it is used that
reading what was written gives the same lookups, and that something is written. -/
theorem C78_convert (json : List Nat → Except Text Json) (bytes : HMap SpecItem → List Nat) (decode : List Nat → CommandSpec)
    (message : Json → Text) (utf8 : List Nat → Except Text Text) (conv : Text → Option CommandSpec → Res Text)
    (hb : ∀ m, decode (bytes m) = specOfMap m) (hne : ∀ m, bytes m ≠ [])
    (input spec : List Nat) (t : Text) (j : Json) (its : List (Text × SugarItem)) (s : CommandSpec)
    (hu : utf8 input = .ok t) (hj : json spec = .ok j) (hs : SaysRepr j its) (hk : Knows s its) :
    ∃ b, compileSpec json bytes message spec = .ok b ∧ wasmConvert decode utf8 conv input b = conv t (some s) := by
  obtain ⟨m, h1, h2⟩ := (C78_compile json bytes message spec).2 j its hj hs
  refine ⟨bytes m, h1, ?_⟩
  unfold wasmConvert extractSpec
  rw [hu]; dsimp only
  have : (bytes m).isEmpty = false := by
    cases hx : bytes m with
    | nil => exact absurd hx (hne m)
    | cons => rfl
  rw [this, hb m, C78_determined _ _ its h2 hk]; rfl

/-- C78: the default specification is generated from the answer of `typst query` exactly if that is one labelled list of
packages; it then knows the entries of the packages, those of later packages winning. -/
theorem C78_generate (j : Json) :
    ((∃ m, generate j = some m) ↔ ∃ q l pkgs, j = .arr [q] ∧ Structure [t!"value"] [some (.arr l)] q ∧ Packages l pkgs) ∧
    ∀ q l pkgs, j = .arr [q] → Structure [t!"value"] [some (.arr l)] q → Packages l pkgs →
      ∃ m, generate j = some m ∧ Knows (specOfMap m) pkgs.flatten := by
  have key : ∀ q l pkgs, j = .arr [q] → Structure [t!"value"] [some (.arr l)] q → Packages l pkgs →
      ∃ m, generate j = some m ∧ Knows (specOfMap m) pkgs.flatten := by
    rintro q l pkgs rfl hq hp
    obtain ⟨ps, h1, h2⟩ := readPackages_iff.mpr ⟨pkgs, hp, rfl⟩
    refine ⟨canonRepr (mergePackages (ps.map Prod.snd)), ?_, knows_of fun n => ?_⟩
    · rw [generate, readQueryItem, structFields_iff.mpr hq]; dsimp only
      rw [readPackagesVec, h1]; rfl
    · have hnd : ∀ p ∈ ps.map Prod.snd, (p.map Prod.fst).Nodup := by
        rw [h2]; intro p hp
        obtain ⟨its, _, rfl⟩ := List.mem_map.mp hp
        exact mapOf_nodup its
      have hm : ((mergePackages (ps.map Prod.snd)).map Prod.fst).Nodup := by
        unfold mergePackages
        have h1 : ∀ (its : HMap SugarItem) (m : HMap SugarItem), (m.map Prod.fst).Nodup →
            ((its.foldl (fun acc e => HMap.insert acc e.1 e.2) m).map Prod.fst).Nodup := by
          intro its
          induction its with
          | nil => intro m h; exact h
          | cons e es ih => intro m h; exact ih _ (HMap.insert_nodup _ _ _ h)
        have : ∀ (l : List (HMap SugarItem)) (acc : HMap SugarItem), (acc.map Prod.fst).Nodup →
            ((l.foldl (fun acc pkg => pkg.foldl (fun acc e => HMap.insert acc e.1 e.2) acc) acc).map Prod.fst).Nodup := by
          intro l
          induction l with
          | nil => intro acc h; exact h
          | cons p l ih => intro acc h; exact ih _ (h1 p acc h)
        exact this _ [] (by simp)
      rw [C50_canonicalise _ hm, C51_merge _ hnd, h2]
      congr 1
      clear hnd hm h2 h1 hp hq
      induction pkgs with
      | nil => rfl
      | cons p pkgs ih =>
        have happ : ∀ (a b : List (Text × SugarItem)), lastOf n (a ++ b) = (lastOf n b).or (lastOf n a) := by
          intro a b
          induction a with
          | nil => simp [lastOf]
          | cons e a ih => rw [List.cons_append, lastOf_cons, ih, lastOf_cons, Option.or_assoc]
        rw [List.map_cons, lastDefinition, ih, List.flatten_cons, happ, mapOf_get]
        cases lastOf n pkgs.flatten <;> rfl
  refine ⟨⟨?_, ?_⟩, key⟩
  · rintro ⟨m, h⟩
    match j, h with
    | .arr [q], h =>
      rw [generate, readQueryItem] at h
      obtain ⟨ps, h1, _⟩ := Option.map_eq_some_iff.mp h
      split at h1
      · rename_i v hs
        match v, h1 with
        | some (.arr l), h1 =>
          obtain ⟨pkgs, h2, _⟩ := readPackages_iff.mp ⟨ps, h1, rfl⟩
          exact ⟨q, l, pkgs, rfl, structFields_iff.mp hs, h2⟩
      · cases h1
  · rintro ⟨q, l, pkgs, hj, hq, hp⟩
    obtain ⟨m, h, _⟩ := key q l pkgs hj hq hp
    exact ⟨m, h⟩

/-- C78: the order of members, members without meaning and all this at any depth make no difference for an item. -/
theorem C78_alike (j j' : Json) (h : Alike j j') (it : SugarItem) : (readItem j = some it ↔ Says j it) ∧ (Says j it ↔ Says j' it) :=
  ⟨readItem_iff, fun hs => hs.alike h, fun hs => hs.alike h.symm⟩

/-- C78: lengths read from JSON are bytes. -/
theorem C78_bytes (j : Json) (it : SugarItem) (h : Says j it) : itemFits it := by
  have hp : ∀ {j p}, SaysPattern j p → patternFits p := by
    intro j p h
    cases h with
    | fixedLen _ h => exact h
    | rangeLen _ h h' => exact ⟨h, h'⟩
    | _ => trivial
  cases h with
  | cmd _ h _ =>
    cases h with
    | right _ h => exact hp h
    | _ => trivial
  | env _ h _ _ => exact hp h
  | _ => trivial

theorem has_here (k : Text) (v : Json) (l : List (Text × Json)) (h : ∀ e ∈ l, e.1 ≠ k) : Has ((k, v) :: l) k v :=
  ⟨[], l, rfl, by simp, h⟩

/-- C78: what is written (`default.json`, `packages.json`) is read back as it was. -/
theorem C78_written (it : SugarItem) (h : itemFits it) : Says (writeItem it) it := by
  have hp : ∀ p, patternFits p → readPattern (some (writePattern p)) = some p := by
    intro p h
    have u8 : ∀ n : Nat, n < 256 → readU8 (some (.int n)) = some n := fun n hn => readU8_iff.mpr ⟨rfl, hn⟩
    cases p with
    | fixedLen n => exact congrArg (Option.map ArgPattern.fixedLen) (u8 n h)
    | rangeLen a b =>
      show (match readU8 (some (.int a)), readU8 (some (.int b)) with
          | some a, some b => some (ArgPattern.rangeLen a b)
          | _, _ => none) = _
      rw [u8 a h.1, u8 b h.2]
    | _ => rfl
  have hf : ∀ f, readFeature (some (writeFeature f)) = some f := by intro f; cases f <;> rfl
  have ho : ∀ a, readOption (some (writeOption a)) = some a := by intro a; cases a <;> rfl
  apply readItem_iff.mp
  cases it with
  | cmd s =>
    obtain ⟨a, al⟩ := s
    have hs : readShape (some (writeShape a)) = some a := by
      cases a with
      | right p => exact congrArg (Option.map ArgShape.right) (hp p h)
      | _ => rfl
    show Option.map SugarItem.cmd (match readShape (some (writeShape a)), readOption (some (writeOption al)) with
      | some a, some al => some ⟨a, al⟩
      | _, _ => none) = _
    rw [hs, ho]; rfl
  | env s =>
    obtain ⟨a, f, al⟩ := s
    show Option.map SugarItem.env (match readPattern (some (writePattern a)), readFeature (some (writeFeature f)), readOption (some (writeOption al)) with
      | some a, some f, some al => some ⟨a, f, al⟩
      | _, _, _ => none) = _
    rw [hp a h, hf, ho]; rfl
  | envGlob p a c =>
    show (match readText (some (.str p)), readText (some (.str a)), readFeature (some (writeFeature c)) with
        | some p, some al, some f => some (SugarItem.envGlob p al f)
        | _, _, _ => none) = _
    rw [hf]; rfl
  | _ => rfl

/-- C78: a specification written as `default.json` and read again is the same. -/
theorem C78_written_repr (m : HMap SugarItem) (hm : (m.map Prod.fst).Nodup) (h : ∀ e ∈ m, itemFits e.2) :
    SaysRepr (writeRepr m) m ∧ ∀ n it, LastEntry m n it ↔ m.get n = some it := by
  refine ⟨⟨m.map fun e => (e.1, writeItem e.2), .object (.given (has_here _ _ _ (by simp)) .nil), ?_⟩, ?_⟩
  · clear hm
    induction m with
    | nil => exact .nil
    | cons e m ih => exact .cons (C78_written e.2 (h e (by simp))) (ih fun e he => h e (by simp [he]))
  · intro n it
    rw [lookup_eq_lastOf m n hm, lastOf_entry]

/-- C78: what the helpers of packages/mitex/specs/prelude.typ say.  The numbers are bytes. -/
theorem C78_helpers (s pat : Text) (alias : Option Text) (n : Nat) (hn : n < 256) (f : CtxFeature) :
    Says (defineSym s) (.symAlias s) ∧ Says (defineGreedyCmd s) (.cmdGreedy s) ∧ Says (defineInfixCmd s) (.cmdInfix s) ∧
    Says (defineGlobCmd pat s) (.cmdGlob pat s) ∧ Says (defineCmd n alias) (.cmd ⟨.right (.fixedLen n), alias⟩) ∧
    Says (defineEnv (some n) (featureName f) alias) (.env ⟨.fixedLen n, f, alias⟩) ∧
    Says (defineEnv none (featureName f) alias) (.env ⟨.none, f, alias⟩) ∧
    Says (defineGlobEnv' pat (featureName f) (some s)) (.envGlob pat s f) ∧
    Says sym .symbol ∧ Says (left1Op alias) (.cmd ⟨.left1, alias⟩) ∧ Says cmd1 .command1 ∧ Says cmd2 .command2 ∧ Says matrixEnv .envMatrix := by
  refine ⟨C78_written (.symAlias s) trivial, C78_written (.cmdGreedy s) trivial, C78_written (.cmdInfix s) trivial,
    C78_written (.cmdGlob pat s) trivial, C78_written (.cmd ⟨.right (.fixedLen n), alias⟩) hn, ?_, ?_, ?_,
    C78_written .symbol trivial, C78_written (.cmd ⟨.left1, alias⟩) trivial, C78_written .command1 trivial, C78_written .command2 trivial,
    C78_written .envMatrix trivial⟩
  · have := C78_written (.env ⟨.fixedLen n, f, alias⟩) hn
    cases f <;> exact this
  · have := C78_written (.env ⟨.none, f, alias⟩) trivial
    cases f <;> exact this
  · have := C78_written (.envGlob pat s f) trivial
    have ho : ∀ x, Alike (.obj [(t!"kind", .str t!"glob-env"), (t!"pattern", .str pat), (t!"alias", .str s), (t!"ctx_feature", x)])
        (.obj [(t!"kind", .str t!"glob-env"), (t!"pattern", .str pat), (t!"ctx_feature", x), (t!"alias", .str s)]) :=
      fun x => .order (.cons _ (.cons _ (.swap _ _ _)))
    cases f <;> exact this.alike (ho _)

/-- C78: what is refused: an unknown kind, a number of arguments that is no byte, and (a defect) an environment made by
`define-glob-env` without alias, although the alias of the helper is optional. -/
theorem C78_refused (j : Json) (it : SugarItem) :
    (∀ o k, j = .obj o → Has o t!"kind" (.str k) → k ∉ kindsOfItem → ¬ Says j it) ∧
    (∀ o, j = .obj o → Lacks o t!"kind" → ¬ Says j it) ∧
    (∀ (n : Int) alias, n < 0 ∨ 255 < n → j = defineCmd n alias → ¬ Says j it) ∧
    (∀ pat kind, j = defineGlobEnv' pat kind none → ¬ Says j it) := by
  refine ⟨?_, ?_, ?_, ?_⟩
  · rintro o k rfl hk hn hs
    have := readItem_iff.mpr hs
    rw [readItem] at this
    cases ht : tagged false itemKinds (.obj o) with
    | none => rw [ht] at this; cases this
    | some r =>
      obtain ⟨t, c⟩ := r
      have hf := fieldOf_has.mpr hk
      unfold fieldOf at hf
      rw [tagged] at ht
      split at hf
      · cases hf
      · rename_i e he
        injection hf with hf; injection hf with hf
        rw [he] at ht; dsimp only at ht
        rw [hf, variantName, if_neg (by simpa using hn)] at ht
        cases ht
      · cases hf
  · rintro o rfl hl hs
    have := readItem_iff.mpr hs
    have hf := fieldOf_lacks.mpr hl
    unfold fieldOf at hf
    rw [readItem, tagged] at this
    split at hf
    · rename_i he
      rw [he] at this; cases this
    · cases hf
    · cases hf
  · rintro n alias hn rfl hs
    have := readItem_iff.mpr hs
    have hu : readU8 (some (.int n)) = none := by rw [readU8, if_neg (by omega)]
    have hr : readItem (defineCmd n alias) = Option.map SugarItem.cmd (match Option.map ArgShape.right (Option.map ArgPattern.fixedLen (readU8 (some (.int n)))),
        readOption (some (typstOption alias)) with
      | some a, some al => some ⟨a, al⟩
      | _, _ => none) := rfl
    rw [hr, hu] at this
    cases this
  · rintro pat kind rfl hs
    have := readItem_iff.mpr hs
    have hr : readItem (defineGlobEnv' pat kind none) = none := rfl
    rw [hr] at this
    cases this

/-- Satisfiability: a specification in disorder, with a comment and a repeated name, and the one it stands for. -/
theorem C78_example :
    ∃ its, SaysRepr (.obj [(t!"comment", .int 1), (t!"commands", .obj [
        (t!"over", sym),
        (t!"mysqrt", .obj [(t!"alias", .str t!"root"), (t!"note", .null), (t!"pattern", .str t!"{,b}t"), (t!"kind", .str t!"glob-cmd")]),
        (t!"hat", .obj [(t!"kind", .str t!"cmd"), (t!"args", .obj [(t!"pattern", .obj [(t!"len", .int 1), (t!"kind", .int 1)]), (t!"kind", .str t!"right")])]),
        (t!"over", .arr [.str t!"infix-cmd", .str t!"frac"])])]) its ∧
      LastEntry its t!"over" (.cmdInfix t!"frac") ∧ LastEntry its t!"mysqrt" (.cmdGlob t!"{,b}t" t!"root") ∧
      LastEntry its t!"hat" (.cmd ⟨.right (.fixedLen 1), none⟩) := by
  refine ⟨[(t!"over", .symbol), (t!"mysqrt", .cmdGlob t!"{,b}t" t!"root"), (t!"hat", .cmd ⟨.right (.fixedLen 1), none⟩), (t!"over", .cmdInfix t!"frac")],
    ⟨_, structFields_iff.mp rfl, readEntries_iff.mp rfl⟩, ⟨[_, _, _], [], rfl, by simp⟩, ⟨[_], [_, _], rfl, by decide⟩, ⟨[_, _], [_], rfl, by decide⟩⟩

/-! ### The default specification -/

/-- The number of arguments is a byte, as a computation. -/
def patternByte : ArgPattern → Bool
  | .fixedLen n => decide (n < 256)
  | .rangeLen a b => decide (a < 256) && decide (b < 256)
  | _ => true

/-- C78: the default specification is generated from the standard package: whatever else the answer of `typst query` says (the
label, the scope of the package), if the package's specification says the entries of the standard package then the generated
specification is the default one. -/
theorem C78_default (q spec : Json) (l : List Json) (name : Text) (hq : Structure [t!"value"] [some (.arr l)] q)
    (p : Json) (hl : l = [p]) (hp : Structure [t!"name", t!"spec"] [some (.str name), some spec] p) (hs : SaysRepr spec standardPackage) :
    ∃ m, generate (.arr [q]) = some m ∧ specOfMap m = defaultSpec := by
  subst hl
  obtain ⟨m, h1, h2⟩ := (C78_generate (.arr [q])).2 q [p] [standardPackage] rfl hq (.cons ⟨spec, hp, hs⟩ .nil)
  refine ⟨m, h1, C78_determined _ _ _ h2 (knows_of fun n => ?_)⟩
  unfold defaultSpec specOfMap defaultItems
  rw [List.flatten_cons, List.flatten_nil, List.append_nil, ← lastOf_map, ← lookup_eq_lastOf]
  rw [List.map_map]
  exact standardPackage_nodup

/-- Satisfiability of `C78_default`: the answer with the standard package as written. -/
theorem C78_default_answer (scope func : Json) :
    ∃ m, generate (.arr [.obj [(t!"func", func), (t!"value", .arr [.obj [(t!"name", .str t!"latex-std"), (t!"spec", writeRepr standardPackage),
      (t!"scope", scope)]]), (t!"label", .str t!"<mitex-packages>")]]) = some m ∧ specOfMap m = defaultSpec := by
  refine C78_default _ (writeRepr standardPackage) _ t!"latex-std" (structFields_iff.mp rfl) _ rfl (structFields_iff.mp rfl)
    (C78_written_repr _ standardPackage_nodup ?_).1
  have hall : standardPackage.all (fun e => match e.2 with
      | .cmd ⟨.right p, _⟩ => patternByte p
      | .env s => patternByte s.args
      | _ => true) = true := by decide +kernel
  have hb : ∀ p, patternByte p = true → patternFits p := by
    intro p h
    cases p with
    | fixedLen n => rw [patternByte, decide_eq_true_eq] at h; exact h
    | rangeLen a b => rw [patternByte, Bool.and_eq_true, decide_eq_true_eq, decide_eq_true_eq] at h; exact h
    | _ => trivial
  intro e he
  have := List.all_eq_true.mp hall e he
  obtain ⟨n, it⟩ := e
  cases it with
  | cmd s =>
    obtain ⟨a, al⟩ := s
    cases a with
    | right p => exact hb p this
    | _ => trivial
  | env s => exact hb _ this
  | _ => trivial

end Mitex
