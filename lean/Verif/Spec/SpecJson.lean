/-
What a JSON value says about a command or an environment (docs/spec.typ and the documentation of
crates/mitex-spec), without reference to how it is read.
-/
import Verif.Model.SpecJson

namespace Mitex.SpecJson

/-- The member `k` is there once, with value `v`. -/
def Has (o : List (Text × Json)) (k : Text) (v : Json) : Prop :=
  ∃ pre post, o = pre ++ (k, v) :: post ∧ (∀ e ∈ pre, e.1 ≠ k) ∧ ∀ e ∈ post, e.1 ≠ k

/-- There is no member `k`. -/
def Lacks (o : List (Text × Json)) (k : Text) : Prop := ∀ e ∈ o, e.1 ≠ k

/-- The members with the given names, in the order of the names; a member is there once or not at all. -/
inductive Members (o : List (Text × Json)) : List Text → List (Option Json) → Prop
  | nil : Members o [] []
  | given {k v ks vs} : Has o k v → Members o ks vs → Members o (k :: ks) (some v :: vs)
  | missing {k ks vs} : Lacks o k → Members o ks vs → Members o (k :: ks) (none :: vs)

/-- A value names a variant: as a string, or (only inside another tagged value) by its position. -/
inductive Names (nested : Bool) (variants : List Text) : Json → Text → Prop
  | word {t} : t ∈ variants → Names nested variants (.str t) t
  | index {i : Nat} {t} : nested = true → variants[i]? = some t → Names nested variants (.int i) t

/-- A structure with the given fields: an object, where other members do not matter, or the array of all values. -/
inductive Structure (names : List Text) : List (Option Json) → Json → Prop
  | object {o vs} : Members o names vs → Structure names vs (.obj o)
  | array {l} : l.length = names.length → Structure names (l.map some) (.arr l)

/-- A value of the given kind with the given fields. -/
inductive Kind (nested : Bool) (variants : List Text) (kind : Text) (names : List Text) : List (Option Json) → Json → Prop
  | object {o v vs} : Has o t!"kind" v → Names nested variants v kind → Members o names vs → Kind nested variants kind names vs (.obj o)
  | array {v l} : Names nested variants v kind → l.length = names.length → Kind nested variants kind names (l.map some) (.arr (v :: l))

/-- The kinds of argument patterns, in the order of their numbers. -/
abbrev kindsOfPattern : List Text := [t!"none", t!"fixed-len", t!"range-len", t!"greedy", t!"glob"]

/-- The kinds of argument shapes. -/
abbrev kindsOfShape : List Text := [t!"right", t!"left1", t!"infix-greedy"]

/-- The kinds of features of environments. -/
abbrev kindsOfFeature : List Text :=
  [t!"none", t!"is-math", t!"is-matrix", t!"is-cases", t!"is-figure", t!"is-table", t!"is-itemize", t!"is-enumerate"]

/-- The kinds of items. -/
abbrev kindsOfItem : List Text :=
  [t!"cmd", t!"env", t!"sym", t!"cmd0", t!"cmd1", t!"cmd2", t!"left1-cmd", t!"matrix-env", t!"normal-env", t!"glob-env",
   t!"alias-sym", t!"greedy-cmd", t!"infix-cmd", t!"glob-cmd"]

/-- An optional text: missing, `null` or a string. -/
inductive Maybe : Option Json → Option Text → Prop
  | missing : Maybe none none
  | null : Maybe (some .null) none
  | text (s) : Maybe (some (.str s)) (some s)

/-- An argument pattern.  Lengths are bytes. -/
inductive SaysPattern : Json → ArgPattern → Prop
  | none {j} : Kind true kindsOfPattern t!"none" [] [] j → SaysPattern j .none
  | fixedLen {j} {n : Nat} : Kind true kindsOfPattern t!"fixed-len" [t!"len"] [some (.int n)] j → n < 256 → SaysPattern j (.fixedLen n)
  | rangeLen {j} {a b : Nat} : Kind true kindsOfPattern t!"range-len" [t!"min", t!"max"] [some (.int a), some (.int b)] j → a < 256 → b < 256 →
      SaysPattern j (.rangeLen a b)
  | greedy {j} : Kind true kindsOfPattern t!"greedy" [] [] j → SaysPattern j .greedy
  | glob {j p} : Kind true kindsOfPattern t!"glob" [t!"pattern"] [some (.str p)] j → SaysPattern j (.glob p)

/-- The shape of the arguments of a command. -/
inductive SaysShape : Json → ArgShape → Prop
  | right {j p pat} : Kind true kindsOfShape t!"right" [t!"pattern"] [some p] j → SaysPattern p pat → SaysShape j (.right pat)
  | left1 {j} : Kind true kindsOfShape t!"left1" [] [] j → SaysShape j .left1
  | infixGreedy {j} : Kind true kindsOfShape t!"infix-greedy" [] [] j → SaysShape j .infixGreedy

/-- The name of a feature. -/
def featureName : CtxFeature → Text
  | .none => t!"none" | .isMath => t!"is-math" | .isMatrix => t!"is-matrix" | .isCases => t!"is-cases"
  | .isFigure => t!"is-figure" | .isTable => t!"is-table" | .isItemize => t!"is-itemize" | .isEnumerate => t!"is-enumerate"

/-- The feature of an environment. -/
def SaysFeature (j : Json) (f : CtxFeature) : Prop := Kind true kindsOfFeature (featureName f) [] [] j

/-- An item of a specification. -/
inductive Says : Json → SugarItem → Prop
  | cmd {j a al shape alias} : Kind false kindsOfItem t!"cmd" [t!"args", t!"alias"] [some a, al] j → SaysShape a shape → Maybe al alias →
      Says j (.cmd ⟨shape, alias⟩)
  | env {j a f al pat ctx alias} : Kind false kindsOfItem t!"env" [t!"args", t!"ctx_feature", t!"alias"] [some a, some f, al] j →
      SaysPattern a pat → SaysFeature f ctx → Maybe al alias → Says j (.env ⟨pat, ctx, alias⟩)
  | symbol {j} : Kind false kindsOfItem t!"sym" [] [] j → Says j .symbol
  | command0 {j} : Kind false kindsOfItem t!"cmd0" [] [] j → Says j .command0
  | command1 {j} : Kind false kindsOfItem t!"cmd1" [] [] j → Says j .command1
  | command2 {j} : Kind false kindsOfItem t!"cmd2" [] [] j → Says j .command2
  | cmdLeft1 {j} : Kind false kindsOfItem t!"left1-cmd" [] [] j → Says j .cmdLeft1
  | envMatrix {j} : Kind false kindsOfItem t!"matrix-env" [] [] j → Says j .envMatrix
  | envNormal {j} : Kind false kindsOfItem t!"normal-env" [] [] j → Says j .envNormal
  | envGlob {j p al f ctx} : Kind false kindsOfItem t!"glob-env" [t!"pattern", t!"alias", t!"ctx_feature"] [some (.str p), some (.str al), some f] j →
      SaysFeature f ctx → Says j (.envGlob p al ctx)
  | symAlias {j al} : Kind false kindsOfItem t!"alias-sym" [t!"alias"] [some (.str al)] j → Says j (.symAlias al)
  | cmdGreedy {j al} : Kind false kindsOfItem t!"greedy-cmd" [t!"alias"] [some (.str al)] j → Says j (.cmdGreedy al)
  | cmdInfix {j al} : Kind false kindsOfItem t!"infix-cmd" [t!"alias"] [some (.str al)] j → Says j (.cmdInfix al)
  | cmdGlob {j p al} : Kind false kindsOfItem t!"glob-cmd" [t!"pattern", t!"alias"] [some (.str p), some (.str al)] j → Says j (.cmdGlob p al)

/-- Named items, one after the other. -/
inductive Entries : List (Text × Json) → List (Text × SugarItem) → Prop
  | nil : Entries [] []
  | cons {k j it es its} : Says j it → Entries es its → Entries ((k, j) :: es) ((k, it) :: its)

/-- A specification with these entries, in this order. -/
def SaysRepr (j : Json) (its : List (Text × SugarItem)) : Prop :=
  ∃ o, Structure [t!"commands"] [some (.obj o)] j ∧ Entries o its

/-- A package. -/
def SaysPackage (j : Json) (name : Text) (its : List (Text × SugarItem)) : Prop :=
  ∃ s, Structure [t!"name", t!"spec"] [some (.str name), some s] j ∧ SaysRepr s its

/-- A list of packages. -/
inductive Packages : List Json → List (List (Text × SugarItem)) → Prop
  | nil : Packages [] []
  | cons {j n p js ps} : SaysPackage j n p → Packages js ps → Packages (j :: js) (p :: ps)

/-- The names of all members that mean something in an item. -/
def knownMembers : List Text :=
  [t!"kind", t!"args", t!"alias", t!"ctx_feature", t!"pattern", t!"len", t!"min", t!"max"]

/-- Two JSON values that differ only in the order of the members of objects and in members without meaning, at any depth. -/
inductive Alike : Json → Json → Prop
  | refl (j) : Alike j j
  | trans {a b c} : Alike a b → Alike b c → Alike a c
  | order {o o'} : o.Perm o' → Alike (.obj o) (.obj o')
  | added {k v pre post} : k ∉ knownMembers → Alike (.obj (pre ++ post)) (.obj (pre ++ (k, v) :: post))
  | removed {k v pre post} : k ∉ knownMembers → Alike (.obj (pre ++ (k, v) :: post)) (.obj (pre ++ post))
  | member {k v v' pre post} : Alike v v' → Alike (.obj (pre ++ (k, v) :: post)) (.obj (pre ++ (k, v') :: post))
  | element {v v' pre post} : Alike v v' → Alike (.arr (pre ++ v :: post)) (.arr (pre ++ v' :: post))

/-- Every length fits a byte. -/
def patternFits : ArgPattern → Prop
  | .fixedLen n => n < 256
  | .rangeLen a b => a < 256 ∧ b < 256
  | _ => True

/-- Every length in the item fits a byte (in the Rust type it always does). -/
def itemFits : SugarItem → Prop
  | .cmd ⟨.right p, _⟩ => patternFits p
  | .env s => patternFits s.args
  | _ => True

end Mitex.SpecJson
