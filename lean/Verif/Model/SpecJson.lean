/-
Model of the JSON form of specifications: what the `serde` derives of crates/mitex-spec/src/lib.rs and
crates/mitex-spec/src/query.rs accept and produce (serde 1.0.204, serde_json 1.0.121), `compile_spec` of
crates/mitex-wasm/src/lib.rs, `generate` of crates/mitex-spec-gen/build.rs and the helpers of
packages/mitex/specs/prelude.typ.

The model starts from JSON values; reading JSON text (including its recursion limit) belongs to
serde_json and is a parameter.  Error messages are dropped: `none` is an error.
-/
import Verif.Model.Cli

namespace Mitex

/-- A JSON value, as serde_json delivers it.  An object keeps its members in order, repeated ones too (they are
delivered one by one to the visitor).  `int` is a number written as an integer that fits 64 bits, `float` any other number. -/
inductive Json where
  | null
  | bool (b : Bool)
  | int (n : Int)
  | float (written : Text)
  | str (s : Text)
  | arr (l : List Json)
  | obj (l : List (Text × Json))

namespace SpecJson

/-- `#[derive(Deserialize)]` of a structure, `visit_map`: the value of one field; a second one is the error `duplicate_field`. -/
def fieldOf (o : List (Text × Json)) (k : Text) : Option (Option Json) :=
  match o.filter fun e => e.1 = k with
  | [] => some none
  | [e] => some (some e.2)
  | _ => none

/-- All fields of a structure; members with other names are skipped. -/
def fieldsOf (o : List (Text × Json)) : List Text → Option (List (Option Json))
  | [] => some []
  | k :: ks => match fieldOf o k, fieldsOf o ks with
    | some v, some vs => some (v :: vs)
    | _, _ => none

/-- The visitor of a structure with the given field names: `visit_map` for an object, `visit_seq` for an array, which must
have exactly one element for each field (`invalid_length`, `SeqDeserializer::end`). -/
def structFields (names : List Text) : Json → Option (List (Option Json))
  | .obj o => fieldsOf o names
  | .arr l => if l.length = names.length then some (l.map some) else none
  | _ => none

/-- The identifier of a variant: its name, or, where the value comes out of a buffer (`nested`: inside another tagged value),
also its index (`ContentDeserializer::deserialize_identifier`). -/
def variantName (nested : Bool) (variants : List Text) : Json → Option Text
  | .str s => if variants.contains s then some s else none
  | .int n => if nested && decide (0 ≤ n) then variants[n.toNat]? else none
  | _ => none

/-- `#[serde(tag = "kind")]`, `TaggedContentVisitor`: the variant and what is left for it.  In an object the tag is the one
member `kind`; in an array it is the first element. -/
def tagged (nested : Bool) (variants : List Text) : Json → Option (Text × Json)
  | .obj o => match o.filter fun e => e.1 = t!"kind" with
    | [e] => (variantName nested variants e.2).map fun t => (t, .obj (o.filter fun e => e.1 ≠ t!"kind"))
    | _ => none
  | .arr (v :: rest) => (variantName nested variants v).map fun t => (t, .arr rest)
  | _ => none

/-- `u8`: an integer from 0 to 255; a missing field is an error. -/
def readU8 : Option Json → Option Nat
  | some (.int n) => if 0 ≤ n ∧ n ≤ 255 then some n.toNat else none
  | _ => none

/-- `String` (and `GlobStr`, lib.rs:193-199): a string; a missing field is an error. -/
def readText : Option Json → Option Text
  | some (.str s) => some s
  | _ => none

/-- `Option<String>`: missing and `null` are `None`. -/
def readOption : Option Json → Option (Option Text)
  | none => some none
  | some .null => some none
  | some (.str s) => some (some s)
  | some _ => none

/-- The variants of `ArgPattern`, lib.rs:229-283. -/
abbrev patternKinds : List Text := [t!"none", t!"fixed-len", t!"range-len", t!"greedy", t!"glob"]
/-- The variants of `ArgShape`, lib.rs:285-321. -/
abbrev shapeKinds : List Text := [t!"right", t!"left1", t!"infix-greedy"]
/-- The variants of `ContextFeature`, lib.rs:323-354. -/
abbrev featureKinds : List Text :=
  [t!"none", t!"is-math", t!"is-matrix", t!"is-cases", t!"is-figure", t!"is-table", t!"is-itemize", t!"is-enumerate"]
/-- The variants of `query::CommandSpecItem`, query.rs:29-98. -/
abbrev itemKinds : List Text :=
  [t!"cmd", t!"env", t!"sym", t!"cmd0", t!"cmd1", t!"cmd2", t!"left1-cmd", t!"matrix-env", t!"normal-env", t!"glob-env",
   t!"alias-sym", t!"greedy-cmd", t!"infix-cmd", t!"glob-cmd"]

/-- A variant without fields: everything in an object is skipped, an array must be used up (`InternallyTaggedUnitVisitor`). -/
def unitVariant {α : Type} (a : α) (c : Json) : Option α :=
  match structFields [] c with
  | some _ => some a
  | none => none

/-- lib.rs:229-283 `Deserialize for ArgPattern`. -/
def readPattern : Option Json → Option ArgPattern
  | none => none
  | some j => match tagged true patternKinds j with
    | none => none
    | some (k, c) =>
      if k = t!"none" then unitVariant .none c
      else if k = t!"fixed-len" then match structFields [t!"len"] c with
        | some [l] => (readU8 l).map .fixedLen
        | _ => none
      else if k = t!"range-len" then match structFields [t!"min", t!"max"] c with
        | some [a, b] => match readU8 a, readU8 b with
          | some a, some b => some (.rangeLen a b)
          | _, _ => none
        | _ => none
      else if k = t!"greedy" then unitVariant .greedy c
      else match structFields [t!"pattern"] c with
        | some [p] => (readText p).map .glob
        | _ => none

/-- lib.rs:285-321 `Deserialize for ArgShape`. -/
def readShape : Option Json → Option ArgShape
  | none => none
  | some j => match tagged true shapeKinds j with
    | none => none
    | some (k, c) =>
      if k = t!"right" then match structFields [t!"pattern"] c with
        | some [p] => (readPattern p).map .right
        | _ => none
      else if k = t!"left1" then unitVariant .left1 c
      else unitVariant .infixGreedy c

/-- lib.rs:323-354 `Deserialize for ContextFeature`. -/
def readFeature : Option Json → Option CtxFeature
  | none => none
  | some j => match tagged true featureKinds j with
    | none => none
    | some (k, c) =>
      if k = t!"none" then unitVariant .none c
      else if k = t!"is-math" then unitVariant .isMath c
      else if k = t!"is-matrix" then unitVariant .isMatrix c
      else if k = t!"is-cases" then unitVariant .isCases c
      else if k = t!"is-figure" then unitVariant .isFigure c
      else if k = t!"is-table" then unitVariant .isTable c
      else if k = t!"is-itemize" then unitVariant .isItemize c
      else unitVariant .isEnumerate c

/-- lib.rs:135-146 `Deserialize for CmdShape`. -/
def readCmd (c : Json) : Option CmdShape :=
  match structFields [t!"args", t!"alias"] c with
  | some [a, al] => match readShape a, readOption al with
    | some a, some al => some ⟨a, al⟩
    | _, _ => none
  | _ => none

/-- lib.rs:148-163 `Deserialize for EnvShape`. -/
def readEnv (c : Json) : Option EnvShape :=
  match structFields [t!"args", t!"ctx_feature", t!"alias"] c with
  | some [a, f, al] => match readPattern a, readFeature f, readOption al with
    | some a, some f, some al => some ⟨a, f, al⟩
    | _, _, _ => none
  | _ => none

/-- query.rs:25-98 `Deserialize for query::CommandSpecItem`. -/
def readItem (j : Json) : Option SugarItem :=
  match tagged false itemKinds j with
  | none => none
  | some (k, c) =>
    if k = t!"cmd" then (readCmd c).map .cmd
    else if k = t!"env" then (readEnv c).map .env
    else if k = t!"sym" then unitVariant .symbol c
    else if k = t!"cmd0" then unitVariant .command0 c
    else if k = t!"cmd1" then unitVariant .command1 c
    else if k = t!"cmd2" then unitVariant .command2 c
    else if k = t!"left1-cmd" then unitVariant .cmdLeft1 c
    else if k = t!"matrix-env" then unitVariant .envMatrix c
    else if k = t!"normal-env" then unitVariant .envNormal c
    else if k = t!"glob-env" then match structFields [t!"pattern", t!"alias", t!"ctx_feature"] c with
      | some [p, al, f] => match readText p, readText al, readFeature f with
        | some p, some al, some f => some (.envGlob p al f)
        | _, _, _ => none
      | _ => none
    else if k = t!"alias-sym" then match structFields [t!"alias"] c with
      | some [al] => (readText al).map .symAlias
      | _ => none
    else if k = t!"greedy-cmd" then match structFields [t!"alias"] c with
      | some [al] => (readText al).map .cmdGreedy
      | _ => none
    else if k = t!"infix-cmd" then match structFields [t!"alias"] c with
      | some [al] => (readText al).map .cmdInfix
      | _ => none
    else match structFields [t!"pattern", t!"alias"] c with
      | some [p, al] => match readText p, readText al with
        | some p, some al => some (.cmdGlob p al)
        | _, _ => none
      | _ => none

/-- The entries of a map, read one by one. -/
def readEntries : List (Text × Json) → Option (List (Text × SugarItem))
  | [] => some []
  | e :: es => match readItem e.2, readEntries es with
    | some it, some r => some ((e.1, it) :: r)
    | _, _ => none

/-- `HashMap<String, CommandSpecItem>`: an object; a repeated key replaces the entry. -/
def readMap : Option Json → Option (HMap SugarItem)
  | some (.obj o) => (readEntries o).map fun es => es.foldl (fun acc e => acc.insert e.1 e.2) []
  | _ => none

/-- query.rs:129-142 `Deserialize for query::CommandSpecRepr`. -/
def readRepr : Option Json → Option (HMap SugarItem)
  | none => none
  | some j => match structFields [t!"commands"] j with
    | some [m] => readMap m
    | _ => none

/-- query.rs:10-17 `Deserialize for PackageSpec`. -/
def readPackage (j : Json) : Option (Text × HMap SugarItem) :=
  match structFields [t!"name", t!"spec"] j with
  | some [n, s] => match readText n, readRepr s with
    | some n, some s => some (n, s)
    | _, _ => none
  | _ => none

/-- The elements of a `Vec<PackageSpec>`. -/
def readPackages : List Json → Option (List (Text × HMap SugarItem))
  | [] => some []
  | j :: js => match readPackage j, readPackages js with
    | some p, some ps => some (p :: ps)
    | _, _ => none

/-- query.rs:19-23 `Deserialize for PackagesVec`. -/
def readPackagesVec : Option Json → Option (List (Text × HMap SugarItem))
  | some (.arr l) => readPackages l
  | _ => none

/-- build.rs:97-100 `QueryItem<PackagesVec>`. -/
def readQueryItem (j : Json) : Option (List (Text × HMap SugarItem)) :=
  match structFields [t!"value"] j with
  | some [v] => readPackagesVec v
  | _ => none

/-- build.rs:104-140 `generate`: from the answer of `typst query` to the canonical items of `default.rkyv`; every failure
(unreadable answer, not exactly one label) ends the build.  The answer is read whole before its length is looked at. -/
def generate : Json → Option (HMap SpecItem)
  | .arr [j] => (readQueryItem j).map fun pkgs => canonRepr (mergePackages (pkgs.map Prod.snd))
  | _ => none

/-- mitex-wasm/src/lib.rs:32-37 `compile_spec`; `json` is the reading of JSON text, `bytes` is `CommandSpec::to_bytes`
(rkyv), `message` the error message of serde. -/
def compileSpec (json : List Nat → Except Text Json) (bytes : HMap SpecItem → List Nat) (message : Json → Text)
    (input : List Nat) : Except Text (List Nat) :=
  match json input with
  | .error e => .error e
  | .ok j => match readRepr (some j) with
    | none => .error (message j)
    | some m => .ok (bytes (canonRepr m))

/-! ### `#[derive(Serialize)]` -/

/-- `Option<String>`: `None` is `null`. -/
def writeOption : Option Text → Json
  | none => .null
  | some s => .str s

/-- lib.rs:229-283 `Serialize for ArgPattern`. -/
def writePattern : ArgPattern → Json
  | .none => .obj [(t!"kind", .str t!"none")]
  | .fixedLen n => .obj [(t!"kind", .str t!"fixed-len"), (t!"len", .int n)]
  | .rangeLen a b => .obj [(t!"kind", .str t!"range-len"), (t!"min", .int a), (t!"max", .int b)]
  | .greedy => .obj [(t!"kind", .str t!"greedy")]
  | .glob p => .obj [(t!"kind", .str t!"glob"), (t!"pattern", .str p)]

/-- lib.rs:285-321 `Serialize for ArgShape`. -/
def writeShape : ArgShape → Json
  | .right p => .obj [(t!"kind", .str t!"right"), (t!"pattern", writePattern p)]
  | .left1 => .obj [(t!"kind", .str t!"left1")]
  | .infixGreedy => .obj [(t!"kind", .str t!"infix-greedy")]

/-- lib.rs:323-354 `Serialize for ContextFeature`. -/
def writeFeature (f : CtxFeature) : Json :=
  .obj [(t!"kind", .str (match f with
    | .none => t!"none" | .isMath => t!"is-math" | .isMatrix => t!"is-matrix" | .isCases => t!"is-cases"
    | .isFigure => t!"is-figure" | .isTable => t!"is-table" | .isItemize => t!"is-itemize" | .isEnumerate => t!"is-enumerate"))]

/-- query.rs:25-98 `Serialize for query::CommandSpecItem`. -/
def writeItem : SugarItem → Json
  | .cmd s => .obj [(t!"kind", .str t!"cmd"), (t!"args", writeShape s.args), (t!"alias", writeOption s.alias)]
  | .env s => .obj [(t!"kind", .str t!"env"), (t!"args", writePattern s.args), (t!"ctx_feature", writeFeature s.ctx),
      (t!"alias", writeOption s.alias)]
  | .symbol => .obj [(t!"kind", .str t!"sym")]
  | .command0 => .obj [(t!"kind", .str t!"cmd0")]
  | .command1 => .obj [(t!"kind", .str t!"cmd1")]
  | .command2 => .obj [(t!"kind", .str t!"cmd2")]
  | .cmdLeft1 => .obj [(t!"kind", .str t!"left1-cmd")]
  | .envMatrix => .obj [(t!"kind", .str t!"matrix-env")]
  | .envNormal => .obj [(t!"kind", .str t!"normal-env")]
  | .envGlob p a c => .obj [(t!"kind", .str t!"glob-env"), (t!"pattern", .str p), (t!"alias", .str a), (t!"ctx_feature", writeFeature c)]
  | .symAlias a => .obj [(t!"kind", .str t!"alias-sym"), (t!"alias", .str a)]
  | .cmdGreedy a => .obj [(t!"kind", .str t!"greedy-cmd"), (t!"alias", .str a)]
  | .cmdInfix a => .obj [(t!"kind", .str t!"infix-cmd"), (t!"alias", .str a)]
  | .cmdGlob p a => .obj [(t!"kind", .str t!"glob-cmd"), (t!"pattern", .str p), (t!"alias", .str a)]

/-- query.rs:129-142 `Serialize for query::CommandSpecRepr` (build.rs:133-138, `default.json`), in the iteration order of the map. -/
def writeRepr (m : HMap SugarItem) : Json :=
  .obj [(t!"commands", .obj (m.map fun e => (e.1, writeItem e.2)))]

/-! ### The helpers of packages/mitex/specs/prelude.typ

Only the specification half of the pair they return; Typst turns dictionaries into objects, `none` into `null`. -/

/-- A Typst value that is a string or `none`. -/
def typstOption : Option Text → Json := writeOption

/-- prelude.typ:11-20 `define-sym`. -/
def defineSym (s : Text) : Json := .obj [(t!"kind", .str t!"alias-sym"), (t!"alias", .str s)]
/-- prelude.typ:32-41 `define-greedy-cmd`. -/
def defineGreedyCmd (s : Text) : Json := .obj [(t!"kind", .str t!"greedy-cmd"), (t!"alias", .str s)]
/-- prelude.typ:53-62 `define-infix-cmd`. -/
def defineInfixCmd (s : Text) : Json := .obj [(t!"kind", .str t!"infix-cmd"), (t!"alias", .str s)]
/-- prelude.typ:80-89 `define-glob-cmd`. -/
def defineGlobCmd (pat s : Text) : Json := .obj [(t!"kind", .str t!"glob-cmd"), (t!"pattern", .str pat), (t!"alias", .str s)]
/-- prelude.typ:101-114 `define-cmd`. -/
def defineCmd (num : Int) (alias : Option Text) : Json :=
  .obj [(t!"kind", .str t!"cmd"),
    (t!"args", .obj [(t!"kind", .str t!"right"), (t!"pattern", .obj [(t!"kind", .str t!"fixed-len"), (t!"len", .int num)])]),
    (t!"alias", typstOption alias)]
/-- prelude.typ:132-150 `define-env`. -/
def defineEnv (num : Option Int) (kind : Text) (alias : Option Text) : Json :=
  .obj [(t!"kind", .str t!"env"),
    (t!"args", match num with
      | some n => .obj [(t!"kind", .str t!"fixed-len"), (t!"len", .int n)]
      | none => .obj [(t!"kind", .str t!"none")]),
    (t!"ctx_feature", .obj [(t!"kind", .str kind)]), (t!"alias", typstOption alias)]
/-- prelude.typ:152-166 `define-glob-env`. -/
def defineGlobEnv' (pat kind : Text) (alias : Option Text) : Json :=
  .obj [(t!"kind", .str t!"glob-env"), (t!"pattern", .str pat), (t!"ctx_feature", .obj [(t!"kind", .str kind)]), (t!"alias", typstOption alias)]
/-- prelude.typ:171 `sym`. -/
def sym : Json := .obj [(t!"kind", .str t!"sym")]
/-- prelude.typ:191 `left1-op`. -/
def left1Op (alias : Option Text) : Json :=
  .obj [(t!"kind", .str t!"cmd"), (t!"args", .obj [(t!"kind", .str t!"left1")]), (t!"alias", typstOption alias)]
/-- prelude.typ:196 `cmd1`. -/
def cmd1 : Json := .obj [(t!"kind", .str t!"cmd1")]
/-- prelude.typ:201 `cmd2`. -/
def cmd2 : Json := .obj [(t!"kind", .str t!"cmd2")]
/-- prelude.typ:206 `matrix-env`. -/
def matrixEnv : Json := .obj [(t!"kind", .str t!"matrix-env")]

/-! ### `process-spec` of packages/mitex/specs/prelude.typ -/

/-- The second half of a definition: `none`, or a dictionary with `handle` and perhaps `alias`.  `α` are the Typst values used
as handles. -/
structure ScopeItem (α : Type) where
  alias : Option Text
  handle : α

/-- prelude.typ:218-223: the key of a handle in the scope. -/
def scopeKey (key : Text) : Option Text → Text
  | some a => match a with
    | '#' :: rest => rest
    | _ => a
  | none => key

/-- `dictionary.insert` of Typst: an existing key keeps its place. -/
def dictInsert {β : Type} : List (Text × β) → Text → β → List (Text × β)
  | [], k, v => [(k, v)]
  | (k', v') :: rest, k, v => if k' = k then (k, v) :: rest else (k', v') :: dictInsert rest k v

/-- prelude.typ:212-227: one definition. -/
def processStep {α : Type} (acc : List (Text × Json) × List (Text × α)) (d : Text × Json × Option (ScopeItem α)) :
    List (Text × Json) × List (Text × α) :=
  (dictInsert acc.1 d.1 d.2.1,
   match d.2.2 with
   | none => acc.2
   | some it => dictInsert acc.2 (scopeKey d.1 it.alias) it.handle)

/-- prelude.typ:209-230 `process-spec`: the dictionaries `spec` and `scope` after the definitions, which come in the order of
the dictionary. -/
def processSpec {α : Type} (defs : List (Text × Json × Option (ScopeItem α))) : List (Text × Json) × List (Text × α) :=
  defs.foldl processStep ([], [])

/-- packages/mitex/specs/mod.typ:7 `packages.map(pkg => pkg.scope).sum()`: dictionaries are added by inserting the entries of
the later one. -/
def mitexScope {α : Type} (scopes : List (List (Text × α))) : List (Text × α) :=
  scopes.foldl (fun acc s => s.foldl (fun acc e => dictInsert acc e.1 e.2) acc) []

end SpecJson
end Mitex
