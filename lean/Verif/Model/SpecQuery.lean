/-
Model of crates/mitex-spec/src/query.rs, preludes.rs and the package merge of
crates/mitex-spec-gen/build.rs.
-/
import Verif.Model.Spec

namespace Mitex

/-- query.rs:25-98 `query::CommandSpecItem`: canonical items and sugar. -/
inductive SugarItem where
  | cmd (s : CmdShape)
  | env (s : EnvShape)
  | symbol
  | command0
  | command1
  | command2
  | cmdLeft1
  | envMatrix
  | envNormal
  | envGlob (pattern alias : Text) (ctx : CtxFeature)
  | symAlias (alias : Text)
  | cmdGreedy (alias : Text)
  | cmdInfix (alias : Text)
  | cmdGlob (pattern alias : Text)
  deriving DecidableEq, Repr

/-- preludes.rs:7-14 `define_command`. -/
def defineCommand (len : Nat) : SpecItem := .cmd ⟨.right (.fixedLen len), none⟩

/-- preludes.rs:16-25 `define_glob_command`. -/
def defineGlobCommand (reg alias : Text) : SpecItem := .cmd ⟨.right (.glob reg), some alias⟩

/-- preludes.rs:27-35 `define_glob_env`. -/
def defineGlobEnv (reg alias : Text) (ctx : CtxFeature) : SpecItem := .env ⟨.glob reg, ctx, some alias⟩

/-- preludes.rs:37-44 `define_symbol`. -/
def defineSymbol (alias : Text) : SpecItem := .cmd ⟨.right .none, some alias⟩

/-- preludes.rs:46-53 `define_command_with_alias`. -/
def defineCommandWithAlias (len : Nat) (alias : Text) : SpecItem :=
  .cmd ⟨.right (.fixedLen len), some alias⟩

/-- preludes.rs:55-62 `define_greedy_command`. -/
def defineGreedyCommand (alias : Text) : SpecItem := .cmd ⟨.right .greedy, some alias⟩

/-- preludes.rs:64-72 `define_matrix_env`. -/
def defineMatrixEnv (num : Option Nat) (alias : Text) : SpecItem :=
  .env ⟨(num.map ArgPattern.fixedLen).getD .none, .isMatrix, some alias⟩

/-- preludes.rs:74-82 `define_normal_env`. -/
def defineNormalEnv (num : Option Nat) (alias : Text) : SpecItem :=
  .env ⟨(num.map ArgPattern.fixedLen).getD .none, .none, some alias⟩

/-- preludes.rs:83-85 `define_const_command`. -/
def defineConstCommand (args : ArgShape) : SpecItem := .cmd ⟨args, none⟩

/-- preludes.rs:87-89 `TEX_CMD0`. -/
def texCmd0 : SpecItem := defineConstCommand (.right (.fixedLen 0))
/-- preludes.rs:90-92 `TEX_CMD1`. -/
def texCmd1 : SpecItem := defineConstCommand (.right (.fixedLen 1))
/-- preludes.rs:93-95 `TEX_CMD2`. -/
def texCmd2 : SpecItem := defineConstCommand (.right (.fixedLen 2))
/-- preludes.rs:96-98 `TEX_SYMBOL`. -/
def texSymbol : SpecItem := defineConstCommand (.right .none)
/-- preludes.rs:99 `TEX_LEFT1_OPEARTOR`. -/
def texLeft1 : SpecItem := defineConstCommand .left1
/-- preludes.rs:100-102 `TEX_GREEDY_OPERATOR`. -/
def texGreedy : SpecItem := defineConstCommand (.right .greedy)
/-- preludes.rs:103-104 `TEX_INFIX_OPERATOR`. -/
def texInfix : SpecItem := defineConstCommand .infixGreedy
/-- preludes.rs:105-109 `TEX_MATRIX_ENV`. -/
def texMatrixEnv : SpecItem := .env ⟨.none, .isMatrix, none⟩
/-- preludes.rs:110-114 `TEX_NORMAL_ENV`. -/
def texNormalEnv : SpecItem := .env ⟨.none, .none, none⟩

/-- query.rs:100-127 `From<query::CommandSpecItem> for CommandSpecItem`. -/
def SugarItem.canon : SugarItem → SpecItem
  | .cmd s => .cmd s
  | .env s => .env s
  | .symbol => texSymbol
  | .command0 => texCmd0
  | .command1 => texCmd1
  | .command2 => texCmd2
  | .cmdLeft1 => texLeft1
  | .envMatrix => texMatrixEnv
  | .envNormal => texNormalEnv
  | .envGlob p a c => defineGlobEnv p a c
  | .symAlias a => defineSymbol a
  | .cmdGreedy a => defineGreedyCommand a
  | .cmdInfix a => .cmd ⟨.infixGreedy, some a⟩
  | .cmdGlob p a => defineGlobCommand p a

/-- A `HashMap<String, T>` in some iteration order (no key twice); lookups take the first hit. -/
abbrev HMap (α : Type) := List (Text × α)

/-- `HashMap::insert`: replace the entry of the key or add one. -/
def HMap.insert {α : Type} (m : HMap α) (k : Text) (v : α) : HMap α :=
  (k, v) :: m.filter fun e => e.1 ≠ k

/-- `HashMap::get`. -/
def HMap.get {α : Type} (m : HMap α) (k : Text) : Option α := m.lookup k

/-- query.rs:148-158 `From<query::CommandSpecRepr> for CommandSpecRepr` (`collect` of an iterator
over the entries inserts them one by one). -/
def canonRepr (m : HMap SugarItem) : HMap SpecItem :=
  (m.map fun e => (e.1, e.2.canon)).foldl (fun acc e => acc.insert e.1 e.2) []

/-- crates/mitex-spec-gen/build.rs:128-132: all items of all packages, in order, are inserted into one
map. -/
def mergePackages (pkgs : List (HMap SugarItem)) : HMap SugarItem :=
  pkgs.foldl (fun acc pkg => pkg.foldl (fun acc e => acc.insert e.1 e.2) acc) []

/-- crates/mitex-spec/src/lib.rs:84-100 `CommandSpec::new` and lookup. -/
def specOfMap (m : HMap SpecItem) : CommandSpec := fun n => m.get n

/-- preludes.rs:116-130 `SpecBuilder`: a sequence of `add_command` calls followed by `build`. -/
def specBuilder (adds : List (Text × SpecItem)) : HMap SpecItem :=
  adds.foldl (fun acc e => acc.insert e.1 e.2) []

end Mitex
