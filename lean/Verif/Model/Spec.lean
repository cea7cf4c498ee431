/-
Model of crates/mitex-spec/src/lib.rs: command specifications.
-/
import Verif.Model.Basic

namespace Mitex

/-- crates/mitex-spec/src/lib.rs:229-283 `ArgPattern`.  `u8` lengths are `Nat` (see DESIGN.md). -/
inductive ArgPattern where
  | none
  | fixedLen (len : Nat)
  | rangeLen (min max : Nat)
  | greedy
  | glob (pattern : Text)
  deriving DecidableEq, Repr

/-- crates/mitex-spec/src/lib.rs:285-321 `ArgShape`. -/
inductive ArgShape where
  | right (pattern : ArgPattern)
  | left1
  | infixGreedy
  deriving DecidableEq, Repr

/-- crates/mitex-spec/src/lib.rs:323-354 `ContextFeature`. -/
inductive CtxFeature where
  | none | isMath | isMatrix | isCases | isFigure | isTable | isItemize | isEnumerate
  deriving DecidableEq, Repr

/-- crates/mitex-spec/src/lib.rs:135-146 `CmdShape`. -/
structure CmdShape where
  args : ArgShape
  alias : Option Text
  deriving DecidableEq, Repr

/-- crates/mitex-spec/src/lib.rs:148-163 `EnvShape`. -/
structure EnvShape where
  args : ArgPattern
  ctx : CtxFeature
  alias : Option Text
  deriving DecidableEq, Repr

/-- crates/mitex-spec/src/lib.rs:27-43 `CommandSpecItem`. -/
inductive SpecItem where
  | cmd (s : CmdShape)
  | env (s : EnvShape)
  deriving DecidableEq, Repr

/-- crates/mitex-spec/src/lib.rs:45-60 `CommandSpec`: the hash map `commands`, seen through lookup
(`CommandSpec::get`, lines 102-105).  Iteration order is modelled separately where it matters. -/
abbrev CommandSpec := Text → Option SpecItem

/-- crates/mitex-spec/src/lib.rs:112-121 `CommandSpec::get_cmd`. -/
def getCmd (spec : CommandSpec) (name : Text) : Option CmdShape :=
  match spec name with
  | some (.cmd s) => some s
  | _ => none

/-- crates/mitex-spec/src/lib.rs:123-132 `CommandSpec::get_env`. -/
def getEnv (spec : CommandSpec) (name : Text) : Option EnvShape :=
  match spec name with
  | some (.env s) => some s
  | _ => none

end Mitex
