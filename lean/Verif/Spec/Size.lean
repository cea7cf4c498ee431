/-
Sizes of trees (C74).
-/
import Verif.Spec.Template

namespace Mitex

mutual
/-- The size of a tree: its nodes, its leaves, and the characters of the leaves. -/
def Elem.weight : Elem → Nat
  | .token _ t => 1 + t.length
  | .node _ cs => 1 + weights cs
/-- Of several trees. -/
def weights : List Elem → Nat
  | [] => 0
  | e :: es => e.weight + weights es
end

/-- A list environment, according to the specification. -/
def isListEnv (spec : CommandSpec) (e : Elem) : Bool :=
  decide (e.kind = .itemEnv) &&
  match e.envName with
  | some n =>
    match spec (trim n) with
    | some (.env sh) => decide (sh.ctx = .isItemize ∨ sh.ctx = .isEnumerate)
    | _ => false
  | none => false

mutual
/-- How deep lists are nested in a tree. -/
def listDepth (spec : CommandSpec) : Elem → Nat
  | .token _ _ => 0
  | .node k cs => (if isListEnv spec (.node k cs) then 1 else 0) + listDepths spec cs
def listDepths (spec : CommandSpec) : List Elem → Nat
  | [] => 0
  | e :: es => max (listDepth spec e) (listDepths spec es)
end

/-- The number bounds the length of each name that is written: the alias of each entry, or its own name if it has none. -/
def NamesWithin (spec : CommandSpec) (A : Nat) : Prop :=
  (∀ name sh, spec name = some (.cmd sh) → (sh.alias.getD name).length ≤ A) ∧
  (∀ name sh, spec name = some (.env sh) → (sh.alias.getD name).length ≤ A)

/-- The size of a sequence of tokens. -/
def tokensSize (ts : List Tok) : Nat := (ts.map fun t => 1 + t.2.length).sum

/-- A bound for the size of the output, from the length of the names, the depth of lists, and a size: each unit of size
may be written as a name with fixed text around it, an indented line, and two numbers. -/
def sizeBound (names lists size : Nat) : Nat := (names + 2 * lists + 2 * (decimal size).length + 100) * size

end Mitex
