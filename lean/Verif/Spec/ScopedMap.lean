/-
Specification for C22/C23: a finite map with a stack of saved copies.  Nothing here mentions undo logs.
-/
namespace Mitex.ScopedMap

/-- The operations of the scoped table.  `commit` and `rollback` refer to the innermost snapshot that
is still open; `clear` empties the table and forgets all snapshots. -/
inductive Op (K V : Type) where
  | insert (k : K) (v : V)
  | remove (k : K)
  | get (k : K)
  | snapshot
  | commit
  | rollback
  | clear

/-- What an operation reports. -/
inductive Out (V : Type) where
  | flag (b : Bool)
  | value (v : Option V)
  | unit

/-- The current bindings and the copies saved by the open snapshots, innermost first. -/
structure State (K V : Type) where
  cur : K → Option V
  saved : List (K → Option V)

variable {K V : Type} [DecidableEq K]

/-- Replace one binding. -/
def set (m : K → Option V) (k : K) (v : Option V) : K → Option V := fun x => if x = k then v else m x

/-- One operation. -/
def step : Op K V → State K V → Out V × State K V
  | .insert k v, s => (.flag (s.cur k).isNone, { s with cur := set s.cur k (some v) })
  | .remove k, s => (.flag (s.cur k).isSome, { s with cur := set s.cur k none })
  | .get k, s => (.value (s.cur k), s)
  | .snapshot, s => (.unit, { s with saved := s.cur :: s.saved })
  | .commit, s => (.unit, { s with saved := s.saved.tail })
  | .rollback, s =>
    match s.saved with
    | m :: ms => (.unit, ⟨m, ms⟩)
    | [] => (.unit, s)
  | .clear, _ => (.unit, ⟨fun _ => none, []⟩)

/-- A history: the outputs and the final state. -/
def run : List (Op K V) → State K V → List (Out V) × State K V
  | [], s => ([], s)
  | o :: os, s =>
    let r := step o s
    let q := run os r.2
    (r.1 :: q.1, q.2)

/-- `Nested d h`: `h` closes, besides its own snapshots, exactly `d` snapshots opened before it, and never clears the table. -/
def Nested : Nat → List (Op K V) → Prop
  | d, [] => d = 0
  | d, .snapshot :: os => Nested (d + 1) os
  | d, .commit :: os => 0 < d ∧ Nested (d - 1) os
  | d, .rollback :: os => 0 < d ∧ Nested (d - 1) os
  | d, .insert _ _ :: os => Nested d os
  | d, .remove _ :: os => Nested d os
  | d, .get _ :: os => Nested d os
  | _, .clear :: _ => False

end Mitex.ScopedMap
