/-
Model of crates/mitex-lexer/src/snapshot_map.rs and of the undo log of the `ena` crate it uses
(`ena::undo_log::VecLog`, ena 0.14; not part of the repository, modelled from its documentation).
-/
import Verif.Model.Basic

namespace Mitex

/-- snapshot_map.rs:44-49 `UndoLog` (`Purged` is never pushed by this crate). -/
inductive Undo (K V : Type) where
  | inserted (k : K)
  | overwrite (k : K) (v : V)
  deriving Repr, DecidableEq

/-- snapshot_map.rs:22-27 `SnapshotMap`: the hash map as a finite partial function, the undo log
(newest entry first) and `VecLog::num_open_snapshots`. -/
structure SnapMap (K V : Type) where
  map : K → Option V
  log : List (Undo K V)
  opened : Nat

/-- `ena::undo_log::Snapshot`: the length of the undo log when the snapshot was taken. -/
abbrev Snapshot := Nat

namespace SnapMap
variable {K V : Type} [DecidableEq K]

/-- snapshot_map.rs:30-42 `Default`. -/
def empty : SnapMap K V := ⟨fun _ => none, [], 0⟩

/-- `HashMap::insert` / `HashMap::remove` on the partial function. -/
def upd (m : K → Option V) (k : K) (v : Option V) : K → Option V :=
  fun x => if x = k then v else m x

/-- `VecLog::push`: entries are recorded only while a snapshot is open. -/
def push (u : Undo K V) (s : SnapMap K V) : SnapMap K V :=
  if 0 < s.opened then { s with log := u :: s.log } else s

/-- snapshot_map.rs:68-71 `clear` (`VecLog::clear` also forgets the open snapshots). -/
def clear (_ : SnapMap K V) : SnapMap K V := ⟨fun _ => none, [], 0⟩

/-- snapshot_map.rs:73-84 `insert`. -/
def insert (k : K) (v : V) (s : SnapMap K V) : Bool × SnapMap K V :=
  match s.map k with
  | none => (true, push (.inserted k) { s with map := upd s.map k (some v) })
  | some old => (false, push (.overwrite k old) { s with map := upd s.map k (some v) })

/-- snapshot_map.rs:86-94 `remove`. -/
def remove (k : K) (s : SnapMap K V) : Bool × SnapMap K V :=
  match s.map k with
  | some old => (true, push (.overwrite k old) { s with map := upd s.map k none })
  | none => (false, s)

/-- snapshot_map.rs:96-102 `get`. -/
def get (k : K) (s : SnapMap K V) : Option V := s.map k

/-- snapshot_map.rs:109-111 `snapshot` = `VecLog::start_snapshot`. -/
def snapshot (s : SnapMap K V) : Snapshot × SnapMap K V :=
  (s.log.length, { s with opened := s.opened + 1 })

/-- snapshot_map.rs:144-161 `Rollback::reverse` for the hash map. -/
def reverse (m : K → Option V) : Undo K V → (K → Option V)
  | .inserted k => upd m k none
  | .overwrite k v => upd m k (some v)

/-- `VecLog::rollback_to`, the loop popping and reversing entries until `n` are left. -/
def unwind (n : Nat) (m : K → Option V) : List (Undo K V) → (K → Option V) × List (Undo K V)
  | [] => (m, [])
  | u :: us => if n < (u :: us).length then unwind n (reverse m u) us else (m, u :: us)

/-- snapshot_map.rs:117-120 `rollback_to`; the assertions of `VecLog::assert_open_snapshot` panic. -/
def rollbackTo (n : Snapshot) (s : SnapMap K V) : Res (SnapMap K V) :=
  if n ≤ s.log.length ∧ 0 < s.opened then
    let r := unwind n s.map s.log
    .ok { map := r.1, log := r.2, opened := s.opened - 1 }
  else .error .panic

/-- snapshot_map.rs:113-115 `commit` = `VecLog::commit`: closing the outermost snapshot clears the log
(and asserts that it was taken on an empty log). -/
def commit (n : Snapshot) (s : SnapMap K V) : Res (SnapMap K V) :=
  if n ≤ s.log.length ∧ 0 < s.opened then
    if s.opened = 1 then
      if n = 0 then .ok { s with log := [], opened := 0 } else .error .panic
    else .ok { s with opened := s.opened - 1 }
  else .error .panic

end SnapMap
end Mitex
