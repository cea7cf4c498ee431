/-
The standard package defines no name twice.
-/
import Verif.Model.StandardSpec

namespace Mitex

/-- A number standing for a text. -/
def textCode (t : Text) : Nat := t.foldl (fun a c => a * 256 + c.toNat) 1

/-- The number is not in the list. -/
def freshCode (n : Nat) : List Nat → Bool
  | [] => true
  | m :: ms => cond (Nat.beq n m) false (freshCode n ms)

/-- No number is in the list twice. -/
def distinctCodes : List Nat → Bool
  | [] => true
  | n :: ns => cond (freshCode n ns) (distinctCodes ns) false

theorem freshCode_spec (n : Nat) (l : List Nat) (h : freshCode n l = true) : n ∉ l := by
  induction l with
  | nil => simp
  | cons m l ih =>
    rw [freshCode] at h
    cases hb : Nat.beq n m with
    | true => rw [hb] at h; cases h
    | false =>
      rw [hb] at h
      intro hm
      rcases List.mem_cons.mp hm with h' | h'
      · subst h'; rw [Nat.beq_refl] at hb; cases hb
      · exact ih h h'

theorem distinctCodes_spec (l : List Nat) (h : distinctCodes l = true) : l.Nodup := by
  induction l with
  | nil => simp
  | cons n l ih =>
    rw [distinctCodes] at h
    cases hf : freshCode n l with
    | false => rw [hf] at h; cases h
    | true => rw [hf] at h; exact List.nodup_cons.mpr ⟨freshCode_spec n l hf, ih h⟩

set_option maxRecDepth 100000 in
/-- The standard package defines no name twice. -/
theorem standardPackage_nodup : (standardPackage.map Prod.fst).Nodup := by
  have h : distinctCodes (standardPackage.map fun e => textCode e.1) = true := by decide +kernel
  have h2 : ((standardPackage.map Prod.fst).map textCode).Nodup := by
    rw [List.map_map]; exact distinctCodes_spec _ h
  generalize standardPackage.map Prod.fst = l at h2
  induction l with
  | nil => simp
  | cons a l ih =>
    rw [List.map_cons, List.nodup_cons] at h2
    exact List.nodup_cons.mpr ⟨fun hm => h2.1 (List.mem_map_of_mem hm), ih h2.2⟩

end Mitex
