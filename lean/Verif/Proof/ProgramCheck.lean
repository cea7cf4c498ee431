/-
A checker for well-formed programs (Spec/Program), for the examples.
-/
import Verif.Spec.Program

namespace Mitex
namespace Program

def freeB (all : List Text) (name : Text) : Bool := !all.contains name && (defaultMacros name).isNone

theorem freeB_sound {all : List Text} {name : Text} (h : freeB all name = true) : Free all name := by
  simp only [freeB, Bool.and_eq_true, Bool.not_eq_true', Option.isNone_iff_eq_none] at h
  refine ⟨fun hm => ?_, h.2⟩
  have : all.contains name = true := List.contains_iff_mem.mpr hm
  rw [this] at h
  cases h.1

def tokForB (all : List Text) (loose : Bool) (t : Tok) : Bool :=
  match t.1 with
  | .left .curly | .right .curly | .hash | .macroArg _ | .cmd (.cif _) | .cmd .celse | .cmd .endIf => false
  | .word => !t.2.isEmpty
  | .cmd .generic => match t.2 with
    | '\\' :: name => freeB all name && decide (name ≠ t!"mitexrecurse")
    | _ => false
  | .cmd .beginEnv | .cmd .endEnv => loose && freeB all t.2
  | _ => true

theorem tokForB_sound {all : List Text} {loose : Bool} {t : Tok} (h : tokForB all loose t = true) : TokFor all loose t := by
  obtain ⟨k, x⟩ := t
  unfold tokForB at h
  have plain : ∀ {k : Token} {x : Text}, (∀ n, k ≠ .cmd n) → k ≠ .left .curly → k ≠ .right .curly → k ≠ .hash → (∀ d, k ≠ .macroArg d) → (k = .word → x ≠ []) →
      TokFor all loose (k, x) := fun hc h1 h2 h3 h4 h5 =>
    ⟨⟨h1, h2⟩, ⟨h3, h4⟩, h5, ⟨fun i => hc _, hc _, hc _⟩, fun e => absurd e (hc _), fun e => e.elim (fun e => absurd e (hc _)) (fun e => absurd e (hc _))⟩
  have cmds : ∀ {c : CommandName} {x : Text}, (∀ i, c ≠ .cif i) → c ≠ .celse → c ≠ .endIf →
      (c = .generic → ∃ name, x = '\\' :: name ∧ Free all name ∧ name ≠ t!"mitexrecurse") →
      (c = .beginEnv ∨ c = .endEnv → loose = true ∧ Free all x) → TokFor all loose (.cmd c, x) := fun h1 h2 h3 h4 h5 =>
    ⟨⟨by simp, by simp⟩, ⟨by simp, by simp⟩, by simp, ⟨by simpa using h1, by simpa using h2, by simpa using h3⟩,
      fun e => (by simp at e; obtain ⟨name, rfl, hf⟩ := h4 e; exact ⟨name, by subst e; rfl, hf⟩),
      fun e => h5 (by simpa using e)⟩
  cases k with
  | left b => cases b with
    | curly => cases h
    | _ => exact plain (by simp) (by simp) (by simp) (by simp) (by simp) (by simp)
  | right b => cases b with
    | curly => cases h
    | _ => exact plain (by simp) (by simp) (by simp) (by simp) (by simp) (by simp)
  | hash => cases h
  | macroArg d => cases h
  | word => exact plain (by simp) (by simp) (by simp) (by simp) (by simp) (fun _ e => by subst e; cases h)
  | cmd c =>
    cases c with
    | cif i => cases h
    | celse => cases h
    | endIf => cases h
    | generic =>
      refine cmds (by simp) (by simp) (by simp) (fun _ => ?_) (by simp)
      simp only at h
      split at h
      · rename_i name
        simp only [Bool.and_eq_true, decide_eq_true_eq] at h
        exact ⟨name, rfl, freeB_sound h.1, h.2⟩
      · cases h
    | beginEnv =>
      simp only [Bool.and_eq_true] at h
      exact cmds (by simp) (by simp) (by simp) (by simp) fun _ => ⟨h.1, freeB_sound h.2⟩
    | endEnv =>
      simp only [Bool.and_eq_true] at h
      exact cmds (by simp) (by simp) (by simp) (by simp) fun _ => ⟨h.1, freeB_sound h.2⟩
    | _ => exact cmds (by simp) (by simp) (by simp) (by simp) (by simp)
  | _ => exact plain (by simp) (by simp) (by simp) (by simp) (by simp) (by simp)

/-- The tokens that may be skipped. -/
def skippedB (t : Tok) : Bool :=
  match t.1 with
  | .left .curly | .right .curly | .hash | .macroArg _ | .cmd (.cif _) | .cmd .celse | .cmd .endIf | .cmd .beginEnv | .cmd .endEnv => false
  | .word => !t.2.isEmpty
  | .cmd .generic => match t.2 with
    | '\\' :: name => decide (name ≠ t!"mitexrecurse")
    | _ => false
  | _ => true

mutual
def Src.check (all : List Text) (ds : List Def) (n : Nat) (loose : Bool) : Src → Bool
  | .tok t => tokForB all loose t
  | .group b => checkAll all ds n loose b
  | .param d _ => decide (1 ≤ d ∧ d ≤ n)
  | .call name args => decide (cmdArity ds name = some args.length) && checkEach all ds n args
  | .env name args body => (decide (envArity ds name = some args.length) || (freeB all name && args.isEmpty)) &&
      (checkEach all ds n args && checkAll all ds n false body)
  | .ifTrue yes no => checkAll all ds n loose yes && no.all skippedB

def checkAll (all : List Text) (ds : List Def) (n : Nat) (loose : Bool) : List Src → Bool
  | [] => true
  | s :: ss => s.check all ds n loose && checkAll all ds n loose ss

def checkEach (all : List Text) (ds : List Def) (n : Nat) : List (List Src) → Bool
  | [] => true
  | a :: as => checkAll all ds n false a && checkEach all ds n as
end

theorem skippedB_sound {t : Tok} (h : skippedB t = true) :
    (t.1 ≠ .left .curly ∧ t.1 ≠ .right .curly) ∧ (t.1 ≠ .cmd .beginEnv ∧ t.1 ≠ .cmd .endEnv) ∧
        ((∀ i, t.1 ≠ .cmd (.cif i)) ∧ t.1 ≠ .cmd .celse ∧ t.1 ≠ .cmd .endIf) ∧
        (t.1 ≠ .hash ∧ ∀ d, t.1 ≠ .macroArg d) ∧ (t.1 = .word → t.2 ≠ []) ∧
        (t.1 = .cmd .generic → ∃ name, t = cmdTok name ∧ name ≠ t!"mitexrecurse") := by
  obtain ⟨k, x⟩ := t
  unfold skippedB at h
  cases k with
  | left b => cases b with
    | curly => cases h
    | _ => simp
  | right b => cases b with
    | curly => cases h
    | _ => simp
  | hash => cases h
  | macroArg d => cases h
  | word => refine ⟨by simp, by simp, by simp, by simp, fun _ e => ?_, by simp⟩; simp only at e; subst e; cases h
  | cmd c =>
    cases c with
    | generic =>
      refine ⟨by simp, by simp, by simp, by simp, by simp, fun _ => ?_⟩
      simp only at h
      split at h
      · rename_i name _
        simp only [decide_eq_true_eq] at h
        exact ⟨name, rfl, h⟩
      · cases h
    | cif i => cases h
    | celse => cases h
    | endIf => cases h
    | beginEnv => cases h
    | endEnv => cases h
    | _ => simp
  | _ => simp

section
variable {all : List Text} {ds : List Def} {n : Nat}
mutual
theorem Src.check_sound {loose : Bool} : ∀ s : Src, s.check all ds n loose = true → s.Ok all ds n loose
  | .tok t, h => by rw [Src.check] at h; rw [Src.Ok]; exact tokForB_sound h
  | .group b, h => by rw [Src.check] at h; rw [Src.Ok]; exact checkAll_sound b h
  | .param d _, h => by rw [Src.check] at h; rw [Src.Ok]; exact of_decide_eq_true h
  | .call name args, h => by
    rw [Src.check, Bool.and_eq_true] at h; rw [Src.Ok]
    exact ⟨of_decide_eq_true h.1, checkEach_sound args h.2⟩
  | .env name args body, h => by
    rw [Src.check, Bool.and_eq_true, Bool.and_eq_true, Bool.or_eq_true, Bool.and_eq_true] at h; rw [Src.Ok]
    exact ⟨h.1.imp of_decide_eq_true fun h => ⟨freeB_sound h.1, List.isEmpty_iff.mp h.2⟩, checkEach_sound args h.2.1, checkAll_sound body h.2.2⟩
  | .ifTrue yes no, h => by
    rw [Src.check, Bool.and_eq_true] at h; rw [Src.Ok]
    exact ⟨checkAll_sound yes h.1, fun t ht => skippedB_sound (List.all_eq_true.mp h.2 t ht)⟩

theorem checkAll_sound {loose : Bool} : ∀ ss : List Src, checkAll all ds n loose ss = true → OkAll all ds n loose ss
  | [], _ => by rw [OkAll]; trivial
  | s :: ss, h => by rw [checkAll, Bool.and_eq_true] at h; rw [OkAll]; exact ⟨Src.check_sound s h.1, checkAll_sound ss h.2⟩

theorem checkEach_sound : ∀ as : List (List Src), checkEach all ds n as = true → OkEach all ds n as
  | [], _ => by rw [OkEach]; trivial
  | a :: as, h => by rw [checkEach, Bool.and_eq_true] at h; rw [OkEach]; exact ⟨checkAll_sound a h.1, checkEach_sound as h.2⟩
end
end

def Def.check (all : List Text) (ds : List Def) : Def → Bool
  | .cmd name n body => decide (defaultMacros name = none ∧ name ∉ ds.map Def.name ∧ name ≠ t!"mitexrecurse" ∧ name ∈ all ∧ n ≤ 9) && checkAll all ds n true body
  | .env name n pre post => decide (defaultMacros name = none ∧ name ∉ ds.map Def.name ∧ name ∈ all ∧ n ≤ 9) && (checkAll all ds n true pre && checkAll all ds n true post)

theorem Def.check_sound {all : List Text} {ds : List Def} {d : Def} (h : d.check all ds = true) : d.Ok all ds := by
  cases d with
  | cmd name n body =>
    rw [Def.check, Bool.and_eq_true] at h
    obtain ⟨h1, h2, h3, h4, h5⟩ := of_decide_eq_true h.1
    exact ⟨h1, h2, h3, h4, h5, checkAll_sound body h.2⟩
  | env name n pre post =>
    rw [Def.check, Bool.and_eq_true, Bool.and_eq_true] at h
    obtain ⟨h1, h2, h3, h4⟩ := of_decide_eq_true h.1
    exact ⟨h1, h2, h3, h4, checkAll_sound pre h.2.1, checkAll_sound post h.2.2⟩

def checkProgram (all : List Text) (ds : List Def) : List Part → Bool
  | [] => true
  | .define d :: ps => d.check all ds && checkProgram all (d :: ds) ps
  | .run ss :: ps => checkAll all ds 0 true ss && checkProgram all ds ps

theorem checkProgram_sound {all : List Text} : ∀ (ps : List Part) (ds : List Def), checkProgram all ds ps = true → ProgramOk all ds ps
  | [], _, _ => trivial
  | .define d :: ps, ds, h => by rw [checkProgram, Bool.and_eq_true] at h; exact ⟨Def.check_sound h.1, checkProgram_sound ps _ h.2⟩
  | .run ss :: ps, ds, h => by rw [checkProgram, Bool.and_eq_true] at h; exact ⟨checkAll_sound ss h.1, checkProgram_sound ps _ h.2⟩

/-- A program that passes the check is well formed. -/
theorem wellFormed_of_check {ps : List Part} (h : checkProgram (defined ps) [] ps = true) : WellFormed ps := checkProgram_sound ps [] h

end Program
end Mitex
