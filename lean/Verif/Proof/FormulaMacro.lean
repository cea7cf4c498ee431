/-
The macro engine hands on all tokens of a formula (Spec/Formula.lean).
-/
import Verif.Proof.FormulaLex

namespace Mitex

/-- A token that is handed on. -/
def Calm (t : Tok) : Prop := Ordinary t ∨ HandedOn defaultMacros t

def AllCalm (ts : List Tok) : Prop := ∀ t ∈ ts, Calm t

theorem AllCalm.expands {ts : List Tok} (h : AllCalm ts) : Expands atStart ts ts := by
  induction ts with
  | nil => exact .done
  | cons t ts ih =>
    have hr := ih fun u hu => h u (List.mem_cons_of_mem _ hu)
    rcases h t List.mem_cons_self with h1 | h1
    · exact .step (.ordinary h1) hr
    · exact .step (.handedOn h1) hr

theorem AllCalm.cons {t : Tok} {ts : List Tok} (h : Calm t) (hs : AllCalm ts) : AllCalm (t :: ts) := by
  intro u hu
  rcases List.mem_cons.mp hu with rfl | hu
  · exact h
  · exact hs u hu

theorem AllCalm.append {ts us : List Tok} (h : AllCalm ts) (hs : AllCalm us) : AllCalm (ts ++ us) := by
  intro u hu
  rcases List.mem_append.mp hu with hu | hu
  · exact h u hu
  · exact hs u hu

theorem calm_of {k : Token} {x : Text} (h1 : ∀ n, k ≠ .cmd n) : Calm (k, x) :=
  .inl ⟨h1 _, h1 _, h1 _, h1 _, fun _ => h1 _⟩

theorem calm_name {name : Text} (h : PlainName name) : Calm (nameTok name) := .inr (.unbound h.2.1)

theorem calm_sign (c : Char) : Calm (signTok c, [c]) := by
  refine calm_of fun n => ?_
  unfold signTok
  split <;> exact fun h => (by cases h)

theorem calm_part (p : TextPart) : Calm p.tok := by
  cases p <;> exact calm_of fun n h => (by cases h)

theorem calm_parts (ps : List TextPart) : AllCalm (ps.map TextPart.tok) := by
  intro t ht
  obtain ⟨p, -, rfl⟩ := List.mem_map.mp ht
  exact calm_part p

theorem calm_blank (n : Nat) : AllCalm (blankToks n) := by
  unfold blankToks
  split
  · exact fun t ht => (by cases ht)
  · exact .cons (calm_of fun n h => (by cases h)) fun t ht => (by cases ht)

theorem calm_prepend {c : Char} {ts : List Tok} (h : AllCalm ts) : AllCalm (prepend c ts) := by
  unfold prepend
  split
  · exact .cons (calm_of fun n h => (by cases h)) fun t ht => h t (List.mem_cons_of_mem _ ht)
  · exact .cons (calm_of fun n h => (by cases h)) h

theorem calm_lcurly : Calm lcurly := calm_of fun n h => (by cases h)
theorem calm_rcurly : Calm rcurly := calm_of fun n h => (by cases h)
theorem calm_lsquare : Calm lsquare := calm_of fun n h => (by cases h)
theorem calm_rsquare : Calm rsquare := calm_of fun n h => (by cases h)
theorem calm_mark (super : Bool) : Calm (markTok super) := by
  cases super <;> exact calm_of fun n h => (by cases h)
theorem calm_sep (endsRow : Bool) : Calm (sepTok endsRow) := by
  cases endsRow <;> exact calm_of fun n h => (by cases h)
theorem calm_left : Calm leftTok := .inl (by refine ⟨?_, ?_, ?_, ?_, fun i => ?_⟩ <;> exact fun h => (by cases h))
theorem calm_right : Calm rightTok := .inl (by refine ⟨?_, ?_, ?_, ?_, fun i => ?_⟩ <;> exact fun h => (by cases h))
theorem calm_end (name : Text) : Calm (.cmd .endEnv, name) := .inl (by refine ⟨?_, ?_, ?_, ?_, fun i => ?_⟩ <;> exact fun h => (by cases h))
theorem calm_begin {name : Text} (h : defaultMacros name = none) : Calm (.cmd .beginEnv, name) := .inr (.beginUnbound h)

theorem Delim.calm {spec : CommandSpec} (d : Delim) (hok : d.Ok spec) {k : List Tok} (h : AllCalm k) : AllCalm (d.toks k) := by
  cases d with
  | sign c => exact .cons (calm_sign c) h
  | char c => exact calm_prepend h
  | symbol name => exact .cons (calm_name hok.1) h

mutual
theorem Atom.calm {spec : CommandSpec} : ∀ (a : Atom), a.Ok spec → ∀ {k : List Tok}, AllCalm k → AllCalm (a.toks k)
  | .text ps, hok, k, h => by
    rw [Atom.toks]
    exact (calm_parts ps).append h
  | .sign c, hok, k, h => by
    rw [Atom.toks]
    exact .cons (calm_sign c) h
  | .symbol name, hok, k, h => by
    rw [Atom.Ok] at hok
    rw [Atom.toks]
    exact .cons (calm_name hok.1) h
  | .group f, hok, k, h => by
    rw [Atom.Ok] at hok
    rw [Atom.toks]
    exact .cons calm_lcurly (Formula.calm f hok (.cons calm_rcurly h))
  | .command name args, hok, k, h => by
    rw [Atom.Ok] at hok
    rw [Atom.toks]
    exact .cons (calm_name hok.1) (Arguments.calm args hok.2.1 h)
  | .textCommand name ps, hok, k, h => by
    rw [Atom.Ok] at hok
    rw [Atom.toks]
    exact .cons (calm_name hok.1) (.cons calm_lcurly ((calm_parts ps).append (.cons calm_rcurly h)))
  | .postfix base name, hok, k, h => by
    rw [Atom.Ok] at hok
    rw [Atom.toks]
    exact Atom.calm base hok.1 (.cons (calm_name hok.2.2.1) h)
  | .prime base, hok, k, h => by
    rw [Atom.Ok] at hok
    rw [Atom.toks]
    exact Atom.calm base hok.1 (.cons (calm_of fun n h => (by cases h)) h)
  | .script base super s, hok, k, h => by
    rw [Atom.Ok] at hok
    rw [Atom.toks]
    exact Atom.calm base hok.1 (.cons (calm_mark super) (Script.calm s hok.2.2 h))
  | .delimited l f r, hok, k, h => by
    rw [Atom.Ok] at hok
    rw [Atom.toks]
    exact .cons calm_left (l.calm hok.1 (Formula.calm f hok.2.1 (.cons calm_right (r.calm hok.2.2.1 h))))
  | .over l name r, hok, k, h => by
    rw [Atom.Ok] at hok
    rw [Atom.toks]
    exact .cons calm_lcurly (Formula.calm l hok.1 (.cons (calm_name hok.2.2.1) (Formula.calm r hok.2.1 (.cons calm_rcurly h))))
  | .environment name args body, hok, k, h => by
    rw [Atom.Ok] at hok
    rw [Atom.toks]
    exact .cons (calm_begin hok.2.1) (Arguments.calm args hok.2.2.1.1 (Cells.calm body hok.2.2.2.1 (.cons (calm_end name) h)))
theorem Script.calm {spec : CommandSpec} : ∀ (s : Script), s.Ok spec → ∀ {k : List Tok}, AllCalm k → AllCalm (s.toks k)
  | .braces f, hok, k, h => by
    rw [Script.Ok] at hok
    rw [Script.toks]
    exact .cons calm_lcurly (Formula.calm f hok (.cons calm_rcurly h))
  | .char c, hok, k, h => by
    rw [Script.toks]
    exact calm_prepend h
  | .symbol name, hok, k, h => by
    rw [Script.Ok] at hok
    rw [Script.toks]
    exact .cons (calm_name hok.1) h
theorem Formula.calm {spec : CommandSpec} : ∀ (f : Formula), f.Ok spec → ∀ {k : List Tok}, AllCalm k → AllCalm (f.toks k)
  | .mk lead as, hok, k, h => by
    rw [Formula.Ok] at hok
    rw [Formula.toks]
    exact (calm_blank lead).append (Atoms.calm as hok h)
theorem Atoms.calm {spec : CommandSpec} : ∀ (as : Atoms), as.Ok spec → ∀ {k : List Tok}, AllCalm k → AllCalm (as.toks k)
  | .nil, hok, k, h => by
    rw [Atoms.toks]
    exact h
  | .cons a sp as, hok, k, h => by
    rw [Atoms.Ok] at hok
    rw [Atoms.toks]
    exact Atom.calm a hok.1 ((calm_blank sp).append (Atoms.calm as hok.2.1 h))
theorem Arguments.calm {spec : CommandSpec} : ∀ (as : Arguments), as.Ok spec → ∀ {k : List Tok}, AllCalm k → AllCalm (as.toks k)
  | .nil, hok, k, h => by
    rw [Arguments.toks]
    exact h
  | .cons square f as, hok, k, h => by
    rw [Arguments.Ok] at hok
    rw [Arguments.toks]
    cases square
    · exact .cons calm_lcurly (Formula.calm f hok.1 (.cons calm_rcurly (Arguments.calm as hok.2.2 h)))
    · exact .cons calm_lsquare (Formula.calm f hok.1 (.cons calm_rsquare (Arguments.calm as hok.2.2 h)))
  | .bare c as, hok, k, h => by
    rw [Arguments.Ok] at hok
    rw [Arguments.toks]
    exact calm_prepend (Arguments.calm as hok.2 h)
  | .symbol name as, hok, k, h => by
    rw [Arguments.Ok] at hok
    rw [Arguments.toks]
    exact .cons (calm_name hok.1.1) (Arguments.calm as hok.2.1 h)
  | .spaced n as, hok, k, h => by
    rw [Arguments.Ok] at hok
    rw [Arguments.toks]
    exact (calm_blank n).append (Arguments.calm as hok.2.2 h)
theorem Cells.calm {spec : CommandSpec} : ∀ (r : Cells), r.Ok spec → ∀ {k : List Tok}, AllCalm k → AllCalm (r.toks k)
  | .last f, hok, k, h => by
    rw [Cells.Ok] at hok
    rw [Cells.toks]
    exact Formula.calm f hok h
  | .cons f endsRow r, hok, k, h => by
    rw [Cells.Ok] at hok
    rw [Cells.toks]
    exact Formula.calm f hok.1 (.cons (calm_sep endsRow) (Cells.calm r hok.2 h))
end

end Mitex
