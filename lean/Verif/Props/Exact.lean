/-
Exact forms of C10, C17 and C19: every case, including those in which the code does not do what one expects.
-/
import Verif.Proof.ExpansionStep
import Verif.Props.Calls

namespace Mitex
open TokStream

/-- C10, exactly: the text of a definition (words are not empty) is stored as `stored` iff `stored` is the text with its parameters
marked, and storing it panics iff the text ends in `#`. -/
theorem C10_exact (src : List Tok) (hw : ∀ t ∈ src, t.1 = .word → t.2 ≠ []) :
    (∀ stored, processMacroDef src = .ok stored ↔ Marked src stored) ∧
    (∀ x, processMacroDef src = .error x ↔ x = .panic ∧ EndsInMark src) := by
  by_cases hm : EndsInMark src
  · have hp := processMacroDef_mark hm
    constructor
    · intro st
      constructor
      · intro h; rw [hp] at h; cases h
      · intro h; rw [processMacroDef_marked h] at hp; cases hp
    · intro x
      rw [hp]
      exact ⟨fun h => (by cases h; exact ⟨rfl, hm⟩), fun ⟨h, _⟩ => (by rw [h])⟩
  · have hl : ∀ h, src.getLast? ≠ some (.hash, h) := by
      intro h hl
      obtain ⟨ys, hy⟩ := List.getLast?_eq_some_iff.mp hl
      exact hm ⟨ys, h, hy⟩
    obtain ⟨st0, h0, hm0⟩ := C10_parameter_marks src hw hl
    constructor
    · intro st
      exact ⟨fun h => (by rw [h0] at h; cases h; exact hm0), fun h => processMacroDef_marked h⟩
    · intro x
      rw [h0]
      exact ⟨fun h => (by cases h), fun ⟨_, h⟩ => absurd h hm⟩

/-- C17, exactly: the arguments of a call are those of the rules `Called` — for every text that follows. -/
theorem C17_exact (n : Nat) (opt : Option (List Tok)) (s out : List Tok) (r : Option (List (List Tok))) (rest out' : List Tok) :
    readMacroArgs n opt (⟨s, out⟩ : LCtx) = (r, ⟨rest, out'⟩) ↔
      Called n opt s r rest ∧ out' = out ++ (if r = none then [(.error, t!"invalid number of arguments")] else []) := by
  obtain ⟨r0, rest0, h0⟩ := called_exists n opt s
  have key : ∀ r rest, Called n opt s r rest → readMacroArgs n opt (⟨s, out⟩ : LCtx) =
      (r, ⟨rest, out ++ (if r = none then [(.error, t!"invalid number of arguments")] else [])⟩) := by
    intro r rest h
    cases r with
    | none => rw [readMacroArgs_none h]; rfl
    | some as => rw [readMacroArgs_some h]; simp
  constructor
  · intro h
    rw [key _ _ h0] at h
    cases h
    exact ⟨h0, rfl⟩
  · rintro ⟨h, rfl⟩
    exact key _ _ h

/-- C17: the rules give every call exactly one reading. -/
theorem C17_one_reading (n : Nat) (opt : Option (List Tok)) (s : List Tok) :
    ∃ r rest, Called n opt s r rest ∧ ∀ r' rest', Called n opt s r' rest' → r' = r ∧ rest' = rest := by
  obtain ⟨r, rest, h⟩ := called_exists n opt s
  refine ⟨r, rest, h, fun r' rest' h' => ?_⟩
  have h1 := (C17_exact n opt s [] r rest _).mpr ⟨h, rfl⟩
  rw [(C17_exact n opt s [] r' rest' _).mpr ⟨h', rfl⟩] at h1
  cases h1
  exact ⟨rfl, rfl⟩

/-- C19, exactly: at the `\else` of a branch that was taken, the text is skipped up to where the rule `Skipped` says, whatever the
text is; nothing is delivered for it. -/
theorem C19_exact (m : MacroTable) (ifs : List (Option IfState)) (c : IfState) (hc : c = .isTrue ∨ c = .typstTrue) (x : Text)
    (s out : List Tok) (e : Eng) (s' out' : List Tok) :
    engStep ⟨m, some c :: ifs⟩ (⟨(.cmd .celse, x) :: s, out⟩ : LCtx) (.cmd .celse, x) = .ok (e, ⟨s', out'⟩) ↔
      Skipped s s' ∧ out' = out ∧ e = ⟨m, some (if c = .isTrue then .isFalse else .typstFalse) :: ifs⟩ := by
  obtain ⟨s0, h0⟩ := skipped_exists s
  have huniq : ∀ s', Skipped s s' → s' = s0 := by
    rintro s' ⟨b, h⟩
    obtain ⟨b0, h0⟩ := h0
    exact (h.unique h0).2
  have key : engStep ⟨m, some c :: ifs⟩ (⟨(.cmd .celse, x) :: s, out⟩ : LCtx) (.cmd .celse, x) =
      .ok (⟨m, some (if c = .isTrue then .isFalse else .typstFalse) :: ifs⟩, ⟨s0, out⟩) := by
    have := skipFalse_skipped h0 out
    rcases hc with rfl | rfl <;> simp only [engStep, trappedByElse, lctx_next, List.tail_cons, this] <;> rfl
  rw [key]
  constructor
  · intro h; cases h; exact ⟨h0, rfl, rfl⟩
  · rintro ⟨h, rfl, rfl⟩; rw [huniq _ h]

/-- The skipped text of `\else b \ifx c \else d \fi e \fi` ends at the first `\fi`, though it belongs to the inner conditional. -/
example : Skipped [(.word, t!"b"), (.cmd (.cif .ifX), t!"\\ifx"), (.word, t!"c"), (.cmd .celse, t!"\\else"), (.word, t!"d"),
    (.cmd .endIf, t!"\\fi"), (.word, t!"e"), (.cmd .endIf, t!"\\fi")] [(.cmd .endIf, t!"\\fi"), (.word, t!"e"), (.cmd .endIf, t!"\\fi")] := by
  refine ⟨[(.word, t!"b"), (.cmd (.cif .ifX), t!"\\ifx"), (.word, t!"c"), (.cmd .celse, t!"\\else"), (.word, t!"d")], rfl,
    .inr ⟨_, _, rfl, rfl, by decide⟩, ?_⟩
  intro p t q h ht
  match p, h with
  | [], h => cases h; cases ht
  | [_], h => cases h; cases ht
  | [_, _], h => cases h; cases ht
  | [_, _, _], h => cases h; decide
  | [_, _, _, _], h => cases h; cases ht
  | _ :: _ :: _ :: _ :: _ :: p, h =>
    have := congrArg List.length h
    simp at this

/-- A call with a default and a word that gives one character. -/
example : Called 2 (some [(.word, t!"z")]) [(.word, t!"xy"), (.word, t!"w")] (some [[(.word, t!"x")], [(.word, t!"y")]]) [(.word, t!"w")] :=
  .all (.word (w := t!"xy") (extra := []) ⟨[], by simp [Trivia], rfl, by simp [Token.isTrivia]⟩ rfl)

example : Marked [(.hash, t!"#"), (.word, t!"1x")] [(.macroArg 1, t!"#"), (.word, t!"x")] := by
  refine ((C10_exact _ ?_).1 _).mp (by decide)
  simp

end Mitex
