/-
Property C27: argument matchers (crates/mitex-parser/src/arg_match.rs).
-/
import Verif.Model.ArgMatch
import Verif.Spec.Tree

namespace Mitex

/-- A request of the parser to the matcher: a brace of the given kind (`match_as_term`), or a plain
item or character (`try_match(TERM)`). -/
inductive ArgReq where
  | brace (k : ArgKind)
  | plain
  deriving DecidableEq, Repr

/-- The kind the request stands for. -/
def ArgReq.kind : ArgReq → ArgKind
  | .brace k => k
  | .plain => .term

/-- The answer: refused, or accepted, and whether a brace was demoted to a plain term. -/
inductive ArgAns where
  | refused
  | accepted (demoted : Bool)
  deriving DecidableEq, Repr

/-- The answers of a matcher to a sequence of requests. -/
def ArgMatcher.answers (g : GlobFn) : ArgMatcher → List ArgReq → List ArgAns
  | _, [] => []
  | m, .brace k :: rs =>
    let r := m.matchAsTerm g k
    (match r.1 with
      | Option.none => .refused
      | some b => .accepted b) :: answers g r.2 rs
  | m, .plain :: rs =>
    let r := m.tryMatch g .term
    (if r.1 then .accepted false else .refused) :: answers g r.2 rs

theorem answers_atMost (g : GlobFn) (mx ct : Nat) (rs : List ArgReq) (i : Nat) (hi : i < rs.length) :
    ((ArgMatcher.atMost mx ct).answers g rs)[i]? =
      some (if ct + i < mx then .accepted (decide (rs[i].kind ≠ .term)) else .refused) := by
  induction rs generalizing ct i with
  | nil => simp at hi
  | cons r rs ih =>
    cases r with
    | brace k =>
      cases i with
      | zero =>
        by_cases h : ct < mx <;> cases k <;>
          simp [ArgMatcher.answers, ArgMatcher.matchAsTerm, ArgMatcher.tryMatch, ArgReq.kind, h]
      | succ i =>
        have := ih (ct + 1) i (by simpa using hi)
        rw [show ct + 1 + i = ct + (i + 1) by omega] at this
        simpa [ArgMatcher.answers, ArgMatcher.matchAsTerm, ArgMatcher.tryMatch] using this
    | plain =>
      cases i with
      | zero =>
        by_cases h : ct < mx <;> simp [ArgMatcher.answers, ArgMatcher.tryMatch, ArgReq.kind, h]
      | succ i =>
        have := ih (ct + 1) i (by simpa using hi)
        rw [show ct + 1 + i = ct + (i + 1) by omega] at this
        simpa [ArgMatcher.answers, ArgMatcher.tryMatch] using this

theorem answers_none (g : GlobFn) (rs : List ArgReq) (i : Nat) (hi : i < rs.length) :
    (ArgMatcher.none.answers g rs)[i]? = some .refused := by
  induction rs generalizing i with
  | nil => simp at hi
  | cons r rs ih =>
    cases r <;> cases i with
    | zero => simp [ArgMatcher.answers, ArgMatcher.matchAsTerm, ArgMatcher.tryMatch]
    | succ i =>
      simpa [ArgMatcher.answers, ArgMatcher.matchAsTerm, ArgMatcher.tryMatch] using ih i (by simpa using hi)

/-- C27, fixed length and range length: the requests are accepted exactly until the maximum is
reached, whatever their kinds; brackets and parentheses are demoted to plain terms. -/
theorem C27_fixed_and_range (g : GlobFn) (p : ArgPattern) (mx : Nat)
    (hp : p = .fixedLen mx ∨ ∃ mn, p = .rangeLen mn mx) (rs : List ArgReq) (i : Nat)
    (hi : i < rs.length) :
    ((startMatch p).answers g rs)[i]? =
      some (if i < mx then .accepted (decide (rs[i].kind ≠ .term)) else .refused) := by
  have : startMatch p = if mx = 0 then .none else .atMost mx 0 := by
    rcases hp with rfl | ⟨mn, rfl⟩ <;> rfl
  rw [this]
  by_cases h0 : mx = 0
  · rw [if_pos h0, answers_none g rs i hi]; simp [h0]
  · rw [if_neg h0, answers_atMost g mx 0 rs i hi]; simp

/-- C27, no arguments: every request is refused. -/
theorem C27_none (g : GlobFn) (rs : List ArgReq) (i : Nat) (hi : i < rs.length) :
    ((startMatch .none).answers g rs)[i]? = some .refused := answers_none g rs i hi

/-- C27, greedy: every request is accepted, brackets and parentheses as plain terms. -/
theorem C27_greedy (g : GlobFn) (rs : List ArgReq) (i : Nat) (hi : i < rs.length) :
    ((startMatch .greedy).answers g rs)[i]? = some (.accepted (decide (rs[i].kind ≠ .term))) := by
  show (ArgMatcher.greedy.answers g rs)[i]? = _
  induction rs generalizing i with
  | nil => simp at hi
  | cons r rs ih =>
    rcases r with ⟨_ | _ | _⟩ | _ <;> cases i with
    | zero => simp [ArgMatcher.answers, ArgMatcher.matchAsTerm, ArgMatcher.tryMatch, ArgReq.kind]
    | succ i =>
      simpa [ArgMatcher.answers, ArgMatcher.matchAsTerm, ArgMatcher.tryMatch] using ih i (by simpa using hi)

/-- C27, glob: the i-th request is accepted iff the pattern accepts, as a prefix, the kinds requested
so far; nothing is demoted. -/
theorem C27_glob (g : GlobFn) (re : Text) (rs : List ArgReq) (i : Nat) (hi : i < rs.length) :
    ((startMatch (.glob re)).answers g rs)[i]? =
      some (if g re ((rs.take (i + 1)).map fun r => argLetter r.kind) then .accepted false else .refused) := by
  have gen : ∀ (pre : Text) (rs : List ArgReq) (i : Nat), i < rs.length →
      ((ArgMatcher.glob re pre).answers g rs)[i]? =
      some (if g re (pre ++ (rs.take (i + 1)).map fun r => r.kind.char) then .accepted false
        else .refused) := by
    intro pre rs
    induction rs generalizing pre with
    | nil => intro i hi; simp at hi
    | cons r rs ih =>
      intro i hi
      cases r with
      | brace k =>
        cases i with
        | zero =>
          by_cases h : g re (pre ++ [k.char]) <;>
            simp [ArgMatcher.answers, ArgMatcher.matchAsTerm, ArgMatcher.tryMatch, ArgReq.kind, h]
        | succ i =>
          have := ih (pre ++ [k.char]) i (by simpa using hi)
          simpa [ArgMatcher.answers, ArgMatcher.matchAsTerm, ArgMatcher.tryMatch, ArgReq.kind] using this
      | plain =>
        cases i with
        | zero =>
          by_cases h : g re (pre ++ [ArgKind.term.char]) <;>
            simp [ArgMatcher.answers, ArgMatcher.tryMatch, ArgReq.kind, h]
        | succ i =>
          have := ih (pre ++ [ArgKind.term.char]) i (by simpa using hi)
          simpa [ArgMatcher.answers, ArgMatcher.tryMatch, ArgReq.kind] using this
  have hc : ∀ k : ArgKind, argLetter k = k.char := fun k => by cases k <;> rfl
  simpa [startMatch, hc] using gen [] rs i hi

/-- Only the greedy pattern yields a greedy matcher. -/
theorem C27_greedy_iff (p : ArgPattern) : (startMatch p).isGreedy = true ↔ p = .greedy := by
  cases p <;> simp only [startMatch] <;> (try split) <;> simp [ArgMatcher.isGreedy]

example : (startMatch (.fixedLen 2)).answers globPrefix [.brace .bracket, .plain, .brace .term]
    = [.accepted true, .accepted false, .refused] := by decide

end Mitex
