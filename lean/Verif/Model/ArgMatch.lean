/-
Model of crates/mitex-parser/src/arg_match.rs.
-/
import Verif.Model.Spec
import Verif.Model.Glob

namespace Mitex

/-- crates/mitex-spec/src/lib.rs:165-177 `argument_kind`: the encoded argument kinds `t`, `b`, `p`. -/
inductive ArgKind where
  | term | bracket | paren
  deriving DecidableEq, Repr

/-- crates/mitex-spec/src/lib.rs:165-177, the characters. -/
def ArgKind.char : ArgKind → Char
  | .term => 't'
  | .bracket => 'b'
  | .paren => 'p'

/-- arg_match.rs:7-36 `ArgMatcher`. The `u8` counter is a `Nat`; it never exceeds `max + 1`. -/
inductive ArgMatcher where
  | none
  | atMost (max counter : Nat)
  | greedy
  | glob (re : Text) (pre : Text)
  deriving DecidableEq, Repr

/-- How glob patterns are matched: a parameter of the parser so that its theorems hold for any
behaviour of the matcher; the real one is `globPrefix` below. -/
abbrev GlobFn := Text → Text → Bool

/-- arg_match.rs:38-42 `is_greedy`. -/
def ArgMatcher.isGreedy : ArgMatcher → Bool
  | .greedy => true
  | _ => false

/-- arg_match.rs:58-76 `try_match`. -/
def ArgMatcher.tryMatch (g : GlobFn) (m : ArgMatcher) (k : ArgKind) : Bool × ArgMatcher :=
  match m with
  | .none => (false, m)
  | .greedy => (true, m)
  | .atMost mx ct =>
    if k ≠ .term then (false, m) else (decide (ct < mx), .atMost mx (ct + 1))
  | .glob re pre => (g re (pre ++ [k.char]), .glob re (pre ++ [k.char]))

/-- arg_match.rs:44-56 `match_as_term`: `none` = no match, `some b` = matched, `b` iff the brace is
demoted to a plain term. -/
def ArgMatcher.matchAsTerm (g : GlobFn) (m : ArgMatcher) (k : ArgKind) : Option Bool × ArgMatcher :=
  match m with
  | .none => (Option.none, m)
  | .greedy => (some (k ≠ .term), m)
  | .atMost .. =>
    let r := m.tryMatch g .term
    (if r.1 then some (decide (k ≠ .term)) else Option.none, r.2)
  | .glob .. =>
    let r := m.tryMatch g k
    (if r.1 then some false else Option.none, r.2)

/-- arg_match.rs:88-107 `ArgMatcherBuilder::start_match`. -/
def startMatch : ArgPattern → ArgMatcher
  | .none => .none
  | .rangeLen _ mx | .fixedLen mx => if mx = 0 then .none else .atMost mx 0
  | .greedy => .greedy
  | .glob re => .glob re []

/-- `glob_match_prefix`, run with a generous number of rounds; out of rounds or panic counts as "no"
(no panic for any pattern, and out of rounds only for patterns with stars inside of braces, property C26). -/
def globPrefix : GlobFn := fun re pre =>
  match Glob.matchPrefix (32 * (re.length + 2) * (pre.length + 2)) re pre with
  | .ok b => b
  | .error _ => false

end Mitex
