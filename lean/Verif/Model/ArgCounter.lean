/-
Model of the counter of `ArgMatcher::AtMostTerm` as it is stored, in a byte (crates/mitex-parser/src/arg_match.rs:20 and 65-73); in
Model/ArgMatch.lean it is a number.
-/
import Verif.Model.ArgMatch

namespace Mitex

/-- arg_match.rs:65-73 `try_match` of a term, `AtMostTerm { max, counter }`: the answer and the new counter.  `checked`: overflow of
`*counter += 1` is a panic (`none`; builds with debug assertions); otherwise it wraps around. -/
def byteTry (checked : Bool) (max counter : UInt8) : Option (Bool × UInt8) :=
  if checked && counter == 255 then none else some (decide (counter < max), counter + 1)

/-- parser.rs:642-780 `match_arguments_`: the matcher is asked for one term after the other, until it refuses one or there are no more;
here, how many of `n` terms it takes (`none`: panic). -/
def byteTaken (checked : Bool) (max : UInt8) : UInt8 → Nat → Option Nat
  | _, 0 => some 0
  | counter, n + 1 =>
    match byteTry checked max counter with
    | none => none
    | some (false, _) => some 0
    | some (true, counter) => (byteTaken checked max counter n).map (· + 1)

/-- The same with the counter of Model/ArgMatch.lean. -/
def taken (g : GlobFn) : ArgMatcher → Nat → Nat
  | _, 0 => 0
  | m, n + 1 =>
    match m.tryMatch g .term with
    | (false, _) => 0
    | (true, m) => taken g m n + 1

end Mitex
