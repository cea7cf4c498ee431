/-
Model of crates/mitex-glob/src/lib.rs (glob matching on bytes).
Captures are only recorded by `glob_match_with_captures`, which nothing else in the repository calls; with `captures = None` they do not
influence the result and are left out here (Model/GlobCapture has them).
`u32`/`i32` casts of indices are exact below 2^31 bytes and modelled as identities.
`is_separator` is the Unix one (`/`).
-/
import Verif.Model.Basic

namespace Mitex.Glob
open Mitex (Text)

/-- `str::as_bytes` of one character. -/
def encodeChar (c : Char) : List Nat :=
  let n := c.toNat
  if n < 0x80 then [n]
  else if n < 0x800 then [0xc0 + n / 0x40, 0x80 + n % 0x40]
  else if n < 0x10000 then [0xe0 + n / 0x1000, 0x80 + n / 0x40 % 0x40, 0x80 + n % 0x40]
  else [0xf0 + n / 0x40000, 0x80 + n / 0x1000 % 0x40, 0x80 + n / 0x40 % 0x40, 0x80 + n % 0x40]

/-- `str::as_bytes`. -/
def bytes (t : Text) : List Nat := t.flatMap encodeChar

/-- lib.rs:24-30 `Wildcard` without the capture index. -/
structure Wild where
  g : Nat := 0
  p : Nat := 0
  deriving DecidableEq, Repr

/-- lib.rs:10-22 `State` without the capture index. -/
structure State where
  path : Nat := 0
  glob : Nat := 0
  wild : Wild := {}
  star : Wild := {}
  deriving DecidableEq, Repr

/-- lib.rs:481-498 `BraceStack`: the used part of the array, top first, and `longest_brace_match`. -/
structure Braces where
  stack : List State := []
  longest : Int := -1
  deriving DecidableEq, Repr

/-- What one round of the main loop does. -/
inductive Out where
  | cont (s : State) (b : Braces)
  | ret (r : Bool)
  | panic
  deriving DecidableEq, Repr

-- byte constants
/-- `b'*'` -/ abbrev bStar : Nat := 42
/-- `b'?'` -/ abbrev bQuest : Nat := 63
/-- `b'['` -/ abbrev bLBrack : Nat := 91
/-- `b']'` -/ abbrev bRBrack : Nat := 93
/-- `b'{'` -/ abbrev bLBrace : Nat := 123
/-- `b'}'` -/ abbrev bRBrace : Nat := 125
/-- `b','` -/ abbrev bComma : Nat := 44
/-- `b'/'` -/ abbrev bSlash : Nat := 47
/-- `b'!'` -/ abbrev bBang : Nat := 33
/-- `b'^'` -/ abbrev bCaret : Nat := 94
/-- `b'-'` -/ abbrev bDash : Nat := 45
/-- `b'\\'` -/ abbrev bBack : Nat := 92

/-- lib.rs:472-478 `skip_globstars`: skip `/**` repetitions from index `i`. -/
def skipGlobstars (glob : List Nat) : Nat → Nat → Nat
  | 0, i => i
  | n + 1, i =>
    if glob[i]? = some bSlash ∧ glob[i+1]? = some bStar ∧ glob[i+2]? = some bStar then
      skipGlobstars glob n (i + 3)
    else i

/-- lib.rs:347-364 `unescape`: result `(byte, new glob index)`, `none` = invalid pattern. -/
def unescape (c : Nat) (glob : List Nat) (i : Nat) : Option (Nat × Nat) :=
  if c = bBack then
    match glob[i+1]? with
    | none => none
    | some d =>
      some ((if d = 97 then 97 else if d = 98 then 8 else if d = 110 then 10
             else if d = 114 then 13 else if d = 116 then 9 else d), i + 1)
  else some (c, i)

/-- lib.rs:367-371 `BraceState`. -/
inductive BraceState where
  | invalid | comma | endBrace
  deriving DecidableEq, Repr

/-- lib.rs:417-468 `State::skip_braces` on the glob index; `n` is fuel (each round advances). -/
def skipBraces (glob : List Nat) (stopOnComma : Bool) :
    Nat → Nat → Nat → Bool → BraceState × Nat
  | 0, i, braces, _ => (if braces ≠ 0 then .invalid else .endBrace, i)
  | n + 1, i, braces, inBr =>
    if braces = 0 then (.endBrace, i) else
    match glob[i]? with
    | none => (.invalid, i)
    | some c =>
      if c = bLBrace ∧ !inBr then skipBraces glob stopOnComma n (i + 1) (braces + 1) inBr
      else if c = bRBrace ∧ !inBr then skipBraces glob stopOnComma n (i + 1) (braces - 1) inBr
      else if c = bComma ∧ stopOnComma ∧ braces = 1 ∧ !inBr then (.comma, i + 1)
      else if (c = bStar ∨ c = bQuest ∨ c = bLBrack) ∧ !inBr then
        let i' :=
          if c = bStar ∧ glob[i+1]? = some bStar then skipGlobstars glob glob.length (i + 2) - 2 + 1
          else i
        skipBraces glob stopOnComma n (i' + 1) braces (inBr || c == bLBrack)
      else if c = bRBrack then skipBraces glob stopOnComma n (i + 1) braces false
      else if c = bBack then skipBraces glob stopOnComma n (i + 2) braces inBr
      else skipBraces glob stopOnComma n (i + 1) braces inBr

/-- lib.rs:501-511 `BraceStack::push`. -/
def push (b : Braces) (s : State) : State × Braces :=
  ({ path := s.path, glob := s.glob + 1 }, { b with stack := s :: b.stack })

/-- lib.rs:514-533 `BraceStack::pop`. (Only called with a non-empty stack; otherwise the `u32`
underflows.) -/
def pop (b : Braces) (s : State) : Option (State × Braces) :=
  match b.stack with
  | [] => none
  | top :: rest =>
    some ({ path := b.longest.toNat, glob := s.glob, wild := top.wild, star := top.star },
      { stack := rest, longest := if rest = [] then -1 else b.longest })

/-- lib.rs:167-214: the character class after `[`; returns `none` for an invalid pattern (`return false`),
otherwise whether `c` is in some range and the glob index at the closing `]`. -/
def classLoop (glob : List Nat) (c : Nat) : Nat → Nat → Bool → Bool → Option (Bool × Nat)
  | 0, i, _, m => some (m, i)
  | n + 1, i, first, m =>
    match glob[i]? with
    | none => some (m, i)
    | some g =>
      if !first ∧ g = bRBrack then some (m, i) else
      match unescape g glob i with
      | none => none
      | some (low, i) =>
        let i := i + 1
        let hi : Option (Nat × Nat) :=
          if glob[i]? = some bDash ∧ (glob[i+1]?).isSome ∧ glob[i+1]? ≠ some bRBrack then
            match unescape ((glob[i+1]?).getD 0) glob (i + 1) with
            | none => none
            | some (high, j) => some (high, j + 1)
          else some (low, i)
        match hi with
        | none => none
        | some (high, i) => classLoop glob c n i false (m || (decide (low ≤ c) && decide (c ≤ high)))

/-- lib.rs:288-333, what happens after a failed match in one round: back to the last star, next brace
alternative, or return. -/
def afterMismatch (glob path : List Nat) (isPrefix negated : Bool) (s : State) (b : Braces) : Out :=
  let final (s : State) : Out :=
    .ret (if isPrefix then
        (if negated then decide (s.path ≠ path.length) else decide (s.path = path.length))
      else negated)
  if 0 < s.wild.p ∧ s.wild.p ≤ path.length then
    .cont { s with glob := s.wild.g, path := s.wild.p } b
  else
    match b.stack with
    | [] => final s
    | top :: rest =>
      match skipBraces glob true (glob.length + 1) s.glob 1 false with
      | (.invalid, _) => .ret false
      | (.comma, i) => .cont { s with glob := i, path := top.path } b
      | (.endBrace, i) =>
        let s := { s with glob := i }
        if 0 ≤ b.longest then
          match pop b s with
          | none => .panic
          | some (s, b) => .cont s b
        else
          let s := top
          let b := { b with stack := rest }
          if 0 < s.wild.p ∧ s.wild.p ≤ path.length then
            .cont { s with glob := s.wild.g, path := s.wild.p } b
          else final s

/-- lib.rs:73-157, the arm for `*` and `**`. -/
def starArm (glob path : List Nat) (s : State) (b : Braces) : Out :=
  let isStar2 : Bool := glob[s.glob+1]? = some bStar
  let g := if isStar2 then skipGlobstars glob glob.length (s.glob + 2) - 2 else s.glob
  let wild : Wild := { g := g, p := s.path + 1 }
  let sg : State :=
    if isStar2 then
      let g := g + 2
      if glob.length = g then { s with glob := g, wild := wild, star := wild }
      else if (g < 3 ∨ glob[g-3]? = some bSlash) ∧ glob[g]? = some bSlash then
        let g' :=
          if s.path = 0 ∨ (s.path < path.length ∧ path[s.path-1]? = some bSlash) then g + 1 else g
        { s with glob := g', wild := wild, star := wild }
      else { s with glob := g, wild := wild }
    else { s with glob := g + 1, wild := wild }
  let sg : State :=
    if sg.star.p ≠ sg.wild.p ∧ path[sg.path]? = some bSlash then
      if 0 < sg.star.p ∧ sg.path + 1 < path.length then
        { sg with glob := sg.star.g, wild := { sg.wild with g := sg.star.g } }
      else { sg with wild := { sg.wild with p := 0 } }
    else sg
  if b.stack ≠ [] ∧ (glob[sg.glob]? = some bComma ∨ glob[sg.glob]? = some bRBrace) then
    match skipBraces glob false (glob.length + 1) sg.glob 1 false with
    | (.invalid, _) => .ret false
    | (_, i) => .cont { sg with glob := i } b
  else .cont sg b

/-- lib.rs:70-334, one round of the main loop (its condition is tested by `run`). -/
def step (glob path : List Nat) (isPrefix negated : Bool) (s : State) (b : Braces) : Out :=
  match glob[s.glob]? with
  | none => afterMismatch glob path isPrefix negated s b
  | some g =>
    if g = bStar then starArm glob path s b
    else
    match path[s.path]? with
    | some pc =>
      if g = bQuest then
        if pc ≠ bSlash then .cont { s with glob := s.glob + 1, path := s.path + 1 } b
        else afterMismatch glob path isPrefix negated s b
      else if g = bLBrack then
        let i := s.glob + 1
        let neg : Bool := glob[i]? = some bCaret ∨ glob[i]? = some bBang
        let i := if neg then i + 1 else i
        match classLoop glob pc (glob.length + 1) i true false with
        | none => .ret false
        | some (m, i) =>
          if glob.length ≤ i then .ret false
          else
            let s := { s with glob := i + 1 }
            if m ≠ neg then .cont { s with path := s.path + 1 } b
            else afterMismatch glob path isPrefix negated s b
      else if g = bLBrace then
        if 10 ≤ b.stack.length then .ret false
        else
          let r := push b s
          .cont r.1 r.2
      else if g = bRBrace ∧ b.stack ≠ [] then
        match pop { b with longest := max b.longest s.path } { s with glob := s.glob + 1 } with
        | none => .panic
        | some (s, b) => .cont s b
      else if g = bComma ∧ b.stack ≠ [] then
        match b.stack with
        | [] => .panic
        | top :: _ =>
          .cont { s with path := top.path, glob := s.glob + 1, wild := {}, star := {} }
            { b with longest := max b.longest s.path }
      else
        match unescape g glob s.glob with
        | none => .ret false
        | some (c, i) =>
          let s := { s with glob := i }
          if (if c = bSlash then pc = bSlash else pc = c) then
            let sb : Option (State × Braces) :=
              if b.stack ≠ [] ∧ 0 < s.glob ∧ glob[s.glob-1]? = some bRBrace then
                pop { b with longest := s.path } s
              else some (s, b)
            match sb with
            | none => .panic
            | some (s, b) =>
              .cont { s with glob := s.glob + 1, path := s.path + 1,
                             star := if c ≠ bSlash then { s.star with p := 0 } else s.star } b
          else afterMismatch glob path isPrefix negated s b
    | none =>
      if g = bRBrace ∧ b.stack ≠ [] then
        match pop { b with longest := max b.longest s.path } { s with glob := s.glob + 1 } with
        | none => .panic
        | some (s, b) => .cont s b
      else if g = bComma ∧ b.stack ≠ [] then
        match b.stack with
        | [] => .panic
        | top :: _ =>
          .cont { s with path := top.path, glob := s.glob + 1, wild := {}, star := {} }
            { b with longest := max b.longest s.path }
      else afterMismatch glob path isPrefix negated s b

/-- lib.rs:69-341, the main loop and its epilogue (the last `pop` has no effect on the result). -/
def run (glob path : List Nat) (isPrefix negated : Bool) : Nat → State → Braces → Res Bool
  | 0, _, _ => .error .fuel
  | n + 1, s, b =>
    if s.glob < glob.length ∨ s.path < path.length then
      match step glob path isPrefix negated s b with
      | .cont s b => run glob path isPrefix negated n s b
      | .ret r => .ok r
      | .panic => .error .panic
    else
      -- `glob[state.glob_index - 1]` (line 336) is out of range if an escape ran past the end
      if b.stack ≠ [] ∧ 0 < s.glob ∧ glob.length < s.glob then .error .panic
      else .ok (!negated)

/-- lib.rs:62-67: count the leading `!`. -/
def leadingBangs : List Nat → Nat
  | [] => 0
  | g :: gs => if g = bBang then leadingBangs gs + 1 else 0

/-- lib.rs:48-341 `glob_match_internal` with `captures = None`. -/
def matchInternal (fuel : Nat) (glob path : List Nat) (isPrefix : Bool) : Res Bool :=
  let k := leadingBangs glob
  run glob path isPrefix (k % 2 == 1) fuel { glob := k } {}

/-- lib.rs:34-36 `glob_match_prefix`. -/
def matchPrefix (fuel : Nat) (glob path : Text) : Res Bool :=
  matchInternal fuel (bytes glob) (bytes path) true

/-- lib.rs:38-40 `glob_match`. -/
def matchFull (fuel : Nat) (glob path : Text) : Res Bool :=
  matchInternal fuel (bytes glob) (bytes path) false

end Mitex.Glob
