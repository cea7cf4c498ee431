/-
Model of crates/mitex-glob/src/lib.rs with captures: `glob_match_with_captures` (lib.rs:42-48).
The same conventions as Model/Glob.
-/
import Verif.Model.Glob

namespace Mitex.Glob

/-- lib.rs:32 `Capture`: `start..end`. -/
abbrev Capture := Nat × Nat

/-- lib.rs:24-30 `Wildcard`. -/
structure CWild where
  g : Nat := 0
  p : Nat := 0
  cap : Nat := 0
  deriving DecidableEq, Repr

/-- lib.rs:10-22 `State`. -/
structure CState where
  path : Nat := 0
  glob : Nat := 0
  cap : Nat := 0
  wild : CWild := {}
  star : CWild := {}
  deriving DecidableEq, Repr

/-- lib.rs:481-498 `BraceStack`. -/
structure CBraces where
  stack : List CState := []
  longest : Int := -1
  deriving DecidableEq, Repr

/-- What one round of the main loop does; the captures are the vector behind the reference. -/
inductive COut where
  | cont (s : CState) (b : CBraces) (caps : List Capture)
  | ret (r : Bool) (caps : List Capture)
  | panic
  deriving DecidableEq, Repr

/-- lib.rs:382-390 `begin_capture`. -/
def beginCapture (i : Nat) (c : Capture) (caps : List Capture) : List Capture :=
  if i < caps.length then caps.set i c else caps ++ [c]

/-- lib.rs:392-399 `extend_capture`. -/
def extendCapture (i : Nat) (e : Nat) (caps : List Capture) : List Capture :=
  if i < caps.length then caps.modify i (fun c => (c.1, e)) else caps

/-- lib.rs:401-408 `end_capture`: the new capture index. -/
def endCapture (i : Nat) (caps : List Capture) : Nat := if i < caps.length then i + 1 else i

/-- lib.rs:410-415 `add_char_capture`: the new capture index and captures. -/
def addCharCapture (s : CState) (caps : List Capture) : CState × List Capture :=
  ({ s with cap := endCapture s.cap caps + 1 }, beginCapture (endCapture s.cap caps) (s.path, s.path + 1) caps)

/-- lib.rs:417-468 `skip_braces`, as `skipBraces`: the wildcards that are skipped get empty captures at `p`; `ci` is the
local `capture_index`. -/
def skipBracesC (glob : List Nat) (stopOnComma : Bool) (p : Nat) :
    Nat → Nat → Nat → Bool → Nat → List Capture → (BraceState × Nat) × List Capture
  | 0, i, braces, _, _, caps => ((if braces ≠ 0 then .invalid else .endBrace, i), caps)
  | n + 1, i, braces, inBr, ci, caps =>
    if braces = 0 then ((.endBrace, i), caps) else
    match glob[i]? with
    | none => ((.invalid, i), caps)
    | some c =>
      if c = bLBrace ∧ !inBr then skipBracesC glob stopOnComma p n (i + 1) (braces + 1) inBr ci caps
      else if c = bRBrace ∧ !inBr then skipBracesC glob stopOnComma p n (i + 1) (braces - 1) inBr ci caps
      else if c = bComma ∧ stopOnComma ∧ braces = 1 ∧ !inBr then ((.comma, i + 1), caps)
      else if (c = bStar ∨ c = bQuest ∨ c = bLBrack) ∧ !inBr then
        let i' :=
          if c = bStar ∧ glob[i+1]? = some bStar then skipGlobstars glob glob.length (i + 2) - 2 + 1
          else i
        skipBracesC glob stopOnComma p n (i' + 1) braces (inBr || c == bLBrack) (ci + 1) (beginCapture ci (p, p) caps)
      else if c = bRBrack then skipBracesC glob stopOnComma p n (i + 1) braces false ci caps
      else if c = bBack then skipBracesC glob stopOnComma p n (i + 2) braces inBr ci caps
      else skipBracesC glob stopOnComma p n (i + 1) braces inBr ci caps

/-- lib.rs:501-511 `BraceStack::push`. -/
def pushC (b : CBraces) (s : CState) : CState × CBraces :=
  ({ path := s.path, glob := s.glob + 1, cap := s.cap + 1 }, { b with stack := s :: b.stack })

/-- lib.rs:514-533 `BraceStack::pop`. -/
def popC (b : CBraces) (s : CState) (caps : List Capture) : Option (CState × CBraces × List Capture) :=
  match b.stack with
  | [] => none
  | top :: rest =>
    let caps := extendCapture top.cap b.longest.toNat caps
    some ({ path := b.longest.toNat, glob := s.glob, cap := caps.length, wild := top.wild, star := top.star },
      { stack := rest, longest := if rest = [] then -1 else b.longest }, caps)

/-- lib.rs:375-379 `backtrack`. -/
def backtrackC (s : CState) : CState := { s with glob := s.wild.g, path := s.wild.p, cap := s.wild.cap }

/-- lib.rs:288-333, as `afterMismatch`. -/
def afterMismatchC (glob path : List Nat) (isPrefix negated : Bool) (s : CState) (b : CBraces) (caps : List Capture) : COut :=
  let final (s : CState) (caps : List Capture) : COut :=
    .ret (if isPrefix then
        (if negated then decide (s.path ≠ path.length) else decide (s.path = path.length))
      else negated) caps
  if 0 < s.wild.p ∧ s.wild.p ≤ path.length then .cont (backtrackC s) b caps
  else
    match b.stack with
    | [] => final s caps
    | top :: rest =>
      match skipBracesC glob true s.path (glob.length + 1) s.glob 1 false (s.cap + 1) caps with
      | ((.invalid, _), caps) => .ret false caps
      | ((.comma, i), caps) => .cont { s with glob := i, path := top.path } b caps
      | ((.endBrace, i), caps) =>
        let s := { s with glob := i }
        if 0 ≤ b.longest then
          match popC b s caps with
          | none => .panic
          | some (s, b, caps) => .cont s b caps
        else
          let s := top
          let b := { b with stack := rest }
          let caps := caps.take s.cap
          if 0 < s.wild.p ∧ s.wild.p ≤ path.length then .cont (backtrackC s) b caps
          else final s caps

/-- lib.rs:73-157, the arm for `*` and `**`. -/
def starArmC (glob path : List Nat) (s : CState) (b : CBraces) (caps : List Capture) : COut :=
  let isStar2 : Bool := glob[s.glob+1]? = some bStar
  let g := if isStar2 then skipGlobstars glob glob.length (s.glob + 2) - 2 else s.glob
  let fresh : Bool := caps = [] ∨ g ≠ s.wild.g
  let caps := if fresh then beginCapture s.cap (s.path, s.path) caps else extendCapture s.cap s.path caps
  let wild : CWild := { g := g, p := s.path + 1, cap := if fresh then s.cap else s.wild.cap }
  let sg : CState :=
    if isStar2 then
      let g := g + 2
      if glob.length = g then { s with glob := g, wild := wild, star := wild }
      else if (g < 3 ∨ glob[g-3]? = some bSlash) ∧ glob[g]? = some bSlash then
        if s.path = 0 ∨ (s.path < path.length ∧ path[s.path-1]? = some bSlash) then
          { s with glob := g + 1, cap := endCapture s.cap caps, wild := wild, star := wild }
        else { s with glob := g, wild := wild, star := wild }
      else { s with glob := g, wild := wild }
    else { s with glob := g + 1, wild := wild }
  let sg : CState :=
    if sg.star.p ≠ sg.wild.p ∧ path[sg.path]? = some bSlash then
      if 0 < sg.star.p ∧ sg.path + 1 < path.length then
        { sg with glob := sg.star.g, cap := sg.star.cap, wild := { sg.wild with g := sg.star.g, cap := sg.star.cap } }
      else { sg with wild := { sg.wild with p := 0 } }
    else sg
  if b.stack ≠ [] ∧ (glob[sg.glob]? = some bComma ∨ glob[sg.glob]? = some bRBrace) then
    match skipBracesC glob false sg.path (glob.length + 1) sg.glob 1 false (sg.cap + 1) caps with
    | ((.invalid, _), caps) => .ret false caps
    | ((_, i), caps) => .cont { sg with glob := i } b caps
  else .cont sg b caps

/-- lib.rs:70-334, one round of the main loop (its condition is tested by `runC`). -/
def stepC (glob path : List Nat) (isPrefix negated : Bool) (s : CState) (b : CBraces) (caps : List Capture) : COut :=
  match glob[s.glob]? with
  | none => afterMismatchC glob path isPrefix negated s b caps
  | some g =>
    if g = bStar then starArmC glob path s b caps
    else
    match path[s.path]? with
    | some pc =>
      if g = bQuest then
        if pc ≠ bSlash then
          let r := addCharCapture s caps
          .cont { r.1 with glob := s.glob + 1, path := s.path + 1 } b r.2
        else afterMismatchC glob path isPrefix negated s b caps
      else if g = bLBrack then
        let i := s.glob + 1
        let neg : Bool := glob[i]? = some bCaret ∨ glob[i]? = some bBang
        let i := if neg then i + 1 else i
        match classLoop glob pc (glob.length + 1) i true false with
        | none => .ret false caps
        | some (m, i) =>
          if glob.length ≤ i then .ret false caps
          else
            let s := { s with glob := i + 1 }
            if m ≠ neg then
              let r := addCharCapture s caps
              .cont { r.1 with path := s.path + 1 } b r.2
            else afterMismatchC glob path isPrefix negated s b caps
      else if g = bLBrace then
        if 10 ≤ b.stack.length then .ret false caps
        else
          let s := { s with cap := endCapture s.cap caps }
          let r := pushC b s
          .cont r.1 r.2 (beginCapture s.cap (s.path, s.path) caps)
      else if g = bRBrace ∧ b.stack ≠ [] then
        match popC { b with longest := max b.longest s.path } { s with glob := s.glob + 1 } caps with
        | none => .panic
        | some (s, b, caps) => .cont s b caps
      else if g = bComma ∧ b.stack ≠ [] then
        match b.stack with
        | [] => .panic
        | top :: _ =>
          .cont { s with path := top.path, glob := s.glob + 1, wild := {}, star := {} }
            { b with longest := max b.longest s.path } caps
      else
        match unescape g glob s.glob with
        | none => .ret false caps
        | some (c, i) =>
          let s := { s with glob := i }
          if (if c = bSlash then pc = bSlash else pc = c) then
            let s := { s with cap := endCapture s.cap caps }
            let sb : Option (CState × CBraces × List Capture) :=
              if b.stack ≠ [] ∧ 0 < s.glob ∧ glob[s.glob-1]? = some bRBrace then
                popC { b with longest := s.path } s caps
              else some (s, b, caps)
            match sb with
            | none => .panic
            | some (s, b, caps) =>
              .cont { s with glob := s.glob + 1, path := s.path + 1,
                             star := if c ≠ bSlash then { s.star with p := 0 } else s.star } b caps
          else afterMismatchC glob path isPrefix negated s b caps
    | none =>
      if g = bRBrace ∧ b.stack ≠ [] then
        match popC { b with longest := max b.longest s.path } { s with glob := s.glob + 1 } caps with
        | none => .panic
        | some (s, b, caps) => .cont s b caps
      else if g = bComma ∧ b.stack ≠ [] then
        match b.stack with
        | [] => .panic
        | top :: _ =>
          .cont { s with path := top.path, glob := s.glob + 1, wild := {}, star := {} }
            { b with longest := max b.longest s.path } caps
      else afterMismatchC glob path isPrefix negated s b caps

/-- lib.rs:69-341, the main loop and its epilogue. -/
def runC (glob path : List Nat) (isPrefix negated : Bool) : Nat → CState → CBraces → List Capture → Res (Bool × List Capture)
  | 0, _, _, _ => .error .fuel
  | n + 1, s, b, caps =>
    if s.glob < glob.length ∨ s.path < path.length then
      match stepC glob path isPrefix negated s b caps with
      | .cont s b caps => runC glob path isPrefix negated n s b caps
      | .ret r caps => .ok (r, caps)
      | .panic => .error .panic
    else
      match b.stack with
      | [] => .ok (!negated, caps)
      | top :: _ =>
        if s.glob = 0 then .ok (!negated, caps)
        else if glob.length < s.glob then .error .panic
        else if glob[s.glob-1]? = some bRBrace then .ok (!negated, extendCapture top.cap s.path caps)
        else .ok (!negated, caps)

/-- lib.rs:48-341 `glob_match_internal` with `captures = Some(&mut Vec::new())`. -/
def matchInternalC (fuel : Nat) (glob path : List Nat) (isPrefix : Bool) : Res (Bool × List Capture) :=
  let k := leadingBangs glob
  runC glob path isPrefix (k % 2 == 1) fuel { glob := k } {} []

/-- lib.rs:42-48 `glob_match_with_captures`. -/
def matchCaptures (fuel : Nat) (glob path : Text) : Res (Option (List Capture)) :=
  match matchInternalC fuel (bytes glob) (bytes path) false with
  | .error e => .error e
  | .ok (true, caps) => .ok (some caps)
  | .ok (false, _) => .ok none

end Mitex.Glob
