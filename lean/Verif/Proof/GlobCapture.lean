/-
Captures do not influence matching (C73).
-/
import Verif.Model.GlobCapture
import Verif.Proof.GlobSafe

namespace Mitex.Glob

/-- Without the captures. -/
def CWild.plain (w : CWild) : Wild := ⟨w.g, w.p⟩
def CState.plain (s : CState) : State := ⟨s.path, s.glob, s.wild.plain, s.star.plain⟩
def CBraces.plain (b : CBraces) : Braces := ⟨b.stack.map CState.plain, b.longest⟩
def COut.plain : COut → Out
  | .cont s b _ => .cont s.plain b.plain
  | .ret r _ => .ret r
  | .panic => .panic

theorem skipBracesC_plain (glob : List Nat) (sc : Bool) (p : Nat) : ∀ (n i br : Nat) (ib : Bool) (ci : Nat) (caps : List Capture),
    (skipBracesC glob sc p n i br ib ci caps).1 = skipBraces glob sc n i br ib := by
  intro n
  induction n with
  | zero => intros; rfl
  | succ n ih =>
    intro i br ib ci caps
    rw [skipBracesC, skipBraces]
    split
    · rfl
    · cases glob[i]? with
      | none => rfl
      | some c =>
        dsimp only
        repeat' split
        all_goals first | rfl | exact ih ..

theorem popC_plain (b : CBraces) (s : CState) (caps : List Capture) :
    (popC b s caps).map (fun r => (r.1.plain, r.2.1.plain)) = pop b.plain s.plain := by
  cases b with
  | mk st l =>
    cases st with
    | nil => rfl
    | cons top rest =>
      cases rest <;> rfl

theorem afterMismatchC_plain (glob path : List Nat) (pre neg : Bool) (s : CState) (b : CBraces) (caps : List Capture) :
    (afterMismatchC glob path pre neg s b caps).plain = afterMismatch glob path pre neg s.plain b.plain := by
  unfold afterMismatchC afterMismatch
  have hw : s.plain.wild.p = s.wild.p := rfl
  simp only [hw]
  by_cases h : 0 < s.wild.p ∧ s.wild.p ≤ path.length
  · simp only [if_pos h]; rfl
  · simp only [if_neg h]
    obtain ⟨st, l⟩ := b
    cases st with
    | nil => rfl
    | cons top rest =>
      have hs := skipBracesC_plain glob true s.path (glob.length + 1) s.glob 1 false (s.cap + 1) caps
      have hg : s.plain.glob = s.glob := rfl
      simp only [CBraces.plain, List.map_cons, hg]
      rw [← hs]
      rcases skipBracesC glob true s.path (glob.length + 1) s.glob 1 false (s.cap + 1) caps with ⟨⟨bs, i⟩, caps'⟩
      cases bs with
      | invalid => rfl
      | comma => rfl
      | endBrace =>
        dsimp only
        by_cases hl : 0 ≤ l
        · simp only [if_pos hl]
          have := popC_plain ⟨top :: rest, l⟩ { s with glob := i } caps'
          simp only [CBraces.plain, List.map_cons] at this
          have he : CState.plain { s with glob := i } = { s.plain with glob := i } := rfl
          rw [he] at this
          rw [← this]
          cases popC ⟨top :: rest, l⟩ { s with glob := i } caps' with
          | none => rfl
          | some r => rfl
        · simp only [if_neg hl]
          have hw' : top.plain.wild.p = top.wild.p := rfl
          rw [hw']
          by_cases h2 : 0 < top.wild.p ∧ top.wild.p ≤ path.length
          · simp only [if_pos h2]; rfl
          · simp only [if_neg h2]; rfl


/-- The second half of the arm for stars. -/
def starEndC (glob path : List Nat) (b : CBraces) (caps : List Capture) (sg : CState) : COut :=
  let sg : CState :=
    if sg.star.p ≠ sg.wild.p ∧ path[sg.path]? = some bSlash then
      if 0 < sg.star.p ∧ sg.path + 1 < path.length then
        { sg with glob := sg.star.g, cap := sg.star.cap, wild := { sg.wild with g := sg.star.g, cap := sg.star.cap } }
      else { sg with wild := { sg.wild with p := 0 } }
    else sg
  if b.stack ≠ [] ∧ (glob[sg.glob]? = some bComma ∨ glob[sg.glob]? = some bRBrace) then
    match skipBracesC glob false sg.path (glob.length + 1) sg.glob 1 false (sg.cap + 1) caps with
    | ((.invalid, _), caps) => .ret false caps
    | ((_, i), caps) => .cont { sg with glob := i } b caps
  else .cont sg b caps

def starEnd (glob path : List Nat) (b : Braces) (sg : State) : Out :=
  let sg : State :=
    if sg.star.p ≠ sg.wild.p ∧ path[sg.path]? = some bSlash then
      if 0 < sg.star.p ∧ sg.path + 1 < path.length then
        { sg with glob := sg.star.g, wild := { sg.wild with g := sg.star.g } }
      else { sg with wild := { sg.wild with p := 0 } }
    else sg
  if b.stack ≠ [] ∧ (glob[sg.glob]? = some bComma ∨ glob[sg.glob]? = some bRBrace) then
    match skipBraces glob false (glob.length + 1) sg.glob 1 false with
    | (.invalid, _) => .ret false
    | (_, i) => .cont { sg with glob := i } b
  else .cont sg b

theorem plain_stack (b : CBraces) : b.plain.stack ≠ [] ↔ b.stack ≠ [] := by
  unfold CBraces.plain
  cases b.stack <;> simp

theorem starSkip_plain (glob : List Nat) (b : CBraces) (caps : List Capture) (sg : CState) :
    (if b.stack ≠ [] ∧ (glob[sg.glob]? = some bComma ∨ glob[sg.glob]? = some bRBrace) then
      match skipBracesC glob false sg.path (glob.length + 1) sg.glob 1 false (sg.cap + 1) caps with
      | ((.invalid, _), caps) => COut.ret false caps
      | ((_, i), caps) => .cont { sg with glob := i } b caps
    else .cont sg b caps).plain =
    if b.plain.stack ≠ [] ∧ (glob[sg.plain.glob]? = some bComma ∨ glob[sg.plain.glob]? = some bRBrace) then
      match skipBraces glob false (glob.length + 1) sg.plain.glob 1 false with
      | (.invalid, _) => .ret false
      | (_, i) => .cont { sg.plain with glob := i } b.plain
    else .cont sg.plain b.plain := by
  have hg : sg.plain.glob = sg.glob := rfl
  simp only [plain_stack, hg]
  by_cases h : b.stack ≠ [] ∧ (glob[sg.glob]? = some bComma ∨ glob[sg.glob]? = some bRBrace)
  · rw [if_pos h, if_pos h, ← skipBracesC_plain glob false sg.path (glob.length + 1) sg.glob 1 false (sg.cap + 1) caps]
    rcases skipBracesC glob false sg.path (glob.length + 1) sg.glob 1 false (sg.cap + 1) caps with ⟨⟨bs, i⟩, caps'⟩
    cases bs <;> rfl
  · rw [if_neg h, if_neg h]; rfl

theorem starEndC_plain (glob path : List Nat) (b : CBraces) (caps : List Capture) (sg : CState) :
    (starEndC glob path b caps sg).plain = starEnd glob path b.plain sg.plain := by
  unfold starEndC starEnd
  dsimp only
  rw [starSkip_plain]
  have : (CState.plain (if sg.star.p ≠ sg.wild.p ∧ path[sg.path]? = some bSlash then
      if 0 < sg.star.p ∧ sg.path + 1 < path.length then
        { sg with glob := sg.star.g, cap := sg.star.cap, wild := { sg.wild with g := sg.star.g, cap := sg.star.cap } }
      else { sg with wild := { sg.wild with p := 0 } }
    else sg)) = (if sg.plain.star.p ≠ sg.plain.wild.p ∧ path[sg.plain.path]? = some bSlash then
      if 0 < sg.plain.star.p ∧ sg.plain.path + 1 < path.length then
        { sg.plain with glob := sg.plain.star.g, wild := { sg.plain.wild with g := sg.plain.star.g } }
      else { sg.plain with wild := { sg.plain.wild with p := 0 } }
    else sg.plain) := by
    have e1 : sg.plain.star.p = sg.star.p := rfl
    have e2 : sg.plain.wild.p = sg.wild.p := rfl
    have e3 : sg.plain.path = sg.path := rfl
    rw [e1, e2, e3]
    split
    · split <;> rfl
    · rfl
  rw [this]

/-- The first half. -/
def starBeginC (glob path : List Nat) (s : CState) (caps : List Capture) : CState × List Capture :=
  let isStar2 : Bool := glob[s.glob+1]? = some bStar
  let g := if isStar2 then skipGlobstars glob glob.length (s.glob + 2) - 2 else s.glob
  let fresh : Bool := caps = [] ∨ g ≠ s.wild.g
  let caps := if fresh then beginCapture s.cap (s.path, s.path) caps else extendCapture s.cap s.path caps
  let wild : CWild := { g := g, p := s.path + 1, cap := if fresh then s.cap else s.wild.cap }
  (if isStar2 then
      if glob.length = g + 2 then { s with glob := g + 2, wild := wild, star := wild }
      else if (g + 2 < 3 ∨ glob[g+2-3]? = some bSlash) ∧ glob[g+2]? = some bSlash then
        if s.path = 0 ∨ (s.path < path.length ∧ path[s.path-1]? = some bSlash) then
          { s with glob := g + 2 + 1, cap := endCapture s.cap caps, wild := wild, star := wild }
        else { s with glob := g + 2, wild := wild, star := wild }
      else { s with glob := g + 2, wild := wild }
    else { s with glob := g + 1, wild := wild }, caps)

theorem starArmC_eq (glob path : List Nat) (s : CState) (b : CBraces) (caps : List Capture) :
    starArmC glob path s b caps = starEndC glob path b (starBeginC glob path s caps).2 (starBeginC glob path s caps).1 := rfl

def starBegin (glob path : List Nat) (s : State) : State :=
  let isStar2 : Bool := glob[s.glob+1]? = some bStar
  let g := if isStar2 then skipGlobstars glob glob.length (s.glob + 2) - 2 else s.glob
  let wild : Wild := { g := g, p := s.path + 1 }
  if isStar2 then
      if glob.length = g + 2 then { s with glob := g + 2, wild := wild, star := wild }
      else if (g + 2 < 3 ∨ glob[g+2-3]? = some bSlash) ∧ glob[g+2]? = some bSlash then
        { s with glob := if s.path = 0 ∨ (s.path < path.length ∧ path[s.path-1]? = some bSlash) then g + 2 + 1 else g + 2, wild := wild, star := wild }
      else { s with glob := g + 2, wild := wild }
    else { s with glob := g + 1, wild := wild }

theorem starArm_eq (glob path : List Nat) (s : State) (b : Braces) :
    starArm glob path s b = starEnd glob path b (starBegin glob path s) := rfl

theorem starBeginC_plain (glob path : List Nat) (s : CState) (caps : List Capture) :
    (starBeginC glob path s caps).1.plain = starBegin glob path s.plain := by
  unfold starBeginC starBegin
  have e1 : s.plain.glob = s.glob := rfl
  have e2 : s.plain.path = s.path := rfl
  simp only [e1, e2]
  split
  · split
    · rfl
    · split
      · split <;> rfl
      · rfl
  · rfl

theorem starArmC_plain (glob path : List Nat) (s : CState) (b : CBraces) (caps : List Capture) :
    (starArmC glob path s b caps).plain = starArm glob path s.plain b.plain := by
  rw [starArmC_eq, starArm_eq, starEndC_plain, starBeginC_plain]

theorem popOut_plain (b : CBraces) (s : CState) (caps : List Capture) :
    COut.plain (match popC b s caps with
      | none => .panic
      | some (s, b, caps) => .cont s b caps) =
    match pop b.plain s.plain with
      | none => .panic
      | some (s, b) => .cont s b := by
  rw [← popC_plain b s caps]
  cases popC b s caps <;> rfl

theorem stepC_plain (glob path : List Nat) (pre neg : Bool) (s : CState) (b : CBraces) (caps : List Capture) :
    (stepC glob path pre neg s b caps).plain = step glob path pre neg s.plain b.plain := by
  unfold stepC step
  have e1 : s.plain.glob = s.glob := rfl
  have e2 : s.plain.path = s.path := rfl
  rw [e1, e2]
  cases glob[s.glob]? with
  | none => exact afterMismatchC_plain ..
  | some g =>
    dsimp only
    by_cases h1 : g = bStar
    · rw [if_pos h1, if_pos h1]; exact starArmC_plain ..
    rw [if_neg h1, if_neg h1]
    have hmid : ∀ X : COut, ∀ Y : Out, X.plain = Y → (if g = bRBrace ∧ b.stack ≠ [] then
        match popC { b with longest := max b.longest s.path } { s with glob := s.glob + 1 } caps with
        | none => .panic
        | some (s, b, caps) => .cont s b caps
      else if g = bComma ∧ b.stack ≠ [] then
        match b.stack with
        | [] => COut.panic
        | top :: _ =>
          .cont { s with path := top.path, glob := s.glob + 1, wild := {}, star := {} }
            { b with longest := max b.longest s.path } caps
      else X).plain = (if g = bRBrace ∧ b.plain.stack ≠ [] then
        match pop { b.plain with longest := max b.plain.longest s.path } { s.plain with glob := s.glob + 1 } with
        | none => .panic
        | some (s, b) => .cont s b
      else if g = bComma ∧ b.plain.stack ≠ [] then
        match b.plain.stack with
        | [] => Out.panic
        | top :: _ =>
          .cont { s.plain with path := top.path, glob := s.glob + 1, wild := {}, star := {} }
            { b.plain with longest := max b.plain.longest s.path }
      else Y) := by
      intro X Y hXY
      simp only [plain_stack]
      by_cases h2 : g = bRBrace ∧ b.stack ≠ []
      · rw [if_pos h2, if_pos h2]; exact popOut_plain ..
      rw [if_neg h2, if_neg h2]
      by_cases h3 : g = bComma ∧ b.stack ≠ []
      · rw [if_pos h3, if_pos h3]
        obtain ⟨st, l⟩ := b
        cases st <;> rfl
      rw [if_neg h3, if_neg h3]
      exact hXY
    cases path[s.path]? with
    | none => exact hmid _ _ (afterMismatchC_plain ..)
    | some pc =>
      dsimp only
      by_cases h2 : g = bQuest
      · rw [if_pos h2, if_pos h2]
        split
        · rfl
        · exact afterMismatchC_plain ..
      rw [if_neg h2, if_neg h2]
      by_cases h3 : g = bLBrack
      · rw [if_pos h3, if_pos h3]
        cases classLoop glob pc (glob.length + 1) _ true false with
        | none => rfl
        | some r =>
          obtain ⟨m, i⟩ := r
          dsimp only
          split
          · rfl
          · split
            · rfl
            · exact afterMismatchC_plain glob path pre neg { s with glob := i + 1 } b caps
      rw [if_neg h3, if_neg h3]
      by_cases h4 : g = bLBrace
      · rw [if_pos h4, if_pos h4]
        have : b.plain.stack.length = b.stack.length := by simp [CBraces.plain]
        rw [this]
        split <;> rfl
      rw [if_neg h4, if_neg h4]
      refine hmid _ _ ?_
      cases unescape g glob s.glob with
      | none => rfl
      | some r =>
        obtain ⟨c, i⟩ := r
        dsimp only
        by_cases h5 : (if c = bSlash then pc = bSlash else pc = c)
        · rw [if_pos h5, if_pos h5]
          simp only [plain_stack]
          by_cases h6 : b.stack ≠ [] ∧ 0 < i ∧ glob[i-1]? = some bRBrace
          · rw [if_pos h6, if_pos h6]
            have := popC_plain { b with longest := s.path } { s with glob := i, cap := endCapture s.cap caps } caps
            have he : pop ⟨b.plain.stack, (s.path : Int)⟩ ⟨s.path, i, s.plain.wild, s.plain.star⟩ =
              (popC { b with longest := s.path } { s with glob := i, cap := endCapture s.cap caps } caps).map (fun r => (r.1.plain, r.2.1.plain)) := this.symm
            rw [he]
            cases popC { b with longest := s.path } { s with glob := i, cap := endCapture s.cap caps } caps with
            | none => rfl
            | some r =>
              obtain ⟨s', b', caps'⟩ := r
              simp only [Option.map_some]
              split <;> rfl
          · rw [if_neg h6, if_neg h6]
            dsimp only
            split <;> rfl
        · rw [if_neg h5, if_neg h5]
          exact afterMismatchC_plain glob path pre neg { s with glob := i } b caps

theorem runC_plain (glob path : List Nat) (pre neg : Bool) : ∀ (n : Nat) (s : CState) (b : CBraces) (caps : List Capture),
    (runC glob path pre neg n s b caps).map Prod.fst = run glob path pre neg n s.plain b.plain := by
  intro n
  induction n with
  | zero => intros; rfl
  | succ n ih =>
    intro s b caps
    rw [runC, run]
    have e1 : s.plain.glob = s.glob := rfl
    have e2 : s.plain.path = s.path := rfl
    rw [e1, e2]
    split
    · rw [← stepC_plain glob path pre neg s b caps]
      cases stepC glob path pre neg s b caps with
      | cont s b caps => exact ih ..
      | ret r caps => rfl
      | panic => rfl
    · simp only [plain_stack]
      obtain ⟨st, l⟩ := b
      cases st with
      | nil => rfl
      | cons top rest =>
        dsimp only
        have hr : (if top :: rest ≠ [] ∧ 0 < s.glob ∧ glob.length < s.glob then (Except.error Stop.panic : Res Bool) else .ok !neg) =
            if s.glob = 0 then .ok !neg else if glob.length < s.glob then .error .panic else .ok !neg := by
          by_cases h1 : s.glob = 0
          · rw [if_pos h1, if_neg (fun h => by have := h.2.1; omega)]
          · rw [if_neg h1]
            by_cases h2 : glob.length < s.glob
            · rw [if_pos h2, if_pos ⟨by simp, by omega, h2⟩]
            · rw [if_neg h2, if_neg (fun h => h2 h.2.2)]
        rw [hr]
        split
        · rfl
        · split
          · rfl
          · split <;> rfl

/-- Captures are only recorded. -/
theorem matchInternalC_plain (fuel : Nat) (glob path : List Nat) (pre : Bool) :
    (matchInternalC fuel glob path pre).map Prod.fst = matchInternal fuel glob path pre :=
  runC_plain ..

end Mitex.Glob
