/-
The grammar as a function on rows (without the tree builder), and its agreement with the parser.
-/
import Verif.Spec.Grammar
import Verif.Proof.Parser

namespace Mitex
namespace Grammar

/-! ### The functions -/

/-- An item parser on rows. -/
abbrev GFn := Scope → Bool → Row → List Tok → Res (Bool × Row × List Tok)

/-- Items up to `stop`. -/
def gItems (C : GFn) (sc : Scope) (stop : List Token) : Nat → Row → List Tok → Res (Row × List Tok)
  | 0, _, _ => .error .fuel
  | n + 1, r, ts =>
    match ts with
    | [] => .ok (r, [])
    | t :: ts0 =>
      if t.1 ∈ stop then .ok (r, t :: ts0)
      else C sc false r (t :: ts0) >>= fun q =>
        gItems C sc stop n (if q.1 then { q.2.1 with last := some r.items.length } else q.2.1) q.2.2

/-- A group. -/
def gGroup (C : GFn) (n : Nat) (sc : Scope) (close : Token) (kind : Kind) (t : Tok) (ts : List Tok) : Res (Elem × List Tok) :=
  gItems C sc (enders sc) n ⟨[leafOf t], some 1, none⟩ ts >>= fun q =>
    .ok (.node kind (q.1.items ++ (closing close q.2).1), (closing close q.2).2)

/-- The operand of a greedy command. -/
def gRest (C : GFn) (lim : Nat) (sc : Scope) : Nat → Row → List Tok → Res (Row × List Tok)
  | 0, _, _ => .error .fuel
  | n + 1, r, ts =>
    match ts with
    | [] => .ok (r, [])
    | t :: ts0 =>
      if isBlank t.1 then gRest C lim sc n (r.add [leafOf t]) ts0
      else if t.1 ∈ greedyEnders sc then .ok (r, t :: ts0)
      else match t.1 with
        | .left .curly => gGroup C lim .curlyItem (.right .curly) .itemCurly t ts0 >>= fun q =>
            gRest C lim sc n { r.add [q.1] with last := some r.items.length } q.2
        | .left _ => gRest C lim sc n { r.add [leafOf t] with last := some r.items.length } ts0
        | _ => C sc false r (t :: ts0) >>= fun q =>
            gRest C lim sc n (if q.1 then { q.2.1 with last := some r.items.length } else q.2.1) q.2.2

/-- The characters of a word taken as arguments, the rest of the word, and the kinds of all arguments. -/
def rob (g : GlobFn) (p : ArgPattern) : List ArgKind → Text → List Elem × Text × List ArgKind
  | ks, [] => ([], [], ks)
  | ks, c :: cs =>
    if takes g p ks .term then
      let q := rob g p (ks ++ [.term]) cs
      (.node .clauseArgument [.token .tokenWord [c]] :: q.1, q.2)
    else ([], c :: cs, ks)

/-- Arguments. -/
def gArgs (g : GlobFn) (C : GFn) (lim : Nat) (sc : Scope) (p : ArgPattern) :
    Nat → List ArgKind → List Tok → Res (List Elem × List Tok × List Tok)
  | 0, _, _ => .error .fuel
  | n + 1, ks, ts =>
    match ts with
    | [] => .ok ([], [], [])
    | t :: ts0 =>
      if isBlank t.1 then
        gArgs g C lim sc p n ks ts0 >>= fun q => .ok (q.1, if q.1.isEmpty then t :: q.2.1 else q.2.1, q.2.2)
      else if t.1 ∈ [Token.ampersand, .caret, .underscore] then .ok ([], [], t :: ts0)
      else match t.1 with
        | .word =>
          let q := rob g p ks t.2
          if q.2.1 ≠ [] then .ok (q.1, [], (.word, q.2.1) :: ts0)
          else gArgs g C lim sc p n q.2.2 (if t.2 = [] then t :: ts0 else ts0) >>= fun q' => .ok (q.1 ++ q'.1, q'.2)
        | .left b =>
          if takes g p ks (argGrouping b).1 then
            (if seesGroup p b then gGroup C lim (argGrouping b).2.1 (argGrouping b).2.2.1 (argGrouping b).2.2.2 t ts0
              else .ok (leafOf t, ts0)) >>= fun q =>
            gArgs g C lim sc p n (ks ++ [(argGrouping b).1]) q.2 >>= fun q' => .ok (.node .clauseArgument [q.1] :: q'.1, q'.2)
          else .ok ([], [], t :: ts0)
        | k =>
          if k ∈ enders sc then .ok ([], [], t :: ts0)
          else if takes g p ks .term then
            C sc false ⟨[], none, none⟩ (t :: ts0) >>= fun q =>
            gArgs g C lim sc p n (ks ++ [.term]) q.2.2 >>= fun q' => .ok (.node .clauseArgument q.2.1.items :: q'.1, q'.2)
          else .ok ([], [], t :: ts0)

/-- The name of a command. -/
def gName (t : Tok) : Res Text := stripBackslash t.2

/-- A command. -/
def gCommand (env : PEnv) (C : GFn) (n : Nat) (sc : Scope) (r : Row) (t : Tok) (ts : List Tok) : Res (Bool × Row × List Tok) :=
  gName t >>= fun name =>
  match commandArgs env.spec name with
  | .right .none => .ok (true, r.add [.node .itemCmd [leafOf t]], ts)
  | .right .greedy => gRest C n sc n ⟨[], some 0, none⟩ ts >>= fun q =>
      .ok (false, { r.add [.node .itemCmd [leafOf t, .node .clauseArgument q.1.items]] with last := none }, q.2)
  | .right p => gArgs env.glob C n sc p n [] ts >>= fun q =>
      .ok (true, { r.add (.node .itemCmd (leafOf t :: q.1) :: q.2.1.map leafOf) with last := none }, q.2.2)
  | .left1 =>
    match r.operand (r.last.or r.first) with
    | none => .error .panic
    | some o => .ok (false, { r with items := o.1 ++ [.node .itemCmd (o.2 ++ [leafOf t])] }, ts)
  | .infixGreedy =>
    match r.operand r.first with
    | none => .error .panic
    | some o => gRest C n sc n ⟨[], some 0, none⟩ ts >>= fun q =>
        .ok (false, ⟨o.1 ++ [.node .itemCmd (o.2 ++ [leafOf t, .node .clauseArgument q.1.items])], none, none⟩, q.2)

/-- An environment. -/
def gEnvironment (env : PEnv) (C : GFn) (n : Nat) (sc : Scope) (r : Row) (t : Tok) (ts : List Tok) : Res (Row × List Tok) :=
  match environmentArgs env.spec t.2 with
  | none => gItems C .environment (enders .environment) n ⟨[.node .itemBegin [leafOf t]], some 1, none⟩ ts >>= fun q =>
      .ok (r.add [.node .itemEnv (q.1.items ++ (closing (.cmd .endEnv) q.2).1.map fun e => .node .itemEnd [e])],
        (closing (.cmd .endEnv) q.2).2)
  | some p =>
    if p = .greedy then .error .panic
    else gArgs env.glob C n sc p n [] ts >>= fun a =>
      gItems C .environment (enders .environment) n
        ⟨.node .itemBegin (leafOf t :: a.1) :: a.2.1.map leafOf, some (1 + a.2.1.length), none⟩ a.2.2 >>= fun q =>
      .ok ({ r.add [.node .itemEnv (q.1.items ++ (closing (.cmd .endEnv) q.2).1.map fun e => .node .itemEnd [e])] with last := none },
        (closing (.cmd .endEnv) q.2).2)

/-- `\left` -/
def gDelimited (C : GFn) (n : Nat) (r : Row) (t : Tok) (ts : List Tok) : Res (Row × List Tok) :=
  gItems C .lr (enders .lr) n ⟨[(delimiter t ts).1], some 1, none⟩ (delimiter t ts).2 >>= fun q =>
    .ok (r.add [.node .itemLR (q.1.items ++ (rightDelimiter q.2).1)], (rightDelimiter q.2).2)

/-- The tokens up to the matching `\fi`, and the rest. -/
def gBlock : List Tok → Nat → List Tok × List Tok
  | [], _ => ([], [])
  | (k, t) :: rest, nested =>
    match k with
    | .cmd (.cif _) => let q := gBlock rest (nested + 1); ((k, t) :: q.1, q.2)
    | .cmd .endIf =>
      if nested = 0 then ([], rest)
      else let q := gBlock rest (nested - 1); ((k, t) :: q.1, q.2)
    | _ => let q := gBlock rest nested; ((k, t) :: q.1, q.2)

/-- A script. -/
def gScript (C : GFn) (sc : Scope) (r : Row) (t : Tok) (ts : List Tok) : Res (Row × List Tok) :=
  match r.operand r.last with
  | none => .error .panic
  | some o =>
    C sc true (r.enter o.1.length (o.2 ++ leafOf t :: (ts.takeWhile fun t => isBlank t.1).map leafOf))
      (ts.dropWhile fun t => isBlank t.1) >>= fun q =>
    .ok (Row.leave o.1.length q.2.1 (o.1 ++ [.node .itemAttachComponent q.2.1.items]), q.2.2)

/-- An apostrophe. -/
def gPrime (r : Row) (t : Tok) (ts : List Tok) : Res (Row × List Tok) :=
  if r.last = none then .ok (r.add [leafOf t], ts)
  else match r.operand r.last with
    | none => .error .panic
    | some o => .ok ({ r with items := o.1 ++ [.node .itemAttachComponent (o.2 ++ [leafOf t])] }, ts)

/-- A text. -/
def gText (r : Row) (t : Tok) (ts : List Tok) : Row × List Tok :=
  (r.add [.node .itemText ((t :: ts.takeWhile fun t => isTextPart t.1).map leafOf)], ts.dropWhile fun t => isTextPart t.1)

/-- With a flag. -/
def flagged (b : Bool) (r : Res (Row × List Tok)) : Res (Bool × Row × List Tok) := r.map fun q => (b, q)

/-- One item. -/
def gBody (env : PEnv) (C : GFn) (n : Nat) : GFn := fun sc one r ts =>
  match ts with
  | [] => .ok (true, r, [])
  | t :: ts =>
    match t.1 with
    | .ampersand | .newLine | .lineBreak | .whitespace | .lineComment | .hash | .asterisk
    | .atSign | .error => .ok (false, r.add [leafOf t], ts)
    | .apostrophe => flagged false (gPrime r t ts)
    | .underscore | .caret => flagged false (gScript C sc r t ts)
    | .left .curly => gGroup C n .curlyItem (.right .curly) .itemCurly t ts >>= fun q => .ok (true, r.add [q.1], q.2)
    | .right .curly | .macroArg _ => .ok (true, r.add [.node .tokenError [leafOf t]], ts)
    | .left _ | .right _ | .tilde | .slash | .ditto | .semicolon => .ok (true, r.add [leafOf t], ts)
    | .word =>
      if one then
        match t.2 with
        | [] => .ok (true, r, t :: ts)
        | c :: cs => .ok (true, r.add [.token .tokenWord [c]], restOfWord cs ts)
      else .ok (true, gText r t ts)
    | .comma => .ok (true, gText r t ts)
    | .dollar => gGroup C n .dollarFormula .dollar .itemFormula t ts >>= fun q => .ok (false, r.add [q.1], q.2)
    | .cmd name =>
      match name with
      | .generic => gCommand env C n sc r t ts
      | .beginEnv => flagged true (gEnvironment env C n sc r t ts)
      | .beginMath => gGroup C n .cmdFormula (.cmd .endMath) .itemFormula t ts >>= fun q => .ok (false, r.add [q.1], q.2)
      | .cif .ifFalse => .ok (true, r.add [.node .itemBlockComment ((gBlock ts 0).1.map leafOf)], (gBlock ts 0).2)
      | .cif .ifTypst => .ok (true, r.add [.node .itemTypstCode ((gBlock ts 0).1.map leafOf)], (gBlock ts 0).2)
      | .cif _ | .celse | .endIf => gCommand env C n sc r t ts
      | .left => flagged true (gDelimited C n r t ts)
      | .right => gCommand env C n sc r t ts
      | .errorBeginEnv | .errorEndEnv => .ok (true, r.add [leafOf t], ts)
      | .endEnv | .endMath => .ok (true, r.add [.node .tokenError [leafOf t]], ts)

/-- One item, with fuel. -/
def gContent (env : PEnv) : Nat → GFn
  | 0 => fun _ _ _ _ => .error .fuel
  | n + 1 => gBody env (gContent env n) n

/-! ### Agreement -/

/-- Both fail in the same way, or both succeed with related results. -/
def M {α β : Type} (Q : α → β → Prop) : Res α → Res β → Prop
  | .ok a, .ok b => Q a b
  | .error x, .error y => x = y
  | _, _ => False

theorem M.bind {α β α' β' : Type} {Q : α → β → Prop} {R : α' → β' → Prop} {r : Res α} {g : Res β} {f : α → Res α'} {h : β → Res β'}
    (hq : M Q r g) (k : ∀ a b, Q a b → M R (f a) (h b)) : M R (r >>= f) (g >>= h) := by
  cases r with
  | error x =>
    cases g with
    | error y => exact hq
    | ok b => exact hq.elim
  | ok a =>
    cases g with
    | error y => exact hq.elim
    | ok b => exact k a b hq

theorem M.mono {α β : Type} {Q R : α → β → Prop} {r : Res α} {g : Res β} (h : M Q r g) (k : ∀ a b, Q a b → R a b) : M R r g := by
  cases r <;> cases g <;> first | exact k _ _ h | exact h

/-- The row of a parser state: the children of the innermost open node. -/
def rowOf (s : PState) : Row :=
  ⟨s.children.drop s.top, Option.map (fun p : Nat => (p : Int) - s.top) s.start, Option.map (fun p : Nat => (p : Int) - s.top) s.last⟩

/-- What an item leaves as it is. -/
structure Frame (s s' : PState) : Prop where
  parents : s'.parents = s.parents
  scope : s'.scope = s.scope
  hold : s'.hold = []
  kept : s'.children.take s.top = s.children.take s.top
  long : s.top ≤ s'.children.length

/-- What an item leaves as it is, also with respect to the positions. -/
structure FrameC (s s' : PState) : Prop extends Frame s s' where
  start : s'.start = s.start ∨ s'.start = none
  last : s'.last = s.last ∨ s'.last = none

/-- The item parsers agree. -/
def Agree (C : ContentFn) (G : GFn) : Prop := ∀ b s, s.hold = [] → s.top ≤ s.children.length →
  M (fun a g => g = (a.1, rowOf a.2, a.2.toks) ∧ FrameC s a.2) (C b s) (G s.scope (!b) (rowOf s) s.toks)

theorem top_of {s s' : PState} (h : s'.parents = s.parents) : s'.top = s.top := by
  unfold PState.top
  rw [h]

theorem Frame.top {s s' : PState} (h : Frame s s') : s'.top = s.top := top_of h.parents

theorem Frame.trans {s s' s'' : PState} (h : Frame s s') (h' : Frame s' s'') : Frame s s'' := by
  have ht := h.top
  refine ⟨h'.parents.trans h.parents, h'.scope.trans h.scope, h'.hold, ?_, ?_⟩
  · rw [← h.kept, ← ht]; exact h'.kept
  · rw [← ht]; exact h'.long

theorem FrameC.trans {s s' s'' : PState} (h : FrameC s s') (h' : FrameC s' s'') : FrameC s s'' := by
  refine ⟨h.toFrame.trans h'.toFrame, ?_, ?_⟩
  · rcases h'.start with e | e
    · rw [e]; exact h.start
    · exact Or.inr e
  · rcases h'.last with e | e
    · rw [e]; exact h.last
    · exact Or.inr e

/-- The state with more children. -/
def added (s : PState) (es : List Elem) (ts : List Tok) : PState := { s with children := s.children ++ es, toks := ts }

theorem row_added {s : PState} (hl : s.top ≤ s.children.length) (es : List Elem) (ts : List Tok) :
    rowOf (added s es ts) = (rowOf s).add es := by
  unfold rowOf added Row.add
  have : PState.top { s with children := s.children ++ es, toks := ts } = s.top := rfl
  rw [this]
  simp only [List.drop_append]
  rw [Nat.sub_eq_zero_of_le hl, List.drop_zero]

theorem frame_added {s : PState} (hh : s.hold = []) (hl : s.top ≤ s.children.length) (es : List Elem) (ts : List Tok) :
    FrameC s (added s es ts) := by
  refine ⟨⟨rfl, rfl, hh, ?_, ?_⟩, Or.inl rfl, Or.inl rfl⟩
  · show (s.children ++ es).take s.top = _
    rw [List.take_append_of_le_length hl]
  · show s.top ≤ (s.children ++ es).length
    rw [List.length_append]
    omega

/-- An item that only adds children. -/
theorem M.added {s : PState} (hh : s.hold = []) (hl : s.top ≤ s.children.length) (att : Bool) (es : List Elem) (ts : List Tok) :
    M (fun a g => g = (a.1, rowOf a.2, a.2.toks) ∧ FrameC s a.2) (.ok (att, Grammar.added s es ts)) (.ok (att, (rowOf s).add es, ts)) := by
  refine ⟨?_, frame_added hh hl es ts⟩
  rw [row_added hl]
  rfl

/-! ### Lists of items -/

theorem stop_iff (sc : Scope) (k : Token) : stopByScope sc k = decide (k ∈ enders sc) := by
  cases sc <;> cases k <;> first
    | rfl
    | (rename_i b; cases b <;> rfl)

theorem isBlank_eq (k : Token) : isBlank k = k.isTrivia := by
  cases k <;> rfl

theorem row_top {s : PState} : (rowOf s).items.length = s.children.length - s.top := by
  unfold rowOf
  rw [List.length_drop]

theorem Agree.items {C : ContentFn} {G : GFn} (hC : Agree C G) (n : Nat) (s : PState) (hh : s.hold = [])
    (hl : s.top ≤ s.children.length) :
    M (fun a g => g = (rowOf a, a.toks) ∧ Frame s a) (itemListLoop C n s.checkpoint s)
      (gItems G s.scope (enders s.scope) n (rowOf s) s.toks) := by
  induction n generalizing s with
  | zero => exact rfl
  | succ n ih =>
    rw [itemListLoop, gItems.eq_def]
    dsimp only
    have hnil : Frame s s := ⟨rfl, rfl, hh, rfl, hl⟩
    cases ht : s.toks with
    | nil =>
      have hp : s.peek = none := by unfold PState.peek; rw [ht]; rfl
      rw [hp]
      exact ⟨by rw [ht], hnil⟩
    | cons t ts =>
      have hp : s.peek = some t.1 := by unfold PState.peek; rw [ht]; rfl
      rw [hp]
      dsimp only
      rw [stop_iff]
      by_cases hs : t.1 ∈ enders s.scope
      · rw [if_pos (decide_eq_true hs), if_pos hs]
        exact ⟨by rw [ht], hnil⟩
      · rw [if_neg (by simpa using hs), if_neg hs, ← ht]
        refine M.bind (hC true s hh hl) ?_
        rintro ⟨att, s1⟩ g ⟨hg, hf⟩
        subst hg
        dsimp only
        have ht := hf.toFrame.top
        have h1 : ∀ s2 : PState, s2.parents = s1.parents → s2.children = s1.children → s2.hold = s1.hold → s2.scope = s1.scope →
            M (fun a g => g = (rowOf a, a.toks) ∧ Frame s a) (itemListLoop C n s2.checkpoint s2)
              (gItems G s.scope (enders s.scope) n (rowOf s2) s2.toks) := by
          intro s2 e1 e2 e3 e4
          have hf2 : Frame s s2 := by
            refine ⟨e1.trans hf.parents, e4.trans hf.scope, e3.trans hf.hold, ?_, ?_⟩
            · rw [e2]; exact hf.kept
            · rw [e2]; exact hf.long
          have := ih s2 hf2.hold (by rw [hf2.top]; exact hf2.long)
          rw [hf2.scope] at this
          exact this.mono fun a g h => ⟨h.1, hf2.trans h.2⟩
        cases att with
        | false => exact h1 s1 rfl rfl rfl rfl
        | true =>
          have := h1 { s1 with last := some s.checkpoint } rfl rfl rfl rfl
          have hr : rowOf { s1 with last := some s.checkpoint } = { rowOf s1 with last := some ((rowOf s).items.length : Int) } := by
            rw [row_top]
            unfold rowOf PState.checkpoint
            have ht' : s1.top = s.top := ht
            show Row.mk (s1.children.drop s1.top) _ (some ((s.children.length : Int) - (s1.top : Int))) = Row.mk _ _ _
            have : (s.children.length : Int) - (s1.top : Int) = ((s.children.length - s.top : Nat) : Int) := by omega
            rw [this]
            rfl
          rw [hr] at this
          exact this

/-- A list of items in a fresh scope, in a node that is open. -/
theorem Agree.list {C : ContentFn} {G : GFn} (hC : Agree C G) (n : Nat) (sc : Scope) (s : PState) (hh : s.hold = [])
    (hl : s.top ≤ s.children.length) :
    M (fun a g => a = { s with children := s.children.take s.top ++ g.1.items, toks := g.2 }) (itemList C n sc s)
      (gItems G sc (enders sc) n ⟨(rowOf s).items, some (rowOf s).items.length, none⟩ s.toks) := by
  unfold itemList
  have h := hC.items n { s with start := some s.checkpoint, last := none, scope := sc } hh hl
  have hr : rowOf { s with start := some s.checkpoint, last := none, scope := sc }
      = ⟨(rowOf s).items, some ((rowOf s).items.length : Int), none⟩ := by
    rw [row_top]
    unfold rowOf PState.checkpoint
    show Row.mk (s.children.drop s.top) (some ((s.children.length : Int) - (s.top : Int))) none = Row.mk _ _ _
    have : (s.children.length : Int) - (s.top : Int) = ((s.children.length - s.top : Nat) : Int) := by omega
    rw [this]
  rw [hr] at h
  have := M.bind (R := fun a g => a = { s with children := s.children.take s.top ++ g.1.items, toks := g.2 }) h
    (f := fun s' : PState => .ok { s' with start := s.start, last := s.last, scope := s.scope }) (h := fun g => .ok g) ?_
  · rw [show (gItems G sc (enders sc) n ⟨(rowOf s).items, some ((rowOf s).items.length : Int), none⟩ s.toks >>= fun g => .ok g)
      = gItems G sc (enders sc) n ⟨(rowOf s).items, some ((rowOf s).items.length : Int), none⟩ s.toks by
        cases gItems G sc (enders sc) n ⟨(rowOf s).items, some ((rowOf s).items.length : Int), none⟩ s.toks <;> rfl] at this
    exact this
  · rintro a g ⟨hg, hf⟩
    subst hg
    show _ = _
    have h1 := hf.parents
    have h2 := hf.hold
    have h3 := hf.kept
    have h4 := hf.top
    dsimp only at h1 h2 h3 h4
    have h5 : PState.top { s with start := some s.checkpoint, last := none, scope := sc } = s.top := rfl
    rw [h5] at h3 h4
    have : a.children = s.children.take s.top ++ (rowOf a).items := by
      unfold rowOf
      rw [h4, ← h3]
      exact (List.take_append_drop _ _).symm
    rw [← this, h1, h2, hh]

end Grammar
end Mitex
