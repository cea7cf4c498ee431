/-
The parser agrees with the grammar on rows: commands, environments, scripts, and all items.
-/
import Verif.Proof.GrammarArgs

namespace Mitex
namespace Grammar

/-! ### Rebuilding the innermost node -/

/-- The state with other children of the innermost node. -/
def rebuilt (s : PState) (items : List Elem) (ts : List Tok) : PState :=
  { s with children := s.children.take s.top ++ items, toks := ts }

theorem row_rebuilt {s : PState} (hl : s.top ≤ s.children.length) (items : List Elem) (ts : List Tok) :
    rowOf (rebuilt s items ts) = { rowOf s with items := items } := by
  unfold rowOf rebuilt
  have : PState.top { s with children := s.children.take s.top ++ items, toks := ts } = s.top := rfl
  rw [this]
  have h : (s.children.take s.top ++ items).drop s.top = items := by
    rw [List.drop_append]
    simp [Nat.min_eq_left hl]
  simp only [h]

theorem frame_rebuilt {s : PState} (hh : s.hold = []) (hl : s.top ≤ s.children.length) (items : List Elem) (ts : List Tok) :
    FrameC s (rebuilt s items ts) := by
  refine ⟨⟨rfl, rfl, hh, ?_, ?_⟩, Or.inl rfl, Or.inl rfl⟩
  · show (s.children.take s.top ++ items).take s.top = _
    rw [List.take_append, List.take_take, List.length_take]
    simp [Nat.min_eq_left hl]
  · show s.top ≤ (s.children.take s.top ++ items).length
    rw [List.length_append, List.length_take]
    omega

/-! ### Operands -/

/-- Opening a node at a position, with what follows the position as its argument. -/
def openAt (k : Kind) (p : Option Nat) (s : PState) : Res PState :=
  match p with
  | some p => do
    let s ← s.startNodeAt p k
    let s ← s.startNodeAt p .clauseArgument
    s.finishNode
  | none => .ok (s.startNode k)

/-- The result of an operand. -/
def operandRes (o : Option (List Elem × List Elem)) : Res (List Elem × List Elem) :=
  match o with
  | none => .error .panic
  | some o => .ok o

theorem openAt_eq {k : Kind} {p : Option Nat} {s : PState} (hl : s.top ≤ s.children.length) :
    M (fun a o => a = { s with
        parents := (k, (s.children.take s.top ++ o.1).length) :: s.parents
        children := (s.children.take s.top ++ o.1) ++ o.2 })
      (openAt k p s) (operandRes ((rowOf s).operand (Option.map (fun p : Nat => (p : Int) - s.top) p))) := by
  cases p with
  | none =>
    show _ = _
    have : s.children.take s.top ++ (rowOf s).items = s.children := by unfold rowOf; simp
    rw [this, List.append_nil]
    rfl
  | some p =>
    unfold openAt Row.operand
    simp only [Option.map_some]
    rw [row_top]
    by_cases hp : p ≤ s.children.length ∧ s.top ≤ p
    · rw [cmdAt_eq hp, if_pos (by omega)]
      have e : ((p : Int) - s.top).toNat = p - s.top := by omega
      rw [e]
      show _ = _
      unfold rowOf PState.cmdAt
      dsimp only
      have e1 : s.children.take s.top ++ (s.children.drop s.top).take (p - s.top) = s.children.take p := by
        have := List.take_add (l := s.children) (i := s.top) (j := p - s.top)
        rw [← this]
        congr 1
        omega
      have e2 : (s.children.drop s.top).drop (p - s.top) = s.children.drop p := by
        rw [List.drop_drop]
        congr 1
        omega
      rw [e1, e2, List.length_take, Nat.min_eq_left hp.1]
    · rw [cmdAt_panic hp, if_neg (by omega)]
      exact rfl

theorem startCommandAt_eq (p : Option Nat) (s : PState) : startCommandAt p s = openAt .itemCmd p s := by
  cases p <;> rfl

/-! ### Commands -/

theorem row_last {s : PState} : (rowOf { s with last := none }) = { rowOf s with last := none } := rfl

theorem M.withFlag {s : PState} {b : Bool} {r : Res PState} {g : Res (Row × List Tok)}
    (h : M (fun a g => g = (rowOf a, a.toks) ∧ FrameC s a) r g) :
    M (fun a g => g = (a.1, rowOf a.2, a.2.toks) ∧ FrameC s a.2) (withFlag b r) (flagged b g) := by
  cases r with
  | error x =>
    cases g with
    | error y => exact h
    | ok b => exact h.elim
  | ok a =>
    cases g with
    | error y => exact h.elim
    | ok q => exact ⟨by rw [h.1], h.2⟩

/-- The arguments of a command (not greedy). -/
theorem Agree.arguments {C : ContentFn} {G : GFn} (hC : Agree C G) {g : GlobFn} {p : ArgPattern} (hp : p ≠ .greedy) (n : Nat) (s : PState) :
    M (fun a q => a = { argued s q with last := none }) (matchArguments g C n false (startMatch p) s)
      (gArgs g G n s.scope p n [] s.toks) := by
  unfold matchArguments
  have hm := Corr.init hp
  rw [if_neg (by rw [hm.notGreedy]; simp)]
  have h := hC.args (g := g) n n [] (startMatch p) { s with last := none, start := none } hm rfl rfl
  have h2 := M.bind (R := fun a q => a = { argued s q with last := none }) h
    (f := fun s' : PState => .ok { s' with start := s.start, last := none }) (h := fun q => .ok q) ?_
  · rw [show (gArgs g G n s.scope p n [] s.toks) = (gArgs g G n s.scope p n [] s.toks >>= fun q => .ok q) by
      cases gArgs g G n s.scope p n [] s.toks <;> rfl]
    exact h2
  · rintro a q rfl
    rfl

/-- The operand of a greedy command, in its node. -/
theorem Agree.operand {C : ContentFn} {G : GFn} (hC : Agree C G) {g : GlobFn} (n : Nat) (s : PState) (hh : s.hold = []) :
    M (fun a q => a = { s with
        children := s.children ++ [.node .clauseArgument q.1.items], toks := q.2, last := none })
      (do
        let s ← matchArguments g C n true .greedy (s.startNode .clauseArgument)
        s.finishNode)
      (gRest G n s.scope n ⟨[], some 0, none⟩ s.toks) := by
  unfold matchArguments
  rw [if_neg (by simp [ArgMatcher.isGreedy])]
  obtain ⟨s1, hs1⟩ : ∃ s1 : PState, s1 = { s.startNode .clauseArgument with
    last := none, start := if true then some (s.startNode .clauseArgument).checkpoint else none } := ⟨_, rfl⟩
  rw [← hs1]
  have htop : s1.top = s.children.length := by rw [hs1]; rfl
  have hch : s1.children = s.children := by rw [hs1]; rfl
  have h := hC.rest (g := g) n n s1 (by rw [hs1]; exact hh) (by rw [htop, hch]; exact Nat.le_refl _)
  have hr : rowOf s1 = ⟨[], some 0, none⟩ := by
    unfold rowOf
    rw [htop, hch, hs1]
    simp [PState.startNode, PState.checkpoint]
  rw [hr, show s1.scope = s.scope by rw [hs1]; rfl, show s1.toks = s.toks by rw [hs1]; rfl] at h
  have h2 := M.bind (R := fun a q => a = { s with
        children := s.children ++ [.node .clauseArgument q.1.items], toks := q.2, last := none }) h
    (f := fun s' : PState => ((.ok { s' with start := (s.startNode .clauseArgument).start, last := none } : Res PState)
      >>= fun s => s.finishNode)) (h := fun q => .ok q) ?_
  · rw [show (gRest G n s.scope n ⟨[], some 0, none⟩ s.toks) = (gRest G n s.scope n ⟨[], some 0, none⟩ s.toks >>= fun q => .ok q) by
      cases gRest G n s.scope n ⟨[], some 0, none⟩ s.toks <;> rfl]
    cases hm : matchLoop g C n true n .greedy s1 with
    | error x => rw [hm] at h2; exact h2
    | ok a => rw [hm] at h2; exact h2
  · rintro a q ⟨rfl, hf⟩
    rw [ok_bind]
    have hp := hf.parents
    have hk := hf.kept
    have hhd := hf.hold
    have hsc := hf.scope
    have hc : a.children = s.children ++ (rowOf a).items := by
      unfold rowOf
      rw [hf.top, htop]
      rw [htop, hch, List.take_length] at hk
      have := List.take_append_drop s.children.length a.children
      rw [hk] at this
      exact this.symm
    rw [hs1] at hp hsc
    rw [finish_app (s := { a with start := _, last := none }) (k := .clauseArgument) (ps := s.parents) (cs := s.children)
      (es := (rowOf a).items) hp hc, hhd, hsc, ← hh]
    rfl

theorem Agree.tail {C : ContentFn} {G : GFn} (hC : Agree C G) {g : GlobFn} {p : ArgPattern} (hp : p ≠ .greedy) (n : Nat) {s : PState}
    {ps : List (Kind × Nat)} {cs es : List Elem} {t : Tok} {ts : List Tok} (ht : s.toks = t :: ts)
    (hps : s.parents = (.itemCmd, cs.length) :: ps) (hc : s.children = cs ++ es) (hh : s.hold = []) :
    M (fun a q => a = (true, { s with
        parents := ps
        children := cs ++ (.node .itemCmd (es ++ leafOf t :: q.1) :: q.2.1.map leafOf)
        toks := q.2.2
        last := none }))
      (commandTail g C n (startMatch p) s) (gArgs g G n s.scope p n [] ts) := by
  unfold commandTail
  rw [eat_eq ht, ok_bind, (Corr.init hp).notGreedy]
  dsimp only
  rw [if_neg (by simp)]
  have h := hC.arguments (g := g) hp n (s.ate t ts)
  have h2 := M.bind (R := fun a q => a = (true, ({ s with
        parents := ps
        children := cs ++ (.node .itemCmd (es ++ leafOf t :: q.1) :: q.2.1.map leafOf)
        toks := q.2.2
        last := none } : PState))) h
    (f := fun s' : PState => s'.finishNode >>= fun s => (.ok (!false, s.extractHold) : Res (Bool × PState))) (h := fun q => .ok q) ?_
  · rw [show (gArgs g G n s.scope p n [] ts) = (gArgs g G n s.scope p n [] ts >>= fun q => .ok q) by
      cases gArgs g G n s.scope p n [] ts <;> rfl]
    exact h2
  · rintro a q rfl
    refine M.left (finish_then (cs := cs) (es := es ++ leafOf t :: q.1) hps
      (by show (s.children ++ [leafOf t]) ++ q.1 = _; rw [hc]; simp)) ?_
    show _ = _
    unfold PState.extractHold argued
    have : (s.ate t ts).hold = [] := hh
    dsimp only
    rw [this]
    simp only [List.nil_append, ite_self, Bool.not_false, List.append_assoc, List.cons_append]
    congr 2
    exact hh.symm

theorem Agree.tailGreedy {C : ContentFn} {G : GFn} (hC : Agree C G) {g : GlobFn} (n : Nat) {s : PState}
    {ps : List (Kind × Nat)} {cs es : List Elem} {t : Tok} {ts : List Tok} (ht : s.toks = t :: ts)
    (hps : s.parents = (.itemCmd, cs.length) :: ps) (hc : s.children = cs ++ es) (hh : s.hold = []) :
    M (fun a q => a = (false, { s with
        parents := ps
        children := cs ++ [.node .itemCmd (es ++ [leafOf t, .node .clauseArgument q.1.items])]
        toks := q.2
        last := none }))
      (commandTail g C n .greedy s) (gRest G n s.scope n ⟨[], some 0, none⟩ ts) := by
  unfold commandTail
  rw [eat_eq ht, ok_bind]
  have h := hC.operand (g := g) n (s.ate t ts) hh
  have h2 := M.bind (R := fun a q => a = (false, ({ s with
        parents := ps
        children := cs ++ [.node .itemCmd (es ++ [leafOf t, .node .clauseArgument q.1.items])]
        toks := q.2
        last := none } : PState))) h
    (f := fun s' : PState => s'.finishNode >>= fun s => (.ok (!true, s.extractHold) : Res (Bool × PState))) (h := fun q => .ok q) ?_
  · rw [show (gRest G n s.scope n ⟨[], some 0, none⟩ ts) = (gRest G n s.scope n ⟨[], some 0, none⟩ ts >>= fun q => .ok q) by
      cases gRest G n s.scope n ⟨[], some 0, none⟩ ts <;> rfl]
    refine M.left ?_ h2
    simp only [ArgMatcher.isGreedy, if_true]
    cases matchArguments g C n true ArgMatcher.greedy ((s.ate t ts).startNode .clauseArgument) with
    | error x => rfl
    | ok a => rfl
  · rintro a q rfl
    refine M.left (finish_then (cs := cs) (es := es ++ [leafOf t, .node .clauseArgument q.1.items]) hps
      (by show (s.children ++ [leafOf t]) ++ [_] = _; rw [hc]; simp)) ?_
    show _ = _
    unfold PState.extractHold
    have : (s.ate t ts).hold = [] := hh
    dsimp only
    rw [this]
    simp only [List.map_nil, List.append_nil, Bool.not_true]
    congr 2
    exact hh.symm

/-- The relation of results. -/
abbrev Same (s : PState) (a : Bool × PState) (g : Bool × Row × List Tok) : Prop := g = (a.1, rowOf a.2, a.2.toks) ∧ FrameC s a.2

theorem symbol_eq {s : PState} {t : Tok} {ts : List Tok} (ht : s.toks = t :: ts) :
    (do
      let s ← (s.startNode .itemCmd).eat
      let s ← s.finishNode
      .ok (true, s) : Res (Bool × PState)) = .ok (true, added s [.node .itemCmd [leafOf t]] ts) := by
  rw [show (s.startNode .itemCmd).eat = .ok ((s.startNode .itemCmd).ate t ts) from eat_eq ht, ok_bind,
    finish_app (cs := s.children) (es := [leafOf t]) rfl rfl]
  rfl

theorem eat_then {α : Type} {s : PState} {t : Tok} {ts : List Tok} {f : PState → Res α} (h : s.toks = t :: ts) :
    (s.eat >>= f) = f (s.ate t ts) := by
  rw [eat_eq h, ok_bind]

theorem bind_ok {α : Type} (r : Res α) : (r >>= fun a => .ok a) = r := by cases r <;> rfl

/-- A command that takes something on its left. -/
theorem Agree.left1 {s : PState} {t : Tok} {ts : List Tok} (ht : s.toks = t :: ts) (hh : s.hold = []) (hl : s.top ≤ s.children.length) :
    M (Same s)
      (do
        let s ← startCommandAt (s.last.or s.start) s
        let s ← s.eat
        let s ← s.finishNode
        .ok (false, s))
      (match (rowOf s).operand ((rowOf s).last.or (rowOf s).first) with
        | none => .error .panic
        | some o => .ok (false, { rowOf s with items := o.1 ++ [.node .itemCmd (o.2 ++ [leafOf t])] }, ts)) := by
  rw [startCommandAt_eq]
  have h := openAt_eq (k := .itemCmd) (p := s.last.or s.start) hl
  rw [show Option.map (fun p : Nat => (p : Int) - s.top) (s.last.or s.start) = (rowOf s).last.or (rowOf s).first by
    unfold rowOf; cases s.last <;> rfl] at h
  revert h
  cases (rowOf s).operand ((rowOf s).last.or (rowOf s).first) with
  | none =>
    cases openAt .itemCmd (s.last.or s.start) s with
    | error x => exact id
    | ok a => exact fun h => h.elim
  | some o =>
    cases openAt .itemCmd (s.last.or s.start) s with
    | error x => exact fun h => h.elim
    | ok a =>
      intro h
      have h : a = _ := h
      subst h
      rw [ok_bind]
      refine M.left (r' := .ok (false, rebuilt s (o.1 ++ [.node .itemCmd (o.2 ++ [leafOf t])]) ts)) ?_
        ⟨by rw [row_rebuilt hl]; rfl, frame_rebuilt hh hl _ _⟩
      refine Eq.trans (eat_then (t := t) (ts := ts) (by exact ht)) ?_
      refine Eq.trans (finish_then (cs := s.children.take s.top ++ o.1) (es := o.2 ++ [leafOf t]) rfl (by simp [PState.ate])) ?_
      unfold rebuilt PState.ate
      simp

theorem Agree.infixCmd {C : ContentFn} {G : GFn} (hC : Agree C G) {g : GlobFn} (n : Nat) {s : PState} {t : Tok} {ts : List Tok}
    (ht : s.toks = t :: ts) (hh : s.hold = []) (hl : s.top ≤ s.children.length) :
    M (Same s)
      (do
        let s ← startCommandAt s.start { s with start := none }
        commandTail g C n .greedy s)
      (match (rowOf s).operand (rowOf s).first with
        | none => .error .panic
        | some o => gRest G n s.scope n ⟨[], some 0, none⟩ ts >>= fun q =>
            .ok (false, ⟨o.1 ++ [.node .itemCmd (o.2 ++ [leafOf t, .node .clauseArgument q.1.items])], none, none⟩, q.2)) := by
  rw [startCommandAt_eq]
  have h := openAt_eq (k := .itemCmd) (p := s.start) (s := { s with start := none }) hl
  have hop : (rowOf { s with start := none }).operand (Option.map (fun p : Nat => (p : Int) - PState.top { s with start := none }) s.start)
      = (rowOf s).operand (rowOf s).first := rfl
  rw [hop] at h
  revert h
  cases (rowOf s).operand (rowOf s).first with
  | none =>
    cases openAt .itemCmd s.start { s with start := none } with
    | error x => exact id
    | ok a => exact fun h => h.elim
  | some o =>
    cases openAt .itemCmd s.start { s with start := none } with
    | error x => exact fun h => h.elim
    | ok a =>
      intro h
      have h : a = _ := h
      subst h
      rw [ok_bind]
      dsimp only
      have h2 := hC.tailGreedy (g := g) n (t := t) (ts := ts) (s := { s with
        parents := (.itemCmd, (s.children.take s.top ++ o.1).length) :: s.parents
        children := (s.children.take s.top ++ o.1) ++ o.2
        start := none }) (cs := s.children.take s.top ++ o.1) (es := o.2) ht rfl rfl hh
      have h3 := M.bind (R := Same s) h2 (f := fun a => (.ok a : Res (Bool × PState))) (h := fun q =>
            .ok (false, ⟨o.1 ++ [.node .itemCmd (o.2 ++ [leafOf t, .node .clauseArgument q.1.items])], none, none⟩, q.2)) ?_
      · exact M.left (bind_ok _).symm h3
      · rintro a q rfl
        have e : ({ s with
            children := (s.children.take s.top ++ o.1) ++ [.node .itemCmd (o.2 ++ [leafOf t, .node .clauseArgument q.1.items])]
            toks := q.2
            start := none
            last := none } : PState) = { rebuilt s (o.1 ++ [.node .itemCmd (o.2 ++ [leafOf t, .node .clauseArgument q.1.items])]) q.2 with
              start := none, last := none } := by
          unfold rebuilt
          simp
        dsimp only
        rw [e]
        have hf := frame_rebuilt hh hl (o.1 ++ [.node .itemCmd (o.2 ++ [leafOf t, .node .clauseArgument q.1.items])]) q.2
        have hr := row_rebuilt hl (o.1 ++ [.node .itemCmd (o.2 ++ [leafOf t, .node .clauseArgument q.1.items])]) q.2
        refine ⟨?_, ⟨⟨hf.parents, hf.scope, hf.hold, hf.kept, hf.long⟩, Or.inr rfl, Or.inr rfl⟩⟩
        show (false, _, q.2) = (false, rowOf _, q.2)
        congr 2
        have hi := congrArg Row.items hr
        dsimp only at hi
        show _ = Row.mk (rowOf (rebuilt s _ q.2)).items none none
        rw [hi]

theorem Agree.rightCmd {C : ContentFn} {G : GFn} (hC : Agree C G) {g : GlobFn} {p : ArgPattern} (hp : p ≠ .greedy) (n : Nat) {s : PState}
    {t : Tok} {ts : List Tok} (ht : s.toks = t :: ts) (hh : s.hold = []) (hl : s.top ≤ s.children.length) :
    M (Same s) (commandTail g C n (startMatch p) (s.startNode .itemCmd))
      (gArgs g G n s.scope p n [] ts >>= fun q =>
        .ok (true, { (rowOf s).add (.node .itemCmd (leafOf t :: q.1) :: q.2.1.map leafOf) with last := none }, q.2.2)) := by
  have h2 := hC.tail (g := g) hp n (t := t) (ts := ts) (s := s.startNode .itemCmd) (cs := s.children) (es := []) ht rfl
    (List.append_nil _).symm hh
  have h3 := M.bind (R := Same s) h2 (f := fun a => (.ok a : Res (Bool × PState))) (h := fun q =>
        .ok (true, { (rowOf s).add (.node .itemCmd (leafOf t :: q.1) :: q.2.1.map leafOf) with last := none }, q.2.2)) ?_
  · exact M.left (bind_ok _).symm h3
  · rintro a q rfl
    have hf := frame_added hh hl (.node .itemCmd (leafOf t :: q.1) :: q.2.1.map leafOf) q.2.2
    have hr := row_added hl (.node .itemCmd (leafOf t :: q.1) :: q.2.1.map leafOf) q.2.2
    refine ⟨?_, ⟨⟨hf.parents, hf.scope, hf.hold, hf.kept, hf.long⟩, Or.inl rfl, Or.inr rfl⟩⟩
    rw [← hr]
    rfl

theorem Agree.greedyCmd {C : ContentFn} {G : GFn} (hC : Agree C G) {g : GlobFn} (n : Nat) {s : PState}
    {t : Tok} {ts : List Tok} (ht : s.toks = t :: ts) (hh : s.hold = []) (hl : s.top ≤ s.children.length) :
    M (Same s) (commandTail g C n .greedy (s.startNode .itemCmd))
      (gRest G n s.scope n ⟨[], some 0, none⟩ ts >>= fun q =>
        .ok (false, { (rowOf s).add [.node .itemCmd [leafOf t, .node .clauseArgument q.1.items]] with last := none }, q.2)) := by
  have h2 := hC.tailGreedy (g := g) n (t := t) (ts := ts) (s := s.startNode .itemCmd) (cs := s.children) (es := []) ht rfl
    (List.append_nil _).symm hh
  have h3 := M.bind (R := Same s) h2 (f := fun a => (.ok a : Res (Bool × PState))) (h := fun q =>
        .ok (false, { (rowOf s).add [.node .itemCmd [leafOf t, .node .clauseArgument q.1.items]] with last := none }, q.2)) ?_
  · exact M.left (bind_ok _).symm h3
  · rintro a q rfl
    have hf := frame_added hh hl [.node .itemCmd [leafOf t, .node .clauseArgument q.1.items]] q.2
    have hr := row_added hl [.node .itemCmd [leafOf t, .node .clauseArgument q.1.items]] q.2
    refine ⟨?_, ⟨⟨hf.parents, hf.scope, hf.hold, hf.kept, hf.long⟩, Or.inl rfl, Or.inr rfl⟩⟩
    rw [← hr]
    rfl

theorem Agree.command {env : PEnv} {C : ContentFn} {G : GFn} (hC : Agree C G) (n : Nat) {s : PState} {t : Tok} {ts : List Tok}
    (ht : s.toks = t :: ts) (hh : s.hold = []) (hl : s.top ≤ s.children.length) :
    M (Same s) (command env C n s) (gCommand env G n s.scope (rowOf s) t ts) := by
  unfold Mitex.command gCommand gName
  rw [ht]
  dsimp only
  cases hsb : stripBackslash t.2 with
  | error x => exact rfl
  | ok name =>
    rw [ok_bind, ok_bind]
    have sym := M.left (symbol_eq ht) (M.added hh hl true [.node .itemCmd [leafOf t]] ts)
    unfold getCmd commandArgs
    cases hsp : env.spec name with
    | none => exact sym
    | some it =>
      cases it with
      | env sh => exact sym
      | cmd sh =>
        simp only [Option.map_some]
        cases ha : sh.args with
        | left1 =>
          rw [if_neg (fun h => (by cases h))]
          exact Agree.left1 ht hh hl
        | infixGreedy =>
          rw [if_neg (fun h => (by cases h))]
          rw [← ht]
          exact hC.infixCmd n ht hh hl
        | right p =>
          cases p with
          | none =>
            rw [if_neg (fun h => (by cases h))]
            exact sym
          | fixedLen m =>
            cases m with
            | zero =>
              rw [if_pos rfl]
              exact sym
            | succ m =>
              rw [if_neg (fun h => (by cases h))]
              exact hC.rightCmd (by simp) n ht hh hl
          | rangeLen a b =>
            rw [if_neg (fun h => (by cases h))]
            exact hC.rightCmd (by simp) n ht hh hl
          | greedy =>
            rw [if_neg (fun h => (by cases h))]
            exact hC.greedyCmd n ht hh hl
          | glob re =>
            rw [if_neg (fun h => (by cases h))]
            exact hC.rightCmd (by simp) n ht hh hl

/-! ### Environments -/

theorem envPattern_eq (spec : CommandSpec) (name : Text) : envPattern spec name = environmentArgs spec name := by
  unfold envPattern environmentArgs getEnv
  cases spec name with
  | none => rfl
  | some it =>
    cases it with
    | cmd sh => rfl
    | env sh =>
      simp only [Option.map_some]
      cases ha : sh.args with
      | none => simp
      | fixedLen m =>
        cases m with
        | zero => simp
        | succ m => simp
      | _ => simp

theorem end_eq {s : PState} {ps : List (Kind × Nat)} {cs es : List Elem} (hp : s.parents = (.itemEnv, cs.length) :: ps)
    (hc : s.children = cs ++ es) :
    (do
      let s ← if s.peek = some (Token.cmd .endEnv) then do
          let s ← (s.startNode .itemEnd).eat
          s.finishNode
        else .ok s
      s.finishNode : Res PState) = .ok { s with
        parents := ps
        children := cs ++ [Elem.node .itemEnv (es ++ (closing (.cmd .endEnv) s.toks).1.map fun e => Elem.node .itemEnd [e])]
        toks := (closing (.cmd .endEnv) s.toks).2 } := by
  cases hg : s.toks with
  | nil =>
    have hpk : s.peek = none := by unfold PState.peek; rw [hg]; rfl
    rw [hpk, if_neg (fun h => (by cases h)), ok_bind]
    dsimp only
    rw [finish_app hp hc]
    simp [closing, ← hg]
  | cons u us =>
    obtain ⟨k, x⟩ := u
    have hpk : s.peek = some k := peek_of hg
    rw [hpk]
    unfold closing
    dsimp only
    by_cases hk : k = .cmd .endEnv
    · subst hk
      rw [if_pos rfl, if_pos rfl]
      refine Eq.trans (eat_then (s := s.startNode .itemEnd) hg) ?_
      refine Eq.trans (finish_then (cs := s.children) (es := [leafOf (.cmd .endEnv, x)]) rfl rfl) ?_
      refine Eq.trans (finish_app (cs := cs) (es := es ++ [.node .itemEnd [leafOf (.cmd .endEnv, x)]]) hp
        (by show s.children ++ _ = _; simp [hc])) ?_
      rfl
    · rw [if_neg (fun h => hk (Option.some.inj h)), if_neg hk, ok_bind]
      dsimp only
      rw [finish_app hp hc]
      simp [← hg]

theorem Agree.environment {env : PEnv} {C : ContentFn} {G : GFn} (hC : Agree C G) (n : Nat) {s : PState} {t : Tok} {ts : List Tok}
    (ht : s.toks = t :: ts) (hh : s.hold = []) (hl : s.top ≤ s.children.length) :
    M (fun a g => g = (rowOf a, a.toks) ∧ FrameC s a) (environment env C n s) (gEnvironment env G n s.scope (rowOf s) t ts) := by
  unfold Mitex.environment gEnvironment
  rw [ht]
  dsimp only
  rw [envPattern_eq]
  refine M.left (eat_then (s := (s.startNode .itemEnv).startNode .itemBegin) (t := t) (ts := ts) ht) ?_
  obtain ⟨s1, hs1⟩ : ∃ s1, s1 = ((s.startNode .itemEnv).startNode .itemBegin).ate t ts := ⟨_, rfl⟩
  rw [← hs1]
  -- after the opening clause
  have body : ∀ (args : List Elem) (bl ts1 : List Tok) (last : Option Nat), (last = s.last ∨ last = none) →
      M (fun a g => g = (rowOf a, a.toks) ∧ FrameC s a)
        (itemList C n .environment { s with
            parents := (.itemEnv, s.children.length) :: s.parents
            children := s.children ++ (.node .itemBegin (leafOf t :: args) :: bl.map leafOf)
            toks := ts1
            last := last } >>= fun s => do
          let s ← if s.peek = some (Token.cmd .endEnv) then do
              let s ← (s.startNode .itemEnd).eat
              s.finishNode
            else .ok s
          s.finishNode)
        (gItems G .environment (enders .environment) n
            ⟨.node .itemBegin (leafOf t :: args) :: bl.map leafOf, some (1 + bl.length), none⟩ ts1 >>= fun q =>
          .ok ({ (rowOf s).add [.node .itemEnv (q.1.items ++ (closing (.cmd .endEnv) q.2).1.map fun e => .node .itemEnd [e])] with
              last := Option.map (fun p : Nat => (p : Int) - s.top) last },
            (closing (.cmd .endEnv) q.2).2)) := by
    intro args bl ts1 last hlast
    have h := hC.opened n .environment (s := { s with
            parents := (.itemEnv, s.children.length) :: s.parents
            children := s.children ++ (.node .itemBegin (leafOf t :: args) :: bl.map leafOf)
            toks := ts1
            last := last }) hh rfl rfl
    rw [show ((List.length (Elem.node .itemBegin (leafOf t :: args) :: bl.map leafOf) : Nat) : Int) = 1 + (bl.length : Int) by
      simp; omega] at h
    refine M.bind h ?_
    rintro a q rfl
    refine M.left (end_eq (cs := s.children) (es := q.1.items) rfl rfl) ?_
    obtain ⟨e, he⟩ : ∃ e, e = Elem.node .itemEnv (q.1.items ++ (closing (.cmd .endEnv) q.2).1.map fun e => Elem.node .itemEnd [e]) := ⟨_, rfl⟩
    rw [← he]
    have hf := frame_added hh hl [e] (closing (.cmd .endEnv) q.2).2
    have hr := row_added hl [e] (closing (.cmd .endEnv) q.2).2
    refine ⟨?_, ⟨⟨hf.parents, hf.scope, hf.hold, hf.kept, hf.long⟩, Or.inl rfl, hlast⟩⟩
    rw [← hr]
    rfl
  cases henv : environmentArgs env.spec t.2 with
  | none =>
    dsimp only
    refine M.left (r' := _) (Eq.trans (finish_then (s := s1) (cs := s.children) (es := [leafOf t]) (by rw [hs1]; rfl) (by rw [hs1]; rfl)) ?_)
      (body [] [] ts s.last (Or.inl rfl))
    rw [hs1]
    unfold PState.extractHold PState.ate PState.startNode
    dsimp only
    rw [hh]
    simp
  | some p =>
    dsimp only
    by_cases hp : p = .greedy
    · subst hp
      rw [if_pos rfl]
      unfold matchArguments startMatch
      exact rfl
    · rw [if_neg hp]
      have h := hC.arguments (g := env.glob) hp n s1
      rw [show s1.scope = s.scope by rw [hs1]; rfl, show s1.toks = ts by rw [hs1]; rfl] at h
      refine M.bind h ?_
      rintro a q rfl
      refine M.left (r' := _) (Eq.trans (finish_then (cs := s.children) (es := leafOf t :: q.1) (by rw [hs1]; rfl)
        (by rw [hs1]; unfold argued PState.ate PState.startNode; simp)) ?_) (body q.1 q.2.1 q.2.2 none (Or.inr rfl))
      rw [hs1]
      unfold PState.extractHold argued PState.ate PState.startNode
      dsimp only
      rw [hh]
      simp

/-! ### Scripts -/

theorem attach_prime {C : ContentFn} {s : PState} {t : Tok} {ts : List Tok} (ht : s.toks = t :: ts) (hh : s.hold = [])
    (hl : s.top ≤ s.children.length) :
    M (fun a g => g = (rowOf a, a.toks) ∧ FrameC s a) (attachComponent C false s) (gPrime (rowOf s) t ts) := by
  unfold attachComponent gPrime
  cases hs : s.last with
  | none =>
    have hr : (rowOf s).last = none := by unfold rowOf; rw [hs]; rfl
    rw [if_pos hr]
    refine M.left (eat_eq ht) (M.row hh hl _ _)
  | some l =>
    have hr : (rowOf s).last = some ((l : Int) - s.top) := by unfold rowOf; rw [hs]; rfl
    have hne : ¬ (rowOf s).last = none := by rw [hr]; simp
    rw [if_neg hne]
    have h := openAt_eq (k := .itemAttachComponent) (p := some l) hl
    rw [show Option.map (fun p : Nat => (p : Int) - s.top) (some l) = (rowOf s).last from hr.symm] at h
    dsimp only
    refine M.left (r' := openAt .itemAttachComponent (some l) s >>= attachComponent.finish C false) ?_ ?_
    · unfold openAt
      dsimp only
      cases s.startNodeAt l .itemAttachComponent with
      | error x => rfl
      | ok a =>
        rw [ok_bind, ok_bind]
        cases a.startNodeAt l .clauseArgument with
        | error x => rfl
        | ok b => rfl
    · revert h
      cases (rowOf s).operand (rowOf s).last with
      | none =>
        cases openAt .itemAttachComponent (some l) s with
        | error x => exact id
        | ok a => exact fun h => h.elim
      | some o =>
        cases openAt .itemAttachComponent (some l) s with
        | error x => exact fun h => h.elim
        | ok a =>
          intro h
          have h : a = _ := h
          subst h
          rw [ok_bind]
          unfold attachComponent.finish
          refine M.left (r' := .ok (rebuilt s (o.1 ++ [.node .itemAttachComponent (o.2 ++ [leafOf t])]) ts)) ?_
            ⟨by rw [row_rebuilt hl]; rfl, frame_rebuilt hh hl _ _⟩
          refine Eq.trans (eat_then (t := t) (ts := ts) (by exact ht)) ?_
          dsimp only
          rw [if_neg (by simp), ok_bind]
          refine Eq.trans (finish_app (cs := s.children.take s.top ++ o.1) (es := o.2 ++ [leafOf t]) rfl (by simp [PState.ate])) ?_
          unfold rebuilt PState.ate
          simp

theorem Agree.script {C : ContentFn} {G : GFn} (hC : Agree C G) {s : PState} {t : Tok} {ts : List Tok} (ht : s.toks = t :: ts)
    (hh : s.hold = []) (hl : s.top ≤ s.children.length) :
    M (fun a g => g = (rowOf a, a.toks) ∧ FrameC s a) (attachComponent C true s) (gScript G s.scope (rowOf s) t ts) := by
  unfold gScript
  have h := openAt_eq (k := .itemAttachComponent) (p := s.last) hl
  refine M.left (r' := openAt .itemAttachComponent s.last s >>= attachComponent.finish C true) ?_ ?_
  · unfold attachComponent openAt
    cases s.last with
    | none => rfl
    | some l =>
      dsimp only
      cases s.startNodeAt l .itemAttachComponent with
      | error x => rfl
      | ok a =>
        rw [ok_bind, ok_bind]
        cases a.startNodeAt l .clauseArgument with
        | error x => rfl
        | ok b => rfl
  · rw [show Option.map (fun p : Nat => (p : Int) - s.top) s.last = (rowOf s).last from rfl] at h
    revert h
    cases (rowOf s).operand (rowOf s).last with
    | none =>
      cases openAt .itemAttachComponent s.last s with
      | error x => exact id
      | ok a => exact fun h => h.elim
    | some o =>
      cases openAt .itemAttachComponent s.last s with
      | error x => exact fun h => h.elim
      | ok a =>
        intro h
        have h : a = _ := h
        subst h
        rw [ok_bind]
        unfold attachComponent.finish
        refine M.left (eat_then (t := t) (ts := ts) (by exact ht)) ?_
        have hb : ∀ l : List Tok, (l.takeWhile fun t => t.1.isTrivia) = l.takeWhile fun t => isBlank t.1 := by
          intro l; congr 1; funext t; rw [isBlank_eq]
        have hd : ∀ l : List Tok, (l.dropWhile fun t => t.1.isTrivia) = l.dropWhile fun t => isBlank t.1 := by
          intro l; congr 1; funext t; rw [isBlank_eq]
        obtain ⟨s2, hs2⟩ : ∃ s2 : PState, s2 = { s with
            parents := (.itemAttachComponent, (s.children.take s.top ++ o.1).length) :: s.parents
            children := (s.children.take s.top ++ o.1) ++ (o.2 ++ leafOf t :: (ts.takeWhile fun t => isBlank t.1).map leafOf)
            toks := ts.dropWhile fun t => isBlank t.1 } := ⟨_, rfl⟩
        have e2 : PState.trivia (PState.ate { s with
            parents := (.itemAttachComponent, (s.children.take s.top ++ o.1).length) :: s.parents
            children := (s.children.take s.top ++ o.1) ++ o.2 } t ts) = s2 := by
          rw [hs2]
          unfold PState.trivia PState.eatWhile PState.ate
          simp only [hb, hd, List.append_assoc, List.cons_append, List.nil_append]
        dsimp only
        simp only [if_true]
        rw [e2]
        have htop : s2.top = s.top + o.1.length := by
          rw [hs2]
          show (s.children.take s.top ++ o.1).length = _
          rw [List.length_append, List.length_take, Nat.min_eq_left hl]
        have hcs : (s.children.take s.top ++ o.1).length = s.top + o.1.length := by
          rw [List.length_append, List.length_take, Nat.min_eq_left hl]
        have hch : s2.children = (s.children.take s.top ++ o.1) ++ (o.2 ++ leafOf t :: (ts.takeWhile fun t => isBlank t.1).map leafOf) := by
          rw [hs2]
        have hr : rowOf s2 = (rowOf s).enter o.1.length (o.2 ++ leafOf t :: (ts.takeWhile fun t => isBlank t.1).map leafOf) := by
          unfold rowOf Row.enter
          rw [htop, hch, List.drop_append, List.drop_eq_nil_of_le (by rw [hcs]; exact Nat.le_refl _), hcs, Nat.sub_self, List.drop_zero,
            List.nil_append]
          rw [hs2]
          dsimp only
          congr 1
          · cases s.start with
            | none => rfl
            | some p => simp only [Option.map_some]; congr 1; omega
          · cases s.last with
            | none => rfl
            | some p => simp only [Option.map_some]; congr 1; omega
        have hx := hC false s2 (by rw [hs2]; exact hh) (by rw [htop, hch, List.length_append, hcs]; omega)
        rw [hr, show s2.scope = s.scope by rw [hs2], show s2.toks = ts.dropWhile fun t => isBlank t.1 by rw [hs2]] at hx
        refine M.left (r' := C false s2 >>= fun q => q.2.finishNode) ?_ ?_
        · cases C false s2 <;> rfl
        · refine M.bind hx ?_
          rintro ⟨att, a⟩ q ⟨rfl, hf⟩
          dsimp only
          have hc := frame_children hf
          dsimp only at hc
          rw [htop, hch, ← hcs, List.take_left] at hc
          have hp := hf.parents
          have hhd := hf.hold
          have hsc := hf.scope
          have h1 := hf.start
          have h2 := hf.last
          dsimp only at hp hhd hsc h1 h2
          have hta : a.top = s.top + o.1.length := by rw [← htop]; exact hf.top
          rw [hs2] at hp hsc h1 h2
          dsimp only at hp hsc h1 h2
          refine M.left (finish_app hp hc) ?_
          have hf0 := frame_rebuilt hh hl (o.1 ++ [.node .itemAttachComponent (rowOf a).items]) a.toks
          have hr0 := row_rebuilt hl (o.1 ++ [.node .itemAttachComponent (rowOf a).items]) a.toks
          have e3 : ({ a with
              parents := s.parents
              children := (s.children.take s.top ++ o.1) ++ [.node .itemAttachComponent (rowOf a).items] } : PState)
              = { rebuilt s (o.1 ++ [.node .itemAttachComponent (rowOf a).items]) a.toks with start := a.start, last := a.last } := by
            unfold rebuilt
            rw [hhd, hsc, hh, List.append_assoc]
          rw [e3]
          refine ⟨?_, ⟨⟨hf0.parents, hf0.scope, hf0.hold, hf0.kept, hf0.long⟩, h1, h2⟩⟩
          have hi := congrArg Row.items hr0
          dsimp only at hi
          unfold Row.leave
          show (Row.mk _ _ _, a.toks) = (Row.mk (rowOf (rebuilt s _ a.toks)).items (Option.map (fun p : Nat => (p : Int) - s.top) a.start)
            (Option.map (fun p : Nat => (p : Int) - s.top) a.last), a.toks)
          rw [hi]
          unfold rowOf
          rw [hta]
          dsimp only
          congr 2
          · cases a.start with
            | none => rfl
            | some p => simp only [Option.map_some]; congr 1; omega
          · cases a.last with
            | none => rfl
            | some p => simp only [Option.map_some]; congr 1; omega

/-! ### All items -/

theorem Agree.body {env : PEnv} {C : ContentFn} {G : GFn} (hC : Agree C G) (n : Nat) : Agree (contentBody env C n) (gBody env G n) := by
  intro b s hh hl
  unfold contentBody gBody
  cases ht : s.toks with
  | nil =>
    have hp : s.peek = none := by unfold PState.peek; rw [ht]; rfl
    rw [hp]
    refine ⟨?_, ⟨⟨rfl, rfl, hh, rfl, hl⟩, Or.inl rfl, Or.inl rfl⟩⟩
    rw [ht]
  | cons t ts =>
    have hp : s.peek = some t.1 := peek_of ht
    rw [hp]
    obtain ⟨k, x⟩ := t
    have one : ∀ f : Bool, M (Same s) (withFlag f s.eat) (.ok (f, (rowOf s).add [leafOf (k, x)], ts)) := by
      intro f
      rw [eat_eq ht]
      exact M.added hh hl f _ _
    have err : M (Same s) (withFlag true (errorItem s)) (.ok (true, (rowOf s).add [.node .tokenError [leafOf (k, x)]], ts)) := by
      rw [error_eq ht]
      exact M.added hh hl true _ _
    have txt : M (Same s) (withFlag true (textItem s)) (.ok (true, gText (rowOf s) (k, x) ts)) := by
      rw [text_eq ht]
      exact M.added hh hl true _ _
    have grp : ∀ (f : Bool) (sc : Scope) (close : Token) (kind : Kind), groupInfo sc = some (close, kind) →
        M (Same s) (withFlag f (itemGroup C n sc s))
          (gGroup G n sc close kind (k, x) ts >>= fun q => .ok (f, (rowOf s).add [q.1], q.2)) := by
      intro f sc close kind hg
      have h := hC.group n hg ht hh
      revert h
      cases itemGroup C n sc s with
      | error y =>
        cases gGroup G n sc close kind (k, x) ts with
        | error z => exact id
        | ok q => exact fun h => h.elim
      | ok a =>
        cases gGroup G n sc close kind (k, x) ts with
        | error z => exact fun h => h.elim
        | ok q =>
          intro h
          have h : a = _ := h
          subst h
          exact M.added hh hl f _ _
    have cmd := hC.command (env := env) n ht hh hl
    have blk : ∀ kind, M (Same s) (withFlag true (ifBlock kind s))
        (.ok (true, (rowOf s).add [.node kind ((gBlock ts 0).1.map leafOf)], (gBlock ts 0).2)) := by
      intro kind
      rw [block_eq ht]
      exact M.added hh hl true _ _
    cases k with
    | ampersand => exact one false
    | newLine => exact one false
    | lineBreak => exact one false
    | whitespace => exact one false
    | lineComment => exact one false
    | hash => exact one false
    | asterisk => exact one false
    | atSign => exact one false
    | error => exact one false
    | apostrophe => exact M.withFlag (attach_prime ht hh hl)
    | underscore => exact M.withFlag (hC.script ht hh hl)
    | caret => exact M.withFlag (hC.script ht hh hl)
    | left bk =>
      cases bk with
      | curly => exact grp true .curlyItem (.right .curly) .itemCurly rfl
      | bracket => exact one true
      | paren => exact one true
    | right bk =>
      cases bk with
      | curly => exact err
      | bracket => exact one true
      | paren => exact one true
    | macroArg i => exact err
    | tilde => exact one true
    | slash => exact one true
    | ditto => exact one true
    | semicolon => exact one true
    | comma => exact txt
    | dollar => exact grp false .dollarFormula .dollar .itemFormula rfl
    | word =>
      cases b with
      | true => exact txt
      | false =>
        cases x with
        | nil =>
          have e : s.singleChar = .ok s := by
            unfold PState.singleChar
            rw [ht]
          show M _ (withFlag true s.singleChar) _
          rw [e]
          exact ⟨by rw [ht], ⟨⟨rfl, rfl, hh, rfl, hl⟩, Or.inl rfl, Or.inl rfl⟩⟩
        | cons c cs =>
          show M _ (withFlag true s.singleChar) _
          rw [single_eq ht rfl]
          exact M.added hh hl true _ _
    | cmd name =>
      cases name with
      | generic => exact cmd
      | beginEnv => exact M.withFlag (hC.environment n ht hh hl)
      | beginMath => exact grp false .cmdFormula (.cmd .endMath) .itemFormula rfl
      | cif i =>
        cases i with
        | ifFalse => exact blk _
        | ifTypst => exact blk _
        | _ => exact cmd
      | celse => exact cmd
      | endIf => exact cmd
      | left => exact M.withFlag (hC.delimited n ht hh hl)
      | right => exact cmd
      | errorBeginEnv => exact one true
      | errorEndEnv => exact one true
      | endEnv => exact err
      | endMath => exact err

theorem agree_content (env : PEnv) : ∀ n, Agree (content env n) (gContent env n)
  | 0 => fun _ _ _ _ => rfl
  | n + 1 => (agree_content env n).body n

/-- The parser and the grammar on rows. -/
theorem parse_eq (env : PEnv) (toks : List Tok) : parseToks env toks
    = (gItems (gContent env (tokSize toks + 1)) .root (enders .root) (tokSize toks + 1) ⟨[], some 0, none⟩ toks).map
        fun q => .node .scopeRoot q.1.items := by
  unfold parseToks
  dsimp only
  have h := (agree_content env (tokSize toks + 1)).opened (tokSize toks + 1) .root (s := (PState.init toks).startNode .scopeRoot)
    (cs := []) (es := []) rfl rfl rfl
  have h : M _ _ (gItems (gContent env (tokSize toks + 1)) .root (enders .root) (tokSize toks + 1) ⟨[], some 0, none⟩ toks) := h
  revert h
  cases itemList (content env (tokSize toks + 1)) (tokSize toks + 1) .root ((PState.init toks).startNode .scopeRoot) with
  | error y =>
    cases gItems (gContent env (tokSize toks + 1)) .root (enders .root) (tokSize toks + 1) ⟨[], some 0, none⟩ toks with
    | error z => intro h; exact congrArg Except.error h
    | ok q => exact fun h => h.elim
  | ok a =>
    cases gItems (gContent env (tokSize toks + 1)) .root (enders .root) (tokSize toks + 1) ⟨[], some 0, none⟩ toks with
    | error z => exact fun h => h.elim
    | ok q =>
      intro h
      have h : a = _ := h
      subst h
      rfl

end Grammar
end Mitex
