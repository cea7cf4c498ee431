/-
`content` meets its contract, and `parse`.
-/
import Verif.Proof.ParserCmd

namespace Mitex

variable {G : Prop} {env : PEnv}

/-! ## Arguments -/

theorem matchArguments_args {C : ContentFn} {m n : Nat} (hC : CSpec G env m C) {p : ArgPattern} {g : GlobFn} (hp : p ≠ .greedy)
    {s : PState} (h : Inv G env s) (hn : tokSize s.toks < n) (hm : tokSize s.toks < m) :
    Ok G (fun s' => GoH G env s s' ∧ s'.parents = s.parents ∧ s'.last = none ∧
        ∃ new, s'.children = s.children ++ new ∧ ArgsFit g p new)
      (matchArguments g C n false (startMatch p) s) := by
  have hf := Fits.init g hp
  unfold matchArguments
  rw [hf.notGreedy]
  simp only [ne_eq, not_true_eq_false, if_false, Bool.false_eq_true]
  refine Ok.bind (matchLoop_args hC (p := p) n _ { s with last := none, start := none } [] (h.congr rfl rfl rfl) rfl rfl hf hn hm hn) ?_
  rintro s1 ⟨g1, p1, new, c1, f1⟩
  refine ⟨⟨g1.inv.congr rfl rfl rfl, g1.scope, rfl, Or.inr rfl, g1.read, g1.size, g1.keep⟩, p1, rfl, new, c1, by simpa using f1⟩

theorem matchArguments_greedy {C : ContentFn} {m n : Nat} (hC : CSpec G env m C) {g : GlobFn}
    {s : PState} (h : Inv G env s) (hh : s.hold = []) (ht : s.top ≤ s.children.length) (hn : tokSize s.toks < n)
    (hm : tokSize s.toks < m) :
    Ok G (fun s' => Go G env s s' ∧ s'.parents = s.parents ∧ s'.last = none)
      (matchArguments g C n true (startMatch .greedy) s) := by
  unfold matchArguments
  simp only [startMatch, ArgMatcher.isGreedy, ne_eq, not_true_eq_false, if_false, if_true]
  refine Ok.bind (matchLoop_greedy hC (f := s.children.length) n _ ?_ hn hm hn) ?_
  · refine ⟨h.congr rfl rfl rfl, hh, ⟨ht, ?_, ?_, ?_, ?_⟩, Nat.le_refl _, ?_, ?_⟩
    · intro p e; cases e
    · intro p e; have e' := Option.some.inj e; rw [← e']; exact Nat.le_refl _
    · intro _ p e; have e' := Option.some.inj e; rw [← e']; exact ht
    · intro p q _ e; cases e
    · intro p e; have e' := Option.some.inj e; rw [← e']; exact Nat.le_refl _
    · intro p e; cases e
  · intro s1 g1
    exact ⟨⟨⟨g1.inv.congr rfl rfl rfl, g1.scope, rfl, Or.inr rfl, g1.read, g1.size, g1.keep⟩, g1.hold⟩, g1.parents, rfl⟩

/-! ## Commands -/

/-- What is left after a command has been closed: the node was opened at `f`. -/
structure CmdPost (G : Prop) (env : PEnv) (f : Nat) (ps : List (Kind × Nat)) (s s' : PState) : Prop where
  inv : Inv G env s'
  hold : s'.hold = []
  parents : s'.parents = ps
  scope : s'.scope = s.scope
  start : s'.start = s.start
  last : s'.last = s.last ∨ s'.last = none
  read : Read s s'
  size : tokSize s'.toks < tokSize s.toks
  keep : Keep f s s'
  len : f < s'.children.length

/-- Closing the command node. -/
theorem closeCmd {f : Nat} {ps : List (Kind × Nat)} {s s' : PState} (hcl : AllClosed s.children)
    (h : GoH G env s s') (hp : s'.parents = (.itemCmd, f) :: ps) (hf : f ≤ s.children.length)
    (hs : Shape env (.node .itemCmd (s'.children.drop f))) (hsz : tokSize s'.toks < tokSize s.toks) :
    ∃ s'', s'.finishNode = .ok s'' ∧ CmdPost G env f ps s s''.extractHold := by
  have hk := h.keep.mono hf
  have hi : Inv G env (s'.closed .itemCmd f ps) := h.inv.close (by rw [hk.2]; exact hcl.take f) hs (CurlyEnd.other (by decide))
  have hx := extract_go hi
  refine ⟨_, finish_eq hp, hx.inv, hx.hold, rfl, ?_, ?_, ?_, ?_, ?_, ?_, ?_⟩
  · rw [hx.scope]; exact h.scope
  · rw [hx.start]; exact h.start
  · rcases hx.last with e | e
    · rw [e]; exact h.last
    · exact Or.inr e
  · exact h.read.trans ((closed_read _ _ _ _).trans hx.read)
  · exact Nat.lt_of_le_of_lt hx.size hsz
  · refine hk.trans ((closed_keep (hk.1)).trans (hx.keep.mono ?_))
    rw [closed_length hk.1]; omega
  · have := hx.keep.1
    rw [closed_length hk.1] at this
    omega

theorem commandTail_ok {C : ContentFn} {m n : Nat} (hC : CSpec G env m C) {p : ArgPattern} {s : PState} (h : Inv G env s)
    (hh : s.hold = []) {t : Tok} {r : List Tok} (ht : s.toks = t :: r) {f : Nat} {ps : List (Kind × Nat)}
    (hp : s.parents = (.itemCmd, f) :: ps) (hf : f ≤ s.children.length)
    (hs : ∀ post, ArgsFit env.glob p post → Shape env (.node .itemCmd (s.children.drop f ++ leafOf t :: post)))
    (hn : tokSize r < n) (hm : tokSize r < m) :
    Ok G (fun x => (x.1 = true ↔ p ≠ .greedy) ∧ CmdPost G env f ps s x.2 ∧ x.2.last = none)
      (commandTail env.glob C n (startMatch p) s) := by
  have hcl : AllClosed s.children := h.closed (by rw [ht]; simp)
  unfold commandTail
  rw [eat_eq ht, ok_bind]
  have g1 : Go G env s (s.ate t r) := Go.eat h hh ht
  have hcl1 : AllClosed (s.ate t r).children := hcl.append (AllClosed.one (Closed_token _ _))
  have hd : ∀ x : List Elem, (s.children ++ x).drop f = s.children.drop f ++ x := by
    intro x; rw [List.drop_append_of_le_length hf]
  have szr : tokSize r < tokSize s.toks := by rw [ht, tokSize_cons]; omega
  by_cases hg : p = .greedy
  · subst hg
    have hgr : (startMatch .greedy).isGreedy = true := rfl
    rw [hgr]
    simp only [if_true]
    have g2 : Go G env (s.ate t r) ((s.ate t r).startNode .clauseArgument) := Go.startNode g1.inv g1.hold _
    refine Ok.bind (matchArguments_greedy hC g2.inv g2.hold (Nat.le_refl _) hn hm) ?_
    rintro s2 ⟨g3', p3', l3'⟩
    obtain ⟨s3, e5, g3, p3, t5, c3⟩ := region hcl1 g3' p3' trivial (CurlyEnd.other (by decide))
    have l3 : s3.last = none := by
      rw [finish_eq p3'] at e5
      cases e5; exact l3'
    have sz3 : tokSize s3.toks ≤ tokSize r := by rw [t5]; exact g3'.size
    rw [e5, ok_bind]
    obtain ⟨s4, e4, hpost⟩ := closeCmd hcl (g1.trans g3).toGoH (p3.trans hp) hf (by
        rw [c3]
        show Shape env (.node .itemCmd ((s.children ++ [leafOf t] ++ _).drop f))
        rw [List.append_assoc, hd]
        exact hs [.node .clauseArgument _] ⟨rfl, by intro a ha; rw [List.mem_singleton] at ha; exact ⟨_, ha⟩⟩) (by omega)
    rw [e4, ok_bind]
    refine ⟨by simp, hpost, ?_⟩
    have hx : s4 = s3.closed .itemCmd f ps := by
      rw [finish_eq (p3.trans hp)] at e4
      cases e4; rfl
    rw [hx]; exact l3
  · have hng : (startMatch p).isGreedy = false := (Fits.init env.glob hg).notGreedy
    rw [hng]
    simp only [Bool.false_eq_true, if_false]
    refine Ok.bind (matchArguments_args hC hg g1.inv hn hm) ?_
    rintro s3 ⟨g3, p3, l3, new, c3, f3⟩
    obtain ⟨s4, e4, hpost⟩ := closeCmd hcl (g1.toGoH.trans g3) (p3.trans hp) hf (by
        rw [c3]
        show Shape env (.node .itemCmd ((s.children ++ [leafOf t] ++ _).drop f))
        rw [List.append_assoc, hd]
        exact hs _ f3) (by have : tokSize s3.toks ≤ tokSize r := g3.size
                           omega)
    rw [e4, ok_bind]
    refine ⟨by simp [hg], hpost, ?_⟩
    have hx : s4 = s3.closed .itemCmd f ps := by
      rw [finish_eq (p3.trans hp)] at e4
      cases e4; rfl
    rw [hx]; exact l3

/-- The state after `start_command_at` at an existing position. -/
def PState.cmdAt (s : PState) (k : Kind) (p : Nat) : PState :=
  { s with parents := (k, p) :: s.parents, children := s.children.take p ++ [.node .clauseArgument (s.children.drop p)] }

theorem cmdAt_eq {s : PState} {k : Kind} {p : Nat} (hp : p ≤ s.children.length ∧ s.top ≤ p) :
    (do
      let s ← s.startNodeAt p k
      let s ← s.startNodeAt p .clauseArgument
      s.finishNode) = .ok (s.cmdAt k p) := by
  unfold PState.startNodeAt
  rw [if_pos hp, ok_bind, if_pos ⟨hp.1, Nat.le_refl _⟩, ok_bind]
  rfl

theorem cmdAt_panic {s : PState} {k : Kind} {p : Nat} (hp : ¬ (p ≤ s.children.length ∧ s.top ≤ p)) :
    (do
      let s ← s.startNodeAt p k
      let s ← s.startNodeAt p .clauseArgument
      s.finishNode) = (.error .panic : Res PState) := by
  unfold PState.startNodeAt
  rw [if_neg hp]; rfl

theorem cmdAt_inv {s : PState} {k : Kind} {p : Nat} (h : Inv G env s) (hcl : AllClosed s.children) :
    Inv G env (s.cmdAt k p) := by
  have := h.close (k := .clauseArgument) (f := p) (ps := (k, p) :: s.parents) (hcl.take p) trivial (CurlyEnd.other (by decide))
  exact this.congr rfl rfl rfl

theorem cmdAt_read {s : PState} {k : Kind} {p : Nat} : Read s (s.cmdAt k p) :=
  closed_read s .clauseArgument p ((k, p) :: s.parents)

theorem cmdAt_drop {s : PState} {k : Kind} {p : Nat} (hp : p ≤ s.children.length) :
    (s.cmdAt k p).children.drop p = [.node .clauseArgument (s.children.drop p)] := by
  show (s.children.take p ++ _).drop p = _
  rw [List.drop_append_of_le_length (by rw [List.length_take, Nat.min_eq_left hp]; exact Nat.le_refl _)]
  rw [List.drop_take, Nat.sub_self, List.take_zero, List.nil_append]

theorem cmdAt_len {s : PState} {k : Kind} {p : Nat} (hp : p ≤ s.children.length) :
    (s.cmdAt k p).children.length = p + 1 := closed_length (k := .clauseArgument) (ps := (k, p) :: s.parents) hp

theorem cmdAt_keep {s : PState} {k : Kind} {p : Nat} (hp : p ≤ s.children.length) : Keep p s (s.cmdAt k p) :=
  closed_keep (k := .clauseArgument) (ps := (k, p) :: s.parents) hp

theorem command_ok {C : ContentFn} {m n : Nat} (hC : CSpec G env m C) {b : Bool} {s : PState} {c : CommandName} {text : Text}
    {r : List Tok} (ht : s.toks = (.cmd c, text) :: r) (hc : c.isCommand = true)
    (hpre : Pre G env (m + 1) b s) (hnm : n = m) :
    Ok G (fun x => Post G env s x.1 x.2) (command env C n s) := by
  subst hnm
  have h := hpre.inv
  have hh := hpre.hold
  have hne : s.toks ≠ [] := by rw [ht]; simp
  have hcl := h.closed hne
  have szr : tokSize r < n := by
    have := hpre.size
    rw [ht, tokSize_cons] at this; omega
  obtain ⟨name, hname⟩ : ∃ name, text = '\\' :: name := by
    have := h.toks.cmds (.cmd c, text) (by rw [ht]; exact List.mem_cons_self ..) c rfl hc
    cases text with
    | nil => cases this
    | cons x name =>
      simp only [List.head?_cons, Option.some.injEq] at this
      exact ⟨name, by rw [this]⟩
  subst hname
  have hleaf : leafOf (.cmd c, '\\' :: name) = .token .clauseCommandName ('\\' :: name) := by
    cases c <;> simp [CommandName.isCommand] at hc <;> rfl
  unfold command
  rw [ht]
  simp only [stripBackslash, ok_bind]
  -- a command without arguments
  have plain : (∀ cs, cs = [leafOf (.cmd c, '\\' :: name)] → Shape env (.node .itemCmd cs)) →
      Ok G (fun x => Post G env s x.1 x.2) (do
        let s ← (s.startNode .itemCmd).eat
        let s ← s.finishNode
        .ok (true, s)) := by
    intro hs
    rw [eat_eq (s := s.startNode .itemCmd) ht, ok_bind]
    have g1 : Go G env (s.startNode .itemCmd) ((s.startNode .itemCmd).ate (.cmd c, '\\' :: name) r) :=
      Go.eat (Go.startNode h hh _).inv hh ht
    obtain ⟨s5, e5, g5, p5, t5, c5⟩ := region hcl g1 rfl (hs _ (by
      show (s.children ++ _).drop _ = _
      rw [List.drop_left])) (CurlyEnd.other (by decide))
    rw [e5, ok_bind]
    exact Post.ofGo hpre.valid g5 p5 (fun _ => by
      rw [t5, ht, tokSize_cons]
      show tokSize r < _
      omega)
  -- from `CmdPost` to `Post`
  have toPost : ∀ (f : Nat) (s1 : PState) (flag : Bool) (s' : PState), CmdPost G env f s.parents s1 s' →
      Read s s1 → s1.toks = s.toks → s1.scope = s.scope → Keep f s s1 →
      (s1.start = s.start ∧ (∀ p, s.start = some p → p ≤ f) ∨ s1.start = none) →
      (s'.last = none ∨ s'.last = s.last ∧ ∀ p, s.last = some p → p ≤ f) →
      (flag = true → f = s.children.length) →
      (f = s.children.length ∨ s.top ≤ f ∧ (s.start = some f ∨ s.last = some f)) →
      Post G env s flag s' := by
    intro f s1 flag s' hp hr htk hsc hk hst hla hfl hf
    refine ⟨hp.inv, hp.hold, hp.parents, hp.scope.trans hsc, ?_, ?_, hr.trans hp.read, ?_, ?_, ?_⟩
    · intro p e
      rw [hp.start] at e
      rcases hst with ⟨a, b⟩ | a
      · rw [a] at e
        exact ⟨e, Nat.le_of_lt (Nat.lt_of_le_of_lt (b p e) hp.len)⟩
      · rw [a] at e; cases e
    · intro p e
      rcases hla with a | ⟨a, b⟩
      · rw [a] at e; cases e
      · rw [a] at e
        exact ⟨e, Nat.le_of_lt (Nat.lt_of_le_of_lt (b p e) hp.len)⟩
    · intro _
      rw [← htk]; exact hp.size
    · intro g hg hcond
      have hgf : g ≤ f := by
        rcases hf with e | ⟨e1, e2⟩
        · rw [e]; exact hg
        · rcases hcond with a | ⟨a, b⟩
          · exact Nat.le_trans a e1
          · rcases e2 with e2 | e2
            · exact a f e2
            · exact b f e2
      exact (hk.trans hp.keep).mono hgf
    · intro e
      rw [← hfl e]; exact hk.trans hp.keep
  have nargs : ∀ p, (getCmd env.spec name).map CmdShape.args = some (.right p) → ∀ post, ArgsFit env.glob p post →
      Shape env (.node .itemCmd (.token .clauseCommandName ('\\' :: name) :: post)) := by
    intro p hp post hf
    refine ⟨[], name, post, rfl, ?_⟩
    rw [hp]; exact ⟨rfl, hf⟩
  have tail : ∀ p, (getCmd env.spec name).map CmdShape.args = some (.right p) →
      Ok G (fun x => Post G env s x.1 x.2) (commandTail env.glob C n (startMatch p) (s.startNode .itemCmd)) := by
    intro p hp
    refine (commandTail_ok hC (p := p) (s := s.startNode .itemCmd) (Go.startNode h hh _).inv hh (t := (.cmd c, '\\' :: name))
      (r := r) ht rfl (Nat.le_refl _) ?_ szr szr).mono ?_
    · intro post hf
      have : (s.startNode .itemCmd).children.drop s.children.length = [] := by
        show s.children.drop _ = _
        simp
      rw [this, List.nil_append, hleaf]
      exact nargs p hp post hf
    · rintro ⟨flag, s'⟩ ⟨_, hpost, hl⟩
      refine toPost s.children.length (s.startNode .itemCmd) flag s' hpost (Read.refl s) rfl rfl ⟨Nat.le_refl _, rfl⟩ ?_ (Or.inl hl)
        (fun _ => rfl) (Or.inl rfl)
      exact Or.inl ⟨rfl, fun p e => hpre.valid.startLen p e⟩
  cases hsh : (getCmd env.spec name).map CmdShape.args with
  | none =>
    exact plain (by
      rintro _ rfl
      refine ⟨[], name, [], by rw [hleaf]; rfl, ?_⟩
      rw [hsh]; exact ⟨rfl, rfl⟩)
  | some sh =>
  -- using the preceding items as argument is possible only under the guard
  have guard : ∀ p, (s.last = some p ∨ s.start = some p) → (sh = .left1 ∨ sh = .infixGreedy) → G →
      p ≤ s.children.length ∧ s.top ≤ p := by
    intro p hp hsh' hG
    cases b with
    | false =>
      exfalso
      have hnl := hpre.left rfl hG
      have : s.toks.dropWhile (fun t => t.1.isTrivia) = (.cmd c, '\\' :: name) :: r := by
        rw [ht, List.dropWhile_cons]; rfl
      obtain ⟨sh0, h1, h2⟩ := Option.map_eq_some_iff.1 hsh
      have := hnl c name r this hc sh0 h1
      rw [h2] at this
      rcases hsh' with e | e
      · exact this.1 e
      · exact this.2 e
    | true =>
      rcases hp with e | e
      · exact ⟨(hpre.valid.last p e).2, (hpre.valid.last p e).1⟩
      · exact ⟨hpre.valid.startLen p e, hpre.valid.startTop rfl p e⟩
  cases sh with
  | left1 =>
    simp only
    cases hpos : s.last.or s.start with
    | none =>
      have hl : s.last = none := by
        cases e : s.last with
        | none => rfl
        | some q => rw [e] at hpos; cases hpos
      simp only [startCommandAt, ok_bind]
      rw [eat_eq (s := s.startNode .itemCmd) ht, ok_bind]
      have g1 : Go G env (s.startNode .itemCmd) ((s.startNode .itemCmd).ate (.cmd c, '\\' :: name) r) :=
        Go.eat (Go.startNode h hh _).inv hh ht
      obtain ⟨s5, e5, g5, p5, t5, c5⟩ := region hcl g1 rfl (by
        have : ((s.startNode .itemCmd).ate (.cmd c, '\\' :: name) r).children.drop s.children.length
            = [.token .clauseCommandName ('\\' :: name)] := by
          show (s.children ++ _).drop _ = _
          rw [List.drop_left, hleaf]
        rw [this]
        refine ⟨[], name, [], rfl, ?_⟩
        rw [hsh]; exact ⟨Nat.zero_le _, fun _ h => (by cases h), rfl⟩) (CurlyEnd.other (by decide))
      rw [e5, ok_bind]
      exact Post.ofGo hpre.valid g5 p5 (fun _ => by
        rw [t5, ht, tokSize_cons]
        show tokSize r < _
        omega)
    | some p =>
      have hp : s.last = some p ∨ (s.start = some p ∧ s.last = none) := by
        cases e : s.last with
        | none => rw [e] at hpos; exact Or.inr ⟨hpos, rfl⟩
        | some q => rw [e] at hpos; exact Or.inl hpos
      by_cases hok : p ≤ s.children.length ∧ s.top ≤ p
      · have e1 : startCommandAt (some p) s = .ok (s.cmdAt .itemCmd p) := cmdAt_eq hok
        rw [e1, ok_bind, eat_eq (s := s.cmdAt .itemCmd p) ht, ok_bind]
        have hi : Inv G env (s.cmdAt .itemCmd p) := cmdAt_inv h hcl
        have g1 : Go G env (s.cmdAt .itemCmd p) ((s.cmdAt .itemCmd p).ate (.cmd c, '\\' :: name) r) := Go.eat hi hh ht
        obtain ⟨s4, e4, hpost⟩ := closeCmd (hi.closed hne) g1.toGoH (f := p) (ps := s.parents) rfl
          (by rw [cmdAt_len hok.1]; omega) (by
            show Shape env (.node .itemCmd (((s.cmdAt .itemCmd p).children ++ [leafOf (.cmd c, '\\' :: name)]).drop p))
            rw [List.drop_append_of_le_length (by rw [cmdAt_len hok.1]; omega), cmdAt_drop hok.1, hleaf]
            refine ⟨[_], name, [], rfl, ?_⟩
            rw [hsh]
            exact ⟨Nat.le_refl _, by intro a ha; rw [List.mem_singleton] at ha; exact ⟨_, ha⟩, rfl⟩) (by
            show tokSize r < tokSize s.toks
            rw [ht, tokSize_cons]; omega)
        rw [e4, ok_bind]
        have hx : s4.extractHold = s4 := by
          have : s4.hold = [] := by
            have e5 := finish_eq (s := (s.cmdAt .itemCmd p).ate (.cmd c, '\\' :: name) r) (k := .itemCmd) (f := p) (ps := s.parents) rfl
            rw [e5] at e4
            cases e4
            exact hh
          unfold PState.extractHold
          cases s4
          simp only at this
          subst this
          simp
        rw [hx] at hpost
        refine toPost p (s.cmdAt .itemCmd p) false s4 hpost cmdAt_read rfl rfl (cmdAt_keep hok.1) ?_ ?_ (fun e => (by cases e)) ?_
        · refine Or.inl ⟨rfl, fun q e => ?_⟩
          rcases hp with e' | ⟨e', _⟩
          · exact hpre.valid.order q p e e'
          · rw [e] at e'; cases e'; exact Nat.le_refl _
        · rcases hpost.last with e | e
          · right
            refine ⟨e, fun q e2 => ?_⟩
            rcases hp with e' | ⟨_, e'⟩
            · rw [e2] at e'; cases e'; exact Nat.le_refl _
            · rw [e2] at e'; cases e'
          · exact Or.inl e
        · right
          refine ⟨hok.2, ?_⟩
          rcases hp with e' | ⟨e', _⟩
          · exact Or.inr e'
          · exact Or.inl e'
      · have e1 : startCommandAt (some p) s = .error .panic := cmdAt_panic hok
        rw [e1]
        refine ⟨rfl, fun hG => hok (guard p ?_ (Or.inl rfl) hG)⟩
        rcases hp with e | ⟨e, _⟩
        · exact Or.inl e
        · exact Or.inr e
  | infixGreedy =>
    simp only
    rw [← ht]
    cases hpos : s.start with
    | none =>
      simp only [startCommandAt, ok_bind]
      have hi : Inv G env ({ s with start := none }.startNode .itemCmd) := h.congr rfl rfl rfl
      refine (commandTail_ok hC (p := .greedy) hi hh (t := (.cmd c, '\\' :: name)) (r := r) ht (f := s.children.length)
        (ps := s.parents) rfl (Nat.le_refl _) ?_ szr szr).mono ?_
      · intro post hf
        have : ({ s with start := none }.startNode .itemCmd).children.drop s.children.length = [] := by
          show s.children.drop _ = _
          simp
        rw [this, List.nil_append, hleaf]
        refine ⟨[], name, post, rfl, ?_⟩
        rw [hsh]
        exact ⟨Nat.zero_le _, fun _ h => (by cases h), hf⟩
      · rintro ⟨flag, s'⟩ ⟨_, hpost, hl⟩
        exact toPost s.children.length _ flag s' hpost (Read.refl s) rfl rfl ⟨Nat.le_refl _, rfl⟩ (Or.inr rfl) (Or.inl hl)
          (fun _ => rfl) (Or.inl rfl)
    | some p =>
      by_cases hok : p ≤ s.children.length ∧ s.top ≤ p
      · have e1 : startCommandAt (some p) { s with start := none } = .ok ({ s with start := none }.cmdAt .itemCmd p) :=
          cmdAt_eq (s := { s with start := none }) hok
        rw [e1, ok_bind]
        have hi0 : Inv G env { s with start := none } := h.congr rfl rfl rfl
        have hi : Inv G env ({ s with start := none }.cmdAt .itemCmd p) := cmdAt_inv hi0 hcl
        refine (commandTail_ok hC (p := .greedy) hi hh (t := (.cmd c, '\\' :: name)) (r := r) ht (f := p)
          (ps := s.parents) rfl (by rw [cmdAt_len (s := { s with start := none }) hok.1]; omega) ?_ szr szr).mono ?_
        · intro post hf
          rw [cmdAt_drop (s := { s with start := none }) hok.1, hleaf]
          refine ⟨[_], name, post, rfl, ?_⟩
          rw [hsh]
          exact ⟨Nat.le_refl _, by intro a ha; rw [List.mem_singleton] at ha; exact ⟨_, ha⟩, hf⟩
        · rintro ⟨flag, s'⟩ ⟨hflag, hpost, hl⟩
          refine toPost p _ flag s' hpost (cmdAt_read (s := { s with start := none })) rfl rfl
            (cmdAt_keep (s := { s with start := none }) hok.1) (Or.inr rfl) (Or.inl hl) ?_ (Or.inr ⟨hok.2, Or.inl hpos⟩)
          intro e
          exact absurd rfl (hflag.1 e)
      · have e1 : startCommandAt (some p) { s with start := none } = .error .panic :=
          cmdAt_panic (s := { s with start := none }) hok
        rw [e1]
        exact ⟨rfl, fun hG => hok (guard p (Or.inr hpos) (Or.inr rfl) hG)⟩
  | right p =>
    have fit0 : ArgsFit env.glob (.fixedLen 0) [] := ⟨Nat.zero_le _, fun _ h => (by cases h)⟩
    cases p with
    | none => exact plain (by rintro _ rfl; rw [hleaf]; exact nargs _ hsh [] rfl)
    | fixedLen k =>
      cases k with
      | zero => exact plain (by rintro _ rfl; rw [hleaf]; exact nargs _ hsh [] fit0)
      | succ k => exact tail _ hsh
    | rangeLen a k => exact tail _ hsh
    | greedy => exact tail _ hsh
    | glob re => exact tail _ hsh

end Mitex
