/-
The parsing functions keep the invariant of Proof/ParserBase.
-/
import Verif.Proof.ParserBase

namespace Mitex

variable {G : Prop} {env : PEnv}

/-! ## The contract of `content` -/

/-- The checkpoints `start` and `last` are usable.  For an item in script position (`b = false`) `start` may
lie before the innermost node. -/
structure Valid (b : Bool) (s : PState) : Prop where
  top : s.top ≤ s.children.length
  last : ∀ p, s.last = some p → s.top ≤ p ∧ p ≤ s.children.length
  startLen : ∀ p, s.start = some p → p ≤ s.children.length
  startTop : b = true → ∀ p, s.start = some p → s.top ≤ p
  order : ∀ p q, s.start = some p → s.last = some q → p ≤ q

/-- Precondition of `content` with fuel `m`. -/
structure Pre (G : Prop) (env : PEnv) (m : Nat) (b : Bool) (s : PState) : Prop where
  inv : Inv G env s
  hold : s.hold = []
  valid : Valid b s
  size : tokSize s.toks < m
  left : b = false → G → NoLeftCommand env.spec s.toks

/-- Postcondition of `content`. -/
structure Post (G : Prop) (env : PEnv) (s : PState) (flag : Bool) (s' : PState) : Prop where
  inv : Inv G env s'
  hold : s'.hold = []
  parents : s'.parents = s.parents
  scope : s'.scope = s.scope
  start : ∀ p, s'.start = some p → s.start = some p ∧ p ≤ s'.children.length
  last : ∀ p, s'.last = some p → s.last = some p ∧ p ≤ s'.children.length
  read : Read s s'
  size : s.toks ≠ [] → tokSize s'.toks < tokSize s.toks
  keep : ∀ f, f ≤ s.children.length →
    (f ≤ s.top ∨ ((∀ p, s.start = some p → f ≤ p) ∧ ∀ p, s.last = some p → f ≤ p)) → Keep f s s'
  app : flag = true → Keep s.children.length s s'

/-- The contract of `content` with fuel `m`. -/
def CSpec (G : Prop) (env : PEnv) (m : Nat) (C : ContentFn) : Prop :=
  ∀ b s, Pre G env m b s → Ok G (fun r => Post G env s r.1 r.2) (C b s)

theorem Post.ofGo {s s' : PState} {flag b : Bool} (hv : Valid b s) (h : Go G env s s') (hp : s'.parents = s.parents)
    (hs : s.toks ≠ [] → tokSize s'.toks < tokSize s.toks) : Post G env s flag s' where
  inv := h.inv
  hold := h.hold
  parents := hp
  scope := h.scope
  start := by
    intro p e
    rw [h.start] at e
    exact ⟨e, Nat.le_trans (hv.startLen p e) h.keep.1⟩
  last := by
    intro p e
    rcases h.last with l | l
    · rw [l] at e
      exact ⟨e, Nat.le_trans (hv.last p e).2 h.keep.1⟩
    · rw [l] at e; cases e
  read := h.read
  size := hs
  keep := fun f hf _ => h.keep.mono hf
  app := fun _ => h.keep

theorem peek_some {s : PState} {k : Token} (h : s.peek = some k) : ∃ t r, s.toks = (k, t) :: r := by
  unfold PState.peek at h
  cases ht : s.toks with
  | nil => rw [ht] at h; cases h
  | cons x r =>
    rw [ht] at h
    obtain ⟨a, b⟩ := x
    simp at h
    exact ⟨b, r, by rw [← h]⟩

theorem peek_none {s : PState} (h : s.peek = none) : s.toks = [] := by
  unfold PState.peek at h
  cases ht : s.toks with
  | nil => rfl
  | cons x r => rw [ht] at h; cases h

theorem peek_of {s : PState} {t : Tok} {r : List Tok} (h : s.toks = t :: r) : s.peek = some t.1 := by
  unfold PState.peek; rw [h]; rfl

/-! ## Lists of items -/

/-- Invariant of the loops that call `content` repeatedly: `f` is the first child that may change. -/
structure LoopInv (G : Prop) (env : PEnv) (f : Nat) (s : PState) : Prop where
  inv : Inv G env s
  hold : s.hold = []
  valid : Valid true s
  len : f ≤ s.children.length
  start : ∀ p, s.start = some p → f ≤ p
  last : ∀ p, s.last = some p → f ≤ p

/-- What such a loop leaves behind. -/
structure LoopPost (G : Prop) (env : PEnv) (f : Nat) (s s' : PState) : Prop where
  inv : Inv G env s'
  hold : s'.hold = []
  parents : s'.parents = s.parents
  scope : s'.scope = s.scope
  read : Read s s'
  size : tokSize s'.toks ≤ tokSize s.toks
  keep : Keep f s s'

theorem LoopPost.refl {f : Nat} {s : PState} (h : LoopInv G env f s) : LoopPost G env f s s :=
  ⟨h.inv, h.hold, rfl, rfl, Read.refl s, Nat.le_refl _, ⟨h.len, rfl⟩⟩

theorem LoopPost.trans {f : Nat} {s s' s'' : PState} (h : LoopPost G env f s s') (h' : LoopPost G env f s' s'') :
    LoopPost G env f s s'' :=
  ⟨h'.inv, h'.hold, h'.parents.trans h.parents, h'.scope.trans h.scope, h.read.trans h'.read,
    Nat.le_trans h'.size h.size, h.keep.trans h'.keep⟩

theorem top_congr {s s' : PState} (h : s'.parents = s.parents) : s'.top = s.top := by
  unfold PState.top; rw [h]

/-- One call of `content` in a loop, followed by the update of `last`. -/
theorem LoopInv.step {f : Nat} {s s1 : PState} {flag upd : Bool} (h : LoopInv G env f s) (hp : Post G env s flag s1)
    (hu : upd = true → flag = true) (hn : s.toks ≠ []) :
    LoopInv G env f (if upd then { s1 with last := some s.children.length } else s1) ∧
    LoopPost G env f s (if upd then { s1 with last := some s.children.length } else s1) ∧
    tokSize (if upd then { s1 with last := some s.children.length } else s1).toks < tokSize s.toks := by
  have hk : Keep f s s1 := hp.keep f h.len (Or.inr ⟨h.start, h.last⟩)
  have hktop : Keep s.top s s1 := hp.keep s.top h.valid.top (Or.inl (Nat.le_refl _))
  have ht := top_congr hp.parents
  have base : LoopInv G env f s1 := by
    refine ⟨hp.inv, hp.hold, ⟨?_, ?_, ?_, ?_, ?_⟩, hk.1, ?_, ?_⟩
    · rw [ht]; exact hktop.1
    · intro p e
      have := hp.last p e
      rw [ht]; exact ⟨(h.valid.last p this.1).1, this.2⟩
    · intro p e; exact (hp.start p e).2
    · intro _ p e; rw [ht]; exact h.valid.startTop rfl p (hp.start p e).1
    · intro p q e e'; exact h.valid.order p q (hp.start p e).1 (hp.last q e').1
    · intro p e; exact h.start p (hp.start p e).1
    · intro p e; exact h.last p (hp.last p e).1
  by_cases hb : upd = true
  · have ha := hp.app (hu hb)
    rw [if_pos hb]
    refine ⟨⟨base.inv.congr rfl rfl rfl, base.hold, ⟨?_, ?_, base.valid.startLen, base.valid.startTop, ?_⟩, base.len, base.start, ?_⟩,
      ⟨base.inv.congr rfl rfl rfl, base.hold, hp.parents, hp.scope, hp.read, Nat.le_of_lt (hp.size hn), hk⟩, hp.size hn⟩
    · exact base.valid.top
    · intro p e
      have e' : s.children.length = p := Option.some.inj e
      rw [← e']
      refine ⟨?_, ha.1⟩
      show s1.top ≤ _
      rw [ht]; exact h.valid.top
    · intro p q e e'
      have e'' : s.children.length = q := Option.some.inj e'
      rw [← e'']
      exact h.valid.startLen p (hp.start p e).1
    · intro p e
      have e' : s.children.length = p := Option.some.inj e
      rw [← e']; exact h.len
  · rw [if_neg hb]
    exact ⟨base, ⟨base.inv, base.hold, hp.parents, hp.scope, hp.read, Nat.le_of_lt (hp.size hn), hk⟩, hp.size hn⟩

theorem itemListLoop_ok {C : ContentFn} {m f : Nat} (hC : CSpec G env m C) :
    ∀ (n cur : Nat) (s : PState), LoopInv G env f s → tokSize s.toks < n → tokSize s.toks < m → cur = s.children.length →
      Ok G (fun s' => LoopPost G env f s s' ∧ (s'.toks = [] ∨ ∃ k, s'.peek = some k ∧ stopByScope s.scope k = true))
        (itemListLoop C n cur s) := by
  intro n
  induction n with
  | zero => intro cur s _ h; omega
  | succ n ih =>
    intro cur s h hn hm hc
    unfold itemListLoop
    cases hp : s.peek with
    | none => exact ⟨.refl h, Or.inl (peek_none hp)⟩
    | some k =>
      simp only
      by_cases hst : stopByScope s.scope k = true
      · rw [if_pos hst]
        exact ⟨.refl h, Or.inr ⟨k, hp, hst⟩⟩
      · rw [if_neg hst]
        obtain ⟨t, r, ht⟩ := peek_some hp
        have hne : s.toks ≠ [] := by rw [ht]; simp
        refine Ok.bind (hC true s ⟨h.inv, h.hold, h.valid, hm, fun e => (by cases e)⟩) ?_
        rintro ⟨flag, s1⟩ hpost
        subst hc
        obtain ⟨a, b, c⟩ := h.step hpost (upd := flag) (fun e => e) hne
        refine (ih _ _ a (by omega) (by omega) rfl).mono ?_
        rintro s' ⟨d, e⟩
        refine ⟨b.trans d, ?_⟩
        rw [b.scope] at e
        exact e

theorem itemList_ok {C : ContentFn} {m n : Nat} (hC : CSpec G env m C) (scope : Scope) {s : PState} (h : Inv G env s)
    (hh : s.hold = []) (ht : s.top ≤ s.children.length) (hn : tokSize s.toks < n) (hm : tokSize s.toks < m) :
    Ok G (fun s' => Go G env s s' ∧ s'.parents = s.parents ∧
        (s'.toks = [] ∨ ∃ k, s'.peek = some k ∧ stopByScope scope k = true))
      (itemList C n scope s) := by
  unfold itemList
  refine Ok.bind (itemListLoop_ok (f := s.children.length) hC n _ _ ?_ hn hm rfl) ?_
  · refine ⟨h.congr rfl rfl rfl, hh, ⟨ht, ?_, ?_, ?_, ?_⟩, Nat.le_refl _, ?_, ?_⟩
    · intro p e; cases e
    · intro p e; have e' := Option.some.inj e; rw [← e']; exact Nat.le_refl _
    · intro _ p e; have e' := Option.some.inj e; rw [← e']; exact ht
    · intro p q _ e; cases e
    · intro p e; have e' := Option.some.inj e; rw [← e']; exact Nat.le_refl _
    · intro p e; cases e
  · rintro s' ⟨a, b⟩
    exact ⟨⟨⟨a.inv.congr rfl rfl rfl, rfl, rfl, Or.inl rfl, a.read, a.size, a.keep⟩, a.hold⟩, a.parents, b⟩

/-! ## Groups -/

theorem itemGroup_ok {C : ContentFn} {m n : Nat} (hC : CSpec G env m C) {scope : Scope} {e : Token} {kind : Kind}
    (hg : groupInfo scope = some (e, kind)) {s : PState} (h : Inv G env s) (hh : s.hold = []) {t : Tok} {r : List Tok}
    (ht : s.toks = t :: r) (hn : tokSize r < n) (hm : tokSize r < m)
    (hs : ∀ cs, Shape env (.node kind (leafOf t :: cs))) :
    Ok G (fun s' => Go G env s s' ∧ s'.parents = s.parents ∧ tokSize s'.toks < tokSize s.toks ∧
        ∃ cs, s'.children = s.children ++ [.node kind cs])
      (itemGroup C n scope s) := by
  have hcl : AllClosed s.children := h.closed (by rw [ht]; simp)
  unfold itemGroup
  rw [hg]
  simp only
  rw [eat_eq (s := s.startNode kind) (t := t) (r := r) ht, ok_bind]
  have g1 : Go G env (s.startNode kind) ((s.startNode kind).ate t r) :=
    Go.eat (Go.startNode h hh kind).inv hh ht
  refine Ok.bind (itemList_ok hC scope g1.inv g1.hold ?_ hn hm) ?_
  · show s.children.length ≤ (s.children ++ [leafOf t]).length
    rw [List.length_append]; omega
  · rintro s3 ⟨g3, p3, stop⟩
    -- the children of the new node
    have hkeep : s3.children = s.children ++ leafOf t :: s3.children.drop (s.children.length + 1) := by
      have := g3.keep.split
      have e1 : ((s.startNode kind).ate t r).children = s.children ++ [leafOf t] := rfl
      rw [e1, List.length_append] at this
      rw [List.append_assoc] at this
      exact this
    have hp3 : s3.parents = (kind, s.children.length) :: s.parents := p3
    have fin : ∀ s4 : PState, Go G env s3 s4 → s4.parents = s3.parents → s4.toks = [] ∧ s4 = s3 ∨
          (∃ t' r', s3.toks = t' :: r' ∧ t'.1 = e ∧ s4 = s3.ate t' r') ∨ kind ≠ .itemCurly →
        Ok G (fun s' => Go G env s s' ∧ s'.parents = s.parents ∧ tokSize s'.toks < tokSize s.toks ∧
        ∃ cs, s'.children = s.children ++ [.node kind cs]) s4.finishNode := by
      intro s4 g4 p4 hcase
      have hk4 : s4.children = s.children ++ leafOf t :: s4.children.drop (s.children.length + 1) := by
        have e1 := (g3.trans g4).keep.split
        have e2 : ((s.startNode kind).ate t r).children = s.children ++ [leafOf t] := rfl
        rw [e2, List.length_append, List.append_assoc] at e1
        exact e1
      have hd : s4.children.drop s.children.length = leafOf t :: s4.children.drop (s.children.length + 1) := by
        rw [hk4, List.drop_left]
        congr 1
        rw [← hk4]
      have hcur : CurlyEnd s4 kind s.children.length := by
        intro hk
        rcases hcase with ⟨a, b⟩ | ⟨t', r', a, b, c⟩ | a
        · exact Or.inl ⟨a, g4.hold, by rw [hd]; simp, hk⟩
        · right
          refine ⟨t'.2, ?_⟩
          have hcurly : e = .right .curly := by
            subst hk
            cases scope <;> simp [groupInfo] at hg
            exact hg.symm
          have e1 : s4.children = s.children ++ (leafOf t :: s3.children.drop (s.children.length + 1) ++ [leafOf t']) := by
            rw [c]
            show s3.children ++ [leafOf t'] = _
            conv => lhs; rw [hkeep]
            rw [List.append_assoc]
          rw [e1, List.drop_left, List.getLast?_append]
          simp only [leafOf, List.getLast?_singleton, Option.some_or]
          rw [b, hcurly]; rfl
        · exact absurd hk a
      have g14 := g1.trans (g3.trans g4)
      obtain ⟨s5, e5, g5, p5, t5, c5⟩ := region hcl g14 (by rw [p4, hp3]) (by rw [hd]; exact hs _) hcur
      rw [e5]
      refine ⟨g5, p5, ?_, _, c5⟩
      rw [t5, ht, tokSize_cons]
      have h1 := (g3.trans g4).size
      have h2 : tokSize ((s.startNode kind).ate t r).toks = tokSize r := rfl
      rw [h2] at h1
      omega
    unfold PState.eatIf
    by_cases hpe : s3.peek = some e
    · rw [if_pos hpe]
      obtain ⟨x, r', hx⟩ := peek_some hpe
      rw [eat_eq hx]
      exact fin _ (Go.eat g3.inv g3.hold hx) rfl (Or.inr (Or.inl ⟨(e, x), r', hx, rfl, rfl⟩))
    · rw [if_neg hpe]
      refine fin s3 (Go.refl g3.inv g3.hold) rfl ?_
      rcases stop with hnil | ⟨k, hk, hstop⟩
      · exact Or.inl ⟨hnil, rfl⟩
      · right; right
        intro hcurly
        apply hpe
        rw [hk]
        subst hcurly
        cases scope <;> simp [groupInfo] at hg
        unfold stopByScope at hstop
        simp only at hstop
        split at hstop
        · rw [← hg]
        · cases hstop

/-! ## Words, errors, conditionals -/

theorem textItem_ok {s : PState} (h : Inv G env s) (hh : s.hold = []) {t : Tok} {r : List Tok} (ht : s.toks = t :: r)
    (hc : isTextComponent t.1 = true) :
    Ok G (fun s' => Go G env s s' ∧ s'.parents = s.parents ∧ tokSize s'.toks < tokSize s.toks) (textItem s) := by
  have hcl : AllClosed s.children := h.closed (by rw [ht]; simp)
  unfold textItem
  rw [eat_eq (s := s.startNode .itemText) (t := t) (r := r) ht]
  have g1 : Go G env (s.startNode .itemText) ((s.startNode .itemText).ate t r) :=
    Go.eat (Go.startNode h hh _).inv hh ht
  have g2 := eatWhile_go g1.inv g1.hold isTextComponent
  have hleaf : ∀ x : Tok, isTextComponent x.1 = true →
      IsLeaf [.tokenLineBreak, .tokenWhiteSpace, .tokenComment, .tokenWord, .tokenComma] (leafOf x) := by
    rintro ⟨k, x⟩ hx
    refine ⟨k.kind, x, ?_, rfl⟩
    cases k <;> simp [isTextComponent, Token.kind] at hx ⊢
  obtain ⟨s5, e5, g5, p5, t5, c5⟩ := region hcl (g1.trans g2) rfl (by
    have : ((((s.startNode .itemText).ate t r).eatWhile isTextComponent).children).drop s.children.length
        = leafOf t :: (r.takeWhile fun t => isTextComponent t.1).map leafOf := by
      show (s.children ++ [leafOf t] ++ _).drop _ = _
      rw [List.append_assoc, List.drop_left]; rfl
    rw [this]
    refine ⟨by simp, ?_⟩
    intro c hcm
    rcases List.mem_cons.1 hcm with rfl | hcm
    · exact hleaf t hc
    · obtain ⟨x, hx, rfl⟩ := List.mem_map.1 hcm
      have := List.all_takeWhile (p := fun t : Tok => isTextComponent t.1) (l := r)
      rw [List.all_eq_true] at this
      exact hleaf x (this x hx)) (CurlyEnd.other (by decide))
  refine Ok.of_eq e5 ⟨g5, p5, ?_⟩
  rw [t5, ht, tokSize_cons]
  have := g2.size
  have h2 : tokSize ((s.startNode Kind.itemText).ate t r).toks = tokSize r := rfl
  rw [h2] at this
  omega

theorem errorItem_ok {s : PState} (h : Inv G env s) (hh : s.hold = []) {t : Tok} {r : List Tok} (ht : s.toks = t :: r) :
    Ok G (fun s' => Go G env s s' ∧ s'.parents = s.parents ∧ tokSize s'.toks < tokSize s.toks) (errorItem s) := by
  have hcl : AllClosed s.children := h.closed (by rw [ht]; simp)
  unfold errorItem
  rw [eat_eq (s := s.startNode .tokenError) (t := t) (r := r) ht]
  have g1 : Go G env (s.startNode .tokenError) ((s.startNode .tokenError).ate t r) :=
    Go.eat (Go.startNode h hh _).inv hh ht
  obtain ⟨s5, e5, g5, p5, t5, c5⟩ := region hcl g1 rfl (by
    have : ((s.startNode .tokenError).ate t r).children.drop s.children.length = [leafOf t] := by
      show (s.children ++ [leafOf t]).drop _ = _
      rw [List.drop_left]
    rw [this]
    exact ⟨t.1.kind, t.2, rfl⟩) (CurlyEnd.other (by decide))
  refine Ok.of_eq e5 ⟨g5, p5, ?_⟩
  rw [t5, ht, tokSize_cons]
  show tokSize r < _
  omega

/-- What `eat_body_of_ifs` does. -/
theorem eatBody_eq (ts : List Tok) : ∀ (n : Nat) (s : PState), ∃ body rest,
    eatBodyOfIfs ts n s = { s with toks := rest, children := s.children ++ body.map leafOf } ∧
    ((∃ fi : Tok, ts = body ++ fi :: rest ∧ fi.1 = .cmd .endIf ∧ ifDepth body n = some 0) ∨
      (rest = [] ∧ ts = body ∧ ifDepth body n ≠ none)) := by
  induction ts with
  | nil => intro n s; exact ⟨[], [], by simp [eatBodyOfIfs], Or.inr ⟨rfl, rfl, by simp [ifDepth]⟩⟩
  | cons t ts ih =>
    intro n s
    obtain ⟨k, x⟩ := t
    have go : ∀ n', ifDepth ((k, x) :: ts) n = ifDepth ts n' → (∀ b, ifDepth ((k, x) :: b) n = ifDepth b n') →
        eatBodyOfIfs ((k, x) :: ts) n s = eatBodyOfIfs ts n' (s.token k.kind x) → ∃ body rest,
        eatBodyOfIfs ((k, x) :: ts) n s = { s with toks := rest, children := s.children ++ body.map leafOf } ∧
        ((∃ fi : Tok, (k, x) :: ts = body ++ fi :: rest ∧ fi.1 = .cmd .endIf ∧ ifDepth body n = some 0) ∨
          (rest = [] ∧ (k, x) :: ts = body ∧ ifDepth body n ≠ none)) := by
      intro n' _ hd he
      obtain ⟨body, rest, e, hr⟩ := ih n' (s.token k.kind x)
      refine ⟨(k, x) :: body, rest, ?_, ?_⟩
      · rw [he, e]
        simp only [PState.token, List.append_assoc, List.map_cons]
        rfl
      · rcases hr with ⟨fi, a, b, c⟩ | ⟨a, b, c⟩
        · exact Or.inl ⟨fi, by rw [a]; rfl, b, by rw [hd]; exact c⟩
        · exact Or.inr ⟨a, by rw [b], by rw [hd]; exact c⟩
    by_cases h1 : ∃ i, k = .cmd (.cif i)
    · obtain ⟨i, rfl⟩ := h1
      exact go (n + 1) rfl (fun _ => rfl) rfl
    · by_cases h2 : k = .cmd .endIf
      · subst h2
        by_cases h0 : n = 0
        · subst h0
          refine ⟨[], ts, ?_, Or.inl ⟨(.cmd .endIf, x), rfl, rfl, rfl⟩⟩
          simp [eatBodyOfIfs]
        · have hd : ∀ b, ifDepth ((Token.cmd .endIf, x) :: b) n = ifDepth b (n - 1) := by
            intro b; rw [ifDepth, if_neg h0]
          exact go (n - 1) (hd _) hd (by rw [eatBodyOfIfs, if_neg h0])
      · have hd : ∀ b, ifDepth ((k, x) :: b) n = ifDepth b n := by
          intro b
          rw [ifDepth]
          · intro i y e; exact h1 ⟨i, (Prod.mk.inj e).1⟩
          · intro y e; exact h2 (Prod.mk.inj e).1
        refine go n (hd _) hd ?_
        rw [eatBodyOfIfs]
        · intro i e; exact h1 ⟨i, e⟩
        · intro e; exact h2 e

theorem ifBlock_ok {kind : Kind} (hk : kind = .itemBlockComment ∨ kind = .itemTypstCode) {s : PState}
    (h : Inv G env s) (hh : s.hold = []) {t : Tok} {r : List Tok}
    (ht : s.toks = t :: r) (htk : t.1 = .cmd (.cif .ifFalse) ∨ t.1 = .cmd (.cif .ifTypst)) :
    Ok G (fun s' => Go G env s s' ∧ s'.parents = s.parents ∧ tokSize s'.toks < tokSize s.toks) (ifBlock kind s) := by
  have hcl : AllClosed s.children := h.closed (by rw [ht]; simp)
  unfold ifBlock
  simp only
  obtain ⟨body, rest, e, hr⟩ := eatBody_eq ((s.startNode kind).drop).toks 0 (s.startNode kind).drop
  rw [e]
  have hdt : ((s.startNode kind).drop).toks = r := by
    show s.toks.tail = r
    rw [ht]; rfl
  rw [hdt] at hr
  have ho := h.toks
  rw [ht] at ho
  have hrest : TokOk G env.spec rest ∧ tokSize rest ≤ tokSize r := by
    rcases hr with ⟨fi, a, _, _⟩ | ⟨a, _, _⟩
    · subst a
      refine ⟨ho.tail.suffix.tail, ?_⟩
      rw [tokSize_append, tokSize_cons]; omega
    · subst a; exact ⟨.nil, Nat.zero_le _⟩
  have hreads : Reads s.toks rest (body.map lf) := by
    rw [ht]
    rcases hr with ⟨fi, a, b, c⟩ | ⟨a, b, c⟩
    · subst a
      have := Reads.cond t fi htk c b (Reads.done rest)
      rw [List.append_nil] at this
      exact this
    · subst a; subst b
      exact Reads.condOpen t htk c
  have g1 := Go.leaves (Go.startNode h hh kind).inv hh (ks := body.map lf) (r := rest)
    (by show s.toks ≠ []; rw [ht]; simp) hreads
    (by intro k hk; obtain ⟨x, _, rfl⟩ := List.mem_map.1 hk; exact kind_mem_leafKinds _)
    hrest.1 (by show _ ≤ tokSize s.toks; rw [ht, tokSize_cons]; omega)
  have e2 : (body.map lf).map (fun k => Elem.token k.1 k.2) = body.map leafOf := by rw [List.map_map]; rfl
  rw [e2] at g1
  obtain ⟨s5, e5, g5, p5, t5, c5⟩ := region hcl g1 rfl (by
    have : ({ (s.startNode kind) with toks := rest, children := (s.startNode kind).children ++ body.map leafOf } : PState).children.drop s.children.length = body.map leafOf := by
      show (s.children ++ _).drop _ = _
      rw [List.drop_left]
    rw [this]
    have hl : ∀ c ∈ body.map leafOf, IsLeaf leafKinds c := by
      intro c hc
      obtain ⟨x, _, rfl⟩ := List.mem_map.1 hc
      exact ⟨_, _, kind_mem_leafKinds x.1, rfl⟩
    rcases hk with rfl | rfl
    · exact hl
    · exact hl) (CurlyEnd.other (by rcases hk with rfl | rfl <;> decide))
  refine Ok.of_eq (a := s5) ?_ ⟨g5, p5, ?_⟩
  · exact e5
  · rw [t5, ht, tokSize_cons]
    show tokSize rest < _
    omega

end Mitex
