/-
Environments, `\left`/`\right`, scripts; `content` meets its contract; `parse`.
-/
import Verif.Proof.ParserTop

namespace Mitex

variable {G : Prop} {env : PEnv}

/-! ## Environments -/

theorem envPattern_fit {spec : CommandSpec} {g : GlobFn} {name : Text} :
    (envPattern spec name = none →
      match (getEnv spec name).map EnvShape.args with
      | none => ([] : List Elem) = []
      | some p => ArgsFit g p []) ∧
    (∀ p, envPattern spec name = some p → (getEnv spec name).map EnvShape.args = some p) := by
  unfold envPattern
  split
  · rename_i h; rw [h]; exact ⟨fun _ => rfl, fun p e => (by cases e)⟩
  · rename_i h; rw [h]; exact ⟨fun _ => rfl, fun p e => (by cases e)⟩
  · rename_i h; rw [h]; exact ⟨fun _ => ⟨Nat.zero_le _, fun _ h => (by cases h)⟩, fun p e => (by cases e)⟩
  · rename_i p _ _ h
    rw [h]
    exact ⟨fun e => (by cases e), fun q e => e⟩

theorem environment_ok {C : ContentFn} {m n : Nat} (hC : CSpec G env m C) (hE : G → EnvsOk env.spec) {s : PState}
    (h : Inv G env s) (hh : s.hold = []) {name : Text} {r : List Tok} (ht : s.toks = (.cmd .beginEnv, name) :: r)
    (hn : tokSize r < n) (hm : tokSize r < m) :
    Ok G (fun s' => Go G env s s' ∧ s'.parents = s.parents ∧ tokSize s'.toks < tokSize s.toks) (environment env C n s) := by
  have hcl : AllClosed s.children := h.closed (by rw [ht]; simp)
  unfold environment
  rw [ht]
  simp only
  have i0 : Inv G env (s.startNode .itemEnv) := (Go.startNode h hh _).inv
  have i1 : Inv G env ((s.startNode .itemEnv).startNode .itemBegin) := (Go.startNode i0 hh _).inv
  rw [eat_eq (s := (s.startNode .itemEnv).startNode .itemBegin) ht, ok_bind]
  have g1 : Go G env ((s.startNode .itemEnv).startNode .itemBegin)
      (((s.startNode .itemEnv).startNode .itemBegin).ate (.cmd .beginEnv, name) r) := Go.eat i1 hh ht
  -- the rest, given the arguments
  have rest : ∀ (s2 : PState) (args : List Elem), GoH G env (((s.startNode .itemEnv).startNode .itemBegin).ate (.cmd .beginEnv, name) r) s2 →
      s2.parents = (((s.startNode .itemEnv).startNode .itemBegin).ate (.cmd .beginEnv, name) r).parents →
      s2.children = (((s.startNode .itemEnv).startNode .itemBegin).ate (.cmd .beginEnv, name) r).children ++ args →
      (match (getEnv env.spec name).map EnvShape.args with
      | none => args = []
      | some p => ArgsFit env.glob p args) →
      Ok G (fun s' => Go G env s s' ∧ s'.parents = s.parents ∧ tokSize s'.toks < tokSize s.toks)
        (do
          let s ← s2.finishNode
          let s ← itemList C n .environment s.extractHold
          if s.peek = some (.cmd .endEnv) then do
              let s ← (s.startNode .itemEnd).eat
              let s ← s.finishNode
              s.finishNode
            else do
              let s ← Except.ok s
              s.finishNode) := by
    intro s2 args g2 p2 c2 fit
    have hd2 : s2.children.drop s.children.length = .token .tokenCommandSym name :: args := by
      rw [c2]
      show (s.children ++ [_] ++ _).drop _ = _
      rw [List.append_assoc, List.drop_left]; rfl
    obtain ⟨s3, e3, g3, p3, t3, h3, c3⟩ := regionH (s := s.startNode .itemEnv) (k := .itemBegin) hcl (g1.toGoH.trans g2) p2
      (by
        show Shape env (.node .itemBegin (s2.children.drop s.children.length))
        rw [hd2]; exact ⟨name, args, rfl, fit⟩) (CurlyEnd.other (by decide))
    rw [e3, ok_bind]
    have gx := extract_go g3.inv
    have g4 : Go G env (s.startNode .itemEnv) s3.extractHold := ⟨g3.trans gx.toGoH, gx.hold⟩
    have hlen4 := g4.keep.1
    have sz2 : tokSize s2.toks ≤ tokSize r := g2.size
    have sz4 : tokSize s3.extractHold.toks ≤ tokSize r := by
      show tokSize s3.toks ≤ _
      rw [t3]; exact sz2
    have p4 : s3.extractHold.parents = (.itemEnv, s.children.length) :: s.parents := p3
    refine Ok.bind (itemList_ok hC .environment g4.inv g4.hold ?_ (by omega) (by omega)) ?_
    · unfold PState.top; rw [p4]; exact hlen4
    rintro s5 ⟨g5, p5, _⟩
    have g45 := g4.trans g5
    -- the first child is the begin clause
    have first : ∀ s6 : PState, Go G env s5 s6 → ∃ bcs more, s6.children.drop s.children.length = .node .itemBegin bcs :: more := by
      intro s6 g6
      have e1 := (gx.trans (g5.trans g6)).keep.split
      rw [c3, List.append_assoc] at e1
      rw [e1]
      show ∃ bcs more, (s.children ++ _).drop _ = _
      rw [List.drop_left]
      exact ⟨_, _, rfl⟩
    have fin : ∀ s6 : PState, Go G env s5 s6 → s6.parents = s5.parents →
        Ok G (fun s' => Go G env s s' ∧ s'.parents = s.parents ∧ tokSize s'.toks < tokSize s.toks) s6.finishNode := by
      intro s6 g6 p6
      obtain ⟨bcs, more, hb⟩ := first s6 g6
      obtain ⟨s7, e7, g7, p7, t7, c7⟩ := region hcl (g45.trans g6) (by rw [p6, p5]; exact p4)
        (by rw [hb]; exact ⟨bcs, more, rfl⟩) (CurlyEnd.other (by decide))
      refine Ok.of_eq e7 ⟨g7, p7, ?_⟩
      rw [t7, ht, tokSize_cons]
      have a := (g5.trans g6).size
      omega
    by_cases hpe : s5.peek = some (.cmd .endEnv)
    · rw [if_pos hpe]
      obtain ⟨x, r', hx⟩ := peek_some hpe
      rw [eat_eq (s := s5.startNode .itemEnd) hx, ok_bind]
      have i5 := (Go.startNode g5.inv g5.hold (Kind.itemEnd)).inv
      obtain ⟨s6, e6, g6, p6, t6, c6⟩ := region (s := s5) (k := .itemEnd) (g5.inv.closed (by rw [hx]; simp))
        (Go.eat i5 g5.hold hx) rfl (by
          have : ((s5.startNode .itemEnd).ate (.cmd .endEnv, x) r').children.drop s5.children.length
              = [.token .tokenCommandSym x] := by
            show (s5.children ++ _).drop _ = _
            rw [List.drop_left]; rfl
          rw [this]; exact ⟨x, rfl⟩) (CurlyEnd.other (by decide))
      rw [e6, ok_bind]
      exact fin s6 g6 p6
    · rw [if_neg hpe, ok_bind]
      exact fin s5 (Go.refl g5.inv g5.hold) rfl
  rw [← ht]
  have hfit := envPattern_fit (spec := env.spec) (g := env.glob) (name := name)
  cases hpat : envPattern env.spec name with
  | none =>
    exact rest _ [] (.refl g1.inv) rfl (by simp) (by
      have := hfit.1 hpat
      revert this
      cases (getEnv env.spec name).map EnvShape.args <;> exact id)
  | some p =>
    have hp := hfit.2 p hpat
    by_cases hg : p = .greedy
    · subst hg
      refine ⟨rfl, fun hG => ?_⟩
      obtain ⟨sh, h1, h2⟩ := Option.map_eq_some_iff.1 hp
      exact hE hG name sh h1 h2
    · refine Ok.bind (matchArguments_args hC hg g1.inv hn hm) ?_
      rintro s2 ⟨g2, p2, _, new, c2, f2⟩
      exact rest s2 new g2 p2 c2 (by rw [hp]; exact f2)

/-! ## `\left` and `\right` -/

/-- What may follow `\left`. -/
def LRArg (a : Elem) : Prop :=
  ∃ k t, a = .token k t ∧ (k = .tokenCommandSym → t.head? = some '\\') ∧ k ≠ .clauseCommandName

theorem clauseLR_ok {s : PState} (h : Inv G env s) (hh : s.hold = []) {t : Tok} {r : List Tok} (ht : s.toks = t :: r)
    (hk : t.1.kind = .clauseCommandName) :
    Ok G (fun s' => Go G env s s' ∧ s'.parents = s.parents ∧ tokSize s'.toks < tokSize s.toks ∧
        ∃ cs, s'.children = s.children ++ [.node .clauseLR cs])
      (clauseLR s) := by
  have hcl : AllClosed s.children := h.closed (by rw [ht]; simp)
  unfold clauseLR
  rw [eat_eq (s := s.startNode .clauseLR) ht, ok_bind]
  have g1 : Go G env (s.startNode .clauseLR) ((s.startNode .clauseLR).ate t r) := Go.eat (Go.startNode h hh _).inv hh ht
  have g2 : Go G env ((s.startNode .clauseLR).ate t r) ((s.startNode .clauseLR).ate t r).trivia :=
    eatWhile_go g1.inv g1.hold Token.isTrivia
  have c2 : ((s.startNode .clauseLR).ate t r).trivia.children
      = s.children ++ leafOf t :: (r.takeWhile fun t => t.1.isTrivia).map leafOf := by
    show s.children ++ [leafOf t] ++ _ = _
    rw [List.append_assoc]; rfl
  have p2 : ((s.startNode .clauseLR).ate t r).trivia.parents = (.clauseLR, s.children.length) :: s.parents := rfl
  have triv : ∀ a ∈ (r.takeWhile fun t => t.1.isTrivia).map leafOf, LRArg a := by
    intro a ha
    obtain ⟨x, hx, rfl⟩ := List.mem_map.1 ha
    have := List.all_takeWhile (p := fun t : Tok => t.1.isTrivia) (l := r)
    rw [List.all_eq_true] at this
    have hx := this x hx
    obtain ⟨k, y⟩ := x
    refine ⟨k.kind, y, rfl, ?_⟩
    cases k <;> simp [Token.isTrivia] at hx <;> simp [Token.kind]
  generalize hs2 : ((s.startNode .clauseLR).ate t r).trivia = s2 at *
  simp only
  have fin : ∀ (s3 : PState) (args : List Elem), Go G env s2 s3 → s3.parents = s2.parents → s3.children = s2.children ++ args →
      (∀ a ∈ args, LRArg a) →
      Ok G (fun s' => Go G env s s' ∧ s'.parents = s.parents ∧ tokSize s'.toks < tokSize s.toks ∧
        ∃ cs, s'.children = s.children ++ [.node .clauseLR cs]) s3.finishNode := by
    intro s3 args g3 p3 c3 ha
    obtain ⟨s4, e4, g4, p4, t4, c4⟩ := region hcl (g1.trans (g2.trans g3)) (by rw [p3, p2]) (by
      rw [c3, c2, List.append_assoc, List.drop_left]
      refine ⟨t.2, _, by rw [leafOf, hk]; rfl, ?_⟩
      intro a hm
      rcases List.mem_append.1 hm with hm | hm
      · exact triv a hm
      · exact ha a hm) (CurlyEnd.other (by decide))
    refine Ok.of_eq e4 ⟨g4, p4, ?_, _, c4⟩
    rw [t4, ht, tokSize_cons]
    have a := (g2.trans g3).size
    have b : tokSize ((s.startNode .clauseLR).ate t r).toks = tokSize r := rfl
    omega
  have eatIt : ∀ k, s2.peek = some k → (k.kind ≠ .tokenCommandSym ∧ k.kind ≠ .clauseCommandName) →
      Ok G (fun s' => Go G env s s' ∧ s'.parents = s.parents ∧ tokSize s'.toks < tokSize s.toks ∧
        ∃ cs, s'.children = s.children ++ [.node .clauseLR cs]) (s2.eat >>= fun s => s.finishNode) := by
    intro k hp hkk
    obtain ⟨x, r', hx⟩ := peek_some hp
    rw [eat_eq hx, ok_bind]
    refine fin _ [leafOf (k, x)] (Go.eat g2.inv g2.hold hx) rfl rfl ?_
    intro a ha
    rw [List.mem_singleton] at ha
    exact ⟨_, _, ha, fun e => absurd e hkk.1, hkk.2⟩
  have stay : Ok G (fun s' => Go G env s s' ∧ s'.parents = s.parents ∧ tokSize s'.toks < tokSize s.toks ∧
        ∃ cs, s'.children = s.children ++ [.node .clauseLR cs]) s2.finishNode :=
    fin s2 [] (Go.refl g2.inv g2.hold) rfl (by simp) (fun _ h => (by cases h))
  cases hp : s2.peek with
  | none => exact stay
  | some k =>
    cases k with
    | cmd c =>
      cases c with
      | generic =>
        obtain ⟨x, r', hx⟩ := peek_some hp
        have e : s2.eatAs .tokenCommandSym
            = .ok { s2 with toks := r', children := s2.children ++ [.token .tokenCommandSym x] } := by
          unfold PState.eatAs; rw [hx]
        simp only
        rw [e, ok_bind]
        have ho := g2.inv.toks
        rw [hx] at ho
        have g3 := Go.leaves g2.inv g2.hold (ks := [(.tokenCommandSym, x)]) (r := r') (by rw [hx]; simp)
          (by rw [hx]; exact .sym x (.done r')) (by intro k hk; rw [List.mem_singleton] at hk; rw [hk]; simp [leafKinds])
          ho.tail (by rw [hx, tokSize_cons]; omega)
        refine fin _ [.token .tokenCommandSym x] g3 rfl rfl ?_
        intro a ha
        rw [List.mem_singleton] at ha
        refine ⟨_, _, ha, fun _ => ?_, by decide⟩
        exact ho.cmds (.cmd .generic, x) (List.mem_cons_self ..) .generic rfl rfl
      | _ => exact stay
    | dollar => exact stay
    | word =>
      obtain ⟨x, r', hx⟩ := peek_some hp
      obtain ⟨s3, e3, g3, p3, _, c, c3⟩ := singleChar_go g2.inv g2.hold hx
      simp only
      rw [e3, ok_bind]
      refine fin s3 [.token .tokenWord [c]] g3 p3 c3 ?_
      intro a ha
      rw [List.mem_singleton] at ha
      exact ⟨_, _, ha, fun e => (by cases e), by decide⟩
    | left b => exact eatIt _ hp (by cases b <;> decide)
    | right b => exact eatIt _ hp (by cases b <;> decide)
    | macroArg n => exact eatIt _ hp (by simp [Token.kind])
    | _ => exact eatIt _ hp (by decide)

theorem itemLR_ok {C : ContentFn} {m n : Nat} (hC : CSpec G env m C) {s : PState} (h : Inv G env s) (hh : s.hold = [])
    {x : Text} {r : List Tok} (ht : s.toks = (.cmd .left, x) :: r) (hn : tokSize s.toks ≤ n) (hm : tokSize s.toks ≤ m) :
    Ok G (fun s' => Go G env s s' ∧ s'.parents = s.parents ∧ tokSize s'.toks < tokSize s.toks) (itemLR C n s) := by
  have hcl : AllClosed s.children := h.closed (by rw [ht]; simp)
  unfold itemLR
  have i0 : Inv G env (s.startNode .itemLR) := (Go.startNode h hh _).inv
  refine Ok.bind (clauseLR_ok i0 hh (t := (.cmd .left, x)) ht rfl) ?_
  rintro s1 ⟨g1, p1, sz1, lcs, c1⟩
  have sz1' : tokSize s1.toks < tokSize s.toks := sz1
  refine Ok.bind (itemList_ok hC .lr g1.inv g1.hold ?_ (by omega) (by omega)) ?_
  · rw [top_congr p1]; exact g1.keep.1
  rintro s2 ⟨g2, p2, _⟩
  have fin : ∀ s3 : PState, Go G env s2 s3 → s3.parents = s2.parents →
      Ok G (fun s' => Go G env s s' ∧ s'.parents = s.parents ∧ tokSize s'.toks < tokSize s.toks) s3.finishNode := by
    intro s3 g3 p3
    obtain ⟨s4, e4, g4, p4, t4, c4⟩ := region hcl (g1.trans (g2.trans g3)) (by rw [p3, p2]; exact p1) (by
      have e := (g2.trans g3).keep.split
      rw [c1, List.append_assoc] at e
      rw [e]
      show Shape env (.node .itemLR ((s.children ++ _).drop _))
      rw [List.drop_left]
      exact ⟨_, _, rfl⟩) (CurlyEnd.other (by decide))
    refine Ok.of_eq e4 ⟨g4, p4, ?_⟩
    rw [t4]
    exact Nat.lt_of_le_of_lt (g2.trans g3).size sz1'
  by_cases hp : s2.peek = some (.cmd .right)
  · rw [if_pos hp]
    obtain ⟨y, r', hy⟩ := peek_some hp
    refine Ok.bind (clauseLR_ok g2.inv g2.hold hy rfl) ?_
    rintro s3 ⟨g3, p3, _, _⟩
    exact fin s3 g3 p3
  · rw [if_neg hp]
    exact fin s2 (Go.refl g2.inv g2.hold) rfl

/-! ## Scripts -/

theorem leaves_take_lt {s s' : PState} {l : Nat} (hk : Keep l s s') (hr : Read s s')
    (hne : (Elem.leaves.go (s.children.take l)).length < (Elem.leaves.go s.children).length) : s'.children.drop l ≠ [] := by
  intro e
  obtain ⟨lv, hl, _⟩ := hr
  have h1 : s'.children = s'.children.take l := by
    have := List.take_append_drop l s'.children
    rw [e, List.append_nil] at this
    exact this.symm
  rw [h1, hk.2] at hl
  rw [hl, List.length_append] at hne
  omega

/-- The end of `attach_component`: the node was opened at `l`. -/
theorem attachFinish_ok {C : ContentFn} {m : Nat} (hC : CSpec G env m C) (hasScript : Bool) {s : PState} (h : Inv G env s)
    (hh : s.hold = []) {t : Tok} {r : List Tok} (ht : s.toks = t :: r) (hm : tokSize r < m) {l : Nat} {ps : List (Kind × Nat)}
    (hp : s.parents = (.itemAttachComponent, l) :: ps) (hl : l ≤ s.children.length)
    (hst : ∀ p, s.start = some p → p ≤ l) (hla : ∀ p, s.last = some p → p = l)
    (hsc : hasScript = true → t.1 = .underscore ∨ t.1 = .caret) :
    Ok G (fun s' => Inv G env s' ∧ s'.hold = [] ∧ s'.parents = ps ∧ s'.scope = s.scope ∧
        (∀ p, s'.start = some p → s.start = some p) ∧ (∀ p, s'.last = some p → s.last = some p) ∧ Read s s' ∧
        tokSize s'.toks < tokSize s.toks ∧ Keep l s s' ∧ l < s'.children.length)
      (attachComponent.finish C hasScript s) := by
  have hcl : AllClosed s.children := h.closed (by rw [ht]; simp)
  unfold attachComponent.finish
  rw [eat_eq ht, ok_bind]
  have g1 : Go G env s (s.ate t r) := Go.eat h hh ht
  have szr : tokSize r < tokSize s.toks := by rw [ht, tokSize_cons]; omega
  have top1 : s.top = l := by unfold PState.top; rw [hp]
  have fin : ∀ s3 : PState, Inv G env s3 → s3.hold = [] → s3.parents = s.parents → s3.scope = s.scope →
      (∀ p, s3.start = some p → s.start = some p) → (∀ p, s3.last = some p → s.last = some p) → Read (s.ate t r) s3 →
      tokSize s3.toks ≤ tokSize r → Keep l (s.ate t r) s3 →
      Ok G (fun s' => Inv G env s' ∧ s'.hold = [] ∧ s'.parents = ps ∧ s'.scope = s.scope ∧
        (∀ p, s'.start = some p → s.start = some p) ∧ (∀ p, s'.last = some p → s.last = some p) ∧ Read s s' ∧
        tokSize s'.toks < tokSize s.toks ∧ Keep l s s' ∧ l < s'.children.length) s3.finishNode := by
    intro s3 i3 h3 p3 sc3 st3 la3 r3 sz3 k3
    have hne : s3.children.drop l ≠ [] := by
      apply leaves_take_lt k3 r3
      show (Elem.leaves.go ((s.children ++ [leafOf t]).take l)).length < (Elem.leaves.go (s.children ++ [leafOf t])).length
      rw [List.take_append_of_le_length hl, leaves_go_append, leaves_go_one, List.length_append]
      have : Elem.leaves.go s.children = Elem.leaves.go (s.children.take l) ++ Elem.leaves.go (s.children.drop l) := by
        rw [← leaves_go_append, List.take_append_drop]
      rw [this, List.length_append]
      simp only [leafOf, Elem.leaves, List.length_singleton]
      omega
    have k := (g1.keep.mono hl).trans k3
    have hi := i3.close (k := .itemAttachComponent) (f := l) (ps := ps) (by rw [k.2]; exact hcl.take l) hne (CurlyEnd.other (by decide))
    rw [finish_eq (p3.trans hp)]
    refine ⟨hi, h3, rfl, sc3, st3, la3, g1.read.trans (r3.trans (closed_read _ _ _ _)), Nat.lt_of_le_of_lt sz3 szr,
      k.trans (closed_keep k.1), ?_⟩
    rw [closed_length k.1]; omega
  cases hasScript with
  | false =>
    simp only [Bool.false_eq_true, if_false]
    exact fin _ g1.inv hh rfl rfl (fun p e => e) (fun p e => e) (Read.refl _) (Nat.le_refl _)
      ⟨Nat.le_trans hl g1.keep.1, rfl⟩
  | true =>
    simp only [if_true]
    have g2 : Go G env (s.ate t r) (s.ate t r).trivia := eatWhile_go g1.inv g1.hold Token.isTrivia
    have t2 : (s.ate t r).trivia.toks = r.dropWhile fun t => t.1.isTrivia := rfl
    have len2 : l ≤ (s.ate t r).trivia.children.length := Nat.le_trans hl (Nat.le_trans g1.keep.1 g2.keep.1)
    have top2 : (s.ate t r).trivia.top = l := (top_congr rfl).trans top1
    have sz2 : tokSize (s.ate t r).trivia.toks ≤ tokSize r := g2.size
    refine Ok.bind (hC false (s.ate t r).trivia ⟨g2.inv, g2.hold, ⟨?_, ?_, ?_, ?_, ?_⟩, by omega, ?_⟩) ?_
    · rw [top2]; exact len2
    · intro p e
      have := hla p e
      rw [top2, this]; exact ⟨Nat.le_refl _, len2⟩
    · intro p e
      exact Nat.le_trans (hst p e) len2
    · intro e; cases e
    · intro p q e e'
      have := hla q e'
      rw [this]; exact hst p e
    · intro _ hG
      have ho := (h.toks.scripts hG)
      rw [ht] at ho
      have := ho.1 (hsc rfl)
      intro c y rest hd
      apply this c y rest
      rw [t2] at hd
      rw [← hd]
      have hidem : ∀ ts : List Tok, (ts.dropWhile fun t => t.1.isTrivia).dropWhile (fun t => t.1.isTrivia)
          = ts.dropWhile fun t => t.1.isTrivia := by
        intro ts
        induction ts with
        | nil => rfl
        | cons a ts ih =>
          rw [List.dropWhile_cons]
          split
          · exact ih
          · rename_i hna
            rw [List.dropWhile_cons, if_neg hna]
      exact (hidem r).symm
    · rintro ⟨flag, s3⟩ hp3
      refine fin s3 hp3.inv hp3.hold hp3.parents hp3.scope (fun p e => (hp3.start p e).1) (fun p e => (hp3.last p e).1)
        (g2.read.trans hp3.read) ?_ ?_
      · by_cases hn : (s.ate t r).trivia.toks = []
        · have hr := hp3.read
          obtain ⟨lv, _, hr⟩ := hr
          rw [g2.hold, hn, hp3.hold] at hr
          cases h3 : s3.toks with
          | nil => exact Nat.zero_le _
          | cons a b => rw [h3] at hr; cases hr
        · exact Nat.le_trans (Nat.le_of_lt (hp3.size hn)) sz2
      · exact (g2.keep.mono (Nat.le_trans hl g1.keep.1)).trans (hp3.keep l len2 (Or.inl (by rw [top2]; exact Nat.le_refl _)))

theorem attach_ok {C : ContentFn} {m : Nat} (hC : CSpec G env m C) (hasScript : Bool) {b : Bool} {s : PState}
    (hpre : Pre G env (m + 1) b s) {t : Tok} {r : List Tok} (ht : s.toks = t :: r)
    (hsc : hasScript = true → t.1 = .underscore ∨ t.1 = .caret) :
    Ok G (fun s' => Post G env s false s') (attachComponent C hasScript s) := by
  have h := hpre.inv
  have hh := hpre.hold
  have hne : s.toks ≠ [] := by rw [ht]; simp
  have hcl := h.closed hne
  have szr : tokSize r < m := by
    have := hpre.size
    rw [ht, tokSize_cons] at this; omega
  unfold attachComponent
  cases hl : s.last with
  | some l =>
    have hv := hpre.valid.last l hl
    simp only
    have e1 := cmdAt_eq (s := s) (k := .itemAttachComponent) (p := l) ⟨hv.2, hv.1⟩
    have e2 : (do
        let s ← s.startNodeAt l .itemAttachComponent
        let s ← s.startNodeAt l .clauseArgument
        let s ← s.finishNode
        attachComponent.finish C hasScript s) = attachComponent.finish C hasScript (s.cmdAt .itemAttachComponent l) := by
      have : (do
        let s ← s.startNodeAt l .itemAttachComponent
        let s ← s.startNodeAt l .clauseArgument
        let s ← s.finishNode
        attachComponent.finish C hasScript s) = ((do
          let s ← s.startNodeAt l .itemAttachComponent
          let s ← s.startNodeAt l .clauseArgument
          s.finishNode) >>= fun s => attachComponent.finish C hasScript s) := by
        simp only [bind_assoc]
      rw [this, e1, ok_bind]
    rw [e2]
    refine (attachFinish_ok hC hasScript (s := s.cmdAt .itemAttachComponent l) (cmdAt_inv h hcl) hh ht szr (l := l) (ps := s.parents) rfl
      (by rw [cmdAt_len hv.2]; omega) ?_ ?_ hsc).mono ?_
    · intro p e; exact hpre.valid.order p l e hl
    · intro p e
      have : s.last = some p := e
      rw [hl] at this; exact (Option.some.inj this).symm
    · rintro s' ⟨a1, a2, a3, a4, a5, a6, a7, a8, a9, a10⟩
      refine ⟨a1, a2, a3, a4, ?_, ?_, cmdAt_read.trans a7, fun _ => a8, ?_, fun e => (by cases e)⟩
      · intro p e
        have e' : s.start = some p := a5 p e
        exact ⟨e', Nat.le_trans (hpre.valid.order p l e' hl) (Nat.le_of_lt a10)⟩
      · intro p e
        have e' : s.last = some p := a6 p e
        rw [hl] at e'
        have := Option.some.inj e'
        exact ⟨by rw [this] at hl; exact hl, by omega⟩
      · intro f hf hc
        refine ((cmdAt_keep hv.2).trans a9).mono ?_
        rcases hc with c | ⟨_, c⟩
        · exact Nat.le_trans c hv.1
        · exact c l hl
  | none =>
    simp only
    by_cases hb : hasScript = true
    · subst hb
      simp only [Bool.not_true, Bool.false_eq_true, if_false]
      refine (attachFinish_ok hC true (s := s.startNode .itemAttachComponent) (Go.startNode h hh _).inv hh ht szr
        (l := s.children.length) (ps := s.parents) rfl (Nat.le_refl _) ?_ ?_ hsc).mono ?_
      · intro p e; exact hpre.valid.startLen p e
      · intro p e
        have : s.last = some p := e
        rw [hl] at this; cases this
      · rintro s' ⟨a1, a2, a3, a4, a5, a6, a7, a8, a9, a10⟩
        refine ⟨a1, a2, a3, a4, ?_, ?_, a7, fun _ => a8, fun f hf _ => a9.mono hf, fun e => (by cases e)⟩
        · intro p e
          have e' : s.start = some p := a5 p e
          exact ⟨e', Nat.le_trans (hpre.valid.startLen p e') (Nat.le_of_lt a10)⟩
        · intro p e
          have e' : s.last = some p := a6 p e
          rw [hl] at e'; cases e'
    · have : hasScript = false := by cases hasScript <;> simp_all
      subst this
      simp only [Bool.not_false, if_true]
      rw [eat_eq ht]
      refine Post.ofGo hpre.valid (Go.eat h hh ht) rfl (fun _ => ?_)
      rw [ht, tokSize_cons]
      show tokSize r < _
      omega

/-! ## Content -/

theorem contentBody_ok {C : ContentFn} {m : Nat} (hC : CSpec G env m C) (hE : G → EnvsOk env.spec) {b : Bool} {s : PState}
    (hpre : Pre G env (m + 1) b s) : Ok G (fun x => Post G env s x.1 x.2) (contentBody env C m b s) := by
  have h := hpre.inv
  have hh := hpre.hold
  have hv := hpre.valid
  unfold contentBody
  cases hp : s.peek with
  | none =>
    refine Post.ofGo hv (Go.refl h hh) rfl (fun hn => absurd (peek_none hp) hn)
  | some c =>
    obtain ⟨x, r, ht⟩ := peek_some hp
    have szr : tokSize r < m := by
      have := hpre.size
      rw [ht, tokSize_cons] at this; omega
    have szle : tokSize s.toks ≤ m := Nat.le_of_lt_succ hpre.size
    have goPost : ∀ (f : Bool) (s' : PState), Go G env s s' ∧ s'.parents = s.parents ∧ tokSize s'.toks < tokSize s.toks →
        Post G env s f s' := fun f s' a => Post.ofGo hv a.1 a.2.1 (fun _ => a.2.2)
    have eatIt : ∀ f : Bool, Ok G (fun x => Post G env s x.1 x.2) (withFlag f s.eat) := by
      intro f
      apply Ok.withFlag
      rw [eat_eq ht]
      refine goPost f _ ⟨Go.eat h hh ht, rfl, ?_⟩
      rw [ht, tokSize_cons]
      show tokSize r < _
      omega
    have errIt : ∀ f : Bool, Ok G (fun x => Post G env s x.1 x.2) (withFlag f (errorItem s)) := by
      intro f
      exact Ok.withFlag ((errorItem_ok h hh ht).mono fun s' a => goPost f s' a)
    have groupIt : ∀ (f : Bool) (scope : Scope) (e : Token) (kind : Kind), groupInfo scope = some (e, kind) →
        (∀ cs, Shape env (.node kind (leafOf (c, x) :: cs))) →
        Ok G (fun x => Post G env s x.1 x.2) (withFlag f (itemGroup C m scope s)) := by
      intro f scope e kind hg hs
      exact Ok.withFlag ((itemGroup_ok hC hg h hh ht szr szr hs).mono fun s' a => goPost f s' ⟨a.1, a.2.1, a.2.2.1⟩)
    have cmdIt : ∀ n : CommandName, c = .cmd n → n.isCommand = true →
        Ok G (fun x => Post G env s x.1 x.2) (command env C m s) := by
      intro n hc hi
      subst hc
      exact command_ok hC ht hi hpre rfl
    have textIt : isTextComponent c = true → Ok G (fun x => Post G env s x.1 x.2) (withFlag true (textItem s)) := by
      intro hc
      exact Ok.withFlag ((textItem_ok h hh ht hc).mono fun s' a => goPost true s' a)
    cases c with
    | ampersand => exact eatIt _
    | newLine => exact eatIt _
    | lineBreak => exact eatIt _
    | whitespace => exact eatIt _
    | lineComment => exact eatIt _
    | hash => exact eatIt _
    | asterisk => exact eatIt _
    | atSign => exact eatIt _
    | error => exact eatIt _
    | apostrophe => exact Ok.withFlag (attach_ok hC false hpre ht (fun e => (by cases e)))
    | underscore => exact Ok.withFlag (attach_ok hC true hpre ht (fun _ => Or.inl rfl))
    | caret => exact Ok.withFlag (attach_ok hC true hpre ht (fun _ => Or.inr rfl))
    | left bk =>
      cases bk with
      | curly => exact groupIt true .curlyItem _ _ rfl (fun cs => ⟨_, _, rfl, _, _, by simp [Token.kind], rfl⟩)
      | bracket => exact eatIt _
      | paren => exact eatIt _
    | right bk =>
      cases bk with
      | curly => exact errIt _
      | bracket => exact eatIt _
      | paren => exact eatIt _
    | macroArg n => exact errIt _
    | tilde => exact eatIt _
    | slash => exact eatIt _
    | ditto => exact eatIt _
    | semicolon => exact eatIt _
    | word =>
      cases b with
      | true => exact textIt rfl
      | false =>
        simp only [Bool.false_eq_true, if_false]
        obtain ⟨s', e, g, p, sz, _⟩ := singleChar_go h hh ht
        apply Ok.withFlag
        rw [e]
        exact goPost true s' ⟨g, p, sz⟩
    | comma => exact textIt rfl
    | dollar => exact groupIt false .dollarFormula _ _ rfl (fun cs => ⟨_, _, rfl, _, _, by simp [Token.kind], rfl⟩)
    | cmd name =>
      cases name with
      | generic => exact cmdIt _ rfl rfl
      | beginEnv => exact Ok.withFlag ((environment_ok hC hE h hh ht szr szr).mono fun s' a => goPost true s' a)
      | endEnv => exact errIt _
      | beginMath => exact groupIt false .cmdFormula _ _ rfl (fun cs => ⟨_, _, rfl, _, _, by simp [Token.kind], rfl⟩)
      | endMath => exact errIt _
      | errorBeginEnv => exact eatIt _
      | errorEndEnv => exact eatIt _
      | cif i =>
        cases i with
        | ifFalse => exact Ok.withFlag ((ifBlock_ok (Or.inl rfl) h hh ht (Or.inl rfl)).mono fun s' a => goPost true s' a)
        | ifTypst => exact Ok.withFlag ((ifBlock_ok (Or.inr rfl) h hh ht (Or.inr rfl)).mono fun s' a => goPost true s' a)
        | _ => exact cmdIt _ rfl rfl
      | celse => exact cmdIt _ rfl rfl
      | endIf => exact cmdIt _ rfl rfl
      | left => exact Ok.withFlag ((itemLR_ok hC h hh ht szle szle).mono fun s' a => goPost true s' a)
      | right => exact cmdIt _ rfl rfl

theorem content_spec (hE : G → EnvsOk env.spec) : ∀ n, CSpec G env n (content env n) := by
  intro n
  induction n with
  | zero => intro b s h; exact absurd h.size (by omega)
  | succ n ih => intro b s h; exact contentBody_ok ih hE h

/-! ## Parse -/

/-- The tree of a token list is a root over well-shaped elements accounting for all tokens. -/
theorem parseToks_ok {toks : List Tok} (ht : TokOk G env.spec toks) (hE : G → EnvsOk env.spec) :
    Ok G (fun e => ∃ cs, e = .node .scopeRoot cs ∧ (∀ c ∈ cs, c.Forall (Shape env)) ∧
        Reads toks [] (Elem.leaves.go cs) ∧
        (AllClosed cs ∨ ∃ pre e, cs = pre ++ [e] ∧ AllClosed pre ∧ OpenAtEnd e))
      (parseToks env toks) := by
  unfold parseToks
  simp only
  have hi : Inv G env ((PState.init toks).startNode .scopeRoot) :=
    ⟨ht, fun _ h => (by cases h), fun _ h => (by cases h), Or.inl (fun _ h => (by cases h))⟩
  refine Ok.bind (itemList_ok (content_spec hE _) .root hi rfl (Nat.le_refl _) (Nat.lt_succ_self _) (Nat.lt_succ_self _)) ?_
  rintro s ⟨g, p, stop⟩
  have hp : s.parents = [(.scopeRoot, 0)] := p
  rw [finish_eq hp, ok_bind]
  have hnil : s.toks = [] := by
    rcases stop with h | ⟨k, _, h⟩
    · exact h
    · cases h
  refine ⟨s.children, ?_, g.inv.shape, ?_, ?_⟩
  · rfl
  · obtain ⟨lv, a, b⟩ := g.read
    have : Elem.leaves.go s.children = lv := by
      rw [a]; rfl
    rw [this]
    rw [g.hold, hnil] at b
    exact b
  · rcases g.inv.sealed with h | ⟨_, _, pre, e, a, b, c⟩
    · exact Or.inl h
    · exact Or.inr ⟨pre, e, a, b, c⟩

end Mitex
