/-
A second invariant of the parser: environment names stay inside of begin and end clauses, and the clauses of `\left` and
`\right` start with a command name with its backslash.
-/
import Verif.Proof.ConvParts
import Verif.Proof.ParserBase

namespace Mitex

/-- An environment name outside of a clause. -/
def Stray (e : Elem) : Prop := ∃ t, e = .token .tokenCommandSym t

/-- The kinds of nodes that may have a leaf of kind `tokenCommandSym`. -/
def Kind.ownsSym : Kind → Bool
  | .itemBegin | .itemEnd | .clauseLR | .tokenError | .itemTypstCode | .itemBlockComment => true
  | _ => false

/-- The condition on one element. -/
def Local : Elem → Prop
  | .token .. => True
  | .node k cs => (k.ownsSym = false → ∀ c ∈ cs, ¬ Stray c) ∧
      (k = .clauseLR → ∃ name args, cs = .token .clauseCommandName ('\\' :: name) :: args)

def Neat (e : Elem) : Prop := ¬ Stray e ∧ e.Forall Local

/-- `\left` and `\right` tokens have their backslash. -/
def HeadOk (t : Tok) : Prop := t.1 = .cmd .left ∨ t.1 = .cmd .right → t.2.head? = some '\\'

theorem Neat.token {k : Kind} (h : k ≠ .tokenCommandSym) (t : Text) : Neat (.token k t) := by
  refine ⟨?_, (Forall_token _ _ _).2 trivial⟩
  rintro ⟨u, hu⟩
  cases hu
  exact h rfl

theorem Neat.node {k : Kind} {cs : List Elem} (h : Local (.node k cs)) (hc : ∀ c ∈ cs, c.Forall Local) : Neat (.node k cs) := by
  refine ⟨?_, (Forall_node _ _ _).2 ⟨h, hc⟩⟩
  rintro ⟨u, hu⟩
  cases hu

/-- The token is not an environment name. -/
def NotSym (k : Token) : Prop := k.kind ≠ .tokenCommandSym

theorem NotSym.trivia {k : Token} (h : k.isTrivia = true) : NotSym k := by
  intro hk
  have := (show k.kind = .tokenCommandSym → k.isTrivia = false by
    cases k with
    | left b => cases b <;> intro h <;> cases h
    | right b => cases b <;> intro h <;> cases h
    | cmd c => intro _; rfl
    | _ => intro h; cases h) hk
  rw [this] at h
  cases h

/-- The elements from index `f` on are neat. -/
structure N (f : Nat) (s : PState) : Prop where
  len : f ≤ s.children.length
  start : ∀ p, s.start = some p → f ≤ p
  last : ∀ p, s.last = some p → f ≤ p
  neat : ∀ e ∈ s.children.drop f, Neat e
  toks : ∀ t ∈ s.toks, HeadOk t
  hold : ∀ t ∈ s.hold, t.1.isTrivia = true

/-- The effect of a parsing function. -/
structure Eff (f : Nat) (s s' : PState) : Prop where
  n : N f s'
  parents : s'.parents = s.parents
  keep : s'.children.take f = s.children.take f

theorem Eff.refl {f : Nat} {s : PState} (h : N f s) : Eff f s s := ⟨h, rfl, rfl⟩

theorem Eff.trans {f : Nat} {s s' s'' : PState} (h : Eff f s s') (h' : Eff f s' s'') : Eff f s s'' :=
  ⟨h'.n, h'.parents.trans h.parents, h'.keep.trans h.keep⟩

/-- Appending neat elements and dropping tokens. -/
theorem N.app {f : Nat} {s : PState} (h : N f s) {new : List Elem} {ts : List Tok} (hn : ∀ e ∈ new, Neat e) (ht : ∀ t ∈ ts, HeadOk t) :
    Eff f s { s with toks := ts, children := s.children ++ new } := by
  have hl := h.len
  refine ⟨⟨?_, h.start, h.last, ?_, ht, h.hold⟩, rfl, ?_⟩
  · show f ≤ (s.children ++ new).length
    rw [List.length_append]; omega
  · intro e he
    rw [List.drop_append_of_le_length hl] at he
    rcases List.mem_append.1 he with he | he
    · exact h.neat e he
    · exact hn e he
  · exact List.take_append_of_le_length hl

theorem N.eat {f : Nat} {s : PState} (h : N f s) (hk : ∀ k, s.peek = some k → NotSym k) : IfOk (Eff f s) s.eat := by
  unfold PState.eat
  split
  · exact IfOk.error
  · rename_i k t r hts
    refine IfOk.ok (h.app ?_ ?_)
    · intro e he
      rw [List.mem_singleton.1 he]
      exact Neat.token (hk k (by unfold PState.peek; rw [hts]; rfl)) _
    · intro x hx
      exact h.toks x (by rw [hts]; exact List.mem_cons_of_mem _ hx)

theorem N.congr {f : Nat} {s s' : PState} (h : N f s) (ht : s'.toks = s.toks) (hc : s'.children = s.children) (hh : s'.hold = s.hold)
    (hs : ∀ p, s'.start = some p → f ≤ p) (hl : ∀ p, s'.last = some p → f ≤ p) : N f s' :=
  ⟨by rw [hc]; exact h.len, hs, hl, by rw [hc]; exact h.neat, by rw [ht]; exact h.toks, by rw [hh]; exact h.hold⟩

/-- Closing a node: the general form. -/
theorem N.finishWith {f k p ps} {s : PState} (h : N f s) (hp : s.parents = (k, p) :: ps) (hfp : f ≤ p)
    (hl : Local (.node k (s.children.drop p))) :
    IfOk (fun s' => N f s' ∧ s'.parents = ps ∧ s'.children.take f = s.children.take f) s.finishNode := by
  unfold PState.finishNode
  rw [hp]
  refine IfOk.ok ⟨⟨?_, h.start, h.last, ?_, h.toks, h.hold⟩, rfl, ?_⟩
  · show f ≤ (s.children.take p ++ _).length
    rw [List.length_append, List.length_take]
    have := h.len
    omega
  · intro e he
    have hlen : f ≤ (s.children.take p).length := by rw [List.length_take]; have := h.len; omega
    rw [List.drop_append_of_le_length hlen] at he
    rcases List.mem_append.1 he with he | he
    · apply h.neat
      rw [List.drop_take] at he
      exact List.mem_of_mem_take he
    · rw [List.mem_singleton.1 he]
      refine Neat.node hl ?_
      intro c hc
      apply (h.neat c _).2
      have : s.children.drop p = (s.children.drop f).drop (p - f) := by rw [List.drop_drop]; congr 1; omega
      rw [this] at hc
      exact List.mem_of_mem_drop hc
  · show (s.children.take p ++ _).take f = _
    have hlen : f ≤ (s.children.take p).length := by rw [List.length_take]; have := h.len; omega
    rw [List.take_append_of_le_length hlen, List.take_take, Nat.min_eq_left hfp]

/-- Closing a node that has only neat children. -/
theorem N.finish {f k p ps} {s : PState} (h : N f s) (hp : s.parents = (k, p) :: ps) (hfp : f ≤ p) (hk : k ≠ .clauseLR) :
    IfOk (fun s' => N f s' ∧ s'.parents = ps ∧ s'.children.take f = s.children.take f) s.finishNode := by
  refine h.finishWith hp hfp ⟨fun _ c hc => ?_, fun hc => absurd hc hk⟩
  apply (h.neat c _).1
  have : s.children.drop p = (s.children.drop f).drop (p - f) := by rw [List.drop_drop]; congr 1; omega
  rw [this] at hc
  exact List.mem_of_mem_drop hc

/-- What `N` says without positions. -/
structure N0 (f : Nat) (s : PState) : Prop where
  len : f ≤ s.children.length
  neat : ∀ e ∈ s.children.drop f, Neat e
  toks : ∀ t ∈ s.toks, HeadOk t
  hold : ∀ t ∈ s.hold, t.1.isTrivia = true

/-- Closing a clause that starts with a leaf (`first`) at the height of `s0`: the leaf may be an environment name. -/
theorem N.finishClause {f k ps} {s0 s : PState} {first : Elem} (h0 : N f s0) (h : N0 (s0.children.length + 1) s)
    (hk : s.children.take (s0.children.length + 1) = s0.children ++ [first]) (hfl : first.Forall Local)
    (hp : s.parents = (k, s0.children.length) :: ps) (ho : k.ownsSym = true)
    (hlr : k = .clauseLR → ∃ name, first = .token .clauseCommandName ('\\' :: name))
    (hs : ∀ p, s.start = some p → f ≤ p) (hl : ∀ p, s.last = some p → f ≤ p) :
    IfOk (fun s' => N f s' ∧ s'.parents = ps ∧ s'.children.take f = s0.children.take f) s.finishNode := by
  have hsplit := List.take_append_drop (s0.children.length + 1) s.children
  rw [hk] at hsplit
  have htake : s.children.take s0.children.length = s0.children := by
    rw [← hsplit]; simp
  have hdrop : s.children.drop s0.children.length = first :: s.children.drop (s0.children.length + 1) := by
    conv => lhs; rw [← hsplit]
    simp
  have hfl0 := h0.len
  unfold PState.finishNode
  rw [hp]
  refine IfOk.ok ⟨⟨?_, hs, hl, ?_, h.toks, h.hold⟩, rfl, ?_⟩
  · show f ≤ (s.children.take _ ++ _).length
    rw [htake, List.length_append]
    omega
  · intro e he
    dsimp only at he
    rw [htake, List.drop_append_of_le_length hfl0] at he
    rcases List.mem_append.1 he with he | he
    · exact h0.neat e he
    · rw [List.mem_singleton.1 he, hdrop]
      refine Neat.node (And.intro (fun hn => (by rw [ho] at hn; cases hn)) (fun hc => ?_)) ?_
      · obtain ⟨name, rfl⟩ := hlr hc
        exact ⟨name, _, rfl⟩
      · intro c hc
        rcases List.mem_cons.1 hc with rfl | hc
        · exact hfl
        · exact (h.neat c hc).2
  · show (s.children.take _ ++ _).take f = _
    rw [htake, List.take_append_of_le_length hfl0]

/-- Opening a node at the end. -/
theorem N.startNode {f : Nat} {s : PState} (h : N f s) (k : Kind) : N f (s.startNode k) := h.congr rfl rfl rfl h.start h.last

/-- An item parser. -/
def NeatC (C : ContentFn) : Prop := ∀ b f s, N f s → IfOk (fun r => Eff f s r.2) (C b s)

section

variable {C : ContentFn}

theorem NeatC.loop (hC : NeatC C) (n cur f : Nat) (s : PState) (h : N f s) (hcur : f ≤ cur) :
    IfOk (Eff f s) (itemListLoop C n cur s) := by
  induction n generalizing cur s with
  | zero => exact IfOk.error
  | succ n ih =>
    rw [itemListLoop]
    split
    · exact IfOk.ok (.refl h)
    · refine IfOk.ite (fun _ => IfOk.ok (.refl h)) fun _ => ?_
      refine (hC true f s h).bind fun r hr => ?_
      obtain ⟨a, s1⟩ := r
      have h2 : Eff f s (if a then { s1 with last := some cur } else s1) := by
        split
        · refine ⟨hr.n.congr rfl rfl rfl hr.n.start ?_, hr.parents, hr.keep⟩
          intro p hp; cases hp; exact hcur
        · exact hr
      exact (ih _ _ h2.n h2.n.len).mono fun s2 h3 => h2.trans h3

theorem NeatC.list (hC : NeatC C) (n f : Nat) (scope : Scope) (s : PState) (h : N f s) : IfOk (Eff f s) (itemList C n scope s) := by
  unfold itemList
  refine (hC.loop n _ f _ ?_ h.len).bind fun s1 h1 => IfOk.ok ?_
  · refine h.congr rfl rfl rfl ?_ fun p hp => (by cases hp)
    intro p hp; cases hp; exact h.len
  · exact ⟨h1.n.congr rfl rfl rfl h.start h.last, h1.parents, h1.keep⟩

theorem peekTok_cons {s : PState} {k : Token} (h : s.peek = some k) : ∃ t r, s.toks = (k, t) :: r := by
  unfold PState.peek at h
  cases hts : s.toks with
  | nil => rw [hts] at h; cases h
  | cons x r =>
    rw [hts] at h
    obtain ⟨k', t⟩ := x
    cases h
    exact ⟨t, r, rfl⟩

theorem groupInfo_spec {scope : Scope} {e : Token} {k : Kind} (h : groupInfo scope = some (e, k)) : NotSym e ∧ k ≠ .clauseLR := by
  unfold groupInfo at h
  split at h <;> cases h <;> exact ⟨fun h => (by cases h), by decide⟩

theorem N.eatIf {f : Nat} {s : PState} (h : N f s) {k : Token} (hk : NotSym k) : IfOk (Eff f s) (s.eatIf k) := by
  unfold PState.eatIf
  refine IfOk.ite (fun hp => h.eat fun k' hk' => ?_) fun _ => IfOk.ok (.refl h)
  rw [hp] at hk'; cases hk'; exact hk

theorem NeatC.group (hC : NeatC C) (n f : Nat) (scope : Scope) (s : PState) (h : N f s) (hp : ∀ k, s.peek = some k → NotSym k) :
    IfOk (Eff f s) (itemGroup C n scope s) := by
  unfold itemGroup
  split
  · exact IfOk.error
  · rename_i e kind hg
    obtain ⟨he, hk⟩ := groupInfo_spec hg
    refine ((h.startNode kind).eat hp).bind fun s1 h1 => ?_
    refine (hC.list n f scope s1 h1.n).bind fun s2 h2 => ?_
    refine (h2.n.eatIf he).bind fun s3 h3 => ?_
    have h123 := (h1.trans h2).trans h3
    refine (h3.n.finish h123.parents h.len hk).mono fun s4 h4 => ?_
    exact ⟨h4.1, h4.2.1, h4.2.2.trans h123.keep⟩

theorem N.eatWhile {f : Nat} {s : PState} (h : N f s) {p : Token → Bool} (hp : ∀ k, p k = true → NotSym k) : Eff f s (s.eatWhile p) := by
  refine h.app ?_ ?_
  · intro e he
    obtain ⟨t, ht, rfl⟩ := List.mem_map.1 he
    exact Neat.token (hp _ ((List.all_eq_true.1 List.all_takeWhile) t ht)) _
  · intro t ht
    exact h.toks t ((List.dropWhile_sublist _).subset ht)

theorem N.textItem {f : Nat} {s : PState} (h : N f s) (hp : ∀ k, s.peek = some k → NotSym k) : IfOk (Eff f s) (textItem s) := by
  unfold Mitex.textItem
  refine ((h.startNode .itemText).eat hp).bind fun s1 h1 => ?_
  have h2 : Eff f s1 (s1.eatWhile isTextComponent) := h1.n.eatWhile fun k hk => by
    unfold isTextComponent at hk
    split at hk
    all_goals first | (intro h; cases h; done) | cases hk
  have h12 := h1.trans h2
  refine (h2.n.finish h12.parents h.len (by decide)).mono fun s4 h4 => ?_
  exact ⟨h4.1, h4.2.1, h4.2.2.trans h12.keep⟩

theorem N.consumeBytes {f : Nat} {s : PState} (h : N f s) (cnt : Nat) (hw : ∀ k, s.peek = some k → k = .word) :
    IfOk (Eff f s) (s.consumeBytes cnt) := by
  unfold PState.consumeBytes
  split
  · exact IfOk.ok (.refl h)
  · rename_i k t r hts
    have hk : k = .word := hw k (by unfold PState.peek; rw [hts]; rfl)
    have htl : ∀ x ∈ r, HeadOk x := fun x hx => h.toks x (by rw [hts]; exact List.mem_cons_of_mem _ hx)
    refine IfOk.ite (fun _ => IfOk.ok ?_) fun _ => ?_
    · exact ⟨⟨h.len, h.start, h.last, h.neat, htl, h.hold⟩, rfl, rfl⟩
    · split
      · exact IfOk.error
      · refine IfOk.ok ⟨⟨h.len, h.start, h.last, h.neat, ?_, h.hold⟩, rfl, rfl⟩
        intro x hx
        rcases List.mem_cons.1 hx with rfl | hx
        · rw [hk]; rintro (h | h) <;> cases h
        · exact htl x hx

theorem N.token {f : Nat} {s : PState} (h : N f s) {k : Kind} (hk : k ≠ .tokenCommandSym) (t : Text) : Eff f s (s.token k t) :=
  h.app (fun e he => by rw [List.mem_singleton.1 he]; exact Neat.token hk _) h.toks

theorem N.singleChar {f : Nat} {s : PState} (h : N f s) (hw : ∀ k, s.peek = some k → k = .word) : IfOk (Eff f s) s.singleChar := by
  unfold PState.singleChar
  split
  · exact IfOk.ok (.refl h)
  · exact IfOk.ok (.refl h)
  · have h1 := h.token (k := .tokenWord) (by decide) [‹Char›]
    exact (h1.n.consumeBytes _ hw).mono fun s2 h2 => h1.trans h2

/-- Opening nodes at an earlier position. -/
theorem N.startCommandAt {f : Nat} {s : PState} (h : N f s) (pos : Option Nat) (hpos : ∀ p, pos = some p → f ≤ p) :
    IfOk (fun s' => N f s' ∧ (∃ p, f ≤ p ∧ s'.parents = (.itemCmd, p) :: s.parents) ∧ s'.children.take f = s.children.take f ∧
      s'.toks = s.toks ∧ s'.start = s.start) (startCommandAt pos s) := by
  unfold Mitex.startCommandAt
  cases pos with
  | none => exact IfOk.ok ⟨h.startNode _, ⟨_, h.len, rfl⟩, rfl, rfl, rfl⟩
  | some p =>
    dsimp only
    unfold PState.startNodeAt
    by_cases hc : p ≤ s.children.length ∧ s.top ≤ p
    · rw [if_pos hc, ok_bind]
      by_cases hc2 : p ≤ ({ s with parents := (Kind.itemCmd, p) :: s.parents } : PState).children.length ∧
          ({ s with parents := (Kind.itemCmd, p) :: s.parents } : PState).top ≤ p
      · rw [if_pos hc2, ok_bind]
        have h2 : N f { s with parents := (.clauseArgument, p) :: (.itemCmd, p) :: s.parents } := h.congr rfl rfl rfl h.start h.last
        have hfin := h2.finish rfl (hpos p rfl) (by decide)
        intro s' hs'
        have h3 := hfin s' hs'
        refine ⟨h3.1, ⟨p, hpos p rfl, h3.2.1⟩, h3.2.2, ?_, ?_⟩
        · unfold PState.finishNode at hs'
          cases hs'; rfl
        · unfold PState.finishNode at hs'
          cases hs'; rfl
      · rw [if_neg hc2]; exact IfOk.error
    · rw [if_neg hc]; exact IfOk.error

theorem N.argOpen {f : Nat} {s : PState} (h : N f s) (greedy : Bool) : N f (argOpen greedy s) ∧ (argOpen greedy s).toks = s.toks ∧
    (argOpen greedy s).children = s.children ∧
    (argOpen greedy s).parents = if greedy then s.parents else (.clauseArgument, s.children.length) :: s.parents := by
  unfold Mitex.argOpen
  cases greedy with
  | true => exact ⟨h, rfl, rfl, rfl⟩
  | false =>
    refine ⟨⟨h.len, h.start, h.last, h.neat, h.toks, ?_⟩, rfl, rfl, rfl⟩
    intro t ht; cases ht

theorem Eff.argClose {f : Nat} {s s' : PState} (greedy : Bool) (h0 : N f s) (h : Eff f (argOpen greedy s) s') :
    IfOk (Eff f s) (argClose greedy s') := by
  obtain ⟨ho, ht, hc, hp⟩ := h0.argOpen greedy
  unfold Mitex.argClose
  cases greedy with
  | true => exact IfOk.ok h
  | false =>
    refine (h.n.finish (h.parents.trans hp) h0.len (by decide)).mono fun s4 h4 => ?_
    exact ⟨h4.1, h4.2.1, h4.2.2.trans (h.keep.trans (by rw [hc]))⟩

theorem N.robChars {f : Nat} (g : GlobFn) (cs : Text) (m : ArgMatcher) (cnt : Nat) (s : PState) (h : N f s) :
    IfOk (fun r => Eff f s r.2.2.2 ∧ r.2.2.2.toks = s.toks) (robChars g cs m cnt s) := by
  induction cs generalizing m cnt s with
  | nil => exact IfOk.ok ⟨.refl h, rfl⟩
  | cons c cs ih =>
    rw [Mitex.robChars]
    dsimp only
    refine IfOk.ite (fun _ => IfOk.ok ⟨.refl h, rfl⟩) fun _ => ?_
    have h1 := (h.argOpen false).1.token (k := .tokenWord) (by decide) [c]
    refine (IfOk.and (Eff.argClose false h h1) (IfOk.self _)).bind fun s2 h2 => ?_
    refine (ih _ _ s2 h2.1.n).mono fun r hr => ⟨h2.1.trans hr.1, hr.2.trans ?_⟩
    have := h2.2
    unfold Mitex.argClose PState.finishNode at this
    simp only [Bool.false_eq_true, if_false] at this
    split at this
    · cases this
    · cases this; rfl

theorem N.consumeIf {f : Nat} {s : PState} (h : N f s) (cnt : Nat) (hw : ∀ k, s.peek = some k → k = .word) :
    IfOk (Eff f s) (consumeIf cnt s) := by
  unfold Mitex.consumeIf
  exact IfOk.ite (fun _ => h.consumeBytes cnt hw) fun _ => IfOk.ok (.refl h)

theorem NeatC.matchLoop (hC : NeatC C) (g : GlobFn) (lim : Nat) (greedy : Bool) (n : Nat) (m : ArgMatcher) (f : Nat) (s : PState)
    (h : N f s) : IfOk (Eff f s) (matchLoop g C lim greedy n m s) := by
  induction n generalizing m s with
  | zero => exact IfOk.error
  | succ n ih =>
    rw [Mitex.matchLoop]
    split
    · exact IfOk.ok (.refl h)
    · rename_i k text r hts
      have hpk : s.peek = some k := by unfold PState.peek; rw [hts]; rfl
      refine IfOk.ite (fun htr => ?_) fun _ => ?_
      · have hns := NotSym.trivia htr
        have next : ∀ r, IfOk (Eff f s) r → IfOk (Eff f s) (r >>= fun s => Mitex.matchLoop g C lim greedy n m s) :=
          fun r hr => hr.bind fun s1 h1 => (ih _ s1 h1.n).mono fun s2 h2 => h1.trans h2
        dsimp only
        refine IfOk.ite (fun _ => next _ (h.eat fun k' hk' => by rw [hpk] at hk'; cases hk'; exact hns)) fun _ => next _ ?_
        unfold PState.holdTrivia
        rw [hts]
        refine IfOk.ok ⟨⟨h.len, h.start, h.last, h.neat, ?_, ?_⟩, rfl, rfl⟩
        · intro t ht; exact h.toks t (by rw [hts]; exact List.mem_cons_of_mem _ ht)
        · intro t ht
          rcases List.mem_append.1 ht with ht | ht
          · exact h.hold t ht
          · rw [List.mem_singleton.1 ht]; exact htr
      refine IfOk.ite (fun _ => IfOk.ok (.refl h)) fun _ => ?_
      refine IfOk.ite (fun _ => IfOk.ok (.refl h)) fun _ => ?_
      refine IfOk.ite (fun _ => IfOk.ok (.refl h)) fun _ => ?_
      refine IfOk.ite (fun hw => ?_) fun _ => ?_
      · refine (N.robChars g text m 0 s h).bind fun q hq => ?_
        obtain ⟨stopped, m', cnt, s1⟩ := q
        refine (hq.1.n.consumeIf cnt ?_).bind fun s2 h2 => ?_
        · intro k' hk'
          unfold PState.peek at hk'
          rw [hq.2, hts] at hk'
          cases hk'; exact hw.1
        · refine IfOk.ite (fun _ => IfOk.ok (hq.1.trans h2)) fun _ => ?_
          exact (ih _ s2 h2.n).mono fun s3 h3 => (hq.1.trans h2).trans h3
      have close : ∀ (m : ArgMatcher) (cur : Nat) (b : Bool) (s1 : PState), f ≤ cur → Eff f (argOpen greedy s) s1 → IfOk (Eff f s) (do
          let s ← argClose greedy s1
          Mitex.matchLoop g C lim greedy n m (if b then { s with last := some cur } else s)) := by
        intro m cur b s1 hcur h1
        refine (Eff.argClose greedy h h1).bind fun s2 h2 => ?_
        have h3 : Eff f s (if b then { s2 with last := some cur } else s2) := by
          split
          · refine ⟨h2.n.congr rfl rfl rfl h2.n.start ?_, h2.parents, h2.keep⟩
            intro p hp; cases hp; exact hcur
          · exact h2
        exact (ih _ _ h3.n).mono fun s4 h4 => h3.trans h4
      have ho := (h.argOpen greedy)
      have hpo : (argOpen greedy s).peek = some k := by unfold PState.peek; rw [ho.2.1, hts]; rfl
      have hleft : ∀ bk, NotSym (.left bk) := by intro bk; cases bk <;> intro h <;> cases h
      split
      · split
        · exact IfOk.ok (.refl h)
        · have hp : ∀ k, (argOpen greedy s).peek = some k → NotSym k := by
            intro k' hk'; rw [hpo] at hk'; cases hk'; exact hleft _
          dsimp only
          refine IfOk.ite (fun _ => ?_) fun _ => ?_
          · exact (ho.1.eat hp).bind fun s1 h1 => close _ _ greedy s1 h.len h1
          · exact (hC.group lim f _ _ ho.1 hp).bind fun s1 h1 => close _ _ greedy s1 h.len h1
      · refine IfOk.ite (fun _ => IfOk.ok (.refl h)) fun _ => ?_
        dsimp only
        refine IfOk.ite (fun _ => IfOk.ok (.refl h)) fun _ => ?_
        refine (hC true f _ ho.1).bind fun q hq => ?_
        obtain ⟨att, s1⟩ := q
        have := close (m.tryMatch g .term).2 s.checkpoint (decide (greedy = true ∧ att = true)) s1 h.len hq
        simp only [decide_eq_true_eq] at this
        exact this

theorem NeatC.matchArguments (hC : NeatC C) (g : GlobFn) (n : Nat) (greedy : Bool) (m : ArgMatcher) (f f0 : Nat) (s : PState)
    (h : N0 f s) (hstart : ∀ p, s.start = some p → f0 ≤ p) :
    IfOk (fun s' => N0 f s' ∧ s'.last = none ∧ (∀ p, s'.start = some p → f0 ≤ p) ∧ s'.parents = s.parents ∧
      s'.children.take f = s.children.take f) (Mitex.matchArguments g C n greedy m s) := by
  unfold Mitex.matchArguments
  refine IfOk.ite (fun _ => IfOk.error) fun _ => ?_
  have h1 : N f { s with last := none, start := if greedy then some s.checkpoint else none } := by
    refine ⟨h.len, ?_, fun p hp => (by cases hp), h.neat, h.toks, h.hold⟩
    intro p hp
    dsimp only at hp
    split at hp
    · cases hp; exact h.len
    · cases hp
  refine (hC.matchLoop g n greedy n m f _ h1).bind fun s2 h2 => IfOk.ok ?_
  exact ⟨⟨h2.n.len, h2.n.neat, h2.n.toks, h2.n.hold⟩, rfl, hstart, h2.parents, h2.keep⟩

theorem NeatC.matchArguments' (hC : NeatC C) (g : GlobFn) (n : Nat) (greedy : Bool) (m : ArgMatcher) (f : Nat) (s : PState)
    (h : N f s) : IfOk (Eff f s) (Mitex.matchArguments g C n greedy m s) := by
  refine (hC.matchArguments g n greedy m f f s ⟨h.len, h.neat, h.toks, h.hold⟩ h.start).mono fun s' hs' => ?_
  obtain ⟨h1, h2, h3, h4, h5⟩ := hs'
  exact ⟨⟨h1.len, h3, fun p hp => (by rw [h2] at hp; cases hp), h1.neat, h1.toks, h1.hold⟩, h4, h5⟩

theorem N.extractHold {f : Nat} {s : PState} (h : N f s) : Eff f s s.extractHold := by
  have := h.app (new := s.hold.map leafOf) (ts := s.toks) (by
    intro e he
    obtain ⟨t, ht, rfl⟩ := List.mem_map.1 he
    exact Neat.token (NotSym.trivia (h.hold t ht)) _) h.toks
  refine ⟨⟨this.n.len, this.n.start, this.n.last, this.n.neat, this.n.toks, ?_⟩, this.parents, this.keep⟩
  intro t ht; cases ht

theorem NeatC.commandTail (hC : NeatC C) (g : GlobFn) (n : Nat) (m : ArgMatcher) (f : Nat) (s : PState) (h : N f s) {p : Nat}
    {ps : List (Kind × Nat)} (hfp : f ≤ p) (hp : s.parents = (.itemCmd, p) :: ps) (hpk : ∀ k, s.peek = some k → NotSym k) :
    IfOk (fun r => N f r.2 ∧ r.2.parents = ps ∧ r.2.children.take f = s.children.take f) (commandTail g C n m s) := by
  unfold Mitex.commandTail
  refine (h.eat hpk).bind fun s1 h1 => ?_
  have rest : ∀ s2 : PState, Eff f s1 s2 → IfOk (fun r : Bool × PState => N f r.2 ∧ r.2.parents = ps ∧ r.2.children.take f = s.children.take f)
      (do let s ← s2.finishNode; .ok (!m.isGreedy, s.extractHold)) := by
    intro s2 h2
    refine (h2.n.finish ((h2.parents.trans h1.parents).trans hp) hfp (by decide)).bind fun s3 h3 => IfOk.ok ?_
    have h4 := h3.1.extractHold
    exact ⟨h4.n, h4.parents.trans h3.2.1, h4.keep.trans (h3.2.2.trans (h2.keep.trans h1.keep))⟩
  dsimp only
  refine IfOk.ite (fun _ => ?_) fun _ => ?_
  · refine (hC.matchArguments' g n true m f _ (h1.n.startNode .clauseArgument)).bind fun s2 h2 => ?_
    refine (h2.n.finish h2.parents h1.n.len (by decide)).bind fun s4 h4 => ?_
    exact rest s4 ⟨h4.1, h4.2.1, h4.2.2.trans h2.keep⟩
  · exact (hC.matchArguments' g n false m f s1 h1.n).bind fun s2 h2 => rest s2 h2

theorem NeatC.command (hC : NeatC C) (env : PEnv) (n f : Nat) (s : PState) (h : N f s) (hpk : ∀ k, s.peek = some k → NotSym k) :
    IfOk (fun r => Eff f s r.2) (command env C n s) := by
  unfold Mitex.command
  split
  · exact IfOk.error
  · refine (IfOk.any _).bind fun name _ => ?_
    have plain : IfOk (fun r => Eff f s r.2) (do
        let s ← (s.startNode .itemCmd).eat
        let s ← s.finishNode
        (.ok (true, s) : Res (Bool × PState))) := by
      refine ((h.startNode .itemCmd).eat hpk).bind fun s1 h1 => ?_
      refine (h1.n.finish h1.parents h.len (by decide)).bind fun s4 h4 => IfOk.ok ?_
      exact ⟨h4.1, h4.2.1, h4.2.2.trans h1.keep⟩
    split
    · exact plain
    · exact plain
    · exact plain
    · refine (h.startCommandAt _ ?_).bind fun s1 h1 => ?_
      · intro p hp
        cases hl : s.last with
        | none => rw [hl] at hp; exact h.start p hp
        | some q => rw [hl] at hp; cases hp; exact h.last _ hl
      · obtain ⟨h1, ⟨p, hfp, hp⟩, hk, ht, _⟩ := h1
        refine (h1.eat ?_).bind fun s2 h2 => ?_
        · intro k hk'; apply hpk k; unfold PState.peek at hk' ⊢; rw [← ht]; exact hk'
        · refine (h2.n.finish (h2.parents.trans hp) hfp (by decide)).bind fun s4 h4 => IfOk.ok ?_
          exact ⟨h4.1, h4.2.1, h4.2.2.trans (h2.keep.trans hk)⟩
    · refine (hC.commandTail env.glob n _ f _ (h.startNode .itemCmd) h.len rfl hpk).mono fun r hr => ?_
      exact ⟨hr.1, hr.2.1, hr.2.2⟩
    · have h0 : N f { s with start := none } := h.congr rfl rfl rfl (fun p hp => (by cases hp)) h.last
      refine (h0.startCommandAt s.start h.start).bind fun s1 h1 => ?_
      obtain ⟨h1, ⟨p, hfp, hp⟩, hk, ht, _⟩ := h1
      refine (hC.commandTail env.glob n _ f s1 h1 hfp hp ?_).mono fun r hr => ?_
      · intro k hk'; apply hpk k; unfold PState.peek at hk' ⊢; rw [ht] at hk'; exact hk'
      · exact ⟨hr.1, hr.2.1, hr.2.2.trans hk⟩

/-- Opening a clause and reading its first token. -/
theorem N.openClause {f : Nat} {s : PState} (h : N f s) (k : Kind) {t : Tok} {r : List Tok} (hts : s.toks = t :: r) :
    (s.startNode k).eat = .ok ((s.startNode k).ate t r) ∧ N0 (s.children.length + 1) ((s.startNode k).ate t r) ∧
    ((s.startNode k).ate t r).children.take (s.children.length + 1) = s.children ++ [leafOf t] := by
  refine ⟨eat_eq hts, ⟨?_, ?_, ?_, h.hold⟩, ?_⟩
  · show _ ≤ (s.children ++ [leafOf t]).length
    simp
  · intro e he
    have : ((s.startNode k).ate t r).children.drop (s.children.length + 1) = [] := by
      show (s.children ++ [leafOf t]).drop _ = _
      exact List.drop_eq_nil_of_le (by simp)
    rw [this] at he; cases he
  · intro x hx; exact h.toks x (by rw [hts]; exact List.mem_cons_of_mem _ hx)
  · show (s.children ++ [leafOf t]).take _ = _
    exact List.take_of_length_le (by simp)

theorem NeatC.environment (hC : NeatC C) (env : PEnv) (n f : Nat) (s : PState) (h : N f s) :
    IfOk (Eff f s) (environment env C n s) := by
  unfold Mitex.environment
  split
  · exact IfOk.error
  · rename_i k name r hts
    have he : N f (s.startNode .itemEnv) := h.startNode _
    obtain ⟨o1, o2, o3⟩ := he.openClause .itemBegin (t := (k, name)) (r := r) hts
    rw [o1, ok_bind]
    have rest : ∀ s2 : PState, N0 (s.children.length + 1) s2 → (∀ p, s2.start = some p → f ≤ p) → (∀ p, s2.last = some p → f ≤ p) →
        s2.parents = (.itemBegin, s.children.length) :: (.itemEnv, s.children.length) :: s.parents →
        s2.children.take (s.children.length + 1) = s.children ++ [leafOf (k, name)] →
        IfOk (Eff f s) (do
          let s ← s2.finishNode
          let s ← itemList C n .environment s.extractHold
          let s ← if s.peek = some (.cmd .endEnv) then do
              let s ← (s.startNode .itemEnd).eat
              s.finishNode
            else .ok s
          s.finishNode) := by
      intro s2 n2 st2 la2 p2 k2
      refine (N.finishClause h n2 k2 ((Forall_token _ _ _).2 trivial) p2 rfl (fun hh => (by cases hh)) st2 la2).bind fun s3 h3 => ?_
      have h4 := h3.1.extractHold
      refine (hC.list n f .environment _ h4.n).bind fun s5 h5 => ?_
      have fin : ∀ s6, Eff f s5 s6 → IfOk (Eff f s) s6.finishNode := by
        intro s6 h6
        have hp6 := (h6.parents.trans (h5.parents.trans h4.parents)).trans h3.2.1
        refine (h6.n.finish hp6 h.len (by decide)).mono fun s7 h7 => ?_
        exact ⟨h7.1, h7.2.1, h7.2.2.trans (h6.keep.trans (h5.keep.trans (h4.keep.trans h3.2.2)))⟩
      dsimp only
      refine IfOk.ite (fun hpk => ?_) fun _ => fin s5 (.refl h5.n)
      obtain ⟨t, r', hts'⟩ := peekTok_cons hpk
      obtain ⟨o1, o2, o3⟩ := h5.n.openClause .itemEnd hts'
      rw [o1, ok_bind]
      refine (N.finishClause (s0 := s5) h5.n o2 o3 ((Forall_token _ _ _).2 trivial) rfl rfl (fun hh => (by cases hh))
        h5.n.start h5.n.last).bind fun s6 h6 => fin s6 ⟨h6.1, h6.2.1, h6.2.2⟩
    dsimp only
    split
    · exact rest _ o2 h.start h.last rfl o3
    · refine (hC.matchArguments env.glob n false _ (s.children.length + 1) f _ o2 h.start).bind fun s2 h2 => ?_
      obtain ⟨h1, h2, h3, h4, h5⟩ := h2
      exact rest s2 h1 h3 (fun p hp => (by rw [h2] at hp; cases hp)) h4 (h5.trans o3)

/-- Adding leaves and dropping tokens. -/
def Leafy (s s' : PState) : Prop := ∃ ts leaves, (∀ t ∈ ts, HeadOk t) ∧ (∀ e ∈ leaves, ∃ k t, e = Elem.token k t) ∧
  s' = { s with toks := ts, children := s.children ++ leaves }

theorem Leafy.trans {s s' s'' : PState} (h : Leafy s s') (h' : Leafy s' s'') : Leafy s s'' := by
  obtain ⟨ts, l, h1, h2, rfl⟩ := h
  obtain ⟨ts', l', h3, h4, rfl⟩ := h'
  refine ⟨ts', l ++ l', h3, ?_, by simp⟩
  intro e he
  rcases List.mem_append.1 he with he | he
  · exact h2 e he
  · exact h4 e he

theorem Leafy.refl {s : PState} (h : ∀ t ∈ s.toks, HeadOk t) : Leafy s s := ⟨s.toks, [], h, fun e he => (by cases he), by simp⟩

theorem Leafy.toks {s s' : PState} (h : Leafy s s') : ∀ t ∈ s'.toks, HeadOk t := by
  obtain ⟨ts, l, h1, h2, rfl⟩ := h
  exact h1

theorem Leafy.eatAs {s : PState} (h : ∀ t ∈ s.toks, HeadOk t) (k : Kind) : IfOk (Leafy s) (s.eatAs k) := by
  unfold PState.eatAs
  split
  · exact IfOk.error
  · rename_i t r hts
    refine IfOk.ok ⟨_, [_], fun x hx => h x (by rw [hts]; exact List.mem_cons_of_mem _ hx), ?_, rfl⟩
    intro e he; rw [List.mem_singleton.1 he]; exact ⟨_, _, rfl⟩

theorem Leafy.eat {s : PState} (h : ∀ t ∈ s.toks, HeadOk t) : IfOk (Leafy s) s.eat := by
  unfold PState.eat
  split
  · exact IfOk.error
  · rename_i t r hts
    refine IfOk.ok ⟨_, [_], fun x hx => h x (by rw [hts]; exact List.mem_cons_of_mem _ hx), ?_, rfl⟩
    intro e he; rw [List.mem_singleton.1 he]; exact ⟨_, _, rfl⟩

theorem Leafy.trivia {s : PState} (h : ∀ t ∈ s.toks, HeadOk t) : Leafy s s.trivia := by
  refine ⟨_, _, fun t ht => h t ((List.dropWhile_sublist _).subset ht), ?_, rfl⟩
  intro e he
  obtain ⟨t, _, rfl⟩ := List.mem_map.1 he
  exact ⟨_, _, rfl⟩

theorem Leafy.singleChar {s : PState} (h : ∀ t ∈ s.toks, HeadOk t) (hw : s.peek = some .word) : IfOk (Leafy s) s.singleChar := by
  obtain ⟨t, r, hts⟩ := peekTok_cons hw
  have htl : ∀ x ∈ r, HeadOk x := fun x hx => h x (by rw [hts]; exact List.mem_cons_of_mem _ hx)
  unfold PState.singleChar
  rw [hts]
  cases t with
  | nil => exact IfOk.ok (Leafy.refl h)
  | cons c cs =>
    dsimp only
    unfold PState.consumeBytes PState.token
    rw [hts]
    dsimp only
    have one : ∀ e ∈ [Elem.token Kind.tokenWord [c]], ∃ k t, e = Elem.token k t := by
      intro e he; rw [List.mem_singleton.1 he]; exact ⟨_, _, rfl⟩
    refine IfOk.ite (fun _ => IfOk.ok ⟨r, _, htl, one, rfl⟩) fun _ => ?_
    split
    · exact IfOk.error
    · refine IfOk.ok ⟨_, _, ?_, one, rfl⟩
      intro x hx
      rcases List.mem_cons.1 hx with rfl | hx
      · rintro (h | h) <;> cases h
      · exact htl x hx

theorem N.clauseLR {f : Nat} {s : PState} (h : N f s) (hp : s.peek = some (.cmd .left) ∨ s.peek = some (.cmd .right)) :
    IfOk (Eff f s) (clauseLR s) := by
  have hh : ∃ k t r, s.toks = (k, t) :: r ∧ t.head? = some '\\' ∧ k.kind = .clauseCommandName := by
    rcases hp with hp | hp
    all_goals
      obtain ⟨t, r, hts⟩ := peekTok_cons hp
      refine ⟨_, t, r, hts, ?_, rfl⟩
      refine h.toks (_, t) (by rw [hts]; exact List.mem_cons_self) ?_
      first | exact Or.inl rfl | exact Or.inr rfl
  obtain ⟨k, t, r, hts, hhd, hkk⟩ := hh
  obtain ⟨name, rfl⟩ : ∃ name, t = '\\' :: name := by
    cases t with
    | nil => cases hhd
    | cons c cs => cases hhd; exact ⟨cs, rfl⟩
  have htl : ∀ x ∈ r, HeadOk x := fun x hx => h.toks x (by rw [hts]; exact List.mem_cons_of_mem _ hx)
  unfold Mitex.clauseLR
  have he : (s.startNode .clauseLR).eat = .ok { s with
      parents := (.clauseLR, s.children.length) :: s.parents, toks := r,
      children := s.children ++ [.token .clauseCommandName ('\\' :: name)] } := by
    unfold PState.eat PState.startNode
    dsimp only
    rw [hts]
    dsimp only
    rw [hkk]
  rw [he, ok_bind]
  dsimp only
  generalize hs1 : ({ s with
      parents := (.clauseLR, s.children.length) :: s.parents, toks := r,
      children := s.children ++ [.token .clauseCommandName ('\\' :: name)] } : PState) = s1
  have ht1 : ∀ x ∈ s1.toks, HeadOk x := by rw [← hs1]; exact htl
  have l2 := Leafy.trivia ht1
  have rest : ∀ s2 : PState, Leafy s1.trivia s2 → IfOk (Eff f s) s2.finishNode := by
    intro s2 h2
    obtain ⟨ts, leaves, a1, a2, rfl⟩ := l2.trans h2
    rw [← hs1]
    unfold PState.finishNode
    dsimp only
    refine IfOk.ok ?_
    have hd : (s.children ++ [Elem.token .clauseCommandName ('\\' :: name)] ++ leaves).drop s.children.length =
        Elem.token .clauseCommandName ('\\' :: name) :: leaves := by simp
    have hk : (s.children ++ [Elem.token .clauseCommandName ('\\' :: name)] ++ leaves).take s.children.length = s.children := by simp
    rw [hd, hk]
    refine h.app ?_ a1
    intro e he
    rw [List.mem_singleton.1 he]
    refine Neat.node ⟨fun hn => (by cases hn), fun _ => ⟨name, leaves, rfl⟩⟩ ?_
    intro c hc
    rcases List.mem_cons.1 hc with rfl | hc
    · exact (Forall_token _ _ _).2 trivial
    · obtain ⟨k, t, rfl⟩ := a2 c hc
      exact (Forall_token _ _ _).2 trivial
  have tt := l2.toks
  split
  · exact (Leafy.eatAs tt _).bind fun s2 h2 => rest s2 h2
  · exact rest _ (Leafy.refl tt)
  · exact rest _ (Leafy.refl tt)
  · exact rest _ (Leafy.refl tt)
  · rename_i hw
    exact (Leafy.singleChar tt hw).bind fun s2 h2 => rest s2 h2
  · exact (Leafy.eat tt).bind fun s2 h2 => rest s2 h2

theorem NeatC.itemLR (hC : NeatC C) (n f : Nat) (s : PState) (h : N f s) (hp : s.peek = some (.cmd .left)) :
    IfOk (Eff f s) (itemLR C n s) := by
  unfold Mitex.itemLR
  refine ((h.startNode .itemLR).clauseLR (Or.inl hp)).bind fun s1 h1 => ?_
  refine (hC.list n f .lr s1 h1.n).bind fun s2 h2 => ?_
  have rest : ∀ s3, Eff f s2 s3 → IfOk (Eff f s) s3.finishNode := by
    intro s3 h3
    have h13 := (h1.trans h2).trans h3
    refine (h3.n.finish h13.parents h.len (by decide)).mono fun s4 h4 => ?_
    exact ⟨h4.1, h4.2.1, h4.2.2.trans h13.keep⟩
  dsimp only
  refine IfOk.ite (fun hp => ?_) fun _ => rest _ (.refl h2.n)
  exact (h2.n.clauseLR (Or.inr hp)).bind fun s3 h3 => rest s3 h3

theorem eatBodyOfIfs_leafy (ts : List Tok) (nested : Nat) (s : PState) (h : ∀ t ∈ ts, HeadOk t) :
    Leafy { s with toks := ts } (eatBodyOfIfs ts nested s) := by
  induction ts generalizing nested s with
  | nil => exact ⟨[], [], fun t ht => (by cases ht), fun t ht => (by cases ht), by simp [eatBodyOfIfs]⟩
  | cons t ts ih =>
    obtain ⟨k, t⟩ := t
    have htl : ∀ x ∈ ts, HeadOk x := fun x hx => h x (List.mem_cons_of_mem _ hx)
    have step : ∀ m, Leafy { s with toks := (k, t) :: ts } (eatBodyOfIfs ts m (s.token k.kind t)) := by
      intro m
      obtain ⟨us, l, a1, a2, a3⟩ := ih m (s.token k.kind t) htl
      refine ⟨us, Elem.token k.kind t :: l, a1, ?_, ?_⟩
      · intro e he
        rcases List.mem_cons.1 he with rfl | he
        · exact ⟨_, _, rfl⟩
        · exact a2 e he
      · rw [a3]
        unfold PState.token
        simp
    rw [eatBodyOfIfs.eq_def]
    dsimp only
    split
    · exact step _
    · split
      · exact ⟨ts, [], htl, fun t ht => (by cases ht), by simp⟩
      · exact step _
    · exact step _

theorem N.ifBlock {f : Nat} {s : PState} (h : N f s) {kind : Kind} (hk : kind.ownsSym = true) (hl : kind ≠ .clauseLR) :
    IfOk (Eff f s) (ifBlock kind s) := by
  unfold Mitex.ifBlock
  dsimp only
  obtain ⟨ts, l, a1, a2, a3⟩ := eatBodyOfIfs_leafy (s.startNode kind).drop.toks 0 (s.startNode kind).drop (by
    intro t ht; exact h.toks t (List.mem_of_mem_tail ht))
  rw [a3]
  unfold PState.finishNode PState.drop PState.startNode
  dsimp only
  refine IfOk.ok ?_
  have hd : (s.children ++ l).drop s.children.length = l := by simp
  have hk' : (s.children ++ l).take s.children.length = s.children := by simp
  rw [hd, hk']
  refine h.app ?_ a1
  intro e he
  rw [List.mem_singleton.1 he]
  refine Neat.node ⟨fun hn => (by rw [hk] at hn; cases hn), fun hn => absurd hn hl⟩ ?_
  intro c hc
  obtain ⟨k, t, rfl⟩ := a2 c hc
  exact (Forall_token _ _ _).2 trivial

theorem NeatC.attachFinish (hC : NeatC C) (b : Bool) (f : Nat) (s : PState) (h : N f s) {p : Nat} {k : Kind} {ps : List (Kind × Nat)}
    (hfp : f ≤ p) (hk : k ≠ .clauseLR) (hp : s.parents = (k, p) :: ps) (hpk : ∀ k, s.peek = some k → NotSym k) :
    IfOk (fun s' => N f s' ∧ s'.parents = ps ∧ s'.children.take f = s.children.take f) (attachComponent.finish C b s) := by
  unfold attachComponent.finish
  refine (h.eat hpk).bind fun s1 h1 => ?_
  have rest : ∀ s2 : PState, Eff f s1 s2 → IfOk (fun s' : PState => N f s' ∧ s'.parents = ps ∧ s'.children.take f = s.children.take f)
      s2.finishNode := by
    intro s2 h2
    refine (h2.n.finish ((h2.parents.trans h1.parents).trans hp) hfp hk).mono fun s3 h3 => ?_
    exact ⟨h3.1, h3.2.1, h3.2.2.trans (h2.keep.trans h1.keep)⟩
  dsimp only
  refine IfOk.ite (fun _ => ?_) fun _ => rest _ (.refl h1.n)
  have h2 : Eff f s1 s1.trivia := h1.n.eatWhile fun k hk => NotSym.trivia hk
  refine (hC false f _ h2.n).bind fun r hr => ?_
  exact rest r.2 (h2.trans hr)

theorem NeatC.attach (hC : NeatC C) (b : Bool) (f : Nat) (s : PState) (h : N f s) (hpk : ∀ k, s.peek = some k → NotSym k) :
    IfOk (Eff f s) (attachComponent C b s) := by
  unfold Mitex.attachComponent
  split
  · rename_i l hl
    have hfl := h.last l hl
    unfold PState.startNodeAt
    by_cases hc : l ≤ s.children.length ∧ s.top ≤ l
    · rw [if_pos hc, ok_bind]
      by_cases hc2 : l ≤ ({ s with parents := (Kind.itemAttachComponent, l) :: s.parents } : PState).children.length ∧
          ({ s with parents := (Kind.itemAttachComponent, l) :: s.parents } : PState).top ≤ l
      · rw [if_pos hc2, ok_bind]
        have h2 : N f { s with parents := (.clauseArgument, l) :: (.itemAttachComponent, l) :: s.parents } :=
          h.congr rfl rfl rfl h.start h.last
        refine (IfOk.and (h2.finish rfl hfl (by decide)) (IfOk.self _)).bind fun s3 h3 => ?_
        obtain ⟨⟨h3, h4, h5⟩, h6⟩ := h3
        have ht : s3.toks = s.toks := by unfold PState.finishNode at h6; cases h6; rfl
        refine (hC.attachFinish b f s3 h3 hfl (by decide) h4 ?_).mono fun s4 h7 => ⟨h7.1, h7.2.1, h7.2.2.trans h5⟩
        intro k hk'; apply hpk k; unfold PState.peek at hk' ⊢; rw [ht] at hk'; exact hk'
      · rw [if_neg hc2]; exact IfOk.error
    · rw [if_neg hc]; exact IfOk.error
  · refine IfOk.ite (fun _ => h.eat hpk) fun _ => ?_
    refine (hC.attachFinish b f _ (h.startNode _) h.len (by decide) rfl hpk).mono fun s4 h7 => ⟨h7.1, h7.2.1, h7.2.2⟩

theorem N.errorItem {f : Nat} {s : PState} (h : N f s) : IfOk (Eff f s) (errorItem s) := by
  unfold Mitex.errorItem
  cases hts : s.toks with
  | nil =>
    have : (s.startNode .tokenError).eat = .error .panic := by
      unfold PState.eat PState.startNode; dsimp only; rw [hts]
    rw [this]; exact IfOk.error
  | cons t r =>
    obtain ⟨o1, o2, o3⟩ := h.openClause .tokenError hts
    rw [o1, ok_bind]
    exact (N.finishClause (s0 := s) h o2 o3 ((Forall_token _ _ _).2 trivial) rfl rfl (fun hh => (by cases hh)) h.start h.last).mono
      fun s6 h6 => ⟨h6.1, h6.2.1, h6.2.2⟩

theorem withFlag_eff {f : Nat} {s : PState} {b : Bool} {r : Res PState} (h : IfOk (Eff f s) r) :
    IfOk (fun r => Eff f s r.2) (withFlag b r) := by
  intro q hq
  unfold withFlag at hq
  cases r with
  | error x => cases hq
  | ok s' => cases hq; exact h s' rfl

theorem NeatC.body (hC : NeatC C) (env : PEnv) (n : Nat) : NeatC (contentBody env C n) := by
  intro b f s h
  unfold contentBody
  split
  · exact IfOk.ok (.refl h)
  · rename_i c hpk
    have np : ∀ {k : Token}, NotSym c → ∀ k, s.peek = some k → NotSym k := by
      intro _ hc k' hk'; rw [hpk] at hk'; cases hk'; exact hc
    split
    all_goals first
      | exact withFlag_eff (h.eat (np (k := .word) fun h => by cases h))
      | exact withFlag_eff (hC.attach _ f s h (np (k := .word) fun h => by cases h))
      | exact withFlag_eff (hC.group n f _ s h (np (k := .word) fun h => by cases h))
      | exact withFlag_eff h.errorItem
      | exact withFlag_eff (h.textItem (np (k := .word) fun h => by cases h))
      | skip
    · rename_i bk _
      exact withFlag_eff (h.eat (np (k := .word) (by cases bk <;> intro h <;> cases h)))
    · rename_i bk _
      exact withFlag_eff (h.eat (np (k := .word) (by cases bk <;> intro h <;> cases h)))
    · refine withFlag_eff (IfOk.ite (fun _ => h.textItem (np (k := .word) fun h => by cases h)) fun _ => h.singleChar ?_)
      intro k hk'; rw [hpk] at hk'; cases hk'; rfl
    · split
      all_goals first
        | exact hC.command env n f s h (np (k := .word) fun h => by cases h)
        | exact withFlag_eff (hC.environment env n f s h)
        | exact withFlag_eff (hC.group n f _ s h (np (k := .word) fun h => by cases h))
        | exact withFlag_eff (h.ifBlock rfl (by decide))
        | exact withFlag_eff (hC.itemLR n f s h hpk)
        | exact withFlag_eff (h.eat (np (k := .word) fun h => by cases h))
        | exact withFlag_eff h.errorItem

end

theorem content_neat (env : PEnv) (n : Nat) : NeatC (content env n) := by
  induction n with
  | zero => intro b f s h; exact IfOk.error
  | succ n ih => exact ih.body env n

/-- The tree is neat. -/
theorem parse_neat (env : PEnv) (toks : List Tok) (h : ∀ t ∈ toks, HeadOk t) : IfOk Neat (parseToks env toks) := by
  unfold parseToks
  dsimp only
  have h0 : N 0 ((PState.init toks).startNode .scopeRoot) :=
    ⟨Nat.zero_le _, fun p hp => (by cases hp), fun p hp => (by cases hp), fun e he => (by cases he), h, fun t ht => (by cases ht)⟩
  refine ((content_neat env _).list _ 0 .root _ h0).bind fun s1 h1 => ?_
  refine (h1.n.finish (h1.parents.trans rfl) (Nat.zero_le _) (by decide)).bind fun s2 h2 => ?_
  unfold finishTree
  split
  · rename_i k cs hc
    refine IfOk.ok (h2.1.neat _ ?_)
    rw [hc]; exact List.mem_cons_self
  · exact IfOk.error

end Mitex
