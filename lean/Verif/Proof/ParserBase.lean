/-
Infrastructure for the proofs about the parser: outcome logic, invariants of the builder state, and the
effects of the elementary operations.
-/
import Verif.Spec.Tree
import Verif.Proof.Lex

namespace Mitex

/-! ## Outcomes -/

/-- The result satisfies `Q`; a panic is possible only when the guard `G` fails; nothing else happens. -/
def Ok {α : Type} (G : Prop) (Q : α → Prop) : Res α → Prop
  | .ok a => Q a
  | .error x => x = .panic ∧ ¬ G

theorem Ok.bind {α β : Type} {G : Prop} {Q : α → Prop} {R : β → Prop} {r : Res α} {f : α → Res β}
    (h : Ok G Q r) (k : ∀ a, Q a → Ok G R (f a)) : Ok G R (r >>= f) := by
  cases r with
  | error x => exact h
  | ok a => exact k a h

theorem Ok.mono {α : Type} {G : Prop} {Q R : α → Prop} {r : Res α} (h : Ok G Q r) (k : ∀ a, Q a → R a) :
    Ok G R r := by
  cases r with
  | error x => exact h
  | ok a => exact k a h

theorem Ok.of_eq {α : Type} {G : Prop} {Q : α → Prop} {r : Res α} {a : α} (h : r = .ok a) (k : Q a) : Ok G Q r := by
  rw [h]; exact k

theorem ok_bind {α β : Type} (a : α) (f : α → Res β) : ((Except.ok a : Res α) >>= f) = f a := rfl

theorem Ok.withFlag {G : Prop} {Q : Bool × PState → Prop} {r : Res PState} {b : Bool}
    (h : Ok G (fun s => Q (b, s)) r) : Ok G Q (withFlag b r) := by
  cases r with
  | error x => exact h
  | ok a => exact h

/-! ## Trees -/

theorem Forall_go_iff (p : Elem → Prop) (cs : List Elem) : Elem.Forall.go p cs ↔ ∀ e ∈ cs, e.Forall p := by
  induction cs with
  | nil => simp [Elem.Forall.go]
  | cons c cs ih => simp [Elem.Forall.go, ih]

theorem Forall_node (p : Elem → Prop) (k : Kind) (cs : List Elem) :
    (Elem.node k cs).Forall p ↔ p (.node k cs) ∧ ∀ e ∈ cs, e.Forall p := by
  rw [Elem.Forall, Forall_go_iff]

theorem Forall_token (p : Elem → Prop) (k : Kind) (t : Text) : (Elem.token k t).Forall p ↔ p (.token k t) := by
  rw [Elem.Forall]

theorem leaves_node (k : Kind) (cs : List Elem) : (Elem.node k cs).leaves = Elem.leaves.go cs := by
  rw [Elem.leaves]

theorem leaves_go_append (as bs : List Elem) :
    Elem.leaves.go (as ++ bs) = Elem.leaves.go as ++ Elem.leaves.go bs := by
  induction as with
  | nil => simp [Elem.leaves.go]
  | cons a as ih => simp [Elem.leaves.go, ih]

theorem leaves_go_one (e : Elem) : Elem.leaves.go [e] = e.leaves := by simp [Elem.leaves.go]

/-- The leaf given by a token. -/
def lf (t : Tok) : Kind × Text := (t.1.kind, t.2)

theorem leaves_go_map_leafOf (ts : List Tok) : Elem.leaves.go (ts.map leafOf) = ts.map lf := by
  induction ts with
  | nil => simp [Elem.leaves.go]
  | cons t ts ih => simp [Elem.leaves.go, ih, leafOf, lf, Elem.leaves]

/-- All elements of a list are closed. -/
def AllClosed (cs : List Elem) : Prop := ∀ e ∈ cs, Closed e

theorem Closed_token (k : Kind) (t : Text) : Closed (.token k t) := by
  rw [Closed, Forall_token]; intro cs h; cases h

theorem Closed_node {k : Kind} {cs : List Elem}
    (h : k = .itemCurly → ∃ t, cs.getLast? = some (.token .tokenRBrace t)) (hc : AllClosed cs) :
    Closed (.node k cs) := by
  rw [Closed, Forall_node]
  refine ⟨?_, hc⟩
  intro cs' e
  cases e
  exact h rfl

theorem AllClosed.append {as bs : List Elem} (ha : AllClosed as) (hb : AllClosed bs) : AllClosed (as ++ bs) := by
  intro e he
  rcases List.mem_append.1 he with h | h
  · exact ha e h
  · exact hb e h

theorem AllClosed.take {as : List Elem} (ha : AllClosed as) (n : Nat) : AllClosed (as.take n) :=
  fun e he => ha e (List.mem_of_mem_take he)

theorem AllClosed.drop {as : List Elem} (ha : AllClosed as) (n : Nat) : AllClosed (as.drop n) :=
  fun e he => ha e (List.mem_of_mem_drop he)

theorem AllClosed.leaves (ts : List Tok) : AllClosed (ts.map leafOf) := by
  intro e he
  obtain ⟨t, _, rfl⟩ := List.mem_map.1 he
  exact Closed_token _ _

theorem AllClosed.one {e : Elem} (h : Closed e) : AllClosed [e] := by
  intro e' he
  rw [List.mem_singleton] at he
  rw [he]; exact h

theorem kind_mem_leafKinds (t : Token) : t.kind ∈ leafKinds := by
  cases t with
  | left b => cases b <;> decide
  | right b => cases b <;> decide
  | cmd n => cases n <;> simp [Token.kind, leafKinds]
  | macroArg n => simp [Token.kind, leafKinds]
  | _ => decide

theorem Shape_leaf {env : PEnv} {k : Kind} {t : Text} (h : k ∈ leafKinds) : (Elem.token k t).Forall (Shape env) := by
  rw [Forall_token]; exact h

theorem Shape_leafOf {env : PEnv} (t : Tok) : (leafOf t).Forall (Shape env) :=
  Shape_leaf (kind_mem_leafKinds _)

/-! ## Tokens -/

theorem tokSize_cons (t : Tok) (ts : List Tok) : tokSize (t :: ts) = t.2.length + 1 + tokSize ts := rfl

theorem tokSize_append (as ts : List Tok) : tokSize (as ++ ts) = tokSize as + tokSize ts := by
  induction as with
  | nil => simp [tokSize]
  | cons a as ih => rw [List.cons_append, tokSize_cons, tokSize_cons, ih]; omega

theorem tokSize_dropWhile (p : Tok → Bool) (ts : List Tok) : tokSize (ts.dropWhile p) ≤ tokSize ts := by
  induction ts with
  | nil => simp
  | cons t ts ih =>
    rw [List.dropWhile_cons]
    split
    · rw [tokSize_cons]; omega
    · exact Nat.le_refl _

/-- What the parser needs to know of its input tokens. -/
structure TokOk (G : Prop) (spec : CommandSpec) (ts : List Tok) : Prop where
  words : WordsOk ts
  cmds : CmdsOk ts
  scripts : G → ScriptSafe spec ts

theorem TokOk.tail {G : Prop} {spec : CommandSpec} {t : Tok} {ts : List Tok} (h : TokOk G spec (t :: ts)) :
    TokOk G spec ts :=
  ⟨fun x hx => h.words x (List.mem_cons_of_mem _ hx), fun x hx => h.cmds x (List.mem_cons_of_mem _ hx),
    fun g => (h.scripts g).2⟩

theorem TokOk.suffix {G : Prop} {spec : CommandSpec} {as ts : List Tok} (h : TokOk G spec (as ++ ts)) :
    TokOk G spec ts := by
  induction as with
  | nil => exact h
  | cons a as ih => exact ih h.tail

theorem TokOk.nil {G : Prop} {spec : CommandSpec} : TokOk G spec [] :=
  ⟨fun _ h => (by cases h), fun _ h => (by cases h), fun _ => trivial⟩

theorem TokOk.dropWhile {G : Prop} {spec : CommandSpec} {ts : List Tok} (h : TokOk G spec ts) (p : Tok → Bool) :
    TokOk G spec (ts.dropWhile p) := by
  have e : ts.takeWhile p ++ ts.dropWhile p = ts := List.takeWhile_append_dropWhile
  rw [← e] at h
  exact h.suffix

theorem TokOk.reword {G : Prop} {spec : CommandSpec} {w w' : Text} {ts : List Tok}
    (h : TokOk G spec ((.word, w) :: ts)) (hw : w' ≠ []) : TokOk G spec ((.word, w') :: ts) := by
  refine ⟨?_, ?_, ?_⟩
  · intro x hx hk
    rcases List.mem_cons.1 hx with rfl | hx
    · exact hw
    · exact h.words x (List.mem_cons_of_mem _ hx) hk
  · intro x hx c hc
    rcases List.mem_cons.1 hx with rfl | hx
    · cases hc
    · exact h.cmds x (List.mem_cons_of_mem _ hx) c hc
  · intro g
    refine ⟨?_, (h.scripts g).2⟩
    rintro (h | h) <;> cases h

/-! ## Reading -/

theorem Reads.trans {a b c : List Tok} {lv lv' : List (Kind × Text)} (h : Reads a b lv) (h' : Reads b c lv') :
    Reads a c (lv ++ lv') := by
  induction h with
  | done ts => exact h'
  | keep t h ih => exact .keep t (ih h')
  | sym x h ih => exact .sym x (ih h')
  | trivia t ht h ih => exact .trivia t ht (ih h')
  | char c hw h ih => exact .char c hw (ih h')
  | cond t fi ht hb hf h ih => rw [List.append_assoc]; exact .cond t fi ht hb hf (ih h')
  | condOpen t ht hb =>
    cases h'
    rw [List.append_nil]
    exact .condOpen t ht hb

theorem Reads.keeps (as : List Tok) (ts : List Tok) : Reads (as ++ ts) ts (as.map lf) := by
  induction as with
  | nil => exact .done _
  | cons a as ih => exact .keep a ih

theorem Reads.skips {as : List Tok} (h : ∀ t ∈ as, t.1.isTrivia = true) (ts : List Tok) : Reads (as ++ ts) ts [] := by
  induction as with
  | nil => exact .done _
  | cons a as ih =>
    exact .trivia a (h a (List.mem_cons_self ..)) (ih fun t ht => h t (List.mem_cons_of_mem _ ht))

/-- The leaves added between two states account for the tokens read. -/
def Read (s s' : PState) : Prop :=
  ∃ lv, Elem.leaves.go s'.children = Elem.leaves.go s.children ++ lv ∧ Reads (s.hold ++ s.toks) (s'.hold ++ s'.toks) lv

theorem Read.trans {s s' s'' : PState} (h : Read s s') (h' : Read s' s'') : Read s s'' := by
  obtain ⟨lv, e, r⟩ := h
  obtain ⟨lv', e', r'⟩ := h'
  exact ⟨lv ++ lv', by rw [e', e, List.append_assoc], r.trans r'⟩

theorem Read.refl (s : PState) : Read s s := ⟨[], by simp, .done _⟩

/-! ## State invariant -/

/-- Unclosed groups only at the end, and only when the input is over. -/
def Seal (s : PState) : Prop :=
  AllClosed s.children ∨
    (s.toks = [] ∧ s.hold = [] ∧ ∃ cs e, s.children = cs ++ [e] ∧ AllClosed cs ∧ OpenAtEnd e)

/-- Invariant of the parser state. -/
structure Inv (G : Prop) (env : PEnv) (s : PState) : Prop where
  toks : TokOk G env.spec s.toks
  hold : ∀ t ∈ s.hold, t.1.isTrivia = true
  shape : ∀ e ∈ s.children, e.Forall (Shape env)
  sealed : Seal s

theorem Inv.closed {G : Prop} {env : PEnv} {s : PState} (h : Inv G env s) (hn : s.toks ≠ []) :
    AllClosed s.children := by
  rcases h.sealed with h | ⟨h, _⟩
  · exact h
  · exact absurd h hn

/-- The first `f` children are unchanged. -/
def Keep (f : Nat) (s s' : PState) : Prop :=
  f ≤ s'.children.length ∧ s'.children.take f = s.children.take f

theorem Keep.trans {f : Nat} {s s' s'' : PState} (h : Keep f s s') (h' : Keep f s' s'') : Keep f s s'' :=
  ⟨h'.1, h'.2.trans h.2⟩

theorem Keep.mono {f g : Nat} {s s' : PState} (h : Keep f s s') (hg : g ≤ f) : Keep g s s' := by
  refine ⟨Nat.le_trans hg h.1, ?_⟩
  have := congrArg (List.take g) h.2
  rwa [List.take_take, List.take_take, Nat.min_eq_left hg] at this

theorem Keep.app {s s' : PState} {new : List Elem} (h : s'.children = s.children ++ new) :
    Keep s.children.length s s' := by
  refine ⟨by rw [h, List.length_append]; omega, by rw [h]; simp⟩

theorem Keep.split {s s' : PState} (h : Keep s.children.length s s') :
    s'.children = s.children ++ s'.children.drop s.children.length := by
  have := List.take_append_drop s.children.length s'.children
  rw [h.2, List.take_length] at this
  exact this.symm

/-- The common effect of the parsing functions that only append; trivia may be held back. -/
structure GoH (G : Prop) (env : PEnv) (s s' : PState) : Prop where
  inv : Inv G env s'
  scope : s'.scope = s.scope
  start : s'.start = s.start
  last : s'.last = s.last ∨ s'.last = none
  read : Read s s'
  size : tokSize s'.toks ≤ tokSize s.toks
  keep : Keep s.children.length s s'

/-- The same, with no trivia held back. -/
structure Go (G : Prop) (env : PEnv) (s s' : PState) : Prop extends GoH G env s s' where
  hold : s'.hold = []

theorem GoH.trans {G : Prop} {env : PEnv} {s s' s'' : PState} (h : GoH G env s s') (h' : GoH G env s' s'') :
    GoH G env s s'' where
  inv := h'.inv
  scope := h'.scope.trans h.scope
  start := h'.start.trans h.start
  last := by
    rcases h'.last with e | e
    · rw [e]; exact h.last
    · exact Or.inr e
  read := h.read.trans h'.read
  size := Nat.le_trans h'.size h.size
  keep := h.keep.trans (h'.keep.mono h.keep.1)

theorem Go.trans {G : Prop} {env : PEnv} {s s' s'' : PState} (h : Go G env s s') (h' : Go G env s' s'') :
    Go G env s s'' := ⟨h.toGoH.trans h'.toGoH, h'.hold⟩

theorem GoH.refl {G : Prop} {env : PEnv} {s : PState} (h : Inv G env s) : GoH G env s s :=
  ⟨h, rfl, rfl, Or.inl rfl, Read.refl s, Nat.le_refl _, ⟨Nat.le_refl _, rfl⟩⟩

theorem Go.refl {G : Prop} {env : PEnv} {s : PState} (h : Inv G env s) (hh : s.hold = []) : Go G env s s :=
  ⟨.refl h, hh⟩

/-- `Inv` does not look at `parents`, `start`, `last`, `scope`. -/
theorem Inv.congr {G : Prop} {env : PEnv} {s s' : PState} (h : Inv G env s) (ht : s'.toks = s.toks)
    (hc : s'.children = s.children) (hh : s'.hold = s.hold) : Inv G env s' := by
  refine ⟨by rw [ht]; exact h.toks, by rw [hh]; exact h.hold, by rw [hc]; exact h.shape, ?_⟩
  have := h.sealed
  unfold Seal at this ⊢
  rw [ht, hc, hh]; exact this

/-- Changing only `parents`. -/
theorem Go.parents {G : Prop} {env : PEnv} {s s' : PState} (h : Inv G env s) (hh : s.hold = [])
    (ps : List (Kind × Nat)) (e : s' = { s with parents := ps }) : Go G env s s' := by
  subst e
  exact ⟨⟨h.congr rfl rfl rfl, rfl, rfl, Or.inl rfl, Read.refl s, Nat.le_refl _, ⟨Nat.le_refl _, rfl⟩⟩, hh⟩

/-- Appending leaves: the general form. -/
theorem Go.leaves {G : Prop} {env : PEnv} {s : PState} (h : Inv G env s) (hh : s.hold = []) {ks : List (Kind × Text)}
    {r : List Tok} (hn : s.toks ≠ []) (hr : Reads s.toks r ks) (hk : ∀ k ∈ ks, k.1 ∈ leafKinds)
    (ho : TokOk G env.spec r) (hs : tokSize r ≤ tokSize s.toks) :
    Go G env s { s with toks := r, children := s.children ++ ks.map fun k => Elem.token k.1 k.2 } := by
  have hcl : ∀ ks : List (Kind × Text), Elem.leaves.go (ks.map fun k => Elem.token k.1 k.2) = ks := by
    intro ks
    induction ks with
    | nil => simp [Elem.leaves.go]
    | cons k ks ih => simp [Elem.leaves.go, Elem.leaves, ih]
  refine ⟨⟨⟨ho, h.hold, ?_, Or.inl ?_⟩, rfl, rfl, Or.inl rfl, ⟨ks, ?_, ?_⟩, hs, Keep.app rfl⟩, hh⟩
  · intro e he
    rcases List.mem_append.1 he with h' | h'
    · exact h.shape e h'
    · obtain ⟨k, hk', rfl⟩ := List.mem_map.1 h'
      exact Shape_leaf (hk k hk')
  · apply (h.closed hn).append
    intro e he
    obtain ⟨k, _, rfl⟩ := List.mem_map.1 he
    exact Closed_token _ _
  · show Elem.leaves.go (s.children ++ _) = _
    rw [leaves_go_append, hcl]
  · show Reads (s.hold ++ s.toks) (s.hold ++ r) ks
    rw [hh]; exact hr

/-- The state after reading the token `t`. -/
def PState.ate (s : PState) (t : Tok) (r : List Tok) : PState :=
  { s with toks := r, children := s.children ++ [leafOf t] }

theorem eat_eq {s : PState} {t : Tok} {r : List Tok} (h : s.toks = t :: r) : s.eat = .ok (s.ate t r) := by
  unfold PState.eat
  rw [h]; rfl

theorem Go.eat {G : Prop} {env : PEnv} {s : PState} (h : Inv G env s) (hh : s.hold = []) {t : Tok} {r : List Tok}
    (ht : s.toks = t :: r) : Go G env s (s.ate t r) := by
  have ho := h.toks
  rw [ht] at ho
  exact Go.leaves h hh (ks := [lf t]) (by rw [ht]; simp) (by rw [ht]; exact .keep t (.done r))
    (by intro k hk; rw [List.mem_singleton] at hk; rw [hk]; exact kind_mem_leafKinds _) ho.tail
    (by rw [ht, tokSize_cons]; omega)

theorem eatWhile_go {G : Prop} {env : PEnv} {s : PState} (h : Inv G env s) (hh : s.hold = []) (p : Token → Bool) :
    Go G env s (s.eatWhile p) := by
  by_cases hn : s.toks = []
  · have : s.eatWhile p = s := by
      unfold PState.eatWhile
      cases s
      simp only at hn
      subst hn
      simp
    rw [this]; exact Go.refl h hh
  · have e : (s.toks.takeWhile fun t => p t.1) ++ (s.toks.dropWhile fun t => p t.1) = s.toks :=
      List.takeWhile_append_dropWhile
    have := Go.leaves h hh (ks := (s.toks.takeWhile fun t => p t.1).map lf) (r := s.toks.dropWhile fun t => p t.1) hn
      (by have := Reads.keeps (s.toks.takeWhile fun t => p t.1) (s.toks.dropWhile fun t => p t.1)
          rwa [e] at this)
      (by intro k hk; obtain ⟨t, _, rfl⟩ := List.mem_map.1 hk; exact kind_mem_leafKinds _)
      (h.toks.dropWhile _) (tokSize_dropWhile _ _)
    have e2 : ((s.toks.takeWhile fun t => p t.1).map lf).map (fun k => Elem.token k.1 k.2)
        = (s.toks.takeWhile fun t => p t.1).map leafOf := by
      rw [List.map_map]; rfl
    rw [e2] at this
    exact this

/-! ## Bytes -/

theorem byteLen_pos {a : Text} (h : a ≠ []) : 0 < byteLen a := by
  cases a with
  | nil => exact absurd rfl h
  | cons c a => have := utf8Len_pos c; simp [byteLen]; omega

/-- Consuming the bytes of a prefix. -/
theorem consumeBytes_prefix {s : PState} {k : Token} {a b : Text} {r : List Tok} (ht : s.toks = (k, a ++ b) :: r) :
    s.consumeBytes (byteLen a) = .ok { s with toks := if b = [] then r else (k, b) :: r } := by
  unfold PState.consumeBytes
  rw [ht]
  simp only
  by_cases hb : b = []
  · subst hb
    rw [if_pos (by simp), if_pos rfl]
  · have := byteLen_pos hb
    rw [if_neg (by rw [byteLen_append]; omega), dropBytes_append, if_neg hb]

theorem singleChar_go {G : Prop} {env : PEnv} {s : PState} (h : Inv G env s) (hh : s.hold = []) {w : Text} {r : List Tok}
    (ht : s.toks = (.word, w) :: r) :
    ∃ s', s.singleChar = .ok s' ∧ Go G env s s' ∧ s'.parents = s.parents ∧ tokSize s'.toks < tokSize s.toks
      ∧ ∃ c, s'.children = s.children ++ [.token .tokenWord [c]] := by
  have ho := h.toks
  rw [ht] at ho
  have hw : w ≠ [] := ho.words _ (List.mem_cons_self ..) rfl
  obtain ⟨c, cs, rfl⟩ : ∃ c cs, w = c :: cs := by
    cases w with
    | nil => exact absurd rfl hw
    | cons c cs => exact ⟨c, cs, rfl⟩
  have e1 : s.singleChar = (s.token .tokenWord [c]).consumeBytes (utf8Len c) := by
    unfold PState.singleChar
    rw [ht]
  have e2 := consumeBytes_prefix (s := s.token .tokenWord [c]) (k := .word) (a := [c]) (b := cs) (r := r) ht
  have e3 : byteLen [c] = utf8Len c := by simp [byteLen]
  rw [e3] at e2
  refine ⟨_, e1.trans e2, ?_, rfl, ?_, c, rfl⟩
  · have := Go.leaves h hh (ks := [(.tokenWord, [c])]) (r := if cs = [] then r else (.word, cs) :: r)
      (by rw [ht]; simp)
      (by
        rw [ht]
        by_cases hc : cs = []
        · rw [if_pos hc, hc]; exact .keep (.word, [c]) (.done r)
        · rw [if_neg hc]; exact .char c hc (.done _))
      (by intro k hk; rw [List.mem_singleton] at hk; rw [hk]; simp [leafKinds])
      (by
        by_cases hc : cs = []
        · rw [if_pos hc]; exact ho.tail
        · rw [if_neg hc]; exact ho.reword hc)
      (by
        rw [ht]
        by_cases hc : cs = []
        · rw [if_pos hc, tokSize_cons]; omega
        · rw [if_neg hc, tokSize_cons, tokSize_cons]; simp)
    exact this
  · show tokSize (if cs = [] then r else (Token.word, cs) :: r) < _
    rw [ht]
    by_cases hc : cs = []
    · rw [if_pos hc, tokSize_cons]; simp
    · rw [if_neg hc, tokSize_cons, tokSize_cons]; simp

/-! ## Closing nodes -/

/-- The state after closing the innermost node `k`, opened at `f`. -/
def PState.closed (s : PState) (k : Kind) (f : Nat) (ps : List (Kind × Nat)) : PState :=
  { s with parents := ps, children := s.children.take f ++ [.node k (s.children.drop f)] }

theorem finish_eq {s : PState} {k : Kind} {f : Nat} {ps : List (Kind × Nat)} (h : s.parents = (k, f) :: ps) :
    s.finishNode = .ok (s.closed k f ps) := by
  unfold PState.finishNode
  rw [h]; rfl

/-- What a curly group needs to be closed. -/
def CurlyEnd (s : PState) (k : Kind) (f : Nat) : Prop :=
  k = .itemCurly → (s.toks = [] ∧ s.hold = [] ∧ s.children.drop f ≠ [] ∧ k = .itemCurly) ∨
    ∃ t, (s.children.drop f).getLast? = some (.token .tokenRBrace t)

theorem CurlyEnd.other {s : PState} {k : Kind} {f : Nat} (h : k ≠ .itemCurly) : CurlyEnd s k f := fun e => absurd e h

theorem Inv.close {G : Prop} {env : PEnv} {s : PState} (h : Inv G env s) {k : Kind} {f : Nat} {ps : List (Kind × Nat)}
    (hf : AllClosed (s.children.take f)) (hs : Shape env (.node k (s.children.drop f))) (hc : CurlyEnd s k f) :
    Inv G env (s.closed k f ps) := by
  refine ⟨h.toks, h.hold, ?_, ?_⟩
  · intro e he
    rcases List.mem_append.1 he with h' | h'
    · exact h.shape e (List.mem_of_mem_take h')
    · rw [List.mem_singleton] at h'
      rw [h', Forall_node]
      exact ⟨hs, fun e he => h.shape e (List.mem_of_mem_drop he)⟩
  · -- an element that is open at its end
    have opn : s.toks = [] → s.hold = [] → OpenAtEnd (.node k (s.children.drop f)) → Seal (s.closed k f ps) := by
      intro a b c
      exact Or.inr ⟨a, b, s.children.take f, _, rfl, hf, c⟩
    have cls : Closed (.node k (s.children.drop f)) → Seal (s.closed k f ps) := by
      intro a
      exact Or.inl (hf.append (AllClosed.one a))
    rcases h.sealed with ha | ⟨ht, hh, cs, e, hce, hcl, ho⟩
    · by_cases hk : k = .itemCurly
      · rcases hc hk with ⟨ht, hh, hn, _⟩ | ⟨t, hl⟩
        · apply opn ht hh
          obtain ⟨pre, x, hx⟩ : ∃ pre x, s.children.drop f = pre ++ [x] :=
            ⟨_, _, (List.dropLast_concat_getLast hn).symm⟩
          have hd := ha.drop f
          rw [hx] at hd ⊢
          exact .last k (fun y hy => hd y (List.mem_append_left _ hy))
            (.closed (hd x (List.mem_append_right _ (List.mem_singleton.2 rfl))))
        · exact cls (Closed_node (fun _ => ⟨t, hl⟩) (ha.drop f))
      · exact cls (Closed_node (fun e => absurd e hk) (ha.drop f))
    · by_cases hlt : f < s.children.length
      · apply opn ht hh
        have hle : f ≤ cs.length := by
          rw [hce, List.length_append] at hlt
          simp at hlt; omega
        have : s.children.drop f = cs.drop f ++ [e] := by
          rw [hce, List.drop_append_of_le_length hle]
        rw [this]
        exact .last k (fun y hy => hcl y (List.mem_of_mem_drop hy)) ho
      · have hd : s.children.drop f = [] := List.drop_eq_nil_of_le (by omega)
        apply cls
        rw [hd]
        refine Closed_node ?_ (fun _ h => (by cases h))
        intro hk
        rcases hc hk with ⟨_, _, hn, _⟩ | ⟨t, hl⟩
        · exact absurd hd hn
        · rw [hd] at hl; cases hl

theorem closed_leaves (s : PState) (k : Kind) (f : Nat) (ps : List (Kind × Nat)) :
    Elem.leaves.go (s.closed k f ps).children = Elem.leaves.go s.children := by
  show Elem.leaves.go (s.children.take f ++ [.node k (s.children.drop f)]) = _
  rw [leaves_go_append, leaves_go_one, leaves_node, ← leaves_go_append, List.take_append_drop]

theorem closed_read (s : PState) (k : Kind) (f : Nat) (ps : List (Kind × Nat)) : Read s (s.closed k f ps) :=
  ⟨[], by rw [closed_leaves, List.append_nil], .done _⟩

theorem closed_length {s : PState} {k : Kind} {f : Nat} {ps : List (Kind × Nat)} (h : f ≤ s.children.length) :
    (s.closed k f ps).children.length = f + 1 := by
  show (s.children.take f ++ [_]).length = _
  rw [List.length_append, List.length_take, Nat.min_eq_left h]; rfl

theorem closed_keep {s : PState} {k : Kind} {f : Nat} {ps : List (Kind × Nat)} (h : f ≤ s.children.length) :
    Keep f s (s.closed k f ps) := by
  refine ⟨by rw [closed_length h]; omega, ?_⟩
  show (s.children.take f ++ [_]).take f = _
  rw [List.take_append_of_le_length (by rw [List.length_take, Nat.min_eq_left h]; omega), List.take_take, Nat.min_self]

/-- A node opened at the end of the children of `s` and closed at `s'`. -/
theorem regionH {G : Prop} {env : PEnv} {s s' : PState} {k : Kind} (hcl : AllClosed s.children)
    (h : GoH G env (s.startNode k) s') (hp : s'.parents = (k, s.children.length) :: s.parents)
    (hs : Shape env (.node k (s'.children.drop s.children.length))) (hc : CurlyEnd s' k s.children.length) :
    ∃ s'', s'.finishNode = .ok s'' ∧ GoH G env s s'' ∧ s''.parents = s.parents ∧ s''.toks = s'.toks ∧ s''.hold = s'.hold
      ∧ s''.children = s.children ++ [.node k (s'.children.drop s.children.length)] := by
  have ht : s'.children.take s.children.length = s.children := by
    have := h.keep.2
    simp only [PState.startNode] at this
    rw [List.take_length] at this
    exact this
  refine ⟨_, finish_eq hp, ?_, rfl, rfl, rfl, ?_⟩
  · refine ⟨h.inv.close (by rw [ht]; exact hcl) hs hc, h.scope, h.start, h.last, ?_, h.size, ?_⟩
    · exact h.read.trans (closed_read _ _ _ _)
    · exact h.keep.trans (closed_keep h.keep.1)
  · show s'.children.take _ ++ _ = _
    rw [ht]

/-- The same without held trivia. -/
theorem region {G : Prop} {env : PEnv} {s s' : PState} {k : Kind} (hcl : AllClosed s.children)
    (h : Go G env (s.startNode k) s') (hp : s'.parents = (k, s.children.length) :: s.parents)
    (hs : Shape env (.node k (s'.children.drop s.children.length))) (hc : CurlyEnd s' k s.children.length) :
    ∃ s'', s'.finishNode = .ok s'' ∧ Go G env s s'' ∧ s''.parents = s.parents ∧ s''.toks = s'.toks
      ∧ s''.children = s.children ++ [.node k (s'.children.drop s.children.length)] := by
  obtain ⟨s'', a, b, c, d, e, f⟩ := regionH hcl h.toGoH hp hs hc
  exact ⟨s'', a, ⟨b, e.trans h.hold⟩, c, d, f⟩

/-- After opening a node. -/
theorem Go.startNode {G : Prop} {env : PEnv} {s : PState} (h : Inv G env s) (hh : s.hold = []) (k : Kind) :
    Go G env s (s.startNode k) := Go.parents h hh _ rfl

/-- `extract_holding_trivia`. -/
theorem extract_go {G : Prop} {env : PEnv} {s : PState} (h : Inv G env s) : Go G env s s.extractHold := by
  refine ⟨⟨⟨h.toks, fun _ h => (by cases h), ?_, ?_⟩, rfl, rfl, Or.inl rfl, ⟨s.hold.map lf, ?_, ?_⟩, Nat.le_refl _,
    Keep.app rfl⟩, rfl⟩
  · intro e he
    rcases List.mem_append.1 he with h' | h'
    · exact h.shape e h'
    · obtain ⟨t, _, rfl⟩ := List.mem_map.1 h'
      exact Shape_leafOf t
  · rcases h.sealed with ha | ⟨ht, hh, cs, e, hce, hcl, ho⟩
    · exact Or.inl (ha.append (AllClosed.leaves _))
    · refine Or.inr ⟨ht, rfl, cs, e, ?_, hcl, ho⟩
      show s.children ++ s.hold.map leafOf = _
      rw [hh, hce]; simp
  · show Elem.leaves.go (s.children ++ s.hold.map leafOf) = _
    rw [leaves_go_append, leaves_go_map_leafOf]
  · exact Reads.keeps _ _

/-- `ignore_holding_trivia`. -/
theorem ignore_go {G : Prop} {env : PEnv} {s : PState} (h : Inv G env s) : Go G env s s.ignoreHold := by
  refine ⟨⟨⟨h.toks, fun _ h => (by cases h), h.shape, ?_⟩, rfl, rfl, Or.inl rfl, ⟨[], (List.append_nil _).symm, ?_⟩,
    Nat.le_refl _, ⟨Nat.le_refl _, rfl⟩⟩, rfl⟩
  · rcases h.sealed with ha | ⟨ht, hh, r⟩
    · exact Or.inl ha
    · exact Or.inr ⟨ht, rfl, r⟩
  · exact Reads.skips h.hold _

/-- `hold_trivia`. -/
theorem holdTrivia_go {G : Prop} {env : PEnv} {s : PState} (h : Inv G env s) {t : Tok} {r : List Tok}
    (ht : s.toks = t :: r) (hv : t.1.isTrivia = true) :
    ∃ s', s.holdTrivia = .ok s' ∧ GoH G env s s' ∧ s'.parents = s.parents ∧ s'.toks = r ∧ s'.children = s.children := by
  have ho := h.toks
  rw [ht] at ho
  refine ⟨{ s with toks := r, hold := s.hold ++ [t] }, ?_, ?_, rfl, rfl, rfl⟩
  · unfold PState.holdTrivia; rw [ht]
  · refine ⟨⟨ho.tail, ?_, h.shape, Or.inl (h.closed (by rw [ht]; simp))⟩, rfl, rfl, Or.inl rfl,
      ⟨[], (List.append_nil _).symm, ?_⟩, ?_, ⟨Nat.le_refl _, rfl⟩⟩
    · intro x hx
      rcases List.mem_append.1 hx with h' | h'
      · exact h.hold x h'
      · rw [List.mem_singleton] at h'; rw [h']; exact hv
    · show Reads (s.hold ++ s.toks) (s.hold ++ [t] ++ r) []
      rw [ht, List.append_assoc]; exact .done _
    · rw [ht, tokSize_cons]; show tokSize r ≤ _; omega

end Mitex
