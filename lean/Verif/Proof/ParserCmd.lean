/-
The parsing functions for arguments, commands, environments, scripts; then `content` and `parse`.
-/
import Verif.Proof.Parser

namespace Mitex

variable {G : Prop} {env : PEnv}

/-! ## Argument matching -/

theorem char_letter : ArgKind.char = argLetter := funext fun k => by cases k <;> rfl

/-- The arguments `args` have led the matcher of pattern `p` to state `m`. -/
def Fits (g : GlobFn) (p : ArgPattern) (args : List Elem) (m : ArgMatcher) : Prop :=
  match p with
  | .none => m = .none ∧ args = []
  | .fixedLen n | .rangeLen _ n => (∀ a ∈ args, IsArg a) ∧
      ((m = .none ∧ args = []) ∨ (m = .atMost n args.length ∧ args.length ≤ n))
  | .greedy => False
  | .glob re => ∃ kinds : List ArgKind, ArgsOfKinds kinds args ∧ m = .glob re (kinds.map ArgKind.char) ∧
      (kinds = [] ∨ g re (kinds.map ArgKind.char) = true)

theorem Fits.fit {g : GlobFn} {p : ArgPattern} {args : List Elem} {m : ArgMatcher} (h : Fits g p args m) :
    ArgsFit g p args := by
  cases p with
  | none => exact h.2
  | fixedLen n =>
    refine ⟨?_, h.1⟩
    rcases h.2 with ⟨_, e⟩ | ⟨_, e⟩
    · rw [e]; exact Nat.zero_le _
    · exact e
  | rangeLen a n =>
    refine ⟨?_, h.1⟩
    rcases h.2 with ⟨_, e⟩ | ⟨_, e⟩
    · rw [e]; exact Nat.zero_le _
    · exact e
  | greedy => exact absurd h id
  | glob re =>
    obtain ⟨ks, a, _, c⟩ := h
    rw [char_letter] at c
    exact ⟨ks, a, c⟩

theorem Fits.init (g : GlobFn) {p : ArgPattern} (hp : p ≠ .greedy) : Fits g p [] (startMatch p) := by
  have key : ∀ n : Nat, (∀ a ∈ ([] : List Elem), IsArg a) ∧
      (((if n = 0 then ArgMatcher.none else .atMost n 0) = .none ∧ ([] : List Elem) = []) ∨
        ((if n = 0 then ArgMatcher.none else .atMost n 0) = .atMost n 0 ∧ 0 ≤ n)) := by
    intro n
    refine ⟨fun _ h => (by cases h), ?_⟩
    by_cases h : n = 0
    · rw [if_pos h]; exact Or.inl ⟨rfl, rfl⟩
    · rw [if_neg h]; exact Or.inr ⟨rfl, Nat.zero_le _⟩
  cases p with
  | none => exact ⟨rfl, rfl⟩
  | fixedLen n => exact key n
  | rangeLen a n => exact key n
  | greedy => exact absurd rfl hp
  | glob re => exact ⟨[], .nil, rfl, Or.inl rfl⟩

theorem Fits.notGreedy {g : GlobFn} {p : ArgPattern} {args : List Elem} {m : ArgMatcher} (h : Fits g p args m) :
    m.isGreedy = false := by
  cases p with
  | none => rw [h.1]; rfl
  | fixedLen n => rcases h.2 with ⟨e, _⟩ | ⟨e, _⟩ <;> rw [e] <;> rfl
  | rangeLen a n => rcases h.2 with ⟨e, _⟩ | ⟨e, _⟩ <;> rw [e] <;> rfl
  | greedy => exact absurd h id
  | glob re => obtain ⟨_, _, e, _⟩ := h; rw [e]; rfl

theorem ArgsOfKinds.snoc {ks : List ArgKind} {as : List Elem} {k : ArgKind} {a : Elem} (h : ArgsOfKinds ks as)
    (ha : ArgOfKind k a) : ArgsOfKinds (ks ++ [k]) (as ++ [a]) := by
  induction h with
  | nil => exact .cons ha .nil
  | cons h _ ih => exact .cons h ih

theorem atMost_snoc {g : GlobFn} {n : Nat} {m m' : ArgMatcher} {args : List Elem} {a : Elem}
    (h : (∀ a ∈ args, IsArg a) ∧ ((m = .none ∧ args = []) ∨ (m = .atMost n args.length ∧ args.length ≤ n)))
    (ht : m.tryMatch g .term = (true, m')) (ha : IsArg a) :
    (∀ x ∈ args ++ [a], IsArg x) ∧ ((m' = .none ∧ args ++ [a] = []) ∨
      (m' = .atMost n (args ++ [a]).length ∧ (args ++ [a]).length ≤ n)) := by
  refine ⟨?_, Or.inr ?_⟩
  · intro x hx
    rcases List.mem_append.1 hx with hx | hx
    · exact h.1 x hx
    · rw [List.mem_singleton] at hx; rw [hx]; exact ha
  · rcases h.2 with ⟨e, _⟩ | ⟨e, _⟩
    · rw [e] at ht
      cases ht
    · rw [e] at ht
      simp only [ArgMatcher.tryMatch, ne_eq, not_true_eq_false, if_false, Prod.mk.injEq, decide_eq_true_eq] at ht
      rw [← ht.2]
      simp only [List.length_append, List.length_singleton]
      exact ⟨trivial, by omega⟩

theorem Fits.term {g : GlobFn} {p : ArgPattern} {args : List Elem} {m m' : ArgMatcher} {a : Elem} (h : Fits g p args m)
    (ht : m.tryMatch g .term = (true, m')) (ha : IsArg a) : Fits g p (args ++ [a]) m' := by
  cases p with
  | none => rw [h.1] at ht; cases ht
  | fixedLen n => exact atMost_snoc h ht ha
  | rangeLen x n => exact atMost_snoc h ht ha
  | greedy => exact absurd h id
  | glob re =>
    obtain ⟨ks, hk, e, _⟩ := h
    rw [e] at ht
    simp only [ArgMatcher.tryMatch, Prod.mk.injEq] at ht
    refine ⟨ks ++ [.term], hk.snoc (k := .term) ha, ?_, Or.inr ?_⟩
    · rw [← ht.2, List.map_append]; rfl
    · rw [List.map_append]; exact ht.1

theorem Fits.brace {g : GlobFn} {p : ArgPattern} {args : List Elem} {m m' : ArgMatcher} {a : Elem} {k : ArgKind} {b : Bool}
    (h : Fits g p args m) (ht : m.matchAsTerm g k = (some b, m')) (ha : IsArg a) (hb : b = false → ArgOfKind k a) :
    Fits g p (args ++ [a]) m' := by
  have atm : ∀ n, ((∀ a ∈ args, IsArg a) ∧ ((m = .none ∧ args = []) ∨ (m = .atMost n args.length ∧ args.length ≤ n))) →
      (∀ x ∈ args ++ [a], IsArg x) ∧ ((m' = .none ∧ args ++ [a] = []) ∨
      (m' = .atMost n (args ++ [a]).length ∧ (args ++ [a]).length ≤ n)) := by
    intro n h
    rcases h.2 with ⟨e, _⟩ | ⟨e, _⟩
    · rw [e] at ht; cases ht
    · rw [e] at ht
      simp only [ArgMatcher.matchAsTerm, Prod.mk.injEq] at ht
      apply atMost_snoc (g := g) h _ ha
      rw [e]
      refine Prod.ext ?_ ht.2
      have h1 := ht.1
      by_cases hc : ((ArgMatcher.atMost n args.length).tryMatch g ArgKind.term).1 = true
      · exact hc
      · rw [if_neg hc] at h1; cases h1
  cases p with
  | none => rw [h.1] at ht; cases ht
  | fixedLen n => exact atm n h
  | rangeLen x n => exact atm n h
  | greedy => exact absurd h id
  | glob re =>
    obtain ⟨ks, hk, e, _⟩ := h
    rw [e] at ht
    simp only [ArgMatcher.matchAsTerm, ArgMatcher.tryMatch, Prod.mk.injEq] at ht
    have h1 := ht.1
    by_cases hc : g re (ks.map ArgKind.char ++ [k.char]) = true
    · simp only [hc, if_true] at h1
      have hbf : b = false := by cases h1; rfl
      refine ⟨ks ++ [k], hk.snoc (hb hbf), ?_, Or.inr ?_⟩
      · rw [← ht.2, List.map_append]; rfl
      · rw [List.map_append]; exact hc
    · simp only [hc] at h1; cases h1

/-- The argument made of one character. -/
def charArg (c : Char) : Elem := .node .clauseArgument [.token .tokenWord [c]]

/-- Characters taken out of a word as arguments. -/
theorem robChars_ok {g : GlobFn} {p : ArgPattern} (cs : Text) : ∀ (m : ArgMatcher) (cnt : Nat) (s : PState) (args : List Elem),
    Fits g p args m → ∃ stopped m' taken rest,
      robChars g cs m cnt s = .ok (stopped, m', cnt + byteLen taken,
        { s with children := s.children ++ taken.map charArg, hold := if taken = [] then s.hold else [] }) ∧
      cs = taken ++ rest ∧ ArgsFit g p (args ++ taken.map charArg) ∧
      (stopped = false → rest = [] ∧ Fits g p (args ++ taken.map charArg) m') := by
  induction cs with
  | nil =>
    intro m cnt s args h
    refine ⟨false, m, [], [], ?_, rfl, ?_, ?_⟩
    · simp [robChars, byteLen]
    · simpa using h.fit
    · intro _; exact ⟨rfl, by simpa using h⟩
  | cons c cs ih =>
    intro m cnt s args h
    cases hr : m.tryMatch g .term with
    | mk ok m1 =>
    cases ok with
    | false =>
      refine ⟨true, m1, [], c :: cs, ?_, rfl, by simpa using h.fit, fun e => (by cases e)⟩
      rw [robChars, hr]
      simp [byteLen]
    | true =>
      have h1 : Fits g p (args ++ [charArg c]) m1 := h.term hr ⟨_, rfl⟩
      obtain ⟨stopped, m', taken, rest, e, e2, hf, hs⟩ := ih m1 (cnt + utf8Len c)
        { s with children := s.children ++ [charArg c], hold := [] } (args ++ [charArg c]) h1
      refine ⟨stopped, m', c :: taken, rest, ?_, by rw [e2]; rfl, ?_, ?_⟩
      · rw [robChars, hr]
        simp only [Bool.not_true, Bool.false_eq_true, if_false]
        have e3 : argClose false ((argOpen false s).token .tokenWord [c])
            = .ok { s with children := s.children ++ [charArg c], hold := [] } := by
          simp only [argClose, argOpen, PState.token, PState.startNode, PState.ignoreHold, Bool.false_eq_true, if_false,
            PState.finishNode, List.take_left, List.drop_left]
          rfl
        rw [e3, ok_bind, e]
        simp [byteLen, Nat.add_assoc]
      · simpa using hf
      · intro hst
        have := hs hst
        exact ⟨this.1, by simpa using this.2⟩

theorem Reads.chars (taken rest : Text) (r : List Tok) (ht : taken ≠ []) :
    Reads ((.word, taken ++ rest) :: r) (if rest = [] then r else (.word, rest) :: r)
      (taken.map fun c => (.tokenWord, [c])) := by
  induction taken with
  | nil => exact absurd rfl ht
  | cons c taken ih =>
    by_cases h : taken = []
    · subst h
      by_cases hr : rest = []
      · subst hr
        rw [if_pos rfl]
        exact .keep (.word, [c]) (.done r)
      · rw [if_neg hr]
        exact .char c hr (.done _)
    · exact .char c (by simp [h]) (ih h)

theorem charArgs_leaves (taken : Text) :
    Elem.leaves.go (taken.map charArg) = taken.map fun c => (Kind.tokenWord, [c]) := by
  induction taken with
  | nil => rfl
  | cons c taken ih =>
    simp only [List.map_cons, Elem.leaves.go, charArg, Elem.leaves, List.append_nil, List.singleton_append]
    exact congrArg _ ih

/-- The state after taking characters out of the word in front. -/
def PState.robbed (s : PState) (taken rest : Text) (r : List Tok) : PState :=
  ⟨if rest = [] then r else (.word, rest) :: r, s.parents, s.children ++ taken.map charArg, [], s.start, s.last, s.scope⟩

theorem rob_go {s : PState} (h : Inv G env s) {taken rest : Text} {r : List Tok}
    (ht : s.toks = (.word, taken ++ rest) :: r) (hne : taken ≠ []) :
    Go G env s (s.robbed taken rest r) ∧ tokSize (if rest = [] then r else (Token.word, rest) :: r) < tokSize s.toks := by
  have hn : s.toks ≠ [] := by rw [ht]; simp
  have ho := h.toks
  rw [ht] at ho
  have hlen : 0 < taken.length := by
    cases taken with
    | nil => exact absurd rfl hne
    | cons => simp
  have hsz : tokSize (if rest = [] then r else (Token.word, rest) :: r) < tokSize s.toks := by
    rw [ht]
    by_cases hr : rest = []
    · rw [if_pos hr, tokSize_cons]; omega
    · rw [if_neg hr, tokSize_cons, tokSize_cons]
      simp only [List.length_append]; omega
  refine ⟨⟨⟨⟨?_, fun _ h => (by cases h), ?_, Or.inl ?_⟩, rfl, rfl, Or.inl rfl, ⟨taken.map fun c => (.tokenWord, [c]), ?_, ?_⟩,
    Nat.le_of_lt hsz, Keep.app rfl⟩, rfl⟩, hsz⟩
  · show TokOk G env.spec (if rest = [] then r else (.word, rest) :: r)
    by_cases hr : rest = []
    · rw [if_pos hr]; exact ho.tail
    · rw [if_neg hr]; exact ho.reword hr
  · intro e he
    rcases List.mem_append.1 he with h' | h'
    · exact h.shape e h'
    · obtain ⟨c, _, rfl⟩ := List.mem_map.1 h'
      rw [charArg, Forall_node]
      refine ⟨trivial, ?_⟩
      intro e he
      rw [List.mem_singleton] at he
      rw [he]; exact Shape_leaf (by simp [leafKinds])
  · apply (h.closed hn).append
    intro e he
    obtain ⟨c, _, rfl⟩ := List.mem_map.1 he
    exact Closed_node (fun e => (by cases e)) (AllClosed.one (Closed_token _ _))
  · show Elem.leaves.go (s.children ++ _) = _
    rw [leaves_go_append, charArgs_leaves]
  · show Reads (s.hold ++ s.toks) ([] ++ _) _
    have := (Reads.skips h.hold s.toks).trans (by rw [ht]; exact Reads.chars taken rest r hne)
    exact this

/-- Groups start with their bracket. -/
theorem Shape_brace (bk : BraceKind) {kind : Kind} {e : Token} (hg : groupInfo (braceKind bk).2 = some (e, kind))
    (x : Text) (cs : List Elem) : Shape env (.node kind (leafOf (.left bk, x) :: cs)) := by
  cases bk
  · simp only [braceKind, groupInfo, Option.some.injEq, Prod.mk.injEq] at hg
    rw [← hg.2]; exact ⟨_, _, rfl, _, _, by simp [Token.kind], rfl⟩
  · simp only [braceKind, groupInfo, Option.some.injEq, Prod.mk.injEq] at hg
    rw [← hg.2]; exact ⟨_, _, rfl, _, _, by simp [Token.kind], rfl⟩
  · simp only [braceKind, groupInfo, Option.some.injEq, Prod.mk.injEq] at hg
    rw [← hg.2]; exact ⟨_, _, rfl, _, _, by simp [Token.kind], rfl⟩

theorem groupInfo_brace (bk : BraceKind) : ∃ e kind, groupInfo (braceKind bk).2 = some (e, kind) ∧
    (∀ cs, ArgOfKind (braceKind bk).1 (.node .clauseArgument [.node kind cs])) := by
  cases bk
  · exact ⟨_, _, rfl, fun cs => ⟨_, rfl⟩⟩
  · exact ⟨_, _, rfl, fun cs => ⟨_, rfl⟩⟩
  · exact ⟨_, _, rfl, fun cs => ⟨_, rfl⟩⟩

/-- The loop collecting arguments one by one. -/
theorem matchLoop_args {C : ContentFn} {m lim : Nat} (hC : CSpec G env m C) {p : ArgPattern} {g : GlobFn} :
    ∀ (n : Nat) (am : ArgMatcher) (s : PState) (args : List Elem), Inv G env s → s.start = none → s.last = none →
      Fits g p args am → tokSize s.toks < n → tokSize s.toks < m → tokSize s.toks < lim →
      Ok G (fun s' => GoH G env s s' ∧ s'.parents = s.parents ∧
          ∃ new, s'.children = s.children ++ new ∧ ArgsFit g p (args ++ new))
        (matchLoop g C lim false n am s) := by
  intro n
  induction n with
  | zero => intro am s args _ _ _ _ h; omega
  | succ n ih =>
    intro am s args h hs hl hf hn hm hlim
    have stop : GoH G env s s ∧ s.parents = s.parents ∧ ∃ new, s.children = s.children ++ new ∧ ArgsFit g p (args ++ new) :=
      ⟨.refl h, rfl, [], by simp, by simpa using hf.fit⟩
    unfold matchLoop
    cases hts : s.toks with
    | nil => exact stop
    | cons t r =>
    obtain ⟨k, text⟩ := t
    have hne : s.toks ≠ [] := by rw [hts]; simp
    have hcl := h.closed hne
    -- continue the loop after one argument
    have next : ∀ (am' : ArgMatcher) (s1 : PState) (new : List Elem), GoH G env s s1 → s1.parents = s.parents →
        tokSize s1.toks < tokSize s.toks → s1.children = s.children ++ new → Fits g p (args ++ new) am' →
        Ok G (fun s' => GoH G env s s' ∧ s'.parents = s.parents ∧
          ∃ new, s'.children = s.children ++ new ∧ ArgsFit g p (args ++ new)) (matchLoop g C lim false n am' s1) := by
      intro am' s1 new g1 p1 sz1 c1 f1
      refine (ih am' s1 (args ++ new) g1.inv (by rw [g1.start]; exact hs) ?_ f1 (by omega) (by omega) (by omega)).mono ?_
      · rcases g1.last with e | e
        · rw [e]; exact hl
        · exact e
      · rintro s' ⟨g2, p2, new2, c2, f2⟩
        exact ⟨g1.trans g2, p2.trans p1, new ++ new2, by rw [c2, c1, List.append_assoc], by rw [← List.append_assoc]; exact f2⟩
    simp only [Bool.false_eq_true, if_false, false_and, and_false, Bool.not_false, and_true]
    by_cases h1 : k.isTrivia = true
    · rw [if_pos h1]
      obtain ⟨s1, e1, g1, p1, t1, c1⟩ := holdTrivia_go h hts h1
      rw [e1, ok_bind]
      refine next am s1 [] g1 p1 ?_ (by rw [c1]; simp) (by simpa using hf)
      rw [t1, hts, tokSize_cons]; omega
    rw [if_neg h1]
    by_cases h2 : k = .ampersand
    · rw [if_pos h2]; exact stop
    rw [if_neg h2]
    by_cases h3 : k = .caret ∨ k = .underscore
    · rw [if_pos h3]; exact stop
    rw [if_neg h3]
    by_cases h4 : k = .word
    · rw [if_pos h4]
      subst h4
      obtain ⟨stopped, am', taken, rest, e, e2, hfit, hst⟩ := robChars_ok (g := g) (p := p) text am 0 s args hf
      rw [e, ok_bind]
      simp only [Nat.zero_add]
      have hw : text ≠ [] := by
        have := h.toks.words (.word, text) (by rw [hts]; exact List.mem_cons_self ..) rfl
        exact this
      by_cases htk : taken = []
      · subst htk
        have : stopped = true := by
          cases stopped with
          | true => rfl
          | false =>
            have := (hst rfl).1
            rw [this] at e2
            exact absurd (by simpa using e2) hw
        subst this
        simp only [byteLen, consumeIf, Nat.lt_irrefl, if_false, ok_bind, if_true]
        simp only [List.map_nil, List.append_nil]
        exact stop
      · have hpos := byteLen_pos htk
        rw [if_neg htk]
        have hc := consumeBytes_prefix (s := { s with children := s.children ++ taken.map charArg, hold := [] })
          (k := .word) (a := taken) (b := rest) (r := r) (by show s.toks = _; rw [hts, e2])
        have ec : consumeIf (byteLen taken) { s with children := s.children ++ taken.map charArg, hold := [] }
            = .ok (s.robbed taken rest r) := by
          unfold consumeIf
          rw [if_pos hpos, hc]; rfl
        rw [ec, ok_bind]
        have hg := rob_go h (taken := taken) (rest := rest) (r := r) (by rw [hts, e2]) htk
        cases stopped with
        | true => exact ⟨hg.1.toGoH, rfl, _, rfl, hfit⟩
        | false => exact next am' _ (taken.map charArg) hg.1.toGoH rfl hg.2 rfl (hst rfl).2
    rw [if_neg h4]
    -- opening an argument
    have gi := ignore_go h
    have go1 : Go G env s (argOpen false s) := gi.trans (Go.startNode gi.inv rfl .clauseArgument)
    have gi2 : Go G env (s.ignoreHold) (argOpen false s) := Go.startNode gi.inv rfl .clauseArgument
    have ot : (argOpen false s).toks = (k, text) :: r := hts
    -- closing it
    have close : ∀ (s2 : PState) (am' : ArgMatcher), Go G env (argOpen false s) s2 →
        s2.parents = (argOpen false s).parents → tokSize s2.toks < tokSize s.toks →
        (Fits g p (args ++ [.node .clauseArgument (s2.children.drop s.children.length)]) am') →
        Ok G (fun s' => GoH G env s s' ∧ s'.parents = s.parents ∧
          ∃ new, s'.children = s.children ++ new ∧ ArgsFit g p (args ++ new))
          (argClose false s2 >>= fun s3 => matchLoop g C lim false n am' s3) := by
      intro s2 am' g2 p2 sz f2
      obtain ⟨s5, e5, g5, p5, t5, c5⟩ := region (s := s.ignoreHold) (s' := s2) (k := .clauseArgument) hcl g2 p2 trivial
        (CurlyEnd.other (by decide))
      have e6 : argClose false s2 = .ok s5 := e5
      rw [e6, ok_bind]
      exact next am' s5 _ (gi.trans g5).toGoH p5 (by rw [t5]; exact sz) c5 f2
    have main : (∀ bk, k ≠ .left bk) →
        Ok G (fun s' => GoH G env s s' ∧ s'.parents = s.parents ∧
          ∃ new, s'.children = s.children ++ new ∧ ArgsFit g p (args ++ new))
        (if stopByScope s.scope k = true then Except.ok s
         else if (!(am.tryMatch g ArgKind.term).fst) = true then Except.ok s
         else do
            let (attachable, s_1) ← C true (argOpen false s)
            let s_2 ← argClose false s_1
            matchLoop g C lim false n (am.tryMatch g ArgKind.term).snd s_2) := by
      intro _
      by_cases h5 : stopByScope s.scope k = true
      · rw [if_pos h5]; exact stop
      rw [if_neg h5]
      cases hr : am.tryMatch g .term with
      | mk ok m1 =>
      cases ok with
      | false => exact stop
      | true =>
        simp only [Bool.not_true, Bool.false_eq_true, if_false]
        refine Ok.bind (hC true (argOpen false s) ⟨go1.inv, rfl, ⟨?_, ?_, ?_, ?_, ?_⟩, hm, fun e => (by cases e)⟩) ?_
        · exact Nat.le_refl _
        · intro p e
          have : s.last = some p := e
          rw [hl] at this; cases this
        · intro p e
          have : s.start = some p := e
          rw [hs] at this; cases this
        · intro _ p e
          have : s.start = some p := e
          rw [hs] at this; cases this
        · intro p q e
          have : s.start = some p := e
          rw [hs] at this; cases this
        · rintro ⟨flag, s2⟩ hp
          have hst : s2.start = none := by
            cases he : s2.start with
            | none => rfl
            | some q =>
              have : s.start = some q := (hp.start q he).1
              rw [hs] at this; cases this
          have hla : s2.last = none := by
            cases he : s2.last with
            | none => rfl
            | some q =>
              have : s.last = some q := (hp.last q he).1
              rw [hl] at this; cases this
          have hk : Keep s.children.length (argOpen false s) s2 := by
            apply hp.keep s.children.length (Nat.le_refl _)
            exact Or.inl (Nat.le_refl _)
          refine close s2 m1 ⟨⟨hp.inv, hp.scope, ?_, Or.inr hla, hp.read, ?_, hk⟩, hp.hold⟩ hp.parents ?_ ?_
          · rw [hst]; exact hs.symm
          · exact Nat.le_of_lt (hp.size (by rw [ot]; simp))
          · exact hp.size (by rw [ot]; simp)
          · exact hf.term hr ⟨_, rfl⟩
    cases k with
    | left bk =>
      simp only
      cases hr : am.matchAsTerm g (braceKind bk).1 with
      | mk o m1 =>
      cases o with
      | none => exact stop
      | some b =>
        simp only
        cases b with
        | true =>
          simp only [if_true]
          rw [eat_eq ot, ok_bind]
          refine close _ m1 (Go.eat go1.inv rfl ot) rfl ?_ ?_
          · show tokSize r < _
            rw [hts, tokSize_cons]; omega
          · exact hf.brace hr ⟨_, rfl⟩ (fun e => (by cases e))
        | false =>
          simp only [Bool.false_eq_true, if_false]
          obtain ⟨e, kind, hgi, hak⟩ := groupInfo_brace bk
          rw [hts, tokSize_cons] at hm hlim
          refine Ok.bind (itemGroup_ok hC hgi go1.inv rfl ot (by omega) (by omega) (Shape_brace bk hgi text)) ?_
          rintro s2 ⟨g2, p2, sz2, cs, c2⟩
          refine close s2 m1 g2 p2 sz2 ?_
          have : s2.children.drop s.children.length = [.node kind cs] := by
            rw [c2]
            show (s.children ++ _).drop _ = _
            rw [List.drop_left]
          rw [this]
          exact hf.brace hr ⟨_, rfl⟩ (fun _ => hak cs)
    | _ => exact main (fun _ e => (by cases e))

/-- The loop of a greedy argument: the rest of the list becomes one argument. -/
theorem matchLoop_greedy {C : ContentFn} {m lim f : Nat} (hC : CSpec G env m C) {g : GlobFn} :
    ∀ (n : Nat) (s : PState), LoopInv G env f s → tokSize s.toks < n → tokSize s.toks < m → tokSize s.toks < lim →
      Ok G (fun s' => LoopPost G env f s s') (matchLoop g C lim true n .greedy s) := by
  intro n
  induction n with
  | zero => intro s _ h; omega
  | succ n ih =>
    intro s h hn hm hlim
    have stop := LoopPost.refl h
    unfold matchLoop
    cases hts : s.toks with
    | nil => exact stop
    | cons t r =>
    obtain ⟨k, text⟩ := t
    have hne : s.toks ≠ [] := by rw [hts]; simp
    have next : ∀ (s1 : PState), LoopInv G env f s1 → LoopPost G env f s s1 → tokSize s1.toks < tokSize s.toks →
        Ok G (fun s' => LoopPost G env f s s') (matchLoop g C lim true n .greedy s1) := by
      intro s1 a b c
      exact (ih s1 a (by omega) (by omega) (by omega)).mono fun s' d => b.trans d
    have goStep : ∀ (upd : Bool) (s1 : PState), Go G env s s1 → s1.parents = s.parents → tokSize s1.toks < tokSize s.toks →
        Ok G (fun s' => LoopPost G env f s s')
          (matchLoop g C lim true n .greedy (if upd then { s1 with last := some s.children.length } else s1)) := by
      intro upd s1 g1 p1 sz
      obtain ⟨a, b, c⟩ := h.step (Post.ofGo (flag := true) h.valid g1 p1 (fun _ => sz)) (upd := upd) (fun _ => rfl) hne
      exact next _ a b c
    have eatGo : ∀ upd : Bool, Ok G (fun s' => LoopPost G env f s s')
        (s.eat >>= fun s1 => matchLoop g C lim true n .greedy
          (if upd then { s1 with last := some s.children.length } else s1)) := by
      intro upd
      rw [eat_eq hts, ok_bind]
      refine goStep upd _ (Go.eat h.inv h.hold hts) rfl ?_
      show tokSize r < _
      rw [hts, tokSize_cons]; omega
    simp only [if_true, Bool.not_true, Bool.false_eq_true, and_false, if_false, true_and]
    by_cases h1 : k.isTrivia = true
    · rw [if_pos h1]
      exact eatGo false
    rw [if_neg h1]
    by_cases h2 : k = .newLine ∧ s.scope = .environment
    · rw [if_pos h2]; exact stop
    rw [if_neg h2]
    by_cases h3 : k = .ampersand
    · rw [if_pos h3]; exact stop
    rw [if_neg h3]
    have main : Ok G (fun s' => LoopPost G env f s s')
        (if stopByScope s.scope k = true then Except.ok s
         else do
            let (attachable, s_1) ← C true s
            matchLoop g C lim true n .greedy
              (if attachable = true then { s_1 with last := some s.children.length } else s_1)) := by
      by_cases h5 : stopByScope s.scope k = true
      · rw [if_pos h5]; exact stop
      rw [if_neg h5]
      refine Ok.bind (hC true s ⟨h.inv, h.hold, h.valid, hm, fun e => (by cases e)⟩) ?_
      rintro ⟨flag, s1⟩ hp
      obtain ⟨a, b, c⟩ := h.step hp (upd := flag) (fun e => e) hne
      exact next _ a b c
    cases k with
    | left bk =>
      simp only [ArgMatcher.matchAsTerm]
      by_cases hb : (braceKind bk).1 ≠ .term
      · rw [decide_eq_true hb]
        exact eatGo true
      · have : (decide ((braceKind bk).1 ≠ .term)) = false := by simpa using hb
        rw [this]
        simp only [argOpen, if_true, Bool.false_eq_true, if_false]
        obtain ⟨e, kind, hgi, hak⟩ := groupInfo_brace bk
        rw [hts, tokSize_cons] at hm hlim
        refine Ok.bind (itemGroup_ok hC hgi h.inv h.hold hts (by omega) (by omega) (Shape_brace bk hgi text)) ?_
        rintro s2 ⟨g2, p2, sz2, cs, c2⟩
        exact goStep true s2 g2 p2 sz2
    | _ => exact main

end Mitex
