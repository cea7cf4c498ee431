/-
The parser agrees with the grammar on rows: arguments.
-/
import Verif.Proof.GrammarAgree

namespace Mitex
namespace Grammar

/-! ### Matchers -/

/-- The matcher after arguments of the kinds `ks`. -/
def Corr (p : ArgPattern) (ks : List ArgKind) (m : ArgMatcher) : Prop :=
  match p with
  | .none => m = .none
  | .fixedLen n | .rangeLen _ n => if n = 0 then m = .none else m = .atMost n ks.length
  | .greedy => False
  | .glob re => m = .glob re (ks.map ArgKind.char)

theorem Corr.init {p : ArgPattern} (h : p ≠ .greedy) : Corr p [] (startMatch p) := by
  cases p with
  | greedy => exact absurd rfl h
  | none => exact rfl
  | glob re => exact rfl
  | fixedLen n =>
    unfold Corr startMatch
    by_cases hn : n = 0
    · simp [hn]
    · simp [hn]
  | rangeLen a n =>
    unfold Corr startMatch
    by_cases hn : n = 0
    · simp [hn]
    · simp [hn]

theorem Corr.notGreedy {p : ArgPattern} {ks : List ArgKind} {m : ArgMatcher} (h : Corr p ks m) : m.isGreedy = false := by
  cases p with
  | greedy => exact h.elim
  | none => cases h; rfl
  | glob re => cases h; rfl
  | fixedLen n =>
    unfold Corr at h
    dsimp only at h
    split at h <;> (rw [h]; rfl)
  | rangeLen a n =>
    unfold Corr at h
    dsimp only at h
    split at h <;> (rw [h]; rfl)

theorem Corr.len {n : Nat} {ks : List ArgKind} {m : ArgMatcher} {g : GlobFn} (h : if n = 0 then m = .none else m = .atMost n ks.length) :
    (m.tryMatch g .term).1 = decide (ks.length < n) ∧
    (decide (ks.length < n) = true → ∀ k, if n = 0 then (m.tryMatch g .term).2 = .none
      else (m.tryMatch g .term).2 = .atMost n (ks ++ [k]).length) ∧
    ∀ b, m.matchAsTerm g (argGrouping b).1 = (if decide (ks.length < n) then some (!decide (b = .curly)) else none, (m.tryMatch g .term).2) := by
  by_cases hn : n = 0
  · rw [if_pos hn] at h
    subst h hn
    refine ⟨by simp [ArgMatcher.tryMatch], by simp, ?_⟩
    intro b
    simp [ArgMatcher.matchAsTerm, ArgMatcher.tryMatch]
  · rw [if_neg hn] at h
    subst h
    refine ⟨by simp [ArgMatcher.tryMatch], ?_, ?_⟩
    · intro _ k
      rw [if_neg hn]
      simp [ArgMatcher.tryMatch]
    · intro b
      cases b <;> simp [ArgMatcher.matchAsTerm, ArgMatcher.tryMatch, argGrouping]

theorem Corr.try {p : ArgPattern} {ks : List ArgKind} {m : ArgMatcher} {g : GlobFn} (h : Corr p ks m) :
    (m.tryMatch g .term).1 = takes g p ks .term ∧ (takes g p ks .term = true → Corr p (ks ++ [.term]) (m.tryMatch g .term).2) := by
  cases p with
  | greedy => exact h.elim
  | none => cases h; exact ⟨rfl, fun h => (by cases h)⟩
  | glob re =>
    have h : m = _ := h
    subst h
    refine ⟨by simp [ArgMatcher.tryMatch, takes, char_letter], fun _ => ?_⟩
    show _ = _
    simp [ArgMatcher.tryMatch]
  | fixedLen n => exact ⟨(Corr.len (g := g) h).1, fun e => (Corr.len (g := g) h).2.1 e .term⟩
  | rangeLen a n => exact ⟨(Corr.len (g := g) h).1, fun e => (Corr.len (g := g) h).2.1 e .term⟩

theorem Corr.brace {p : ArgPattern} {ks : List ArgKind} {m : ArgMatcher} {g : GlobFn} (h : Corr p ks m) (b : BraceKind) :
    (m.matchAsTerm g (argGrouping b).1).1 = (if takes g p ks (argGrouping b).1 then some (!seesGroup p b) else none) ∧
    (takes g p ks (argGrouping b).1 = true → Corr p (ks ++ [(argGrouping b).1]) (m.matchAsTerm g (argGrouping b).1).2) := by
  cases p with
  | greedy => exact h.elim
  | none => cases h; exact ⟨rfl, fun h => (by cases h)⟩
  | glob re =>
    have h : m = _ := h
    subst h
    constructor
    · cases b <;> simp [ArgMatcher.matchAsTerm, ArgMatcher.tryMatch, takes, seesGroup, char_letter] <;> rfl
    · intro _
      show _ = _
      simp [ArgMatcher.matchAsTerm, ArgMatcher.tryMatch]
  | fixedLen n =>
    have := (Corr.len (g := g) h).2.2 b
    rw [this]
    refine ⟨?_, fun e => (Corr.len (g := g) h).2.1 e _⟩
    cases b <;> rfl
  | rangeLen a n =>
    have := (Corr.len (g := g) h).2.2 b
    rw [this]
    refine ⟨?_, fun e => (Corr.len (g := g) h).2.1 e _⟩
    cases b <;> rfl

/-! ### Words -/

theorem rob_eq {g : GlobFn} {p : ArgPattern} (text : Text) : ∀ {ks : List ArgKind} {m : ArgMatcher} (cnt : Nat) (s : PState), Corr p ks m →
    ∃ taken m', text = taken ++ (rob g p ks text).2.1 ∧
      robChars g text m cnt s = .ok (decide ((rob g p ks text).2.1 ≠ []), m', cnt + byteLen taken,
        { s with
          children := s.children ++ (rob g p ks text).1
          hold := if (rob g p ks text).1.isEmpty then s.hold else [] }) ∧
      ((rob g p ks text).2.1 = [] → Corr p (rob g p ks text).2.2 m') ∧ ((rob g p ks text).1.isEmpty = true ↔ taken = []) := by
  induction text with
  | nil =>
    intro ks m cnt s h
    exact ⟨[], m, rfl, by simp [rob, robChars, byteLen], fun _ => h, by simp [rob]⟩
  | cons c cs ih =>
    intro ks m cnt s h
    have ht := h.try (g := g)
    unfold rob robChars
    dsimp only
    rw [ht.1]
    by_cases htk : takes g p ks .term = true
    · simp only [htk, if_true, Bool.not_true, Bool.false_eq_true, if_false]
      have e : argClose false ((argOpen false s).token .tokenWord [c])
          = .ok { s with children := s.children ++ [.node .clauseArgument [.token .tokenWord [c]]], hold := [] } := by
        unfold argClose argOpen
        simp only [Bool.false_eq_true, if_false]
        rw [finish_app (cs := s.children) (es := [.token .tokenWord [c]]) rfl rfl]
        rfl
      rw [e, ok_bind]
      obtain ⟨taken, m', h1, h2, h3, h4⟩ := ih (cnt + utf8Len c)
        { s with children := s.children ++ [.node .clauseArgument [.token .tokenWord [c]]], hold := [] } (ht.2 htk)
      refine ⟨c :: taken, m', by rw [List.cons_append, ← h1], ?_, h3, by simp⟩
      rw [h2]
      simp [byteLen, Nat.add_assoc]
    · simp only [htk, if_false, Bool.not_false, if_true, Bool.false_eq_true]
      exact ⟨[], m.tryMatch g .term |>.2, rfl, by simp [byteLen], fun h => (by cases h), by simp⟩

/-- A word in argument position. -/
theorem word_eq {g : GlobFn} {p : ArgPattern} {ks : List ArgKind} {m : ArgMatcher} (h : Corr p ks m) {s : PState} {t : Tok} {ts : List Tok}
    (ht : s.toks = t :: ts) (hk : t.1 = .word) :
    ∃ m', ((rob g p ks t.2).2.1 = [] → Corr p (rob g p ks t.2).2.2 m') ∧
      (robChars g t.2 m 0 s >>= fun q => consumeIf q.2.2.1 q.2.2.2 >>= fun s' => .ok (q.1, q.2.1, s'))
        = .ok (decide ((rob g p ks t.2).2.1 ≠ []), m', { s with
          children := s.children ++ (rob g p ks t.2).1
          hold := if (rob g p ks t.2).1.isEmpty then s.hold else []
          toks := if (rob g p ks t.2).2.1 ≠ [] then (.word, (rob g p ks t.2).2.1) :: ts else if t.2 = [] then t :: ts else ts }) := by
  obtain ⟨k, x⟩ := t
  dsimp only at hk ⊢
  subst hk
  obtain ⟨taken, m', h1, h2, h3, h4⟩ := rob_eq (g := g) x 0 s h
  refine ⟨m', h3, ?_⟩
  rw [h2, ok_bind]
  dsimp only
  rw [Nat.zero_add]
  unfold consumeIf
  by_cases hn : taken = []
  · subst hn
    have he := h4.2 rfl
    simp only [List.nil_append] at h1
    have hnil : (rob g p ks x).1 = [] := by simpa using he
    rw [if_neg (by simp [byteLen]), ok_bind, hnil]
    congr 3
    by_cases hx : x = []
    · rw [← h1]; simp [hx, ht]
    · rw [← h1]; simp [hx, ht]
  · rw [if_pos (byteLen_pos hn)]
    have hx : x ≠ [] := by
      rw [h1]; simp [hn]
    rw [consumeBytes_prefix (k := .word) (a := taken) (b := (rob g p ks x).2.1) (r := ts) (by
      show s.toks = _
      rw [ht, ← h1]), ok_bind]
    simp only [hx, if_false]
    congr 3
    by_cases hr : (rob g p ks x).2.1 = []
    · simp [hr]
    · simp [hr]

/-! ### Arguments -/

theorem matchLoop_word {g : GlobFn} {C : ContentFn} {lim n : Nat} {m : ArgMatcher} {s : PState} {t : Tok} {ts : List Tok}
    (ht : s.toks = t :: ts) (hk : t.1 = .word) :
    matchLoop g C lim false (n + 1) m s
      = ((robChars g t.2 m 0 s >>= fun q => consumeIf q.2.2.1 q.2.2.2 >>= fun s' => .ok (q.1, q.2.1, s')) >>= fun q =>
        if q.1 then .ok q.2.2 else matchLoop g C lim false n q.2.1 q.2.2) := by
  obtain ⟨k, x⟩ := t
  dsimp only at hk
  subst hk
  rw [matchLoop, ht]
  simp only [Token.isTrivia, Bool.false_eq_true, if_false, reduceCtorEq, false_and, and_false, Bool.not_false, and_true, or_self, true_and,
    if_true]
  cases robChars g x m 0 s with
  | error e => rfl
  | ok q =>
    obtain ⟨a, b, c, d⟩ := q
    simp only [ok_bind]
    cases consumeIf c d with
    | error e => rfl
    | ok s' => rfl

theorem matchLoop_left {g : GlobFn} {C : ContentFn} {lim n : Nat} {greedy : Bool} {m : ArgMatcher} {s : PState} {b : BraceKind} {x : Text}
    {ts : List Tok} (ht : s.toks = (.left b, x) :: ts) :
    matchLoop g C lim greedy (n + 1) m s
      = match m.matchAsTerm g (braceKind b).1 with
          | (none, _) => .ok s
          | (some asTerm, m) =>
            (if asTerm then (argOpen greedy s).eat else itemGroup C lim (braceKind b).2 (argOpen greedy s)) >>= fun s1 =>
            argClose greedy s1 >>= fun s2 =>
            matchLoop g C lim greedy n m (if greedy then { s2 with last := some s.checkpoint } else s2) := by
  rw [matchLoop, ht]
  simp only [Token.isTrivia, Bool.false_eq_true, if_false, reduceCtorEq, false_and, or_self]
  cases m.matchAsTerm g (braceKind b).1 with
  | mk o m' =>
    cases o with
    | none => rfl
    | some asTerm => cases asTerm <;> rfl

theorem matchLoop_other {g : GlobFn} {C : ContentFn} {lim n : Nat} {greedy : Bool} {m : ArgMatcher} {s : PState} {k : Token} {x : Text}
    {ts : List Tok} (ht : s.toks = (k, x) :: ts) (h1 : k.isTrivia = false) (h2 : ¬ (k = .newLine ∧ greedy ∧ s.scope = .environment))
    (h3 : k ≠ .ampersand) (h4 : ¬ ((k = .caret ∨ k = .underscore) ∧ !greedy)) (h5 : ¬ (k = .word ∧ !greedy)) (h6 : ∀ b, k ≠ .left b) :
    matchLoop g C lim greedy (n + 1) m s
      = if stopByScope s.scope k then .ok s
        else if !(m.tryMatch g .term).1 then .ok s
        else C true (argOpen greedy s) >>= fun q => argClose greedy q.2 >>= fun s2 =>
          matchLoop g C lim greedy n (m.tryMatch g .term).2 (if greedy ∧ q.1 then { s2 with last := some s.checkpoint } else s2) := by
  rw [matchLoop, ht]
  dsimp only
  rw [if_neg (by rw [h1]; simp), if_neg h2, if_neg h3, if_neg h4, if_neg h5]
  cases k <;> first | rfl | exact absurd rfl (h6 _)

theorem gArgs_other {g : GlobFn} {G : GFn} {lim n : Nat} {sc : Scope} {p : ArgPattern} {ks : List ArgKind} {k : Token} {x : Text}
    {ts : List Tok} (h1 : isBlank k = false) (h2 : k ∉ [Token.ampersand, .caret, .underscore]) (h3 : k ≠ .word) (h4 : ∀ b, k ≠ .left b) :
    gArgs g G lim sc p (n + 1) ks ((k, x) :: ts)
      = if k ∈ enders sc then .ok ([], [], (k, x) :: ts)
        else if takes g p ks .term then
          G sc false ⟨[], none, none⟩ ((k, x) :: ts) >>= fun q =>
          gArgs g G lim sc p n (ks ++ [.term]) q.2.2 >>= fun q' => .ok (.node .clauseArgument q.2.1.items :: q'.1, q'.2)
        else .ok ([], [], (k, x) :: ts) := by
  rw [gArgs.eq_def]
  dsimp only
  rw [if_neg (by rw [h1]; simp), if_neg h2]
  cases k <;> first | rfl | exact absurd rfl (h4 _) | exact absurd rfl h3

theorem gArgs_word {g : GlobFn} {G : GFn} {lim n : Nat} {sc : Scope} {p : ArgPattern} {ks : List ArgKind} {x : Text} {ts : List Tok} :
    gArgs g G lim sc p (n + 1) ks ((.word, x) :: ts)
      = if (rob g p ks x).2.1 ≠ [] then .ok ((rob g p ks x).1, [], (.word, (rob g p ks x).2.1) :: ts)
        else gArgs g G lim sc p n (rob g p ks x).2.2 (if x = [] then (.word, x) :: ts else ts) >>= fun q' =>
          .ok ((rob g p ks x).1 ++ q'.1, q'.2) := by
  rw [gArgs.eq_def]
  dsimp only
  rw [if_neg (by simp [isBlank]), if_neg (by simp)]

/-- The state after arguments. -/
def argued (s : PState) (q : List Elem × List Tok × List Tok) : PState :=
  { s with
    children := s.children ++ q.1
    hold := if q.1.isEmpty then s.hold ++ q.2.1 else q.2.1
    toks := q.2.2 }

theorem argued_nil {s : PState} {ts : List Tok} (h : s.toks = ts) : argued s ([], [], ts) = s := by
  subst h
  unfold argued
  simp

theorem frame_children {s a : PState} (hf : FrameC s a) : a.children = s.children.take s.top ++ (rowOf a).items := by
  unfold rowOf
  rw [hf.top, ← hf.kept]
  exact (List.take_append_drop _ _).symm

/-- An item as an argument. -/
theorem Agree.arg {C : ContentFn} {G : GFn} (hC : Agree C G) {s : PState} (hs : s.start = none) (hl : s.last = none) :
    M (fun a g => a.1 = g.1 ∧ argClose false a.2 = .ok { s with
        children := s.children ++ [.node .clauseArgument g.2.1.items], hold := [], toks := g.2.2 })
      (C true (argOpen false s)) (G s.scope false ⟨[], none, none⟩ s.toks) := by
  have e : argOpen false s = { s with hold := [], parents := (.clauseArgument, s.children.length) :: s.parents } := rfl
  rw [e]
  have htop : PState.top { s with hold := [], parents := (.clauseArgument, s.children.length) :: s.parents } = s.children.length := rfl
  have h := hC true { s with hold := [], parents := (.clauseArgument, s.children.length) :: s.parents } rfl (by rw [htop]; exact Nat.le_refl _)
  have hr : rowOf { s with hold := [], parents := (.clauseArgument, s.children.length) :: s.parents } = ⟨[], none, none⟩ := by
    unfold rowOf
    rw [htop]
    simp [hs, hl]
  rw [hr] at h
  refine h.mono ?_
  rintro ⟨att, a⟩ g ⟨hg, hf⟩
  subst hg
  refine ⟨rfl, ?_⟩
  have hc := frame_children hf
  rw [htop] at hc
  dsimp only at hc
  rw [List.take_length] at hc
  show PState.finishNode a = _
  have hp := hf.parents
  dsimp only at hp
  rw [finish_app hp hc]
  have h1 := hf.scope
  have h2 := hf.hold
  have h3 : a.start = none := by
    rcases hf.start with e | e
    · rw [e]; exact hs
    · exact e
  have h4 : a.last = none := by
    rcases hf.last with e | e
    · rw [e]; exact hl
    · exact e
  dsimp only at h1 h2 h3 h4
  rw [h1, h2, h3, h4, hs, hl]

theorem Agree.args {C : ContentFn} {G : GFn} (hC : Agree C G) {g : GlobFn} {p : ArgPattern} (lim : Nat) (n : Nat) :
    ∀ (ks : List ArgKind) (m : ArgMatcher) (s : PState), Corr p ks m → s.start = none → s.last = none →
      M (fun a q => a = argued s q) (matchLoop g C lim false n m s) (gArgs g G lim s.scope p n ks s.toks) := by
  induction n with
  | zero => intro ks m s _ _ _; exact rfl
  | succ n ih =>
    intro ks m s hm hs hl
    -- an argument has been read
    have step : ∀ (e : Elem) (ks' : List ArgKind) (m' : ArgMatcher) (ts' : List Tok), Corr p ks' m' →
        M (fun a q => a = argued s q)
          (matchLoop g C lim false n m' { s with children := s.children ++ [e], hold := [], toks := ts' })
          (gArgs g G lim s.scope p n ks' ts' >>= fun q' => .ok (e :: q'.1, q'.2)) := by
      intro e ks' m' ts' hm'
      have h := ih ks' m' { s with children := s.children ++ [e], hold := [], toks := ts' } hm' hs hl
      dsimp only at h
      cases hq : gArgs g G lim s.scope p n ks' ts' with
      | error x =>
        rw [hq] at h
        cases hL : matchLoop g C lim false n m' { s with children := s.children ++ [e], hold := [], toks := ts' } with
        | error y => rw [hL] at h; exact h
        | ok a => rw [hL] at h; exact h.elim
      | ok q =>
        rw [hq] at h
        cases hL : matchLoop g C lim false n m' { s with children := s.children ++ [e], hold := [], toks := ts' } with
        | error y => rw [hL] at h; exact h.elim
        | ok a =>
          rw [hL] at h
          have h : a = _ := h
          subst h
          show _ = _
          unfold argued
          simp
    cases ht : s.toks with
    | nil =>
      rw [matchLoop, gArgs.eq_def, ht]
      exact (argued_nil ht).symm
    | cons t ts =>
      by_cases hb : isBlank t.1 = true
      · have hb' : t.1.isTrivia = true := by rw [← isBlank_eq]; exact hb
        rw [matchLoop, gArgs.eq_def, ht]
        dsimp only
        rw [if_pos hb', if_pos hb]
        have e : (if false = true then s.eat else s.holdTrivia) = .ok { s with toks := ts, hold := s.hold ++ [t] } := by
          unfold PState.holdTrivia
          rw [ht]
          rfl
        rw [show (if false = true then s.eat else s.holdTrivia) = s.holdTrivia from rfl] at e
        simp only [Bool.false_eq_true, if_false]
        rw [e, ok_bind]
        have h := ih ks m { s with toks := ts, hold := s.hold ++ [t] } hm hs hl
        dsimp only at h
        cases hq : gArgs g G lim s.scope p n ks ts with
        | error x =>
          rw [hq] at h
          cases hL : matchLoop g C lim false n m { s with toks := ts, hold := s.hold ++ [t] } with
          | error y => rw [hL] at h; exact h
          | ok a => rw [hL] at h; exact h.elim
        | ok q =>
          rw [hq] at h
          cases hL : matchLoop g C lim false n m { s with toks := ts, hold := s.hold ++ [t] } with
          | error y => rw [hL] at h; exact h.elim
          | ok a =>
            rw [hL] at h
            have h : a = _ := h
            subst h
            show _ = _
            unfold argued
            cases hqe : q.1.isEmpty <;> simp [hqe]
      · have hb : isBlank t.1 = false := by simpa using hb
        have hb' : t.1.isTrivia = false := by rw [← isBlank_eq]; exact hb
        by_cases hsep : t.1 ∈ [Token.ampersand, .caret, .underscore]
        · have e1 : matchLoop g C lim false (n + 1) m s = .ok s := by
            rw [matchLoop, ht]
            dsimp only
            rw [if_neg (by rw [hb']; simp), if_neg (by simp)]
            simp only [List.mem_cons, List.not_mem_nil, or_false] at hsep
            by_cases ha : t.1 = .ampersand
            · rw [if_pos ha]
            · rw [if_neg ha, if_pos ⟨hsep.resolve_left ha, rfl⟩]
          rw [e1, gArgs.eq_def]
          dsimp only
          rw [if_neg (by rw [hb]; simp), if_pos hsep]
          exact (argued_nil ht).symm
        · obtain ⟨k, x⟩ := t
          by_cases hw : k = .word
          · subst hw
            rw [matchLoop_word ht rfl]
            obtain ⟨m', h1, h2⟩ := word_eq (g := g) hm ht rfl
            rw [h2, ok_bind, gArgs_word]
            dsimp only
            by_cases hr : (rob g p ks x).2.1 = []
            · simp only [hr, ne_eq, not_true_eq_false, decide_false, Bool.false_eq_true, if_false]
              have h := ih _ m' { s with
                children := s.children ++ (rob g p ks x).1
                hold := if (rob g p ks x).1.isEmpty then s.hold else []
                toks := if x = [] then (.word, x) :: ts else ts } (h1 hr) hs hl
              dsimp only at h
              obtain ⟨u, hu⟩ : ∃ u, u = gArgs g G lim s.scope p n (rob g p ks x).2.2 (if x = [] then (.word, x) :: ts else ts) := ⟨_, rfl⟩
              rw [← hu] at h ⊢
              cases u with
              | error y =>
                revert h
                cases matchLoop g C lim false n m' _ with
                | error z => exact id
                | ok a => exact fun h => h.elim
              | ok q =>
                revert h
                cases matchLoop g C lim false n m' _ with
                | error z => exact fun h => h.elim
                | ok a =>
                  intro h
                  have h : a = _ := h
                  subst h
                  show _ = _
                  unfold argued
                  cases hq : q.1.isEmpty <;> cases hr' : (rob g p ks x).1.isEmpty <;> simp_all
            · simp only [hr, ne_eq, not_false_eq_true, decide_true, if_true]
              show _ = _
              unfold argued
              cases hr' : (rob g p ks x).1.isEmpty <;> simp [hr']
          · by_cases hlf : ∃ b, k = .left b
            · obtain ⟨b, rfl⟩ := hlf
              rw [matchLoop_left ht, gArgs.eq_def]
              dsimp only
              rw [if_neg (by rw [hb]; simp), if_neg hsep]
              have hbr := hm.brace (g := g) b
              rw [show (braceKind b).1 = (argGrouping b).1 by cases b <;> rfl]
              cases hmt : m.matchAsTerm g (argGrouping b).1 with
              | mk o m' =>
              rw [hmt] at hbr
              dsimp only at hbr ⊢
              by_cases htk : takes g p ks (argGrouping b).1 = true
              · rw [if_pos htk] at hbr ⊢
                rw [hbr.1]
                dsimp only
                have hcorr := hbr.2 htk
                by_cases hsg : seesGroup p b = true
                · rw [hsg, if_pos rfl]
                  simp only [Bool.not_true, Bool.false_eq_true, if_false]
                  have hg := hC.group lim (sc := (braceKind b).2) (close := (argGrouping b).2.2.1) (kind := (argGrouping b).2.2.2)
                    (by cases b <;> rfl) (s := argOpen false s) (t := (.left b, x)) (ts := ts) ht rfl
                  rw [show (argGrouping b).2.1 = (braceKind b).2 by cases b <;> rfl]
                  refine M.bind hg ?_
                  rintro a q rfl
                  have e : argClose false (added (argOpen false s) [q.1] q.2)
                      = .ok { s with children := s.children ++ [.node .clauseArgument [q.1]], hold := [], toks := q.2 } := by
                    show PState.finishNode (added (argOpen false s) [q.1] q.2) = _
                    rw [finish_app (cs := s.children) (es := [q.1]) rfl rfl]
                    rfl
                  rw [e, ok_bind]
                  exact step _ _ _ _ hcorr
                · have hsg : seesGroup p b = false := by simpa using hsg
                  rw [hsg]
                  simp only [Bool.not_false, if_true, Bool.false_eq_true, if_false]
                  rw [eat_eq (s := argOpen false s) (t := (.left b, x)) (r := ts) ht, ok_bind, ok_bind]
                  have e : argClose false ((argOpen false s).ate (.left b, x) ts)
                      = .ok { s with children := s.children ++ [.node .clauseArgument [leafOf (.left b, x)]], hold := [], toks := ts } := by
                    show PState.finishNode ((argOpen false s).ate (.left b, x) ts) = _
                    rw [finish_app (cs := s.children) (es := [leafOf (.left b, x)]) rfl rfl]
                    rfl
                  rw [e, ok_bind]
                  exact step _ _ _ _ hcorr
              · rw [if_neg htk] at hbr ⊢
                rw [hbr.1]
                exact (argued_nil ht).symm
            · have hlf : ∀ b, k ≠ .left b := fun b e => hlf ⟨b, e⟩
              dsimp only at hb hb' hsep
              have hsep' := hsep
              simp only [List.mem_cons, List.not_mem_nil, or_false, not_or] at hsep'
              rw [matchLoop_other ht hb' (by simp) hsep'.1 (fun h => h.1.elim hsep'.2.1 hsep'.2.2) (fun h => hw h.1) hlf,
                gArgs_other hb hsep hw hlf, stop_iff]
              by_cases hst : k ∈ enders s.scope
              · rw [if_pos (decide_eq_true hst), if_pos hst]
                exact (argued_nil ht).symm
              · rw [if_neg (by simpa using hst), if_neg hst]
                have htr := hm.try (g := g)
                rw [htr.1]
                by_cases htk : takes g p ks .term = true
                · rw [htk, if_neg (by simp), if_pos rfl]
                  rw [← ht]
                  refine M.bind (hC.arg hs hl) ?_
                  rintro ⟨att, a⟩ q ⟨hq, hc⟩
                  dsimp only at hq hc ⊢
                  rw [hc, ok_bind]
                  exact step _ _ _ _ (htr.2 htk)
                · have htk : takes g p ks .term = false := by simpa using htk
                  rw [htk]
                  exact (argued_nil ht).symm

/-! ### The operand of a greedy command -/

theorem gRest_other {G : GFn} {lim n : Nat} {sc : Scope} {r : Row} {k : Token} {x : Text} {ts : List Tok} (h1 : isBlank k = false)
    (h2 : k ∉ greedyEnders sc) (h4 : ∀ b, k ≠ .left b) :
    gRest G lim sc (n + 1) r ((k, x) :: ts) = (G sc false r ((k, x) :: ts) >>= fun q =>
      gRest G lim sc n (if q.1 then { q.2.1 with last := some r.items.length } else q.2.1) q.2.2) := by
  rw [gRest.eq_def]
  dsimp only
  rw [if_neg (by rw [h1]; simp), if_neg h2]
  cases k with
  | left b => exact absurd rfl (h4 b)
  | _ => rfl

theorem Agree.rest {C : ContentFn} {G : GFn} (hC : Agree C G) {g : GlobFn} (lim : Nat) (n : Nat) :
    ∀ (s : PState), s.hold = [] → s.top ≤ s.children.length →
      M (fun a q => q = (rowOf a, a.toks) ∧ Frame s a) (matchLoop g C lim true n .greedy s) (gRest G lim s.scope n (rowOf s) s.toks) := by
  induction n with
  | zero => intro s _ _; exact rfl
  | succ n ih =>
    intro s hh hl
    have here : Frame s s := ⟨rfl, rfl, hh, rfl, hl⟩
    -- an item has been read
    have step : ∀ (s1 : PState) (u : Bool), Frame s s1 →
        M (fun a q => q = (rowOf a, a.toks) ∧ Frame s a)
          (matchLoop g C lim true n .greedy (if u then { s1 with last := some s.checkpoint } else s1))
          (gRest G lim s.scope n (if u then { rowOf s1 with last := some ((rowOf s).items.length : Int) } else rowOf s1) s1.toks) := by
      intro s1 u hf
      have hu : Frame s (if u then { s1 with last := some s.checkpoint } else s1) := by
        cases u
        · exact hf
        · exact ⟨hf.parents, hf.scope, hf.hold, hf.kept, hf.long⟩
      have hr : rowOf (if u then { s1 with last := some s.checkpoint } else s1)
          = if u then { rowOf s1 with last := some ((rowOf s).items.length : Int) } else rowOf s1 := by
        cases u
        · rfl
        · rw [if_pos rfl, if_pos rfl, row_top]
          have ht' : s1.top = s.top := hf.top
          unfold rowOf PState.checkpoint
          show Row.mk (s1.children.drop s1.top) _ (some ((s.children.length : Int) - (s1.top : Int))) = Row.mk _ _ _
          have : (s.children.length : Int) - (s1.top : Int) = ((s.children.length - s.top : Nat) : Int) := by omega
          rw [this]
          rfl
      have hts : (if u then { s1 with last := some s.checkpoint } else s1).toks = s1.toks := by cases u <;> rfl
      have h := ih (if u then { s1 with last := some s.checkpoint } else s1) hu.hold (by rw [hu.top]; exact hu.long)
      rw [hu.scope, hr, hts] at h
      exact h.mono fun a q h => ⟨h.1, hu.trans h.2⟩
    cases ht : s.toks with
    | nil =>
      rw [matchLoop, gRest.eq_def, ht]
      exact ⟨by rw [ht], here⟩
    | cons t ts =>
      obtain ⟨k, x⟩ := t
      by_cases hb : isBlank k = true
      · have hb' : k.isTrivia = true := by rw [← isBlank_eq]; exact hb
        rw [matchLoop, gRest.eq_def, ht]
        dsimp only
        rw [if_pos hb', if_pos hb]
        simp only [if_true]
        rw [eat_eq ht, ok_bind]
        have h := step (added s [leafOf (k, x)] ts) false (frame_added hh hl _ _).toFrame
        simp only [Bool.false_eq_true, if_false] at h
        rw [row_added hl] at h
        exact h
      · have hb : isBlank k = false := by simpa using hb
        have hb' : k.isTrivia = false := by rw [← isBlank_eq]; exact hb
        by_cases hnl : k = .newLine ∧ s.scope = .environment
        · have e1 : matchLoop g C lim true (n + 1) .greedy s = .ok s := by
            rw [matchLoop, ht]
            dsimp only
            rw [if_neg (by rw [hb']; simp), if_pos ⟨hnl.1, rfl, hnl.2⟩]
          rw [e1, gRest.eq_def]
          dsimp only
          rw [if_neg (by rw [hb]; simp), if_pos (by rw [hnl.1, hnl.2]; simp [greedyEnders])]
          exact ⟨by rw [ht], here⟩
        · by_cases ham : k = .ampersand
          · have e1 : matchLoop g C lim true (n + 1) .greedy s = .ok s := by
              rw [matchLoop, ht]
              dsimp only
              rw [if_neg (by rw [hb']; simp), if_neg (fun h => hnl ⟨h.1, h.2.2⟩), if_pos ham]
            rw [e1, gRest.eq_def]
            dsimp only
            rw [if_neg (by rw [hb]; simp), if_pos (by rw [ham]; simp [greedyEnders])]
            exact ⟨by rw [ht], here⟩
          · by_cases hlf : ∃ b, k = .left b
            · obtain ⟨b, rfl⟩ := hlf
              have hend : (Token.left b) ∉ greedyEnders s.scope := by
                cases s.scope <;> simp [greedyEnders, enders]
              rw [matchLoop_left ht, gRest.eq_def]
              dsimp only
              rw [if_neg (by rw [hb]; simp), if_neg hend]
              cases b with
              | curly =>
                show M _ ((if decide (ArgKind.term ≠ ArgKind.term) = true then _ else _) >>= _) _
                rw [if_neg (by simp)]
                refine M.bind (hC.group lim (sc := .curlyItem) rfl (s := s) ht hh) ?_
                rintro a q rfl
                have h := step (added s [q.1] q.2) true (frame_added hh hl _ _).toFrame
                simp only [if_true] at h
                rw [row_added hl] at h
                exact h
              | bracket =>
                show M _ ((if decide (ArgKind.bracket ≠ ArgKind.term) = true then _ else _) >>= _) _
                rw [if_pos (by simp)]
                rw [show (argOpen true s).eat = .ok (s.ate (.left .bracket, x) ts) from eat_eq ht, ok_bind]
                have h := step (added s [leafOf (.left .bracket, x)] ts) true (frame_added hh hl _ _).toFrame
                simp only [if_true] at h
                rw [row_added hl] at h
                exact h
              | paren =>
                show M _ ((if decide (ArgKind.paren ≠ ArgKind.term) = true then _ else _) >>= _) _
                rw [if_pos (by simp)]
                rw [show (argOpen true s).eat = .ok (s.ate (.left .paren, x) ts) from eat_eq ht, ok_bind]
                have h := step (added s [leafOf (.left .paren, x)] ts) true (frame_added hh hl _ _).toFrame
                simp only [if_true] at h
                rw [row_added hl] at h
                exact h
            · have hlf : ∀ b, k ≠ .left b := fun b e => hlf ⟨b, e⟩
              rw [matchLoop_other ht hb' (fun h => hnl ⟨h.1, h.2.2⟩) ham (by simp) (by simp) hlf, stop_iff]
              by_cases hst : k ∈ enders s.scope
              · rw [if_pos (decide_eq_true hst), gRest.eq_def]
                dsimp only
                rw [if_neg (by rw [hb]; simp), if_pos (by simp [greedyEnders, hst])]
                exact ⟨by rw [ht], here⟩
              · have hend : k ∉ greedyEnders s.scope := by
                  intro h
                  unfold greedyEnders at h
                  simp only [List.cons_append, List.mem_cons, List.mem_append] at h
                  rcases h with h | h | h
                  · exact ham h
                  · split at h
                    · rename_i hsc
                      simp only [List.mem_singleton] at h
                      exact hnl ⟨h, hsc⟩
                    · cases h
                  · exact hst h
                rw [if_neg (by simpa using hst), gRest_other hb hend hlf]
                simp only [ArgMatcher.tryMatch, Bool.not_true, Bool.false_eq_true, if_false]
                rw [← ht]
                refine M.bind (hC true s hh hl) ?_
                rintro ⟨att, s1⟩ q ⟨hq, hf⟩
                subst hq
                dsimp only
                have h := step s1 att hf.toFrame
                show M _ (matchLoop g C lim true n .greedy (if True ∧ att = true then _ else _)) _
                rw [show (if True ∧ att = true then ({ s1 with last := some s.checkpoint } : PState) else s1)
                  = if att then { s1 with last := some s.checkpoint } else s1 by cases att <;> simp]
                exact h

end Grammar
end Mitex
