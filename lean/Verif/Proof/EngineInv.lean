/-
Invariants of the macro engine: every token in the stream, in the output and in the macro table comes from the
source, up to the operations allowed by `TokInv`.
-/
import Verif.Props.Engine

namespace Mitex
open TokStream

/-- `c'` is a later state of the stream `c`: some tokens are consumed, nothing is delivered. -/
def Suf (c c' : LCtx) : Prop := c'.inp <:+ c.inp ∧ c'.out = c.out

theorem Suf.refl (c : LCtx) : Suf c c := ⟨List.suffix_refl _, rfl⟩
theorem Suf.trans {a b c : LCtx} (h : Suf a b) (h' : Suf b c) : Suf a c := ⟨h'.1.trans h.1, h'.2.trans h.2⟩
theorem Suf.next (c : LCtx) : Suf c (TokStream.next c) := ⟨List.tail_suffix _, rfl⟩
theorem Suf.mem {c c' : LCtx} (h : Suf c c') {t : Tok} (ht : t ∈ c'.inp) : t ∈ c.inp := h.1.subset ht
theorem Suf.len {c c' : LCtx} (h : Suf c c') : c'.inp.length ≤ c.inp.length := h.1.length_le

theorem peek_mem {c : LCtx} {t : Tok} (h : peek c = some t) : t ∈ c.inp := List.mem_of_head? h

theorem peek_cons {c : LCtx} {t : Tok} (h : peek c = some t) : c.inp = t :: (TokStream.next c).inp := by
  obtain ⟨inp, out⟩ := c
  cases inp with
  | nil => cases h
  | cons a b => cases h; rfl

theorem nextNotTriviaN_suf (n : Nat) : ∀ c : LCtx, Suf c (nextNotTriviaN n c).2 := by
  induction n with
  | zero => intro c; exact .refl c
  | succ n ih =>
    intro c
    rw [nextNotTriviaN]
    split
    · exact .next c
    · split
      · exact (Suf.next c).trans (ih _)
      · exact .next c

theorem nextNotTrivia_suf (c : LCtx) : Suf c (nextNotTrivia c).2 := nextNotTriviaN_suf _ c

theorem nextNotTriviaN_lt (n : Nat) : ∀ c : LCtx, (peek c).isSome → n ≠ 0 → (nextNotTriviaN n c).2.inp.length < c.inp.length := by
  intro c hc hn
  obtain ⟨n, rfl⟩ : ∃ k, n = k + 1 := ⟨n - 1, by omega⟩
  cases hp : peek c with
  | none => rw [hp] at hc; cases hc
  | some t =>
    have := peek_cons hp
    rw [nextNotTriviaN]
    split
    · rw [this]; simp
    · split
      · have := (nextNotTriviaN_suf n (TokStream.next c)).len
        rw [peek_cons hp]; simp; omega
      · rw [this]; simp

theorem peekNotTrivia_suf (c : LCtx) : Suf c (peekNotTrivia c).2 := by
  unfold peekNotTrivia
  split
  · exact nextNotTrivia_suf c
  · split
    · exact nextNotTrivia_suf c
    · exact .refl c

theorem eatIf_suf (tk : Token) (c : LCtx) : Suf c (eatIf tk c) := by
  unfold eatIf
  split
  · split
    · exact .next c
    · exact .refl c
  · exact .refl c

theorem peekU8Opt_suf (bk : BraceKind) (c : LCtx) : Suf c (peekU8Opt bk c).2 := by
  have := nextNotTrivia_suf c
  unfold peekU8Opt
  cases h : nextNotTrivia c with
  | mk o c1 =>
    rw [h] at this
    cases o with
    | none => exact this
    | some _ => exact this.trans (eatIf_suf _ _)

theorem peekWordOpt_suf (bk : BraceKind) (c : LCtx) : Suf c (peekWordOpt bk c).2 := by
  have := nextNotTrivia_suf c
  unfold peekWordOpt
  cases h : nextNotTrivia c with
  | mk o c1 =>
    rw [h] at this
    cases o with
    | none => exact this
    | some _ => exact this.trans (eatIf_suf _ _)

theorem peekCmdNameOpt_suf (bk : BraceKind) (c : LCtx) : Suf c (peekCmdNameOpt bk c).2 ∧
    ∀ t, (peekCmdNameOpt bk c).1 = some t → t ∈ c.inp ∧ ∃ n, t.1 = .cmd n := by
  have := nextNotTrivia_suf c
  unfold peekCmdNameOpt
  cases h : nextNotTrivia c with
  | mk o c1 =>
    rw [h] at this
    cases o with
    | none => exact ⟨this, fun t ht => by cases ht⟩
    | some _ =>
      refine ⟨this.trans (eatIf_suf _ _), fun t ht => ?_⟩
      simp only at ht
      split at ht
      · rename_i n text hp
        cases ht
        exact ⟨peek_mem hp, n, rfl⟩
      · cases ht

theorem readUntilBalanced_split (bk : BraceKind) (c : LCtx) : ∃ mid,
    c.inp = (readUntilBalanced bk c).1 ++ mid ++ (readUntilBalanced bk c).2.inp ∧
    (readUntilBalanced bk c).2.out = c.out := by
  obtain ⟨inp, out⟩ := c
  obtain ⟨body, rest, h1, h2, _⟩ := C16_stops_at_matching_brace bk inp out
  rw [h1]
  rcases h2 with ⟨rfl, rfl⟩ | ⟨r, _, rfl, _⟩
  · exact ⟨[], by simp, rfl⟩
  · exact ⟨[r], by simp, rfl⟩

theorem readUntilBalanced_suf (bk : BraceKind) (c : LCtx) : Suf c (readUntilBalanced bk c).2 ∧
    ∀ t ∈ (readUntilBalanced bk c).1, t ∈ c.inp := by
  obtain ⟨mid, h1, h2⟩ := readUntilBalanced_split bk c
  refine ⟨⟨⟨_, h1.symm⟩, h2⟩, fun t ht => ?_⟩
  rw [h1]; simp [ht]

theorem skipFalse_suf (n : Nat) : ∀ (k : Nat) (c : LCtx), Suf c (skipFalse n k c) := by
  induction n with
  | zero => intro k c; exact .refl c
  | succ n ih =>
    intro k c
    rw [skipFalse]
    split
    · exact .refl c
    · split
      · exact (Suf.next c).trans (ih _ _)
      · split
        · exact .refl c
        · exact (Suf.next c).trans (ih _ _)
      · split
        · exact .refl c
        · exact (Suf.next c).trans (ih _ _)
      · exact (Suf.next c).trans (ih _ _)

theorem readDefn_suf (c : LCtx) : Suf c (readDefn c).2 ∧ ∀ d, (readDefn c).1 = some d → ∀ t ∈ d, t ∈ c.inp := by
  unfold readDefn
  split
  · exact ⟨.refl c, fun d h => by cases h⟩
  · rename_i t hp
    split
    · have := readUntilBalanced_suf .curly (TokStream.next c)
      refine ⟨(Suf.next c).trans this.1, fun d h x hx => ?_⟩
      cases h
      exact (Suf.next c).mem (this.2 x hx)
    · refine ⟨.next c, fun d h x hx => ?_⟩
      cases h
      simp at hx
      subst hx
      exact peek_mem hp

theorem readOptDefn_suf (c : LCtx) : Suf c (readOptDefn c).2 ∧ ∀ o d, (readOptDefn c).1 = some (o, d) →
    (∀ t ∈ d, t ∈ c.inp) ∧ ∀ x, o = some x → ∀ t ∈ x, t ∈ c.inp := by
  unfold readOptDefn
  split
  · exact ⟨.refl c, fun o d h => by cases h⟩
  · rename_i t hp
    split
    · have h1 := readUntilBalanced_suf .bracket (TokStream.next c)
      have h2 := readDefn_suf (readUntilBalanced .bracket (TokStream.next c)).2
      have h3 := (Suf.next c).trans h1.1
      cases hd : readDefn (readUntilBalanced .bracket (TokStream.next c)).2 with
      | mk od c2 =>
        rw [hd] at h2
        simp only [hd]
        cases od with
        | none => exact ⟨h3.trans h2.1, fun o d h => by cases h⟩
        | some d =>
          refine ⟨h3.trans h2.1, fun o d' h => ?_⟩
          cases h
          refine ⟨fun t ht => h3.mem (h2.2 d rfl t ht), fun x hx t ht => ?_⟩
          cases hx
          exact (Suf.next c).mem (h1.2 t ht)
    · have h2 := readDefn_suf c
      cases hd : readDefn c with
      | mk od c2 =>
        rw [hd] at h2
        cases od with
        | none => exact ⟨h2.1, fun o d h => by cases h⟩
        | some d =>
          refine ⟨h2.1, fun o d' h => ?_⟩
          cases h
          exact ⟨fun t ht => h2.2 d rfl t ht, fun x hx => by cases hx⟩

theorem readNArgs_suf (c : LCtx) : Suf c (readNArgsOptDefn c).2 ∧ ∀ n o d, (readNArgsOptDefn c).1 = some (n, o, d) →
    n ≤ 9 ∧ (∀ t ∈ d, t ∈ c.inp) ∧ ∀ x, o = some x → ∀ t ∈ x, t ∈ c.inp := by
  unfold readNArgsOptDefn
  split
  · exact ⟨.refl c, fun n o d h => by cases h⟩
  · split
    · have h1 := (nextNotTrivia_suf c).trans (peekU8Opt_suf .bracket (nextNotTrivia c).2)
      cases hu : peekU8Opt .bracket (nextNotTrivia c).2 with
      | mk on c1 =>
        rw [hu] at h1
        cases on with
        | none => exact ⟨h1, fun n o d h => by cases h⟩
        | some n =>
          simp only
          split
          · rename_i hn
            have h2 := readOptDefn_suf c1
            cases hd : readOptDefn c1 with
            | mk od c2 =>
              rw [hd] at h2
              cases od with
              | none => exact ⟨h1.trans h2.1, fun n o d h => by cases h⟩
              | some od =>
                obtain ⟨o, d⟩ := od
                refine ⟨h1.trans h2.1, fun n' o' d' h => ?_⟩
                cases h
                obtain ⟨a, b⟩ := h2.2 o d rfl
                exact ⟨hn, fun t ht => h1.mem (a t ht), fun x hx t ht => h1.mem (b x hx t ht)⟩
          · exact ⟨h1, fun n o d h => by cases h⟩
    · have h2 := readDefn_suf c
      cases hd : readDefn c with
      | mk od c2 =>
        rw [hd] at h2
        cases od with
        | none => exact ⟨h2.1, fun n o d h => by cases h⟩
        | some d =>
          refine ⟨h2.1, fun n o d' h => ?_⟩
          cases h
          exact ⟨by omega, fun t ht => h2.2 d rfl t ht, fun x hx => by cases hx⟩

/-- The command branch of `readDeclName`. -/
def cmdNameRes (c : LCtx) : Res (Option Text × LCtx) :=
  match peekCmdNameOpt .curly c with
  | (none, c) => .ok (none, c)
  | (some t, c) =>
    match stripBackslash t.2 with
    | .error x => .error x
    | .ok n => .ok (some n, c)

theorem cmdNameRes_suf (c : LCtx) : (∀ o c', cmdNameRes c = .ok (o, c') → Suf c c') ∧
    (∀ x, cmdNameRes c = .error x → x = .panic ∧ ∃ t ∈ c.inp, (∃ n, t.1 = .cmd n) ∧ t.2.head? ≠ some '\\') := by
  have h2 := peekCmdNameOpt_suf .curly c
  unfold cmdNameRes
  cases hp : peekCmdNameOpt .curly c with
  | mk o c2 =>
    rw [hp] at h2
    cases o with
    | none => exact ⟨fun o c' h => by cases h; exact h2.1, fun x h => (by cases h)⟩
    | some t =>
      simp only
      cases hs : stripBackslash t.2 with
      | ok n => exact ⟨fun o c' h => by cases h; exact h2.1, fun x h => (by cases h)⟩
      | error x =>
        refine ⟨fun o c' h => (by cases h), fun x' h => ?_⟩
        cases h
        have : x = .panic ∧ t.2.head? ≠ some '\\' := by
          unfold stripBackslash at hs
          split at hs
          · cases hs
          · rename_i hne
            cases hs
            refine ⟨rfl, ?_⟩
            cases ht : t.2 with
            | nil => simp
            | cons c cs =>
              intro h
              simp at h
              exact hne cs (by rw [ht, h])
        exact ⟨this.1, t, (h2.2 t rfl).1, (h2.2 t rfl).2, this.2⟩

/-- Reading the name: the stream moves on; a failure means that a command token without backslash was found where
the name should be. -/
theorem readDeclName_suf (d : DeclareCmdOrEnv) (c : LCtx) :
    (∀ o c', readDeclName d c = .ok (o, c') → Suf c c') ∧
    (∀ x, readDeclName d c = .error x → x = .panic ∧ (∀ b, d ≠ .newEnvironment b) ∧
      ∃ t ∈ c.inp, (∃ n, t.1 = .cmd n) ∧ t.2.head? ≠ some '\\') := by
  have h0 := nextNotTrivia_suf c
  cases hn : nextNotTrivia c with
  | mk o c1 =>
    rw [hn] at h0
    by_cases ho : o = some (.left .curly)
    · subst ho
      have h1 := h0.trans (nextNotTrivia_suf c1)
      have hcmd : (∀ b, d ≠ .newEnvironment b) → readDeclName d c = cmdNameRes (nextNotTrivia c1).2 := by
        intro hd
        unfold readDeclName cmdNameRes
        rw [hn]
        simp only
        cases hp : peekCmdNameOpt .curly (nextNotTrivia c1).2 with
        | mk o c2 =>
          cases d with
          | newEnvironment b => exact absurd rfl (hd b)
          | _ =>
            cases o with
            | none => rfl
            | some t => cases hs : stripBackslash t.2 <;> simp [hs]
      by_cases hd : ∀ b, d ≠ .newEnvironment b
      · rw [hcmd hd]
        have := cmdNameRes_suf (nextNotTrivia c1).2
        refine ⟨fun o c' h => h1.trans (this.1 o c' h), fun x h => ?_⟩
        obtain ⟨a, t, b, e⟩ := this.2 x h
        exact ⟨a, hd, t, h1.mem b, e⟩
      · have : ∃ b, d = .newEnvironment b := by
          cases d with
          | newEnvironment b => exact ⟨b, rfl⟩
          | _ => exact absurd (by simp) hd
        obtain ⟨b, rfl⟩ := this
        have h2 := peekWordOpt_suf .curly (nextNotTrivia c1).2
        unfold readDeclName
        rw [hn]
        simp only
        cases hp : peekWordOpt .curly (nextNotTrivia c1).2 with
        | mk o c2 =>
          rw [hp] at h2
          cases o with
          | none => exact ⟨fun o c' h => by cases h; exact h1.trans h2, fun x h => (by cases h)⟩
          | some t => exact ⟨fun o c' h => by cases h; exact h1.trans h2, fun x h => (by cases h)⟩
    · have : readDeclName d c = .ok (none, c1) := by
        unfold readDeclName
        rw [hn]
        split
        · rename_i he; cases he; exact absurd rfl ho
        · rename_i he; cases he; rfl
      rw [this]
      exact ⟨fun o c' h => by cases h; exact h0, fun x h => (by cases h)⟩

/-! ### Token invariants -/

/-- A property of tokens preserved by everything the engine does to tokens of the source. -/
structure TokInv (P : Tok → Prop) : Prop where
  err : ∀ t, P (.error, t)
  fi : P fiTok
  char : ∀ w c, P (.word, w) → c ∈ w → P (.word, [c])
  suf : ∀ a b, P (.word, a ++ b) → b ≠ [] → P (.word, b)
  leak : (∀ d h, 1 ≤ d → d ≤ 9 → P (.hash, h) → P (.macroArg d, h)) ∨
    ∀ n, P (.cmd .generic, n) → n ≠ "\\mitexrecurse".toList

/-- Tokens of a stored definition: tokens of the source, and parameters. -/
def BodyTok (P : Tok → Prop) (t : Tok) : Prop := P t ∨ ∃ d h, 1 ≤ d ∧ d ≤ 9 ∧ P (.hash, h) ∧ t = (.macroArg d, h)

def MacroInv (P : Tok → Prop) : Macro → Prop
  | .declare _ => True
  | .cmd _ n opt body => n ≤ 9 ∧ (∀ o, opt = some o → ∀ t ∈ o, P t) ∧ ∀ t ∈ body, BodyTok P t
  | .env _ n opt b e => n ≤ 9 ∧ (∀ o, opt = some o → ∀ t ∈ o, P t) ∧ (∀ t ∈ b, BodyTok P t) ∧ ∀ t ∈ e, BodyTok P t

def TableInv (P : Tok → Prop) (m : MacroTable) : Prop := ∀ name v, m name = some v → MacroInv P v

def StreamInv (P : Tok → Prop) (c : LCtx) : Prop := (∀ t ∈ c.inp, P t) ∧ ∀ t ∈ c.out, P t

theorem StreamInv.suf {P : Tok → Prop} {c c' : LCtx} (h : StreamInv P c) (hs : Suf c c') : StreamInv P c' :=
  ⟨fun t ht => h.1 t (hs.mem ht), fun t ht => h.2 t (hs.2 ▸ ht)⟩

theorem StreamInv.emit {P : Tok → Prop} {c : LCtx} (h : StreamInv P c) {t : Tok} (ht : P t) : StreamInv P (emit t c) := by
  refine ⟨h.1, fun x hx => ?_⟩
  have : x ∈ c.out ++ [t] := hx
  rcases List.mem_append.mp this with hx | hx
  · exact h.2 x hx
  · simp at hx; subst hx; exact ht

theorem paramDigit_range {c : Char} {d : Nat} (h : paramDigit c = some d) : 1 ≤ d ∧ d ≤ 9 := by
  unfold paramDigit at h
  split at h
  · rename_i hc
    obtain ⟨h1, h2⟩ := hc
    simp only [isAsciiDigit, Bool.and_eq_true, decide_eq_true_eq] at h1
    cases h
    omega
  · cases h

theorem processDefLoop_inv {P : Tok → Prop} (hP : TokInv P) (n : Nat) : ∀ (src : List Tok), src.length ≤ n →
    (∀ t ∈ src, P t) → ∀ r b, processDefLoop src = .ok (r, b) →
    ∀ t ∈ r, BodyTok P t ∨ (b = true ∧ t = (.word, [])) := by
  induction n with
  | zero =>
    intro src hl _ r b h
    cases src with
    | nil => cases h; simp
    | cons => simp at hl
  | succ n ih =>
    intro src hl hs r b h
    unfold processDefLoop at h
    split at h
    · cases h; simp
    · cases h
    · rename_i hh c cs rest
      simp only [List.length_cons] at hl
      cases hr : processDefLoop rest with
      | error x => rw [hr] at h; cases h
      | ok rb =>
        obtain ⟨r', b'⟩ := rb
        have := ih rest (by omega) (fun t ht => hs t (by simp [ht])) r' b' hr
        rw [hr] at h
        simp only at h
        split at h
        · rename_i d hd
          cases h
          intro t ht
          simp only [List.mem_cons] at ht
          rcases ht with rfl | rfl | ht
          · exact Or.inl (Or.inr ⟨d, hh, (paramDigit_range hd).1, (paramDigit_range hd).2, hs _ (by simp), rfl⟩)
          · by_cases he : cs = []
            · subst he; exact Or.inr ⟨by simp, rfl⟩
            · exact Or.inl (Or.inl (hP.suf [c] cs (hs _ (by simp)) he))
          · rcases this t ht with h1 | ⟨h1, h2⟩
            · exact Or.inl h1
            · exact Or.inr ⟨by simp [h1], h2⟩
        · cases h
          intro t ht
          simp only [List.mem_cons] at ht
          rcases ht with rfl | rfl | ht
          · exact Or.inl (Or.inl (hs _ (by simp)))
          · exact Or.inl (Or.inl (hs _ (by simp)))
          · exact this t ht
    · rename_i t0 rest _ _
      simp only [List.length_cons] at hl
      cases hr : processDefLoop rest with
      | error x => rw [hr] at h; cases h
      | ok rb =>
        obtain ⟨r', b'⟩ := rb
        have := ih rest (by omega) (fun t ht => hs t (by simp [ht])) r' b' hr
        rw [hr] at h
        cases h
        intro t ht
        simp only [List.mem_cons] at ht
        rcases ht with rfl | ht
        · exact Or.inl (Or.inl (hs _ (by simp)))
        · exact this t ht

theorem processMacroDef_inv {P : Tok → Prop} (hP : TokInv P) {src st : List Tok} (hs : ∀ t ∈ src, P t)
    (h : processMacroDef src = .ok st) : ∀ t ∈ st, BodyTok P t := by
  unfold processMacroDef at h
  cases hr : processDefLoop src with
  | error x => rw [hr] at h; cases h
  | ok rb =>
    obtain ⟨r, b⟩ := rb
    have := processDefLoop_inv hP src.length src (Nat.le_refl _) hs r b hr
    rw [hr] at h
    simp only at h
    split at h
    · cases h
      intro t ht
      obtain ⟨ht, hf⟩ := List.mem_filter.mp ht
      rcases this t ht with h1 | ⟨_, rfl⟩
      · exact h1
      · simp at hf
    · rename_i hb
      cases h
      intro t ht
      rcases this t ht with h1 | ⟨h1, _⟩
      · exact h1
      · exact absurd h1 hb

theorem processMacroDef_error {src : List Tok} {x : Stop} (h : processMacroDef src = .error x) :
    x = .panic ∧ ∃ h, src.getLast? = some (.hash, h) := by
  have key : ∀ n (src : List Tok), src.length ≤ n → processDefLoop src = .error x →
      x = .panic ∧ ∃ h, src.getLast? = some (.hash, h) := by
    intro n
    induction n with
    | zero =>
      intro src hl h
      cases src with
      | nil => cases h
      | cons => simp at hl
    | succ n ih =>
      intro src hl h
      unfold processDefLoop at h
      split at h
      · cases h
      · rename_i hh; cases h; exact ⟨rfl, hh, rfl⟩
      · rename_i hh c cs rest
        simp only [List.length_cons] at hl
        cases hr : processDefLoop rest with
        | ok rb => rw [hr] at h; simp only at h; split at h <;> cases h
        | error y =>
          rw [hr] at h
          cases h
          obtain ⟨h1, h2, h3⟩ := ih rest (by omega) hr
          refine ⟨h1, h2, ?_⟩
          rw [List.getLast?_cons, List.getLast?_cons, h3]; rfl
      · rename_i t0 rest _ _
        simp only [List.length_cons] at hl
        cases hr : processDefLoop rest with
        | ok rb => rw [hr] at h; cases h
        | error y =>
          rw [hr] at h
          cases h
          obtain ⟨h1, h2, h3⟩ := ih rest (by omega) hr
          refine ⟨h1, h2, ?_⟩
          rw [List.getLast?_cons, h3]; rfl
  unfold processMacroDef at h
  cases hr : processDefLoop src with
  | ok rb => rw [hr] at h; simp only at h; split at h <;> cases h
  | error y => rw [hr] at h; cases h; exact key _ src (Nat.le_refl _) hr

theorem expandTokens_inv {P : Tok → Prop} (hP : TokInv P) {args : List (List Tok)} (ha : ∀ a ∈ args, ∀ t ∈ a, P t)
    (body : List Tok) : ∀ (b : Bool) (bc : Int), (∀ t ∈ body, BodyTok P t) →
    (b = true → ∀ d h, 1 ≤ d → d ≤ 9 → P (.hash, h) → P (.macroArg d, h)) →
    ∀ r, expandTokens args b bc body = .ok r → ∀ t ∈ r, P t := by
  induction body with
  | nil => intro b bc _ _ r h; cases b <;> cases h <;> simp
  | cons e es ih =>
    intro b bc hb hl r h
    have hes : ∀ t ∈ es, BodyTok P t := fun t ht => hb t (by simp [ht])
    cases b with
    | false =>
      rw [expandTokens] at h
      have keep : (∀ d, e.1 ≠ .macroArg d) → P e := by
        intro hne
        rcases hb e (by simp) with h1 | ⟨d, x, _, _, _, rfl⟩
        · exact h1
        · exact absurd rfl (hne d)
      split at h
      · cases h
      · rename_i n hk
        cases hr : expandTokens args false bc es with
        | error x => rw [hr] at h; cases h
        | ok r' =>
          rw [hr] at h
          cases h
          intro t ht
          rcases List.mem_append.mp ht with ht | ht
          · cases hx : args[n]? with
            | none => rw [hx] at ht; simp at ht
            | some a =>
              rw [hx] at ht
              exact ha a (List.mem_of_getElem? hx) t ht
          · exact ih false bc hes (by simp) r' hr t ht
      · rename_i hk
        have hPe : P e := keep (by intro d hd; rw [hk] at hd; cases hd)
        cases hsb : stripBackslash e.2 with
        | error x => rw [hsb] at h; cases h
        | ok name =>
          rw [hsb] at h
          simp only at h
          split at h
          · rename_i hname
            refine ih true bc hes ?_ r h
            intro _
            rcases hP.leak with h1 | h1
            · exact h1
            · exfalso
              refine h1 e.2 ?_ ?_
              · have : e = (.cmd .generic, e.2) := by cases e; simp at hk; rw [hk]
                rw [← this]; exact hPe
              · unfold stripBackslash at hsb
                split at hsb
                · rename_i cs he
                  cases hsb
                  rw [he, hname]; rfl
                · cases hsb
          · cases hr : expandTokens args false bc es with
            | error x => rw [hr] at h; cases h
            | ok r' =>
              rw [hr] at h
              cases h
              intro t ht
              rcases List.mem_cons.mp ht with rfl | ht
              · exact hPe
              · exact ih false bc hes (by simp) r' hr t ht
      · rename_i g1 g2 g3
        have hPe : P e := keep (by
          intro d hd
          cases d with
          | zero => exact g1 hd
          | succ d => exact g2 d hd)
        cases hr : expandTokens args false bc es with
        | error x => rw [hr] at h; cases h
        | ok r' =>
          rw [hr] at h
          cases h
          intro t ht
          rcases List.mem_cons.mp ht with rfl | ht
          · exact hPe
          · exact ih false bc hes (by simp) r' hr t ht
    | true =>
      have hl' := hl rfl
      have hPe : P e := by
        rcases hb e (by simp) with h1 | ⟨d, x, h1, h2, h3, rfl⟩
        · exact h1
        · exact hl' d x h1 h2 h3
      have cons : ∀ (b : Bool) (bc : Int) r, (match expandTokens args b bc es with
          | .error x => .error x
          | .ok r => .ok (e :: r) : Res (List Tok)) = .ok r → ∀ t ∈ r, P t := by
        intro b bc r h
        cases hr : expandTokens args b bc es with
        | error x => rw [hr] at h; cases h
        | ok r' =>
          rw [hr] at h
          cases h
          intro t ht
          rcases List.mem_cons.mp ht with rfl | ht
          · exact hPe
          · exact ih b bc hes (fun _ => hl') r' hr t ht
      rw [expandTokens] at h
      split at h
      · cases hr : expandTokens args true (bc + 1) es with
        | error x => rw [hr] at h; cases h
        | ok r' =>
          rw [hr] at h
          cases h
          intro t ht
          split at ht
          · rcases List.mem_cons.mp ht with rfl | ht
            · exact hPe
            · exact ih true _ hes (fun _ => hl') r' hr t ht
          · exact ih true _ hes (fun _ => hl') r' hr t ht
      · split at h
        · split at h
          · exact ih false 0 hes (by simp) r h
          · exact cons _ _ r h
        · split at h
          · exact cons _ _ r h
          · split at h
            · exact cons _ _ r h
            · exact ih true _ hes (fun _ => hl') r h

/-- Expansion fails only on command tokens without a backslash (or parameter zero). -/
theorem expandTokens_error {args : List (List Tok)} (body : List Tok) : ∀ (b : Bool) (bc : Int) x,
    expandTokens args b bc body = .error x → x = .panic ∧
      ∃ t ∈ body, t.1 = .macroArg 0 ∨ (t.1 = .cmd .generic ∧ t.2.head? ≠ some '\\') := by
  induction body with
  | nil => intro b bc x h; cases b <;> cases h
  | cons e es ih =>
    intro b bc x h
    have lift : (∃ b bc, expandTokens args b bc es = .error x) → x = .panic ∧
        ∃ t ∈ e :: es, t.1 = .macroArg 0 ∨ (t.1 = .cmd .generic ∧ t.2.head? ≠ some '\\') := by
      rintro ⟨b, bc, h⟩
      obtain ⟨h1, t, h2, h3⟩ := ih b bc x h
      exact ⟨h1, t, by simp [h2], h3⟩
    have cons : ∀ (b : Bool) (bc : Int) (f : List Tok → List Tok), (match expandTokens args b bc es with
          | .error x => .error x
          | .ok r => .ok (f r) : Res (List Tok)) = .error x → ∃ b bc, expandTokens args b bc es = .error x := by
      intro b bc f h
      cases hr : expandTokens args b bc es with
      | error y => rw [hr] at h; cases h; exact ⟨b, bc, hr⟩
      | ok r => rw [hr] at h; cases h
    cases b with
    | false =>
      rw [expandTokens] at h
      split at h
      · rename_i hk; cases h; exact ⟨rfl, e, by simp, Or.inl hk⟩
      · exact lift (cons _ _ _ h)
      · rename_i hk
        cases hsb : stripBackslash e.2 with
        | error y =>
          rw [hsb] at h
          cases h
          unfold stripBackslash at hsb
          split at hsb
          · cases hsb
          · rename_i hne
            cases hsb
            refine ⟨rfl, e, by simp, Or.inr ⟨hk, ?_⟩⟩
            cases he : e.2 with
            | nil => simp
            | cons c cs => intro hh; simp at hh; exact hne cs (by rw [he, hh])
        | ok name =>
          rw [hsb] at h
          simp only at h
          split at h
          · exact lift ⟨_, _, h⟩
          · exact lift (cons _ _ _ h)
      · exact lift (cons _ _ _ h)
    | true =>
      rw [expandTokens] at h
      split at h
      · exact lift (cons _ _ (fun r => if 0 < bc then e :: r else r) h)
      · split at h
        · split at h
          · exact lift ⟨_, _, h⟩
          · exact lift (cons _ _ _ h)
        · split at h
          · exact lift (cons _ _ _ h)
          · split at h
            · exact lift (cons _ _ _ h)
            · exact lift ⟨_, _, h⟩

/-! ### Definitions -/

/-- A definition step: outcome, and the reason of a failure. -/
theorem finishUpdate_inv {P : Tok → Prop} (hP : TokInv P) {d : DeclareCmdOrEnv} {name : Text} {n : Nat}
    {opt : Option (List Tok)} {body : List Tok} {c : LCtx} (hn : n ≤ 9) (ho : ∀ o, opt = some o → ∀ t ∈ o, P t)
    (hb : ∀ t ∈ body, P t) (hc : StreamInv P c) :
    (∀ r c', finishUpdate d name n opt body c = .ok (r, c') → Suf c c' ∧
      ∀ nm a m, r = some (nm, a, m) → nm = name ∧ MacroInv P m) ∧
    (∀ x, finishUpdate d name n opt body c = .error x → x = .panic ∧ ∃ h, P (.hash, h)) := by
  have herr : ∀ {src : List Tok}, (∀ t ∈ src, P t) → ∀ x, processMacroDef src = .error x → x = .panic ∧ ∃ h, P (.hash, h) := by
    intro src hs x hx
    obtain ⟨h1, h2, h3⟩ := processMacroDef_error hx
    exact ⟨h1, h2, hs _ (List.mem_of_getLast? h3)⟩
  have hcmd : (∀ b, d ≠ .newEnvironment b) → finishUpdate d name n opt body c =
      (match processMacroDef body with
        | .error x => .error x
        | .ok body => .ok (some (name, declAction d, .cmd name n opt body), c)) := by
    intro hd
    unfold finishUpdate
    cases d with
    | newEnvironment b => exact absurd rfl (hd b)
    | newCommand b => cases b <;> (cases processMacroDef body <;> rfl)
    | _ => cases processMacroDef body <;> rfl
  by_cases hd : ∀ b, d ≠ .newEnvironment b
  · rw [hcmd hd]
    cases hp : processMacroDef body with
    | error x => exact ⟨fun r c' h => (by cases h), fun y h => by cases h; exact herr hb x hp⟩
    | ok b' =>
      refine ⟨fun r c' h => ?_, fun y h => (by cases h)⟩
      cases h
      refine ⟨.refl c, fun nm a m h => ?_⟩
      cases h
      exact ⟨rfl, hn, ho, processMacroDef_inv hP hb hp⟩
  · have : ∃ b, d = .newEnvironment b := by
      cases d with
      | newEnvironment b => exact ⟨b, rfl⟩
      | _ => exact absurd (by simp) hd
    obtain ⟨renew, rfl⟩ := this
    unfold finishUpdate
    simp only
    cases hp : peek c with
    | none => exact ⟨fun r c' h => by cases h; exact ⟨.refl c, fun _ _ _ h => (by cases h)⟩, fun x h => (by cases h)⟩
    | some t =>
      simp only
      by_cases ht : t.1 = .left .curly
      · simp only [if_pos ht]
        have hr := readUntilBalanced_suf .curly (TokStream.next c)
        have hrP : ∀ t ∈ (readUntilBalanced .curly (TokStream.next c)).1, P t := fun t ht =>
          hc.1 t ((Suf.next c).mem (hr.2 t ht))
        cases hpb : processMacroDef body with
        | error x => exact ⟨fun r c' h => (by cases h), fun y h => by cases h; exact herr hb x hpb⟩
        | ok b' =>
          simp only
          cases hpe : processMacroDef (readUntilBalanced .curly (TokStream.next c)).1 with
          | error x => exact ⟨fun r c' h => (by cases h), fun y h => by cases h; exact herr hrP x hpe⟩
          | ok e' =>
            refine ⟨fun r c' h => ?_, fun y h => (by cases h)⟩
            cases h
            refine ⟨(Suf.next c).trans hr.1, fun nm a m h => ?_⟩
            cases h
            exact ⟨rfl, hn, ho, processMacroDef_inv hP hb hpb, processMacroDef_inv hP hrP hpe⟩
      · simp only [if_neg ht]
        cases hpb : processMacroDef body with
        | error x => exact ⟨fun r c' h => (by cases h), fun y h => by cases h; exact herr hb x hpb⟩
        | ok b' =>
          exact ⟨fun r c' h => by cases h; exact ⟨.refl c, fun _ _ _ h => (by cases h)⟩, fun x h => (by cases h)⟩

theorem identifyUpdate_inv {P : Tok → Prop} (hP : TokInv P) (d : DeclareCmdOrEnv) {c : LCtx} (hc : StreamInv P c) :
    (∀ r c', identifyUpdate d c = .ok (r, c') → Suf c c' ∧ ∀ nm a m, r = some (nm, a, m) → MacroInv P m) ∧
    (∀ x, identifyUpdate d c = .error x → x = .panic ∧
      ((∃ h, P (.hash, h)) ∨ ∃ n t, P (.cmd n, t) ∧ t.head? ≠ some '\\')) := by
  have h1 := readDeclName_suf d c
  unfold identifyUpdate
  cases hn : readDeclName d c with
  | error x =>
    refine ⟨fun r c' h => (by cases h), fun y h => ?_⟩
    cases h
    obtain ⟨a, _, t, b, ⟨n, e⟩, f⟩ := h1.2 x hn
    exact ⟨a, Or.inr ⟨n, t.2, by rw [← e]; exact hc.1 t b, f⟩⟩
  | ok oc =>
    obtain ⟨o, c1⟩ := oc
    have hs1 := h1.1 o c1 hn
    cases o with
    | none => exact ⟨fun r c' h => by cases h; exact ⟨hs1, fun _ _ _ h => (by cases h)⟩, fun x h => (by cases h)⟩
    | some name =>
      simp only
      have h2 := readNArgs_suf c1
      cases hr : readNArgsOptDefn c1 with
      | mk ond c2 =>
        rw [hr] at h2
        cases ond with
        | none =>
          exact ⟨fun r c' h => by cases h; exact ⟨hs1.trans h2.1, fun _ _ _ h => (by cases h)⟩, fun x h => (by cases h)⟩
        | some nod =>
          obtain ⟨n, opt, body⟩ := nod
          obtain ⟨g1, g2, g3⟩ := h2.2 n opt body rfl
          have hc1 := hc.suf hs1
          have hc2 := hc1.suf h2.1
          have h3 := finishUpdate_inv hP (d := d) (name := name) g1 (fun o ho t ht => hc1.1 t (g3 o ho t ht))
            (fun t ht => hc1.1 t (g2 t ht)) hc2
          refine ⟨fun r c' h => ?_, fun x h => ?_⟩
          · obtain ⟨a, b⟩ := h3.1 r c' h
            exact ⟨(hs1.trans h2.1).trans a, fun nm a m h => (b nm a m h).2⟩
          · exact ⟨(h3.2 x h).1, Or.inl (h3.2 x h).2⟩

/-! ### Arguments -/

theorem splitWord_split (w : Text) : ∀ (read num : Nat), ∃ a, w = a ++ (splitWord w read num).2.1 ∧
    (splitWord w read num).1 = a.map (fun c => [(Token.word, [c])]) := by
  induction w with
  | nil => intro read num; exact ⟨[], rfl, rfl⟩
  | cons c cs ih =>
    intro read num
    rw [splitWord]
    split
    · exact ⟨[c], rfl, rfl⟩
    · obtain ⟨a, h1, h2⟩ := ih (read + 1) num
      exact ⟨c :: a, by simp [← h1], by simp [h2]⟩

theorem readArgsLoop_inv {P : Tok → Prop} (hP : TokInv P) (fuel : Nat) : ∀ (num read : Nat) (c : LCtx), StreamInv P c →
    (∀ a ∈ (readArgsLoop fuel num read c).1, ∀ t ∈ a, P t) ∧ StreamInv P (readArgsLoop fuel num read c).2.2 ∧
    (readArgsLoop fuel num read c).2.2.out = c.out := by
  induction fuel with
  | zero => intro num read c hc; exact ⟨by simp [readArgsLoop], hc, rfl⟩
  | succ fuel ih =>
    intro num read c hc
    rw [readArgsLoop]
    have hs := peekNotTrivia_suf c
    cases hp : peekNotTrivia c with
    | mk o c1 =>
      rw [hp] at hs
      simp only at hs
      have hc1 := hc.suf hs
      split
      · rename_i he; cases he; exact ⟨by simp, hc1, hs.2⟩
      · rename_i he
        cases he
        have hr := readUntilBalanced_suf .curly (TokStream.next c1)
        have hs2 := (Suf.next c1).trans hr.1
        have hb : ∀ t ∈ (readUntilBalanced .curly (TokStream.next c1)).1, P t := fun t ht =>
          hc1.1 t ((Suf.next c1).mem (hr.2 t ht))
        simp only
        split
        · exact ⟨by simp; intro k x; exact hb (k, x), hc1.suf hs2, hs2.2.trans hs.2⟩
        · obtain ⟨a1, a2, a3⟩ := ih num (read + 1) _ (hc1.suf hs2)
          refine ⟨?_, a2, a3.trans (hs2.2.trans hs.2)⟩
          intro a ha
          rcases List.mem_cons.mp ha with rfl | ha
          · exact hb
          · exact a1 a ha
      · rename_i he
        cases he
        cases hpk : peek c1 with
        | none => exact ⟨by simp, hc1, hs.2⟩
        | some t =>
          simp only
          -- the peeked token is the word
          have htw : t.1 = .word := by
            unfold peekNotTrivia at hp
            split at hp
            · rename_i h0
              have : nextNotTrivia c = (none, TokStream.next c) := by
                unfold nextNotTrivia
                obtain ⟨inp, out⟩ := c
                cases inp with
                | nil => simp [nextNotTriviaN]
                | cons => cases h0
              rw [this] at hp; cases hp
            · split at hp
              · have key : ∀ n (c : LCtx) k c1, nextNotTriviaN n c = (some k, c1) → ∃ t, peek c1 = some t ∧ t.1 = k := by
                  intro n
                  induction n with
                  | zero => intro c k c1 h; cases h
                  | succ n ih =>
                    intro c k c1 h
                    rw [nextNotTriviaN] at h
                    split at h
                    · cases h
                    · rename_i t ht
                      split at h
                      · exact ih _ _ _ h
                      · cases h; exact ⟨t, ht, rfl⟩
                obtain ⟨t', h1, h2⟩ := key _ _ _ _ hp
                rw [hpk] at h1
                cases h1
                exact h2
              · rename_i t' h0 _
                simp only [Prod.mk.injEq, Option.some.injEq] at hp
                obtain ⟨h1, rfl⟩ := hp
                rw [hpk] at h0
                cases h0
                exact h1
          have hPt : P (.word, t.2) := by rw [← htw]; exact hc1.1 t (peek_mem hpk)
          obtain ⟨a, e1, e2⟩ := splitWord_split t.2 read num
          have hargs : ∀ x ∈ (splitWord t.2 read num).1, ∀ y ∈ x, P y := by
            rw [e2]
            intro x hx y hy
            obtain ⟨ch, hch, rfl⟩ := List.mem_map.mp hx
            simp at hy
            subst hy
            exact hP.char t.2 ch hPt (by rw [e1]; simp [hch])
          have hc2 : StreamInv P (if (splitWord t.2 read num).2.1 ≠ [] then setPeek (.word, (splitWord t.2 read num).2.1) c1
              else TokStream.next c1) ∧ (if (splitWord t.2 read num).2.1 ≠ [] then setPeek (.word, (splitWord t.2 read num).2.1) c1
              else TokStream.next c1).out = c1.out := by
            split
            · rename_i hne
              refine ⟨⟨fun x hx => ?_, hc1.2⟩, rfl⟩
              have hx : x ∈ (.word, (splitWord t.2 read num).2.1) :: c1.inp.tail := hx
              rcases List.mem_cons.mp hx with rfl | hx
              · exact hP.suf a _ (by rw [← e1]; exact hPt) hne
              · exact hc1.1 x (List.mem_of_mem_tail hx)
            · exact ⟨hc1.suf (.next c1), rfl⟩
          split
          · exact ⟨hargs, hc2.1, hc2.2.trans hs.2⟩
          · split
            · exact ⟨hargs, hc2.1, hc2.2.trans hs.2⟩
            · obtain ⟨a1, a2, a3⟩ := ih num ((splitWord t.2 read num).2.2 + 1) _ hc2.1
              refine ⟨?_, a2, a3.trans (hc2.2.trans hs.2)⟩
              intro x hx
              rcases List.mem_append.mp hx with hx | hx
              · exact hargs x hx
              · exact a1 x hx
      · rename_i he
        cases he
        cases hpk : peek c1 with
        | none => exact ⟨by simp, hc1, hs.2⟩
        | some t =>
          simp only
          have hPt : P t := hc1.1 t (peek_mem hpk)
          have hc2 := hc1.suf (.next c1)
          split
          · exact ⟨by intro a ha y hy; rw [List.mem_singleton] at ha; rw [ha, List.mem_singleton] at hy; rw [hy]; exact hPt,
              hc2, hs.2⟩
          · obtain ⟨a1, a2, a3⟩ := ih num (read + 1) _ hc2
            refine ⟨?_, a2, a3.trans hs.2⟩
            intro x hx
            rcases List.mem_cons.mp hx with rfl | hx
            · intro y hy
              rw [List.mem_singleton] at hy
              rw [hy]; exact hPt
            · exact a1 x hx

theorem readMacroArgs_inv {P : Tok → Prop} (hP : TokInv P) {num : Nat} {opt : Option (List Tok)}
    (ho : ∀ o, opt = some o → ∀ t ∈ o, P t) {c : LCtx} (hc : StreamInv P c) :
    StreamInv P (readMacroArgs num opt c).2 ∧ ∀ as, (readMacroArgs num opt c).1 = some as → ∀ a ∈ as, ∀ t ∈ a, P t := by
  unfold readMacroArgs
  split
  · exact ⟨hc, fun as h => by cases h; simp⟩
  · obtain ⟨h1, h2, h3⟩ := readArgsLoop_inv hP (bound c) num 0 c hc
    simp only
    split
    · exact ⟨h2, fun as h => by cases h; exact h1⟩
    · split
      · split
        · rename_i o _ _
          refine ⟨h2, fun as h => ?_⟩
          cases h
          intro a ha
          rcases List.mem_append.mp ha with ha | ha
          · exact h1 a ha
          · simp at ha; subst ha; exact ho _ rfl
        · exact ⟨h2.emit (hP.err _), fun as h => (by cases h)⟩
      · exact ⟨h2.emit (hP.err _), fun as h => (by cases h)⟩

theorem readEnvBody_inv {P : Tok → Prop} (hP : TokInv P) (fuel : Nat) : ∀ (name : Text) (bc : Nat) (c : LCtx), StreamInv P c →
    StreamInv P (readEnvBody fuel name bc c).2 ∧ ∀ b, (readEnvBody fuel name bc c).1 = some b → ∀ t ∈ b, P t := by
  induction fuel with
  | zero => intro name bc c hc; exact ⟨hc, fun b h => (by cases h)⟩
  | succ fuel ih =>
    intro name bc c hc
    rw [readEnvBody]
    cases hp : peek c with
    | none => exact ⟨hc, fun b h => (by cases h)⟩
    | some t =>
      have hPt := hc.1 t (peek_mem hp)
      have hn := hc.suf (.next c)
      have cont : ∀ bc (r : Option (List Tok) × LCtx),
          (∀ c2, readEnvBody fuel name bc (TokStream.next c) = (none, c2) → r = (none, c2)) →
          (∀ b c2, readEnvBody fuel name bc (TokStream.next c) = (some b, c2) → r = (some (t :: b), c2)) →
          StreamInv P r.2 ∧ ∀ b, r.1 = some b → ∀ t ∈ b, P t := by
        intro bc r g1 g2
        have := ih name bc _ hn
        cases hr : readEnvBody fuel name bc (TokStream.next c) with
        | mk o c2 =>
          rw [hr] at this
          cases o with
          | none => rw [g1 c2 hr]; exact ⟨this.1, fun b h => (by cases h)⟩
          | some b =>
            rw [g2 b c2 hr]
            refine ⟨this.1, fun b' h => ?_⟩
            cases h
            intro x hx
            rcases List.mem_cons.mp hx with rfl | hx
            · exact hPt
            · exact this.2 b rfl x hx
      simp only
      split
      · split
        · split
          · exact ⟨hc.emit (hP.err _), fun b h => (by cases h)⟩
          · exact ⟨hn, fun b h => by cases h; simp⟩
        · exact cont _ _ (fun c2 h => by rw [h]) (fun b c2 h => by rw [h])
      · exact cont _ _ (fun c2 h => by rw [h]) (fun b c2 h => by rw [h])

/-! ### Steps -/

theorem TableInv.insert {P : Tok → Prop} {m : MacroTable} (h : TableInv P m) {name : Text} {v : Macro} (hv : MacroInv P v) :
    TableInv P (m.insert name v) := by
  intro n x hx
  unfold MacroTable.insert at hx
  split at hx
  · cases hx; exact hv
  · exact h n x hx

theorem applyUpdate_inv {P : Tok → Prop} (hP : TokInv P) {e : Eng} {c : LCtx} {name : Text} {a : UpdateAction} {mc : Macro}
    (he : TableInv P e.macros) (hc : StreamInv P c) (hm : MacroInv P mc) :
    TableInv P (applyUpdate e c name a mc).1.macros ∧ StreamInv P (applyUpdate e c name a mc).2 := by
  unfold applyUpdate
  cases a with
  | new =>
    refine ⟨he.insert hm, ?_⟩
    simp only
    split
    · exact hc.emit (hP.err _)
    · exact hc
  | renew =>
    refine ⟨he.insert hm, ?_⟩
    simp only
    split
    · exact hc.emit (hP.err _)
    · exact hc
  | provide =>
    simp only
    split
    · exact ⟨he.insert hm, hc⟩
    · exact ⟨he, hc⟩

/-- Why a step may fail. -/
def FailCause (P : Tok → Prop) : Prop :=
  (∃ h, P (.hash, h)) ∨ (∃ n t, P (.cmd n, t) ∧ t.head? ≠ some '\\') ∨ (∃ t, P (.macroArg 0, t))

theorem BodyTok.cause {P : Tok → Prop} {t : Tok} (h : BodyTok P t)
    (ht : t.1 = .macroArg 0 ∨ (t.1 = .cmd .generic ∧ t.2.head? ≠ some '\\')) : FailCause P := by
  rcases h with h | ⟨d, x, h1, h2, _, rfl⟩
  · rcases ht with ht | ⟨ht, hx⟩
    · exact Or.inr (Or.inr ⟨t.2, by rw [← ht]; exact h⟩)
    · exact Or.inr (Or.inl ⟨.generic, t.2, by rw [← ht]; exact h, hx⟩)
  · rcases ht with ht | ⟨ht, _⟩
    · simp at ht; omega
    · cases ht

theorem trappedByMacro_inv {P : Tok → Prop} (hP : TokInv P) {e : Eng} {c : LCtx} {t : Tok} (name : Text) (isEnv : Bool)
    (he : TableInv P e.macros) (hc : StreamInv P c) (ht : P t) :
    (∀ e' c', trappedByMacro e c t name isEnv = .ok (e', c') → TableInv P e'.macros ∧ StreamInv P c') ∧
    (∀ x, trappedByMacro e c t name isEnv = .error x → x = .panic ∧ FailCause P ∧
      (∃ v, e.macros name = some v)) := by
  have pass : TableInv P e.macros ∧ StreamInv P (TokStream.next (emit t c)) := ⟨he, (hc.emit ht).suf (.next _)⟩
  unfold trappedByMacro
  cases hm : e.macros name with
  | none => exact ⟨fun e' c' h => by cases h; exact pass, fun x h => (by cases h)⟩
  | some v =>
    have hv := he name v hm
    cases v with
    | declare d =>
      cases d with
      | unimplemented => exact ⟨fun e' c' h => by cases h; exact pass, fun x h => (by cases h)⟩
      | cmdOrEnv d =>
        simp only
        split
        · exact ⟨fun e' c' h => by cases h; exact pass, fun x h => (by cases h)⟩
        · have hi := identifyUpdate_inv hP d hc
          cases hid : identifyUpdate d c with
          | error x =>
            refine ⟨fun e' c' h => (by cases h), fun y h => ?_⟩
            cases h
            obtain ⟨a, b⟩ := hi.2 x hid
            refine ⟨a, ?_, _, rfl⟩
            rcases b with b | b
            · exact Or.inl b
            · exact Or.inr (Or.inl b)
          | ok rc =>
            obtain ⟨r, c1⟩ := rc
            obtain ⟨a, b⟩ := hi.1 r c1 hid
            cases r with
            | none => exact ⟨fun e' c' h => by cases h; exact ⟨he, hc.suf a⟩, fun x h => (by cases h)⟩
            | some nam =>
              obtain ⟨nm, ac, mc⟩ := nam
              refine ⟨fun e' c' h => ?_, fun x h => (by cases h)⟩
              have h : (applyUpdate e c1 nm ac mc) = (e', c') := by injection h
              have := applyUpdate_inv hP (name := nm) (a := ac) he (hc.suf a) (b nm ac mc rfl)
              rw [h] at this
              exact this
    | cmd nm n opt body =>
      simp only
      split
      · exact ⟨fun e' c' h => by cases h; exact pass, fun x h => (by cases h)⟩
      · obtain ⟨g1, g2, g3⟩ := hv
        have ha := readMacroArgs_inv hP (num := n) g2 (hc.suf (.next c))
        cases hr : readMacroArgs n opt (TokStream.next c) with
        | mk o c1 =>
          rw [hr] at ha
          cases o with
          | none => exact ⟨fun e' c' h => by cases h; exact ⟨he, ha.1⟩, fun x h => (by cases h)⟩
          | some as =>
            simp only
            cases hx : expandTokens as false 0 body with
            | error x =>
              refine ⟨fun e' c' h => (by cases h), fun y h => ?_⟩
              cases h
              obtain ⟨a, t', b, d⟩ := expandTokens_error body _ _ _ hx
              exact ⟨a, (g3 t' b).cause d, _, rfl⟩
            | ok ex =>
              refine ⟨fun e' c' h => ?_, fun x h => (by cases h)⟩
              cases h
              refine ⟨he, fun t' ht' => ?_, ha.1.2⟩
              have ht' : t' ∈ ex ++ c1.inp := ht'
              rcases List.mem_append.mp ht' with h | h
              · exact expandTokens_inv hP (ha.2 as rfl) body false 0 g3 (by simp) ex hx t' h
              · exact ha.1.1 t' h
    | env nm n opt bdef edef =>
      simp only
      split
      · exact ⟨fun e' c' h => by cases h; exact pass, fun x h => (by cases h)⟩
      · obtain ⟨g1, g2, g3, g4⟩ := hv
        have ha := readMacroArgs_inv hP (num := n) g2 (hc.suf (.next c))
        cases hr : readMacroArgs n opt (TokStream.next c) with
        | mk o c1 =>
          rw [hr] at ha
          cases o with
          | none => exact ⟨fun e' c' h => by cases h; exact ⟨he, ha.1⟩, fun x h => (by cases h)⟩
          | some as =>
            simp only
            have hb := readEnvBody_inv hP (bound c1) nm 0 c1 ha.1
            cases hrb : readEnvBody (bound c1) nm 0 c1 with
            | mk ob c2 =>
              rw [hrb] at hb
              cases ob with
              | none => exact ⟨fun e' c' h => by cases h; exact ⟨he, hb.1⟩, fun x h => (by cases h)⟩
              | some b =>
                simp only
                cases hx : expandTokens as false 0 bdef with
                | error x =>
                  refine ⟨fun e' c' h => (by cases h), fun y h => ?_⟩
                  cases h
                  obtain ⟨a, t', b, d⟩ := expandTokens_error bdef _ _ _ hx
                  exact ⟨a, (g3 t' b).cause d, _, rfl⟩
                | ok eb =>
                  simp only
                  cases hy : expandTokens as false 0 edef with
                  | error x =>
                    refine ⟨fun e' c' h => (by cases h), fun y h => ?_⟩
                    cases h
                    obtain ⟨a, t', b, d⟩ := expandTokens_error edef _ _ _ hy
                    exact ⟨a, (g4 t' b).cause d, _, rfl⟩
                  | ok ee =>
                    refine ⟨fun e' c' h => ?_, fun x h => (by cases h)⟩
                    cases h
                    refine ⟨he, fun t' ht' => ?_, hb.1.2⟩
                    have ht' : t' ∈ (eb ++ b ++ ee) ++ c2.inp := ht'
                    rcases List.mem_append.mp ht' with h | h
                    · rcases List.mem_append.mp h with h | h
                      · rcases List.mem_append.mp h with h | h
                        · exact expandTokens_inv hP (ha.2 as rfl) bdef false 0 g3 (by simp) eb hx t' h
                        · exact hb.2 b rfl t' h
                      · exact expandTokens_inv hP (ha.2 as rfl) edef false 0 g4 (by simp) ee hy t' h
                    · exact hb.1.1 t' h

theorem engStep_inv {P : Tok → Prop} (hP : TokInv P) {e : Eng} {c : LCtx} {t : Tok} (hpk : peek c = some t)
    (he : TableInv P e.macros) (hc : StreamInv P c) :
    (∀ e' c', engStep e c t = .ok (e', c') → TableInv P e'.macros ∧ StreamInv P c') ∧
    (∀ x, engStep e c t = .error x → x = .panic ∧ FailCause P) := by
  have ht : P t := hc.1 t (peek_mem hpk)
  have hn := hc.suf (.next c)
  unfold engStep
  split
  · rename_i i hk
    refine ⟨fun e' c' h => ?_, fun x h => (by cases h)⟩
    have h : trappedByIf e c t i = (e', c') := by injection h
    unfold trappedByIf at h
    split at h <;> cases h <;> first | exact ⟨he, hn⟩ | exact ⟨he, hn.emit ht⟩
  · refine ⟨fun e' c' h => ?_, fun x h => (by cases h)⟩
    have h : trappedByElse e c t = (e', c') := by injection h
    unfold trappedByElse at h
    split at h <;> cases h <;> first
      | exact ⟨he, hn.suf (skipFalse_suf _ _ _)⟩
      | exact ⟨he, hn⟩
      | exact ⟨he, hn.emit hP.fi⟩
      | exact ⟨he, hn.emit ht⟩
  · refine ⟨fun e' c' h => ?_, fun x h => (by cases h)⟩
    have h : trappedByEndif e c t = (e', c') := by injection h
    unfold trappedByEndif at h
    split at h <;> cases h <;> first | exact ⟨he, hn⟩ | exact ⟨he, hn.emit ht⟩
  · rename_i hk
    cases hd : dropBytes 1 t.2 with
    | none =>
      refine ⟨fun e' c' h => (by cases h), fun x h => ?_⟩
      cases h
      refine ⟨rfl, Or.inr (Or.inl ⟨.generic, t.2, by rw [← hk]; exact ht, ?_⟩)⟩
      intro hh
      cases hx : t.2 with
      | nil => rw [hx] at hh; cases hh
      | cons c cs =>
        rw [hx] at hh
        simp at hh
        subst hh
        rw [hx, dropBytes_backslash] at hd
        cases hd
    | some name =>
      have := trappedByMacro_inv hP (e := e) (c := c) (t := t) name false he hc ht
      exact ⟨this.1, fun x h => ⟨(this.2 x h).1, (this.2 x h).2.1⟩⟩
  · have := trappedByMacro_inv hP (e := e) (c := c) (t := t) t.2 true he hc ht
    exact ⟨this.1, fun x h => ⟨(this.2 x h).1, (this.2 x h).2.1⟩⟩
  · exact ⟨fun e' c' h => by cases h; exact ⟨he, (hc.emit ht).suf (.next _)⟩, fun x h => (by cases h)⟩

theorem engRun_inv {P : Tok → Prop} (hP : TokInv P) (n : Nat) : ∀ {e : Eng} {c : LCtx}, TableInv P e.macros → StreamInv P c →
    (∀ e' c', engRun n e c = .ok (e', c') → TableInv P e'.macros ∧ StreamInv P c') ∧
    (∀ x, engRun n e c = .error x → x = .fuel ∨ (x = .panic ∧ FailCause P)) := by
  induction n with
  | zero =>
    intro e c he hc
    rw [engRun]
    cases peek c with
    | none => exact ⟨fun e' c' h => by cases h; exact ⟨he, hc⟩, fun x h => (by cases h)⟩
    | some t => exact ⟨fun e' c' h => (by cases h), fun x h => by cases h; exact Or.inl rfl⟩
  | succ n ih =>
    intro e c he hc
    rw [engRun]
    cases hp : peek c with
    | none => exact ⟨fun e' c' h => by cases h; exact ⟨he, hc⟩, fun x h => (by cases h)⟩
    | some t =>
      simp only
      have hs := engStep_inv hP hp he hc
      cases hst : engStep e c t with
      | error x =>
        refine ⟨fun e' c' h => (by cases h), fun y h => ?_⟩
        cases h
        exact Or.inr (hs.2 x hst)
      | ok ec =>
        obtain ⟨e1, c1⟩ := ec
        obtain ⟨a, b⟩ := hs.1 e1 c1 hst
        exact ih a b

theorem defaultTable_inv (P : Tok → Prop) : TableInv P defaultMacros := by
  intro name v h
  rcases defaultMacros_shape name with h1 | ⟨_, d, h1⟩ | h1
  · rw [h1] at h; cases h
  · rw [h1] at h; cases h; trivial
  · rw [h1] at h; cases h; trivial

end Mitex
