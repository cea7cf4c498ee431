/-
The two lexers follow the tokens of the staged model.
-/
import Verif.Proof.LazyKeep
import Verif.Props.StreamPanic
import Verif.Props.Parser

namespace Mitex
namespace Lazy

/-! ### Both are lexers -/

theorem plain_lawful (N : Nat) : Lawful (PlainSrc.fns N) where
  eat_none := by intro s h; simp only [PlainSrc.fns] at h ⊢; rw [h]
  eat_some := by
    intro s t h
    simp only [PlainSrc.fns] at h ⊢
    rw [h]
    simp only
    split
    · rename_i e _; exact .inl ⟨e, rfl⟩
    · rename_i l _; exact .inr ⟨l, rfl⟩
  consume_none := by intro s cnt h; simp only [PlainSrc.fns] at h ⊢; rw [h]
  consume_all := by
    intro s k t cnt h hc
    simp only [PlainSrc.fns] at h ⊢
    rw [h]
    simp only [hc, if_true]
    have : PlainSrc.next N s = PlainSrc.next N { s with lex := { s.lex with peeked := none } } := by
      unfold PlainSrc.next PlainLexer.next PlainLexer.bump
      simp only
    rw [this]
    split <;> simp_all [Except.map]
  consume_bad := by
    intro s k t cnt h hc hd
    simp only [PlainSrc.fns] at h ⊢
    rw [h]
    simp only [Nat.not_le.2 hc, if_false, hd]
  consume_part := by
    intro s k t t' cnt h hc hd
    simp only [PlainSrc.fns] at h ⊢
    rw [h]
    simp only [Nat.not_le.2 hc, if_false, hd]
    refine ⟨_, rfl, rfl, ?_⟩
    simp only
    split <;> rfl

theorem macro_lawful (cap fuel : Nat) : Lawful (MacroSrc.fns cap fuel) where
  eat_none := by intro s h; simp only [MacroSrc.fns] at h ⊢; rw [h]
  eat_some := by
    intro s t h
    simp only [MacroSrc.fns] at h ⊢
    rw [h]
    simp only
    split
    · rename_i e _; exact .inl ⟨e, rfl⟩
    · rename_i l _; exact .inr ⟨l, rfl⟩
  consume_none := by intro s cnt h; simp only [MacroSrc.fns] at h ⊢; rw [h]
  consume_all := by
    intro s k t cnt h hc
    simp only [MacroSrc.fns] at h ⊢
    rw [h]
    simp only [hc, if_true]
    have : MacroSrc.next cap fuel s = MacroSrc.next cap fuel { s with peeked := none } := by
      unfold MacroSrc.next MacroSrc.bump
      simp only
    rw [this]
    split <;> simp_all [Except.map]
  consume_bad := by
    intro s k t cnt h hc hd
    simp only [MacroSrc.fns] at h ⊢
    rw [h]
    simp only [Nat.not_le.2 hc, if_false, hd]
  consume_part := by
    intro s k t t' cnt h hc hd
    simp only [MacroSrc.fns] at h ⊢
    rw [h]
    simp only [Nat.not_le.2 hc, if_false, hd]
    refine ⟨_, rfl, rfl, ?_⟩
    simp only
    split <;> rfl

/-! ### The plain lexer -/

/-- Nothing is peeked only at the real end. -/
def PlainSrc.Ok (l : PlainSrc) : Prop := l.lex.peeked = none → l.lex.buf = [] ∧ l.lex.rest = [] ∧ l.stuck = false

theorem plain_step {N : Nat} (hN : 0 < N) (p : Option Tok) (buf rest : List Tok) (stuck : Bool) :
    (stuck = true ∧ PlainSrc.next N ⟨⟨p, buf, rest⟩, stuck⟩ = .error .panic) ∨
    ∃ l, PlainSrc.next N ⟨⟨p, buf, rest⟩, stuck⟩ = .ok l ∧ l.Ok ∧ l.stuck = stuck ∧ l.lex.peeked.toList ++ l.lex.buf ++ l.lex.rest = buf ++ rest := by
  obtain ⟨l, h1, h2, h3⟩ := plain_next hN p buf rest
  cases buf with
  | cons b bs =>
    right
    refine ⟨⟨l, stuck⟩, by unfold PlainSrc.next; simp only [h1, Except.map], ?_, rfl, h2⟩
    intro hp
    exfalso
    have hp' : l.peeked = none := hp
    simp only [PlainLexer.next] at h1
    cases h1
    cases hp'
  | nil =>
    by_cases hs : stuck = true ∧ rest.length < N
    · left
      exact ⟨hs.1, by unfold PlainSrc.next; simp only [hs, and_self, if_true]⟩
    · right
      refine ⟨⟨l, stuck⟩, by unfold PlainSrc.next; simp only [hs, if_false, h1, Except.map], ?_, rfl, h2⟩
      intro hp
      have hp' : l.peeked = none := hp
      obtain ⟨a, b⟩ := h3 hp'
      refine ⟨a, b, ?_⟩
      cases stuck with
      | false => rfl
      | true =>
        exfalso
        rw [hp', a, b] at h2
        simp at h2
        apply hs
        refine ⟨rfl, ?_⟩
        rw [h2]; exact hN

theorem plain_follows {N : Nat} (hN : 0 < N) : ∀ (toks : List Tok) {l : PlainSrc}, l.Ok → l.lex.peeked.toList ++ l.lex.buf ++ l.lex.rest = toks →
    Follows (PlainSrc.fns N) (fun e => e = .panic ∧ l.stuck = true) toks l := by
  intro toks
  induction toks with
  | nil =>
    intro l hl h
    show l.lex.peeked = none
    cases hp : l.lex.peeked with
    | none => rfl
    | some p => rw [hp] at h; simp at h
  | cons t ts ih =>
    intro l hl h
    obtain ⟨⟨p, buf, rest⟩, stuck⟩ := l
    cases p with
    | none =>
      obtain ⟨a, b, c⟩ := hl rfl
      simp only at a b h
      subst a; subst b
      simp at h
    | some p =>
      simp only [Option.toList_some, List.cons_append, List.nil_append, List.cons.injEq] at h
      obtain ⟨rfl, h⟩ := h
      refine ⟨rfl, ?_⟩
      simp only [PlainSrc.fns]
      rcases plain_step hN none buf rest stuck with ⟨h1, h2⟩ | ⟨l', h1, h2, h3, h4⟩
      · left; exact ⟨_, ⟨rfl, h1⟩, by rw [h2]⟩
      · right
        have := ih h2 (h4.trans h)
        rw [h3] at this
        exact ⟨l', by rw [h1], this⟩

/-! ### The macro lexer -/

/-- A stream whose source may panic, and the token list of the staged model. -/
def SRel (st : Bool) (c : SCtx) (l : LCtx) : Prop :=
  CtxRel c.ctx l ∧ c.stuck = st ∧ (st = false → c.dead = false) ∧ (st = true → c.ctx.peeked = none → c.dead = true)

theorem ctx_next_none {c : Ctx} (h : c.next.peeked = none) : c.buf = [] ∧ c.rest = [] := by
  unfold Ctx.next at h
  split at h
  · cases h
  · rename_i hb
    split at h
    · cases h
    · rename_i hr; exact ⟨hb, hr⟩

theorem SCtx.pushFront_ctx (ts : List Tok) (c : SCtx) : (SCtx.pushFront ts c).ctx = c.ctx.pushFront ts := by
  unfold SCtx.pushFront Ctx.pushFront
  simp only
  split <;> simp only [*] <;> rfl

theorem srel_stream (st : Bool) : StreamRel (SRel st) where
  peek := fun h => ctxRel_stream.peek h.1
  next := by
    intro c l h
    refine ⟨ctxRel_next h.1, h.2.1, ?_, ?_⟩
    · intro hs
      show (c.dead || (c.stuck && c.ctx.buf.isEmpty && c.ctx.rest.isEmpty)) = false
      rw [h.2.2.1 hs, h.2.1, hs]; rfl
    · intro hs hp
      obtain ⟨hb, hr⟩ := ctx_next_none (c := c.ctx) hp
      show (c.dead || (c.stuck && c.ctx.buf.isEmpty && c.ctx.rest.isEmpty)) = true
      rw [h.2.1, hs, hb, hr]; simp
  pushFront := by
    intro c l ts h
    refine ⟨?_, ?_, ?_, ?_⟩
    · show CtxRel (SCtx.pushFront ts c).ctx _
      rw [SCtx.pushFront_ctx]
      exact ctxRel_stream.pushFront ts h.1
    · show (SCtx.pushFront ts c).stuck = st
      unfold SCtx.pushFront
      split <;> exact h.2.1
    · intro hs
      show (SCtx.pushFront ts c).dead = false
      unfold SCtx.pushFront
      split
      · show (c.dead || (c.stuck && _ && _)) = false
        rw [h.2.2.1 hs, h.2.1, hs]; rfl
      · exact h.2.2.1 hs
    · intro hs
      show (SCtx.pushFront ts c).ctx.peeked = none → (SCtx.pushFront ts c).dead = true
      unfold SCtx.pushFront
      split
      · intro hp
        obtain ⟨hb, hr⟩ := ctx_next_none (c := c.ctx.extend ts.reverse) hp
        show (c.dead || (c.stuck && (c.ctx.extend ts.reverse).buf.isEmpty && (c.ctx.extend ts.reverse).rest.isEmpty)) = true
        rw [h.2.1, hs, hb, hr]; simp
      · rename_i t ht
        intro hp
        simp only at hp
        rw [ht] at hp; cases hp
  setPeek := by
    intro c l t h hs
    exact ⟨ctxRel_stream.setPeek t h.1 hs, h.2.1, h.2.2.1, fun _ hp => (by cases hp)⟩
  emit := by
    intro c l t h
    exact ⟨ctxRel_stream.emit t h.1, h.2.1, h.2.2.1, h.2.2.2⟩
  bound := fun h => ctxRel_stream.bound h.1

/-- How a run of the engine over the whole list ends. -/
abbrev Ending := Res (Eng × LCtx)

/-- The tokens a run has delivered when it ends, however it ends. -/
def runOut : Nat → Eng → LCtx → List Tok
  | 0, _, c => c.out
  | n + 1, e, c =>
    match TokStream.peek c with
    | none => c.out
    | some t =>
      match engStep e c t with
      | .error _ => c.out
      | .ok (e, c) => runOut n e c

theorem runOut_ok (n : Nat) : ∀ {e ef : Eng} {l lf : LCtx}, engRun n e l = .ok (ef, lf) → runOut n e l = lf.out := by
  induction n with
  | zero =>
    intro e ef l lf h
    rw [engRun] at h
    split at h
    · cases h; rfl
    · cases h
  | succ n ih =>
    intro e ef l lf h
    rw [engRun] at h
    rw [runOut]
    split at h
    · rename_i hp; cases h; rw [hp]
    · rename_i t hp
      rw [hp]
      simp only
      split at h
      · cases h
      · rename_i hs
        rw [hs]
        exact ih h

theorem runOut_nil {n : Nat} {e : Eng} {l : LCtx} (h : l.inp = []) : runOut n e l = l.out := by
  have hp : TokStream.peek l = none := by show l.inp.head? = none; rw [h]; rfl
  cases n with
  | zero => rfl
  | succ n => rw [runOut, hp]

theorem runOut_frame (o : List Tok) (n : Nat) : ∀ {e : Eng} {c l : LCtx}, FrameRel o c l → runOut n e c = o ++ runOut n e l := by
  induction n with
  | zero => intro e c l h; exact h.2
  | succ n ih =>
    intro e c l h
    rw [runOut, runOut, (frameRel_stream o).peek h]
    cases TokStream.peek l with
    | none => exact h.2
    | some t =>
      simp only
      have hs := engStep_rel (frameRel_stream o) e t h
      cases h1 : engStep e c t with
      | error x =>
        cases h2 : engStep e l t with
        | error y => exact h.2
        | ok b => rw [h1, h2] at hs; exact hs.elim
      | ok a =>
        cases h2 : engStep e l t with
        | error y => rw [h1, h2] at hs; exact hs.elim
        | ok b =>
          rw [h1, h2] at hs
          obtain ⟨v, c', d', rfl, rfl, h3⟩ := PRel.elim hs
          exact ih h3

theorem runOut_inv {P : Tok → Prop} (hP : TokInv P) (n : Nat) : ∀ {e : Eng} {l : LCtx}, TableInv P e.macros → StreamInv P l → ∀ t ∈ runOut n e l, P t := by
  induction n with
  | zero => intro e l he hl; exact hl.2
  | succ n ih =>
    intro e l he hl
    rw [runOut]
    split
    · exact hl.2
    · rename_i t hp
      split
      · exact hl.2
      · rename_i e' c' hs
        obtain ⟨h1, h2⟩ := (engStep_inv hP hp he hl).1 _ _ hs
        exact ih h1 h2

/-- One page, when the run over the whole list is known. -/
theorem fill_page {P : Tok → Prop} (hP : TokInv P) (st : Bool) (cap : Nat) (n : Nat) : ∀ {e : Eng} {c : SCtx} {l : LCtx} {res : Ending}, SRel st c l →
    TableInv P e.macros → StreamInv P l →
    engRun n e l = res → res ≠ .error .fuel → ∀ F,
    (fill cap F e c = .error .fuel ∧ F < n) ∨
    (fill cap F e c = .error .panic ∧ (st = true ∨ res = .error .panic)) ∨
    ∃ e' c' l' n', n' ≤ n ∧ (c.ctx.out.length < cap → l.inp ≠ [] → n' < n) ∧ fill cap F e c = .ok (e', c') ∧ SRel st c' l' ∧
      TableInv P e'.macros ∧ StreamInv P l' ∧ engRun n' e' l' = res ∧ (c'.ctx.out.length < cap → l'.inp = [] ∧ st = false) ∧ runOut n' e' l' = runOut n e l := by
  induction n with
  | zero =>
    intro e c l res hr he hl hrun hres F
    have hpk : c.ctx.peeked = l.inp.head? := ctxRel_stream.peek hr.1
    have h0 := hrun
    have hnil : l.inp = [] := by
      rw [engRun] at hrun
      cases hl' : l.inp with
      | nil => rfl
      | cons a b =>
        exfalso
        have : TokStream.peek l = some a := by show l.inp.head? = _; rw [hl']; rfl
        rw [this] at hrun
        exact hres hrun.symm
    have hnone : c.ctx.peeked = none := by rw [hpk, hnil]; rfl
    right
    cases hd : c.dead with
    | true =>
      left
      have hst : st = true := by
        cases st with
        | true => rfl
        | false => rw [hr.2.2.1 rfl] at hd; cases hd
      refine ⟨?_, .inl hst⟩
      cases F <;> simp [fill, hd]
    | false =>
      have hst : st = false := by
        cases st with
        | false => rfl
        | true => rw [hr.2.2.2 rfl hnone] at hd; cases hd
      right
      refine ⟨e, c, l, 0, Nat.le_refl _, fun _ h => absurd hnil h, ?_, hr, he, hl, h0, fun _ => ⟨hnil, hst⟩, rfl⟩
      cases F with
      | zero => simp [fill, hd, hnone]
      | succ F => simp [fill, hd, hnone]
  | succ n ih =>
    intro e c l res hr he hl hrun hres F
    have hpk : c.ctx.peeked = l.inp.head? := ctxRel_stream.peek hr.1
    have h0 := hrun
    cases hd : c.dead with
    | true =>
      right; left
      have hst : st = true := by
        cases st with
        | true => rfl
        | false => rw [hr.2.2.1 rfl] at hd; cases hd
      refine ⟨?_, .inl hst⟩
      cases F <;> simp [fill, hd]
    | false =>
      by_cases hcap : c.ctx.out.length < cap
      · cases hp : c.ctx.peeked with
        | none =>
          have hnil : l.inp = [] := by
            rw [hp] at hpk
            cases hl' : l.inp with
            | nil => rfl
            | cons a b => rw [hl'] at hpk; cases hpk
          have hst : st = false := by
            cases st with
            | false => rfl
            | true => rw [hr.2.2.2 rfl hp] at hd; cases hd
          right; right
          refine ⟨e, c, l, n + 1, Nat.le_refl _, fun _ h => absurd hnil h, ?_, hr, he, hl, h0, fun _ => ⟨hnil, hst⟩, rfl⟩
          cases F with
          | zero => simp [fill, hd, hp]
          | succ F => simp [fill, hd, hp]
        | some t =>
          have hpl : TokStream.peek l = some t := by show l.inp.head? = some t; rw [← hpk, hp]
          rw [engRun, hpl] at hrun
          simp only at hrun
          have hs := engStep_rel (srel_stream st) e t hr
          have hi := engStep_inv hP hpl he hl
          cases F with
          | zero => left; exact ⟨by simp [fill, hd, hcap, hp], by omega⟩
          | succ F =>
            simp only [fill, hd, hcap, hp, if_true, Bool.false_eq_true, if_false]
            cases h2 : engStep e l t with
            | error y =>
              have hy := (hi.2 y h2).1
              subst hy
              rw [h2] at hrun hs
              cases h1 : engStep e c t with
              | ok r => rw [h1] at hs; exact hs.elim
              | error z =>
                rw [h1] at hs
                have : z = .panic := hs
                subst this
                right; left
                exact ⟨rfl, .inr hrun.symm⟩
            | ok r2 =>
              obtain ⟨e2, l1⟩ := r2
              rw [h2] at hrun hs
              cases h1 : engStep e c t with
              | error y => rw [h1] at hs; exact hs.elim
              | ok r =>
                obtain ⟨e1, c1⟩ := r
                rw [h1] at hs
                obtain ⟨hee, hr1⟩ := hs
                simp only at hee hr1 hrun ⊢
                subst hee
                obtain ⟨i1, i2⟩ := hi.1 _ _ h2
                rcases ih hr1 i1 i2 hrun hres F with h3 | h3 | ⟨e', c', l', n', a1, a2, a3⟩
                · left; exact ⟨h3.1, by omega⟩
                · right; left; exact h3
                · right; right
                  refine ⟨e', c', l', n', by omega, fun _ _ => by omega, a3.1, a3.2.1, a3.2.2.1, a3.2.2.2.1, a3.2.2.2.2.1, a3.2.2.2.2.2.1, ?_⟩
                  rw [runOut, hpl]
                  simp only [h2]
                  exact a3.2.2.2.2.2.2
      · right; right
        refine ⟨e, c, l, n + 1, Nat.le_refl _, fun h => absurd h hcap, ?_, hr, he, hl, h0, fun h => absurd h hcap, rfl⟩
        cases F with
        | zero => simp [fill, hd, hcap]
        | succ F => simp [fill, hd, hcap]

/-- The lexer is well formed. -/
structure MacroSrc.Ok (st : Bool) (l : MacroSrc) : Prop where
  rel : SRel st l.ctx ⟨l.ctx.ctx.pending, []⟩
  done : l.peeked = none → l.buf = [] ∧ l.ctx.ctx.pending = [] ∧ st = false

theorem SRel.inp {st : Bool} {c : SCtx} {l : LCtx} (h : SRel st c l) : l = ⟨c.ctx.pending, c.ctx.out⟩ := h.1.inp

theorem srel_reload {st : Bool} {c : SCtx} {l : LCtx} (h : SRel st c l) : SRel st (if c.ctx.peeked.isNone then c.next else c) l := by
  have h1 := reload_rel h.1
  split
  · rename_i hp
    rw [if_pos hp] at h1
    have h2 := (srel_stream st).next h
    exact ⟨h1, h2.2⟩
  · exact h

theorem SRel.clear {st : Bool} {c : SCtx} {l : LCtx} (h : SRel st c l) :
    SRel st { c with ctx := { c.ctx with out := [] } } ⟨c.ctx.pending, []⟩ :=
  ⟨⟨rfl, h.1.2.1, rfl⟩, h.2⟩

/-- The end of the run without the tokens delivered so far. -/
theorem engRun_unframe {n : Nat} {e : Eng} {inp o : List Tok} {res : Ending} (h : engRun n e (⟨inp, o⟩ : LCtx) = res) :
    ∃ res', engRun n e (⟨inp, []⟩ : LCtx) = res' ∧ (∀ x, res' = .error x ↔ res = .error x) := by
  rw [engRun_frame] at h
  refine ⟨_, rfl, ?_⟩
  cases h2 : engRun n e (⟨inp, []⟩ : LCtx) with
  | error x => rw [h2] at h; subst h; exact fun y => by simp
  | ok r => rw [h2] at h; subst h; exact fun y => by simp

/-- What a lexer may fail with, given the end of the run over the whole list. -/
def BadAt (st : Bool) (F k : Nat) (res : Ending) (e : Stop) : Prop :=
  (e = .fuel ∧ F < k) ∨ (e = .panic ∧ (st = true ∨ res = .error .panic))

theorem BadAt.mono {st : Bool} {F k k' : Nat} {res res' : Ending} (hk : k' ≤ k) (hr : res' = .error .panic → res = .error .panic) (e : Stop)
    (h : BadAt st F k' res' e) : BadAt st F k res e := by
  rcases h with ⟨h1, h2⟩ | ⟨h1, h2⟩
  · exact .inl ⟨h1, by omega⟩
  · exact .inr ⟨h1, h2.imp_right hr⟩

theorem Follows.mono {σ : Type} {L : LexerFns σ} {bad bad' : Stop → Prop} (hb : ∀ e, bad e → bad' e) : ∀ {ts : List Tok} {s : σ}, Follows L bad ts s →
    Follows L bad' ts s
  | [], _, h => h
  | _ :: _, _, h => ⟨h.1, h.2.imp (fun ⟨e, h1, h2⟩ => ⟨e, hb e h1, h2⟩) (fun ⟨s', h1, h2⟩ => ⟨s', h1, Follows.mono hb h2⟩)⟩

/-- A refill of the outer cache. -/
theorem bump_page {P : Tok → Prop} (hP : TokInv P) {st : Bool} {cap F : Nat} (hcap : 0 < cap) {e : Eng} {c : SCtx} {toks : List Tok} {k : Nat} {res : Ending}
    (hr : SRel st c ⟨toks, []⟩) (he : TableInv P e.macros) (hi : ∀ t ∈ toks, P t)
    (hrun : engRun k e (⟨toks, []⟩ : LCtx) = res) (hres : res ≠ .error .fuel) :
    (fill cap F e c = .error .fuel ∧ F < k) ∨
    (fill cap F e c = .error .panic ∧ (st = true ∨ res = .error .panic)) ∨
    ∃ e1 c1 k1 res1, fill cap F e c = .ok (e1, c1) ∧ k1 ≤ k ∧ (toks ≠ [] → k1 < k) ∧
      MacroSrc.Ok st ⟨e1, { c1 with ctx := { c1.ctx with out := [] } }, c1.ctx.out.head?, c1.ctx.out.tail⟩ ∧
      TableInv P e1.macros ∧ (∀ t ∈ c1.ctx.pending, P t) ∧ (∀ t ∈ c1.ctx.out, P t) ∧
      engRun k1 e1 (⟨c1.ctx.pending, []⟩ : LCtx) = res1 ∧ (∀ x, res1 = .error x ↔ res = .error x) ∧
      runOut k e ⟨toks, []⟩ = c1.ctx.out ++ runOut k1 e1 ⟨c1.ctx.pending, []⟩ := by
  rcases fill_page hP st cap k hr he ⟨hi, fun t h => (by cases h)⟩ hrun hres F with h | h | ⟨e', c', l', n', a1, a2, a3, a4, a5, a6, a7, a8, a9⟩
  · exact .inl h
  · exact .inr (.inl h)
  · right; right
    have hinp := a4.inp
    rw [hinp] at a7 a6 a8 a9
    obtain ⟨res1, b1, b2⟩ := engRun_unframe a7
    have hout : c.ctx.out = [] := hr.1.2.2
    refine ⟨e', c', n', res1, a3, a1, fun hne => a2 (by rw [hout]; exact hcap) hne, ⟨a4.clear, ?_⟩, a5, a6.1, a6.2, b1, b2, a9.symm.trans (runOut_frame c'.ctx.out _ ⟨rfl, by simp⟩)⟩
    intro hp
    simp only at hp
    have ho : c'.ctx.out = [] := by
      cases hc : c'.ctx.out with
      | nil => rfl
      | cons a b => rw [hc] at hp; cases hp
    obtain ⟨h1, h2⟩ := a8 (by rw [ho]; exact hcap)
    exact ⟨by rw [ho]; rfl, h1, h2⟩

theorem srel_ctx_out {st : Bool} {l : MacroSrc} (h : l.Ok st) : ({ l.ctx with ctx := { l.ctx.ctx with out := [] } } : SCtx) = l.ctx := by
  have : l.ctx.ctx.out = [] := h.rel.1.2.2
  cases hc : l.ctx with
  | mk a b d =>
    rw [hc] at this
    cases a
    simp only at this
    rw [this]

/-- The lexer delivers the tokens of the staged model, or fails. -/
theorem macro_follows {P : Tok → Prop} (hP : TokInv P) {st : Bool} {cap F : Nat} (hcap : 0 < cap) (k : Nat) : ∀ (b : Nat) {l : MacroSrc} {res : Ending}, l.Ok st →
    l.buf.length = b → TableInv P l.eng.macros → (∀ t ∈ l.ctx.ctx.pending, P t) → (∀ t ∈ l.peeked.toList ++ l.buf, P t) →
    engRun k l.eng (⟨l.ctx.ctx.pending, []⟩ : LCtx) = res → res ≠ .error .fuel →
    Follows (MacroSrc.fns cap F) (BadAt st F k res) (l.peeked.toList ++ l.buf ++ runOut k l.eng ⟨l.ctx.ctx.pending, []⟩) l := by
  induction k using Nat.strongRecOn with
  | ind k ihk =>
    intro b
    induction b with
    | zero =>
      intro l res hl hlen he hi hq hrun hres
      have hb : l.buf = [] := List.length_eq_zero_iff.mp hlen
      cases hp : l.peeked with
      | none =>
        obtain ⟨_, h2, _⟩ := hl.done hp
        rw [runOut_nil h2, hb]
        exact hp
      | some p =>
        have hpP : P p := hq p (by rw [hp]; simp)
        have hctx := srel_ctx_out hl
        have hnext : MacroSrc.next cap F { l with peeked := none } =
            match fill cap F l.eng (if l.ctx.ctx.peeked.isNone then l.ctx.next else l.ctx) with
            | .error x => .error x
            | .ok (e, c) => .ok { eng := e, ctx := { c with ctx := { c.ctx with out := [] } }, peeked := c.ctx.out.head?, buf := c.ctx.out.tail } := by
          simp only [MacroSrc.next, hb, MacroSrc.bump]
          rw [hctx]
          rfl
        have heat : (MacroSrc.fns cap F).eat l = match MacroSrc.next cap F { l with peeked := none } with
            | .error e => .error e
            | .ok l' => .ok (some p, l') := by simp only [MacroSrc.fns, hp]; rfl
        have failed : ∀ x, BadAt st F k res x → fill cap F l.eng (if l.ctx.ctx.peeked.isNone then l.ctx.next else l.ctx) = .error x →
            Follows (MacroSrc.fns cap F) (BadAt st F k res) ((some p).toList ++ l.buf ++ runOut k l.eng ⟨l.ctx.ctx.pending, []⟩) l := by
          intro x hx hf
          rw [hb]
          refine ⟨hp, .inl ⟨x, hx, ?_⟩⟩
          rw [heat, hnext, hf]
        rcases bump_page hP (F := F) hcap (srel_reload hl.rel) he hi hrun hres with ⟨h1, h2⟩ | ⟨h1, h2⟩ | ⟨e1, c1, k1, res1, a1, a2, a3, a4, a5, a6, a7, a8, a9, a10⟩
        · exact failed _ (.inl ⟨rfl, h2⟩) h1
        · exact failed _ (.inr ⟨rfl, h2⟩) h1
        · have heat' : (MacroSrc.fns cap F).eat l = .ok (some p, ⟨e1, { c1 with ctx := { c1.ctx with out := [] } }, c1.ctx.out.head?, c1.ctx.out.tail⟩) := by
            rw [heat, hnext, a1]
          have hout : c1.ctx.out.head?.toList ++ c1.ctx.out.tail = c1.ctx.out := by cases c1.ctx.out <;> rfl
          rw [hb, a10]
          refine ⟨hp, .inr ⟨_, heat', ?_⟩⟩
          show Follows _ _ (c1.ctx.out ++ runOut k1 e1 ⟨c1.ctx.pending, []⟩) _
          by_cases hne : l.ctx.ctx.pending = []
          · rw [runOut_nil hne] at a10
            have ho := List.append_eq_nil_iff.1 a10.symm
            rw [ho.1, ho.2]
            rfl
          · have := ihk k1 (a3 hne) _ a4 rfl a5 a6 (by
                intro t ht
                have ht' : t ∈ c1.ctx.out.head?.toList ++ c1.ctx.out.tail := ht
                rw [hout] at ht'
                exact a7 t ht') a8 (fun h => hres ((a9 _).1 h))
            have e2 : (MacroSrc.mk e1 { c1 with ctx := { c1.ctx with out := [] } } c1.ctx.out.head? c1.ctx.out.tail).peeked.toList ++
                (MacroSrc.mk e1 { c1 with ctx := { c1.ctx with out := [] } } c1.ctx.out.head? c1.ctx.out.tail).buf = c1.ctx.out := hout
            rw [e2] at this
            exact this.mono (BadAt.mono a2 (a9 _).1)
    | succ b ihb =>
      intro l res hl hlen he hi hq hrun hres
      cases hb : l.buf with
      | nil => rw [hb] at hlen; cases hlen
      | cons q bs =>
        cases hp : l.peeked with
        | none => have := (hl.done hp).1; rw [hb] at this; cases this
        | some p =>
          have hok : MacroSrc.Ok st ⟨l.eng, l.ctx, some q, bs⟩ := ⟨hl.rel, fun h => (by cases h)⟩
          rw [hp, hb] at hq
          have h1 := ihb hok (by rw [hb] at hlen; simpa using hlen) he hi (fun t ht => hq t (by simpa using Or.inr (by simpa using ht))) hrun hres
          refine ⟨hp, .inr ⟨_, ?_, h1⟩⟩
          simp only [MacroSrc.fns, hp, MacroSrc.next, hb]

/-! ### Creating the macro lexer -/

theorem srel_new (r : Raw) : SRel r.stuck (SCtx.next ⟨⟨none, [], r.toks, []⟩, r.stuck, false⟩) ⟨r.toks, []⟩ := by
  refine ⟨new_rel r.toks, rfl, ?_, ?_⟩
  · intro h
    show (false || (r.stuck && _ && _)) = false
    rw [h]; rfl
  · intro h hp
    obtain ⟨hb, hr⟩ := ctx_next_none (c := ⟨none, [], r.toks, []⟩) hp
    show (false || (r.stuck && ([] : List Tok).isEmpty && r.toks.isEmpty)) = true
    have hr' : r.toks = [] := hr
    rw [h, hr']; rfl

theorem macro_new_eq (cap F : Nat) (r : Raw) : MacroSrc.new cap F r =
    match fill cap F Eng.new (SCtx.next ⟨⟨none, [], r.toks, []⟩, r.stuck, false⟩) with
    | .error x => .error x
    | .ok (e, c) => .ok { eng := e, ctx := { c with ctx := { c.ctx with out := [] } }, peeked := c.ctx.out.head?, buf := c.ctx.out.tail } := by
  simp only [MacroSrc.new, MacroSrc.next, MacroSrc.bump, Option.isNone_none, if_true]
  rfl

/-- A new lexer delivers the tokens of the staged model, or fails. -/
theorem macro_new {cap F : Nat} (hcap : 0 < cap) {r : Raw} {k : Nat} {res : Ending} (hi : ∀ t ∈ r.toks, DeliveredTok t)
    (hrun : engRun k Eng.new (⟨r.toks, []⟩ : LCtx) = res) (hres : res ≠ .error .fuel) :
    (∃ e, BadAt r.stuck F k res e ∧ MacroSrc.new cap F r = .error e) ∨
    ∃ l, MacroSrc.new cap F r = .ok l ∧ Follows (MacroSrc.fns cap F) (BadAt r.stuck F k res) (runOut k Eng.new ⟨r.toks, []⟩) l := by
  rw [macro_new_eq]
  rcases bump_page tokInv_delivered (F := F) hcap (srel_new r) (defaultTable_inv _) hi hrun hres with ⟨h1, h2⟩ | ⟨h1, h2⟩ | ⟨e1, c1, k1, res1, a1, a2, a3, a4, a5, a6, a7, a8, a9, a10⟩
  · left; exact ⟨_, .inl ⟨rfl, h2⟩, by rw [h1]⟩
  · left; exact ⟨_, .inr ⟨rfl, h2⟩, by rw [h1]⟩
  · right
    have hout : c1.ctx.out.head?.toList ++ c1.ctx.out.tail = c1.ctx.out := by cases c1.ctx.out <;> rfl
    have b1 := macro_follows (F := F) tokInv_delivered hcap k1 _ a4 rfl a5 a6 (by
                intro t ht
                have ht' : t ∈ c1.ctx.out.head?.toList ++ c1.ctx.out.tail := ht
                rw [hout] at ht'
                exact a7 t ht') a8 (fun h => hres ((a9 _).1 h))
    have e2 : (MacroSrc.mk e1 { c1 with ctx := { c1.ctx with out := [] } } c1.ctx.out.head? c1.ctx.out.tail).peeked.toList ++
        (MacroSrc.mk e1 { c1 with ctx := { c1.ctx with out := [] } } c1.ctx.out.head? c1.ctx.out.tail).buf = c1.ctx.out := hout
    rw [e2] at b1
    rw [a10]
    exact ⟨_, by rw [a1], b1.mono (BadAt.mono a2 (a9 _).1)⟩

/-! ### Runs that do not come to an end -/

/-- What the pages do, seen on the token list. -/
theorem fill_steps (st : Bool) (cap : Nat) (F : Nat) : ∀ {e e' : Eng} {c c' : SCtx} {l : LCtx}, SRel st c l → fill cap F e c = .ok (e', c') →
    ∃ l' k, SRel st c' l' ∧ (∀ m, engRun (k + m) e l = engRun m e' l') ∧ (c'.ctx.out.length < cap → l'.inp = [] ∧ st = false) := by
  induction F with
  | zero =>
    intro e e' c c' l hr h
    have hpk : c.ctx.peeked = l.inp.head? := ctxRel_stream.peek hr.1
    unfold fill at h
    split at h
    · cases h
    · rename_i hd
      split at h
      · cases h
      · rename_i hc
        cases h
        refine ⟨l, 0, hr, by simp, fun hlt => ?_⟩
        have hp : c.ctx.peeked = none := by
          cases hp : c.ctx.peeked with
          | none => rfl
          | some p => exact absurd ⟨hlt, by rw [hp]; rfl⟩ hc
        constructor
        · rw [hp] at hpk
          cases hl : l.inp with
          | nil => rfl
          | cons a b => rw [hl] at hpk; cases hpk
        · cases st with
          | false => rfl
          | true => exact absurd (hr.2.2.2 rfl hp) hd
  | succ F ih =>
    intro e e' c c' l hr h
    have hpk : c.ctx.peeked = l.inp.head? := ctxRel_stream.peek hr.1
    rw [fill] at h
    split at h
    · cases h
    · rename_i hd
      split at h
      · split at h
        · rename_i hp
          cases h
          refine ⟨l, 0, hr, by simp, fun _ => ?_⟩
          constructor
          · rw [hp] at hpk
            cases hl : l.inp with
            | nil => rfl
            | cons a b => rw [hl] at hpk; cases hpk
          · cases st with
            | false => rfl
            | true => exact absurd (hr.2.2.2 rfl hp) hd
        · rename_i t hp
          have hpl : TokStream.peek l = some t := by show l.inp.head? = some t; rw [← hpk, hp]
          have hs := engStep_rel (srel_stream st) e t hr
          cases h1 : engStep e c t with
          | error x => rw [h1] at h; cases h
          | ok r =>
            obtain ⟨e1, c1⟩ := r
            rw [h1] at h hs
            cases h2 : engStep e l t with
            | error x => rw [h2] at hs; exact hs.elim
            | ok r2 =>
              obtain ⟨e2, l1⟩ := r2
              rw [h2] at hs
              obtain ⟨he, hr1⟩ := hs
              simp only at he hr1 h
              subst he
              obtain ⟨l', k, a1, a2, a3⟩ := ih hr1 h
              refine ⟨l', k + 1, a1, ?_, a3⟩
              intro m
              rw [Nat.add_right_comm, engRun, hpl]
              simp only [h2]
              exact a2 m
      · rename_i hc
        cases h
        exact ⟨l, 0, hr, by simp, fun h => absurd h hc⟩

/-- The lexer never comes to an end. -/
def Endless (st : Bool) (l : MacroSrc) : Prop :=
  l.Ok st ∧ ¬ (st = false ∧ ∃ k ef lf, engRun k l.eng (⟨l.ctx.ctx.pending, []⟩ : LCtx) = .ok (ef, lf))

theorem fill_endless {st : Bool} {cap F : Nat} (hcap : 0 < cap) {e : Eng} {c : SCtx} {toks : List Tok} (hr : SRel st c ⟨toks, []⟩)
    (hn : ¬ (st = false ∧ ∃ k ef lf, engRun k e (⟨toks, []⟩ : LCtx) = .ok (ef, lf))) {e1 : Eng} {c1 : SCtx} (h : fill cap F e c = .ok (e1, c1)) :
    Endless st ⟨e1, { c1 with ctx := { c1.ctx with out := [] } }, c1.ctx.out.head?, c1.ctx.out.tail⟩ := by
  obtain ⟨l', k, a1, a2, a3⟩ := fill_steps st cap F hr h
  have hinp := a1.inp
  rw [hinp] at a3
  refine ⟨⟨a1.clear, ?_⟩, ?_⟩
  · intro hp
    simp only at hp
    have ho : c1.ctx.out = [] := by
      cases hc : c1.ctx.out with
      | nil => rfl
      | cons a b => rw [hc] at hp; cases hp
    obtain ⟨h1, h2⟩ := a3 (by rw [ho]; exact hcap)
    exact ⟨by rw [ho]; rfl, h1, h2⟩
  · rintro ⟨hst, m, ef, lf, hm⟩
    have hm' : engRun m e1 (⟨c1.ctx.pending, []⟩ : LCtx) = .ok (ef, lf) := hm
    refine hn ⟨hst, k + m, ef, ⟨lf.inp, c1.ctx.out ++ lf.out⟩, ?_⟩
    rw [a2 m, hinp, engRun_frame, hm']

theorem endless_next {st : Bool} {cap F : Nat} (hcap : 0 < cap) {l l' : MacroSrc} (p : Option Tok) (h : Endless st l)
    (hn : MacroSrc.next cap F { l with peeked := p } = .ok l') : Endless st l' := by
  unfold MacroSrc.next at hn
  split at hn
  · rename_i q bs hb
    cases hn
    exact ⟨⟨h.1.rel, fun h => (by cases h)⟩, h.2⟩
  · rename_i hb
    unfold MacroSrc.bump at hn
    simp only at hn hb
    rw [hb, srel_ctx_out h.1] at hn
    cases hf : fill cap F l.eng (if l.ctx.ctx.peeked.isNone then l.ctx.next else l.ctx) with
    | error x => rw [hf] at hn; cases hn
    | ok r =>
      obtain ⟨e1, c1⟩ := r
      rw [hf] at hn
      cases hn
      exact fill_endless hcap (srel_reload h.1.rel) h.2 hf

theorem endless_closed {st : Bool} {cap F : Nat} (hcap : 0 < cap) : Closed (MacroSrc.fns cap F) (Endless st) where
  eat := by
    intro s o s' hs h
    simp only [MacroSrc.fns] at h
    split at h
    · cases h; exact hs
    · split at h
      · cases h
      · rename_i l' hl
        cases h
        exact endless_next hcap none hs hl
  consume := by
    intro s s' cnt hs h
    simp only [MacroSrc.fns] at h
    split at h
    · cases h; exact hs
    · rename_i k t hp
      split at h
      · have := endless_next hcap s.peeked hs (l' := s') (by cases s; exact h)
        exact this
      · split at h
        · cases h
        · cases h
          exact ⟨⟨hs.1.rel, fun h => (by cases h)⟩, hs.2⟩

theorem endless_peek {st : Bool} {cap F : Nat} (l : MacroSrc) (h : Endless st l) : (MacroSrc.fns cap F).peek l ≠ none := by
  intro hp
  obtain ⟨_, h2, h3⟩ := h.1.done hp
  exact h.2 ⟨h3, 0, _, _, engRun_done h2⟩

/-- A successful parse means that the source is fine and the expansion comes to an end. -/
theorem macro_end {cap F : Nat} (hcap : 0 < cap) {r : Raw} {env : PEnv} {l : MacroSrc} {t : Elem} (hl : MacroSrc.new cap F r = .ok l)
    (h : parseFrom (MacroSrc.fns cap F) env F l = .ok t) :
    r.stuck = false ∧ ∃ k ef lf, engRun k Eng.new (⟨r.toks, []⟩ : LCtx) = .ok (ef, lf) := by
  refine Classical.byContradiction fun hn => ?_
  rw [macro_new_eq] at hl
  cases hf : fill cap F Eng.new (SCtx.next ⟨⟨none, [], r.toks, []⟩, r.stuck, false⟩) with
  | error x => rw [hf] at hl; cases hl
  | ok p =>
    obtain ⟨e1, c1⟩ := p
    rw [hf] at hl
    cases hl
    exact parseFrom_no_end env (endless_closed hcap) (fun s hs => endless_peek s hs) F (fill_endless hcap (srel_new r) hn hf) t h

/-- The plain lexer with a source that panics never comes to an end. -/
theorem plain_end {N : Nat} (hN : 0 < N) {r : Raw} {env : PEnv} {F : Nat} {l : PlainSrc} {t : Elem} (hl : PlainSrc.new N r = .ok l)
    (h : parseFrom (PlainSrc.fns N) env F l = .ok t) : r.stuck = false := by
  cases hs : r.stuck with
  | false => rfl
  | true =>
    exfalso
    have hnext : ∀ {a b : PlainSrc}, PlainSrc.next N a = .ok b → b.Ok ∧ b.stuck = a.stuck := by
      intro a b hab
      obtain ⟨⟨p, buf, rest⟩, st⟩ := a
      rcases plain_step hN p buf rest st with ⟨_, h2⟩ | ⟨l', h1, h2, h3, _⟩
      · rw [h2] at hab; cases hab
      · rw [h1] at hab; cases hab; exact ⟨h2, h3⟩
    have hq : Closed (PlainSrc.fns N) (fun l => l.Ok ∧ l.stuck = true) := by
      constructor
      · intro s o s' hq h
        simp only [PlainSrc.fns] at h
        split at h
        · cases h; exact hq
        · split at h
          · cases h
          · rename_i l' hl'
            cases h
            obtain ⟨h1, h2⟩ := hnext hl'
            exact ⟨h1, h2.trans hq.2⟩
      · intro s s' cnt hq h
        simp only [PlainSrc.fns] at h
        split at h
        · cases h; exact hq
        · split at h
          · obtain ⟨h1, h2⟩ := hnext h
            exact ⟨h1, h2.trans hq.2⟩
          · split at h
            · cases h
            · cases h
              exact ⟨fun h => (by cases h), hq.2⟩
    obtain ⟨h1, h2⟩ := hnext hl
    refine parseFrom_no_end env hq ?_ F ⟨h1, h2.trans hs⟩ t h
    intro s hs' hp
    have := (hs'.1 hp).2.2
    rw [hs'.2] at this; cases this

/-! ### The source -/

theorem shape_delivered {t : Tok} (hs : TokShape t.1 t.2) : DeliveredTok t := by
  refine ⟨fun hk => ?_, fun c hk hc => ?_⟩
  · rw [hk] at hs
    exact hs.1
  · rw [hk] at hs
    refine cmd_head hs ?_ ?_
    · intro e; rw [e] at hc; cases hc
    · intro e; rw [e] at hc; cases hc

theorem raw_lex (spec : CommandSpec) : ∀ (n : Nat) (s : Text), s.length ≤ n →
    (∀ ls, lexFuel spec n s = .ok ls → rawFuel spec n s = ⟨ls.map Lexed.toTok, false⟩) ∧
    (∀ e, lexFuel spec n s = .error e → (rawFuel spec n s).stuck = true) ∧
    ∀ t ∈ (rawFuel spec n s).toks, DeliveredTok t := by
  intro n
  induction n with
  | zero =>
    intro s hs
    have : s = [] := by simpa using hs
    subst this
    refine ⟨fun ls h => ?_, fun e h => ?_, fun t h => (by cases h)⟩
    · rw [lexFuel] at h; simp at h; subst h; rfl
    · rw [lexFuel] at h; simp at h
  | succ n ih =>
    intro s hs
    rw [lexFuel, rawFuel]
    cases h1 : lexOne spec s with
    | none => exact ⟨fun ls h => by cases h; rfl, fun e h => (by cases h), fun t h => (by cases h)⟩
    | some r =>
      cases r with
      | error e => exact ⟨fun ls h => (by cases h), fun _ _ => rfl, fun t h => (by cases h)⟩
      | ok l =>
        have hg := lexOne_good h1
        obtain ⟨hsh, _, span, hne, he, _⟩ := hg
        have hl : l.rest.length ≤ n := by
          have : s.length = span.length + l.rest.length := by rw [he]; simp
          have : 0 < span.length := List.length_pos_iff.mpr hne
          omega
        obtain ⟨i1, i2, i3⟩ := ih l.rest hl
        simp only
        refine ⟨fun ls h => ?_, fun e h => ?_, fun t ht => ?_⟩
        · cases h2 : lexFuel spec n l.rest with
          | error e => rw [h2] at h; cases h
          | ok ls' =>
            rw [h2] at h; cases h
            rw [i1 ls' h2]; rfl
        · cases h2 : lexFuel spec n l.rest with
          | error e => exact i2 e h2
          | ok ls' => rw [h2] at h; cases h
        · rcases List.mem_cons.1 ht with rfl | ht
          · exact shape_delivered hsh
          · exact i3 t ht

/-- The deliveries of logos and the tokens of the staged model. -/
theorem raw_ok {spec : CommandSpec} {s : Text} {toks : List Tok} (h : tokensOf spec s = .ok toks) : rawOf spec s = ⟨toks, false⟩ := by
  unfold tokensOf lexAll at h
  cases h1 : lexFuel spec s.length s with
  | error e => rw [h1] at h; cases h
  | ok ls =>
    rw [h1] at h; cases h
    exact (raw_lex spec _ s (Nat.le_refl _)).1 ls h1

theorem raw_stuck {spec : CommandSpec} {s : Text} {e : Stop} (h : tokensOf spec s = .error e) : (rawOf spec s).stuck = true := by
  unfold tokensOf lexAll at h
  cases h1 : lexFuel spec s.length s with
  | error e => exact (raw_lex spec _ s (Nat.le_refl _)).2.1 e h1
  | ok ls => rw [h1] at h; cases h

theorem raw_delivered (spec : CommandSpec) (s : Text) : ∀ t ∈ (rawOf spec s).toks, DeliveredTok t :=
  (raw_lex spec _ s (Nat.le_refl _)).2.2

end Lazy
end Mitex
