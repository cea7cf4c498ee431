/-
C03, C08: the peek caches of the lexers (crates/mitex-lexer/src/stream.rs, lib.rs) are unobservable.
-/
import Verif.Proof.StreamRel

namespace Mitex

/-! ### C03 -/

/-- Eat `k` times; the answers in order, and the lexer afterwards. -/
def PlainLexer.eatMany (N : Nat) : Nat → PlainLexer → Res (List (Option Tok) × PlainLexer)
  | 0, l => .ok ([], l)
  | k + 1, l =>
    match l.eat N with
    | .error e => .error e
    | .ok (a, l) =>
      match eatMany N k l with
      | .error e => .error e
      | .ok (as, l) => .ok (a :: as, l)

/-- The lexer still has to deliver exactly `toks`. -/
def PlainRel (l : PlainLexer) (toks : List Tok) : Prop :=
  l.peeked.toList ++ l.buf ++ l.rest = toks ∧ (l.peeked = none → l.buf = [] ∧ l.rest = [])

theorem plain_next {N : Nat} (hN : 0 < N) (p : Option Tok) (buf rest : List Tok) :
    ∃ l, PlainLexer.next N ⟨p, buf, rest⟩ = .ok l ∧ PlainRel l (buf ++ rest) := by
  cases buf with
  | cons b bs => exact ⟨_, rfl, by simp [PlainRel]⟩
  | nil =>
    refine ⟨_, rfl, ?_⟩
    obtain ⟨n, rfl⟩ : ∃ n, N = n + 1 := ⟨N - 1, by omega⟩
    cases rest with
    | nil => simp [PlainRel]
    | cons r rs => simp [PlainRel, List.take_append_drop]

theorem plain_eat {N : Nat} (hN : 0 < N) {l : PlainLexer} {toks : List Tok} (h : PlainRel l toks) :
    ∃ l', l.eat N = .ok (toks.head?, l') ∧ PlainRel l' toks.tail := by
  obtain ⟨p, buf, rest⟩ := l
  cases p with
  | none =>
    obtain ⟨h1, h2⟩ := h
    obtain ⟨hb, hr⟩ := h2 rfl
    simp at hb hr
    subst hb; subst hr
    simp at h1; subst h1
    exact ⟨_, rfl, by simp [PlainRel]⟩
  | some p =>
    obtain ⟨l', h1, h2⟩ := plain_next hN none buf rest
    obtain ⟨h3, -⟩ := h
    simp at h3
    refine ⟨l', ?_, ?_⟩
    · simp [PlainLexer.eat, h1, ← h3]
    · rw [← h3]; exact h2

theorem plain_eatMany {N : Nat} (hN : 0 < N) (k : Nat) : ∀ {l : PlainLexer} {toks : List Tok}, PlainRel l toks →
    ∃ l', l.eatMany N k = .ok ((List.range k).map fun i => toks[i]?, l') ∧ PlainRel l' (toks.drop k) := by
  induction k with
  | zero => intro l toks h; exact ⟨l, rfl, by simpa using h⟩
  | succ k ih =>
    intro l toks h
    obtain ⟨l1, h1, h2⟩ := plain_eat hN h
    obtain ⟨l2, h3, h4⟩ := ih h2
    refine ⟨l2, ?_, ?_⟩
    · rw [PlainLexer.eatMany, h1]
      simp only [h3]
      rw [List.range_succ_eq_map]
      cases toks <;> simp
    · simpa [List.drop_tail] using h4

/-- C03: for every page size, creating the plain lexer over a token sequence and eating `k` times answers
with the first `k` tokens of the sequence, then forever `None`; and the peeked token is always the one the
next eat returns. -/
theorem C03_paging_unobservable (N : Nat) (hN : 0 < N) (toks : List Tok) (k : Nat) :
    ∃ l₀ l, PlainLexer.new N toks = .ok l₀ ∧
      l₀.eatMany N k = .ok ((List.range k).map fun i => toks[i]?, l) ∧
      l.peek = toks[k]? ∧ ∃ l', l.eat N = .ok (l.peek, l') := by
  obtain ⟨l0, h1, h2⟩ := plain_next hN none [] toks
  obtain ⟨l, h3, h4⟩ := plain_eatMany hN k h2
  have hpk : l.peek = toks[k]? := by
    obtain ⟨h5, h6⟩ := h4
    unfold PlainLexer.peek
    rw [← List.head?_drop]
    cases hp : l.peeked with
    | none =>
      obtain ⟨a, b⟩ := h6 hp
      rw [hp, a, b] at h5
      simp at h5
      simp [h5]
    | some p => 
      rw [hp] at h5
      simp at h5
      simp [← h5]
  obtain ⟨l', h7, _⟩ := plain_eat hN h4
  refine ⟨l0, l, h1, by simpa using h3, hpk, l', ?_⟩
  rw [h7, hpk]
  simp

/-- C03, from the text: the lexer over the tokens of a text delivers exactly these tokens. -/
theorem C03_lexer_delivers_tokens (N : Nat) (hN : 0 < N) (spec : CommandSpec) (s : Text) (toks : List Tok)
    (_ : tokensOf spec s = .ok toks) :
    ∃ l₀ l, PlainLexer.new N toks = .ok l₀ ∧
      l₀.eatMany N (toks.length + 1) = .ok (toks.map some ++ [none], l) := by
  obtain ⟨l0, l, h1, h2, _⟩ := C03_paging_unobservable N hN toks (toks.length + 1)
  refine ⟨l0, l, h1, ?_⟩
  rw [h2]
  congr 2
  apply List.ext_getElem?
  intro i
  rw [List.getElem?_map]
  by_cases hi : i < toks.length + 1
  · rw [List.getElem?_range hi]
    simp only [Option.map_some]
    by_cases h : i < toks.length
    · rw [List.getElem?_append_left (by simpa using h)]
      simp [h]
    · have : i = toks.length := by omega
      subst this
      simp
  · rw [List.getElem?_eq_none (by simp; omega), List.getElem?_eq_none (by simp; omega)]
    rfl

example : (do let l ← PlainLexer.new 2 [(.word, ['a']), (.comma, [',']), (.word, ['b'])]
              let r ← l.eatMany 2 4
              pure r.1)
    = (.ok [some (.word, ['a']), some (.comma, [',']), some (.word, ['b']), none] : Res _) := by decide

/-! ### C08 -/

/-- The tokens a buffered context still has to process. -/
def Ctx.pending (c : Ctx) : List Tok := c.peeked.toList ++ c.buf ++ c.rest

theorem CtxRel.inp {c : Ctx} {l : LCtx} (h : CtxRel c l) : l = ⟨c.pending, c.out⟩ := by
  obtain ⟨h1, _, h3⟩ := h
  cases l; simp only [LCtx.mk.injEq]; exact ⟨h1.symm, h3.symm⟩

theorem engRun_frame (n : Nat) (e : Eng) (inp o : List Tok) :
    engRun n e (⟨inp, o⟩ : LCtx) =
      match engRun n e (⟨inp, []⟩ : LCtx) with
      | .ok (e', c) => .ok (e', ⟨c.inp, o ++ c.out⟩)
      | .error x => .error x := by
  have h := engRun_rel (frameRel_stream o) n e (c := ⟨inp, o⟩) (d := ⟨inp, []⟩) ⟨rfl, by simp⟩
  cases h1 : engRun n e (⟨inp, o⟩ : LCtx) with
  | error x =>
    cases h2 : engRun n e (⟨inp, []⟩ : LCtx) with
    | error y => rw [h1, h2] at h; cases h; rfl
    | ok b => rw [h1, h2] at h; exact h.elim
  | ok a =>
    cases h2 : engRun n e (⟨inp, []⟩ : LCtx) with
    | error y => rw [h1, h2] at h; exact h.elim
    | ok b =>
      rw [h1, h2] at h
      obtain ⟨v, c, d, rfl, rfl, h3⟩ := PRel.elim h
      obtain ⟨e1, e2⟩ := h3
      simp only
      cases c; simp at e1 e2; simp [e1, e2]

theorem engRun_mono {n : Nat} : ∀ {e e' : Eng} {c c' : LCtx}, engRun n e c = .ok (e', c') → ∀ k,
    engRun (n + k) e c = .ok (e', c') := by
  induction n with
  | zero =>
    intro e e' c c' h k
    unfold engRun at h
    split at h
    · rename_i hp
      cases h
      cases k <;> (simp only [Nat.zero_add]; unfold engRun; simp only [hp])
    · cases h
  | succ n ih =>
    intro e e' c c' h k
    rw [Nat.succ_add]
    rw [engRun] at h ⊢
    split at h
    · exact h
    · split at h
      · cases h
      · exact ih h k

theorem engRun_done {n : Nat} {e : Eng} {c : LCtx} (h : c.inp = []) : engRun n e c = .ok (e, c) := by
  have hp : TokStream.peek c = none := by show c.inp.head? = none; simp [h]
  cases n <;> simp [engRun, hp]

/-- One page: the loop of `do_bump` is a number of engine rounds. -/
theorem bumpLoop_steps (cap : Nat) (F : Nat) : ∀ {e e' : Eng} {c c' : Ctx} {l : LCtx}, CtxRel c l →
    bumpLoop cap F e c = .ok (e', c') →
    ∃ l' k, CtxRel c' l' ∧ (∀ m, engRun (k + m) e l = engRun m e' l') ∧
      (c'.out.length < cap → l'.inp = []) := by
  induction F with
  | zero =>
    intro e e' c c' l hr h
    unfold bumpLoop at h
    split at h
    · cases h
    · rename_i hc
      cases h
      refine ⟨l, 0, hr, by simp, ?_⟩
      intro hlt
      have hp : TokStream.peek l = none := by
        rw [← ctxRel_stream.peek hr]
        show c.peeked = none
        cases hpp : c.peeked with
        | none => rfl
        | some p => exact absurd ⟨hlt, by simp [hpp]⟩ hc
      cases hl : l.inp with
      | nil => rfl
      | cons a b =>
        have : TokStream.peek l = l.inp.head? := rfl
        rw [this, hl] at hp; cases hp
  | succ F ih =>
    intro e e' c c' l hr h
    rw [bumpLoop] at h
    have hpk : c.peeked = l.inp.head? := ctxRel_stream.peek hr
    split at h
    · split at h
      · rename_i hp
        cases h
        refine ⟨l, 0, hr, by simp, ?_⟩
        intro _
        rw [hp] at hpk
        cases hl : l.inp with
        | nil => rfl
        | cons a b => rw [hl] at hpk; cases hpk
      · rename_i t hp
        have hs := engStep_rel ctxRel_stream e t hr
        cases h1 : engStep e c t with
        | error x => rw [h1] at h; cases h
        | ok r =>
          obtain ⟨e1, c1⟩ := r
          rw [h1] at h hs
          cases h2 : engStep e l t with
          | error x => rw [h2] at hs; exact hs.elim
          | ok r2 =>
            obtain ⟨e2, l1⟩ := r2
            rw [h2] at hs
            obtain ⟨he, hr1⟩ := hs
            simp only at he hr1 h
            subst he
            obtain ⟨l', k, a1, a2, a3⟩ := ih hr1 h
            refine ⟨l', k + 1, a1, ?_, a3⟩
            intro m
            rw [Nat.add_right_comm, engRun]
            have hpl : TokStream.peek l = some t := by show l.inp.head? = some t; rw [← hpk, hp]
            rw [hpl]
            simp only [h2]
            exact a2 m
    · rename_i hc
      cases h
      exact ⟨l, 0, hr, by simp, fun h => absurd h hc⟩

theorem bumpLoop_ok (cap : Nat) (n : Nat) : ∀ {e ef : Eng} {c : Ctx} {l lf : LCtx}, CtxRel c l →
    engRun n e l = .ok (ef, lf) → ∀ F, n ≤ F →
    ∃ e' c' l' n', n' ≤ n ∧ bumpLoop cap F e c = .ok (e', c') ∧ CtxRel c' l' ∧
      engRun n' e' l' = .ok (ef, lf) ∧ (c'.out.length < cap → l'.inp = []) := by
  induction n with
  | zero =>
    intro e ef c l lf hr h F hF
    have hpk : c.peeked = l.inp.head? := ctxRel_stream.peek hr
    have h0 := h
    unfold engRun at h
    have hnone : c.peeked = none := by
      split at h
      · rename_i hp; rw [hpk]; exact hp
      · cases h
    have hl : l.inp = [] := by
      rw [hnone] at hpk
      cases hl : l.inp with
      | nil => rfl
      | cons a b => rw [hl] at hpk; cases hpk
    refine ⟨e, c, l, 0, by simp, ?_, hr, h0, fun _ => hl⟩
    cases F with
    | zero => simp [bumpLoop, hnone]
    | succ F => simp [bumpLoop, hnone]
  | succ n ih =>
    intro e ef c l lf hr h F hF
    obtain ⟨F, rfl⟩ : ∃ G, F = G + 1 := ⟨F - 1, by omega⟩
    have hpk : c.peeked = l.inp.head? := ctxRel_stream.peek hr
    have h0 := h
    rw [engRun] at h
    rw [bumpLoop]
    split
    · split
      · rename_i hp
        rw [hp] at hpk
        refine ⟨e, c, l, n + 1, by simp, rfl, hr, h0, fun _ => ?_⟩
        cases hl : l.inp with
        | nil => rfl
        | cons a b => rw [hl] at hpk; cases hpk
      · rename_i t hp
        have hpl : TokStream.peek l = some t := by show l.inp.head? = some t; rw [← hpk, hp]
        rw [hpl] at h
        simp only at h
        have hs := engStep_rel ctxRel_stream e t hr
        cases h2 : engStep e l t with
        | error x => rw [h2] at h; cases h
        | ok r2 =>
          obtain ⟨e2, l1⟩ := r2
          rw [h2] at h hs
          cases h1 : engStep e c t with
          | error x => rw [h1] at hs; exact hs.elim
          | ok r =>
            obtain ⟨e1, c1⟩ := r
            rw [h1] at hs
            obtain ⟨he, hr1⟩ := hs
            simp only at he hr1 h
            subst he
            obtain ⟨e', c', l', n', a1, a2, a3, a4⟩ := ih hr1 h F (by omega)
            exact ⟨e', c', l', n', by omega, a2, a3, a4⟩
    · rename_i hc
      exact ⟨e, c, l, n + 1, by simp, rfl, hr, h0, fun h => absurd h hc⟩

/-- The outer lexer is well formed: its context is, and nothing is peeked only when all is delivered. -/
def MacroLexer.Ok (l : MacroLexer) : Prop :=
  CtxRel l.ctx ⟨l.ctx.pending, []⟩ ∧ (l.peeked = none → l.buf = [] ∧ l.ctx.pending = [])

theorem reload_rel {c : Ctx} {l : LCtx} (h : CtxRel c l) : CtxRel (if c.peeked.isNone then c.next else c) l := by
  split
  · rename_i hp
    have hp' : c.peeked = none := by simpa using hp
    obtain ⟨h1, h2, h3⟩ := h
    obtain ⟨hb, hr⟩ := h2 hp'
    have : c.next = c := by
      unfold Ctx.next
      rw [hb, hr]
      cases c; simp at hp' hb hr; simp [hp', hb, hr]
    rw [this]; exact ⟨h1, h2, h3⟩
  · exact h

/-- A refill, seen on the token lists. -/
theorem refill_back {cap F : Nat} (hcap : 0 < cap) {e e1 : Eng} {c c1 : Ctx} {toks : List Tok}
    (hr : CtxRel c ⟨toks, []⟩) (h : bumpLoop cap F e c = .ok (e1, c1)) :
    MacroLexer.Ok ⟨e1, { c1 with out := [] }, c1.out.head?, c1.out.tail⟩ ∧
    ∃ k, ∀ m e2 l2, engRun m e1 (⟨c1.pending, []⟩ : LCtx) = .ok (e2, l2) →
      engRun (k + m) e (⟨toks, []⟩ : LCtx) = .ok (e2, ⟨l2.inp, c1.out ++ l2.out⟩) := by
  obtain ⟨l', k, a1, a2, a3⟩ := bumpLoop_steps cap F hr h
  have hl' := a1.inp
  constructor
  · refine ⟨⟨rfl, a1.2.1, rfl⟩, ?_⟩
    intro hp
    simp only at hp
    have ho : c1.out = [] := by
      cases hc : c1.out with
      | nil => rfl
      | cons a b => rw [hc] at hp; cases hp
    refine ⟨by simp [ho], ?_⟩
    have := a3 (by simp [ho]; omega)
    rw [hl'] at this
    exact this
  · refine ⟨k, ?_⟩
    intro m e2 l2 hm
    rw [a2 m, hl', engRun_frame, hm]

theorem drain_back {cap F : Nat} (hcap : 0 < cap) (n : Nat) : ∀ {l : MacroLexer} {outs : List Tok}, l.Ok →
    l.drain cap F n = .ok outs →
    ∃ k ef lf, engRun k l.eng (⟨l.ctx.pending, []⟩ : LCtx) = .ok (ef, lf) ∧
      outs = l.peeked.toList ++ l.buf ++ lf.out := by
  induction n with
  | zero =>
    intro l outs hl h
    unfold MacroLexer.drain at h
    split at h
    · rename_i hp
      cases h
      obtain ⟨hb, hi⟩ := hl.2 hp
      exact ⟨0, l.eng, _, engRun_done hi, by simp [hp, hb]⟩
    · cases h
  | succ n ih =>
    intro l outs hl h
    rw [MacroLexer.drain] at h
    cases hp : l.peeked with
    | none =>
      simp only [MacroLexer.eat, hp] at h
      cases h
      obtain ⟨hb, hi⟩ := hl.2 hp
      exact ⟨0, l.eng, _, engRun_done hi, by simp [hb]⟩
    | some p =>
      simp only [MacroLexer.eat, hp] at h
      cases hb : l.buf with
      | cons q bs =>
        simp only [MacroLexer.next, hb] at h
        split at h
        · cases h
        · rename_i outs' hd
          cases h
          have hok : MacroLexer.Ok ⟨l.eng, l.ctx, some q, bs⟩ := ⟨hl.1, by simp⟩
          obtain ⟨k, ef, lf, h1, h2⟩ := ih hok hd
          exact ⟨k, ef, lf, h1, by simp [h2]⟩
      | nil =>
        simp only [MacroLexer.next, hb, MacroLexer.bump] at h
        have hrel := reload_rel hl.1
        have hctx : ({ l.ctx with out := [] } : Ctx) = l.ctx := by
          have := hl.1.2.2
          cases hc : l.ctx; rw [hc] at this; simp at this; simp [this]
        rw [hctx] at h
        cases hbl : bumpLoop cap F l.eng (if l.ctx.peeked.isNone then l.ctx.next else l.ctx) with
        | error x => rw [hbl] at h; cases h
        | ok r =>
          obtain ⟨e1, c1⟩ := r
          rw [hbl] at h
          simp only at h
          obtain ⟨hok, k, hk⟩ := refill_back hcap hrel hbl
          split at h
          · cases h
          · rename_i outs' hd
            cases h
            obtain ⟨m, ef, lf, h1, h2⟩ := ih hok hd
            refine ⟨k + m, ef, _, hk m ef lf h1, ?_⟩
            rw [h2]
            cases c1.out <;> simp

theorem drain_forward {cap F : Nat} (hcap : 0 < cap) (n : Nat) : ∀ {l : MacroLexer} {outs : List Tok}
    {k : Nat} {ef : Eng} {lf : LCtx}, l.Ok → k ≤ F →
    engRun k l.eng (⟨l.ctx.pending, []⟩ : LCtx) = .ok (ef, lf) →
    outs = l.peeked.toList ++ l.buf ++ lf.out → outs.length ≤ n → l.drain cap F n = .ok outs := by
  induction n with
  | zero =>
    intro l outs k ef lf hl _ _ ho hn
    have : outs = [] := by simpa using hn
    subst this
    cases hp : l.peeked with
    | none => simp [MacroLexer.drain, hp]
    | some p => rw [hp] at ho; simp at ho
  | succ n ih =>
    intro l outs k ef lf hl hk hrun ho hn
    rw [MacroLexer.drain]
    cases hp : l.peeked with
    | none =>
      obtain ⟨hb, hi⟩ := hl.2 hp
      rw [engRun_done hi] at hrun
      cases hrun
      simp [MacroLexer.eat, hp, ho, hb]
    | some p =>
      simp only [MacroLexer.eat, hp]
      cases hb : l.buf with
      | cons q bs =>
        simp only [MacroLexer.next, hb]
        have hok : MacroLexer.Ok ⟨l.eng, l.ctx, some q, bs⟩ := ⟨hl.1, by simp⟩
        rw [hp, hb] at ho
        rw [ih (outs := q :: bs ++ lf.out) hok hk hrun (by simp) (by rw [ho] at hn; simp at hn ⊢; omega)]
        simp [ho]
      | nil =>
        simp only [MacroLexer.next, hb, MacroLexer.bump]
        have hrel := reload_rel hl.1
        have hctx : ({ l.ctx with out := [] } : Ctx) = l.ctx := by
          have := hl.1.2.2
          cases hc : l.ctx; rw [hc] at this; simp at this; simp [this]
        rw [hctx]
        obtain ⟨e1, c1, l1, n1, hn1, hbl, hr1, hrun1, hfull⟩ := bumpLoop_ok cap k hrel hrun F hk
        obtain ⟨hok, -⟩ := refill_back hcap hrel hbl
        rw [hbl]
        simp only
        rw [hr1.inp, engRun_frame] at hrun1
        cases h2 : engRun n1 e1 (⟨c1.pending, []⟩ : LCtx) with
        | error x => rw [h2] at hrun1; cases hrun1
        | ok r =>
          obtain ⟨e2, l2⟩ := r
          rw [h2] at hrun1
          cases hrun1
          rw [hp, hb] at ho
          simp at ho
          rw [ih (outs := c1.out ++ l2.out) hok (by omega) h2 (by cases c1.out <;> simp)
            (by rw [ho] at hn; simp at hn ⊢; omega)]
          simp [ho]

theorem new_rel (toks : List Tok) : CtxRel (⟨none, [], toks, []⟩ : Ctx).next ⟨toks, []⟩ := by
  unfold Ctx.next
  cases toks with
  | nil => exact ⟨rfl, by simp, rfl⟩
  | cons t ts => exact ⟨rfl, by simp, rfl⟩

/-- C08, from the unbuffered expansion to the lexer: if expanding the whole token list terminates with
`outs`, then eating from the paged macro-expanding lexer yields exactly `outs`, then `None`, for every page
size. -/
theorem C08_buffering_unobservable (cap : Nat) (hcap : 0 < cap) (fuel : Nat) (toks outs : List Tok)
    (h : expandAll fuel toks = .ok outs) (F : Nat) (hF : fuel ≤ F) :
    ∃ l, MacroLexer.new cap F toks = .ok l ∧ ∀ n, outs.length ≤ n → l.drain cap F n = .ok outs := by
  unfold expandAll at h
  cases hr : engRun fuel Eng.new (⟨toks, []⟩ : LCtx) with
  | error x => rw [hr] at h; cases h
  | ok r =>
    obtain ⟨ef, lf⟩ := r
    rw [hr] at h
    cases h
    obtain ⟨e1, c1, l1, n1, hn1, hbl, hr1, hrun1, hfull⟩ := bumpLoop_ok cap fuel (new_rel toks) hr F hF
    obtain ⟨hok, -⟩ := refill_back hcap (new_rel toks) hbl
    refine ⟨⟨e1, { c1 with out := [] }, c1.out.head?, c1.out.tail⟩, ?_, ?_⟩
    · simp only [MacroLexer.new, MacroLexer.next, MacroLexer.bump, Option.isNone_none, if_true]
      rw [hbl]
    · intro n hn
      rw [hr1.inp, engRun_frame] at hrun1
      cases h2 : engRun n1 e1 (⟨c1.pending, []⟩ : LCtx) with
      | error x => rw [h2] at hrun1; cases hrun1
      | ok r =>
        obtain ⟨e2, l2⟩ := r
        rw [h2] at hrun1
        cases hrun1
        exact drain_forward hcap n hok (by omega) h2 (by cases c1.out <;> simp) hn

/-- C08, from the lexer to the unbuffered expansion: whatever can be eaten from the lexer until it answers
`None` is the unbuffered expansion of the token list. -/
theorem C08_buffering_unobservable_conv (cap : Nat) (hcap : 0 < cap) (F n : Nat) (toks outs : List Tok)
    (l : MacroLexer) (hl : MacroLexer.new cap F toks = .ok l) (h : l.drain cap F n = .ok outs) :
    ∃ fuel, expandAll fuel toks = .ok outs := by
  simp only [MacroLexer.new, MacroLexer.next, MacroLexer.bump, Option.isNone_none, if_true] at hl
  cases hbl : bumpLoop cap F Eng.new (⟨none, [], toks, []⟩ : Ctx).next with
  | error x => rw [hbl] at hl; cases hl
  | ok r =>
    obtain ⟨e1, c1⟩ := r
    rw [hbl] at hl
    cases hl
    obtain ⟨hok, k, hk⟩ := refill_back hcap (new_rel toks) hbl
    obtain ⟨m, ef, lf, h1, h2⟩ := drain_back hcap n hok h
    refine ⟨k + m, ?_⟩
    unfold expandAll
    rw [hk m ef lf h1, h2]
    cases c1.out <;> simp

/-- A definition, a use, and a page of two tokens. -/
example :
    (do let toks ← tokensOf (fun _ => none) "\\newcommand{\\f}[1]{<#1,#1>}a\\f{b c}d".toList
        let l ← MacroLexer.new 2 50 toks
        let r ← l.drain 2 50 50
        let u ← expandAll 50 toks
        pure (r == u, (r.map Prod.snd).flatten)) = (.ok (true, "a<b c,b c>d".toList) : Res _) := by
  decide +kernel

end Mitex
