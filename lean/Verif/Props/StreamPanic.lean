/-
C08, for the runs that end in a panic.
-/
import Verif.Props.Stream

namespace Mitex

theorem bumpLoop_panic (cap : Nat) (F : Nat) : ∀ {e : Eng} {c : Ctx} {l : LCtx} {x : Stop}, CtxRel c l →
    bumpLoop cap F e c = .error x → x ≠ .fuel → ∃ k, engRun k e l = .error x := by
  induction F with
  | zero =>
    intro e c l x hr h hx
    unfold bumpLoop at h
    split at h
    · cases h; exact absurd rfl hx
    · cases h
  | succ F ih =>
    intro e c l x hr h hx
    rw [bumpLoop] at h
    have hpk : c.peeked = l.inp.head? := ctxRel_stream.peek hr
    split at h
    · split at h
      · cases h
      · rename_i t hp
        have hpl : TokStream.peek l = some t := by show l.inp.head? = some t; rw [← hpk, hp]
        have hs := engStep_rel ctxRel_stream e t hr
        cases h1 : engStep e c t with
        | error y =>
          rw [h1] at h hs
          cases h
          cases h2 : engStep e l t with
          | ok r => rw [h2] at hs; exact hs.elim
          | error z =>
            rw [h2] at hs
            have : x = z := hs
            subst this
            exact ⟨1, by rw [engRun, hpl]; simp only [h2]⟩
        | ok r =>
          obtain ⟨e1, c1⟩ := r
          rw [h1] at h hs
          cases h2 : engStep e l t with
          | error y => rw [h2] at hs; exact hs.elim
          | ok r2 =>
            obtain ⟨e2, l1⟩ := r2
            rw [h2] at hs
            obtain ⟨he, hr1⟩ := hs
            simp only at he hr1 h
            subst he
            obtain ⟨k, hk⟩ := ih hr1 h hx
            exact ⟨k + 1, by rw [engRun, hpl]; simp only [h2]; exact hk⟩
    · cases h

theorem bumpLoop_panic_fwd (cap : Nat) (k : Nat) : ∀ {e : Eng} {c : Ctx} {l : LCtx} {x : Stop}, CtxRel c l →
    engRun k e l = .error x → x ≠ .fuel → ∀ F, k ≤ F → bumpLoop cap F e c = .error x ∨
    ∃ e' c' l' k', k' ≤ k ∧ (c.out.length < cap → k' < k) ∧ bumpLoop cap F e c = .ok (e', c') ∧ CtxRel c' l' ∧
      engRun k' e' l' = .error x ∧ ¬ c'.out.length < cap := by
  induction k with
  | zero =>
    intro e c l x hr h hx
    exfalso
    unfold engRun at h
    split at h
    · cases h
    · cases h; exact hx rfl
  | succ k ih =>
    intro e c l x hr h hx F hF
    obtain ⟨F, rfl⟩ : ∃ G, F = G + 1 := ⟨F - 1, by omega⟩
    have hpk : c.peeked = l.inp.head? := ctxRel_stream.peek hr
    have h0 := h
    rw [engRun] at h
    rw [bumpLoop]
    split
    · rename_i hlt
      cases hp : c.peeked with
      | none =>
        have : TokStream.peek l = none := by show l.inp.head? = none; rw [← hpk, hp]
        rw [this] at h; cases h
      | some t =>
        have hpl : TokStream.peek l = some t := by show l.inp.head? = some t; rw [← hpk, hp]
        rw [hpl] at h
        simp only at h ⊢
        have hs := engStep_rel ctxRel_stream e t hr
        cases h2 : engStep e l t with
        | error y =>
          rw [h2] at h hs
          cases h
          cases h1 : engStep e c t with
          | ok r => rw [h1] at hs; exact hs.elim
          | error z =>
            rw [h1] at hs
            have : z = x := hs
            subst this
            exact Or.inl rfl
        | ok r2 =>
          obtain ⟨e2, l1⟩ := r2
          rw [h2] at h hs
          cases h1 : engStep e c t with
          | error y => rw [h1] at hs; exact hs.elim
          | ok r =>
            obtain ⟨e1, c1⟩ := r
            rw [h1] at hs
            obtain ⟨he, hr1⟩ := hs
            simp only at he hr1 h ⊢
            subst he
            rcases ih hr1 h hx F (by omega) with h3 | ⟨e', c', l', k', a1, a2, a3, a4, a5, a6⟩
            · exact Or.inl h3
            · exact Or.inr ⟨e', c', l', k', by omega, fun _ => by omega, a3, a4, a5, a6⟩
    · rename_i hc
      exact Or.inr ⟨e, c, l, k + 1, Nat.le_refl _, fun h => absurd h hc, rfl, hr, h0, hc⟩

theorem engRun_frame_error {n : Nat} {e : Eng} {inp o : List Tok} {x : Stop} :
    engRun n e (⟨inp, o⟩ : LCtx) = .error x ↔ engRun n e (⟨inp, []⟩ : LCtx) = .error x := by
  rw [engRun_frame n e inp o]
  cases engRun n e (⟨inp, []⟩ : LCtx) with
  | error y => exact Iff.rfl
  | ok r => exact ⟨fun h => (by cases h), fun h => (by cases h)⟩

/-- A refill before a panic. -/
theorem refill_panic {cap F : Nat} {e e1 : Eng} {c c1 : Ctx} {toks : List Tok} {x : Stop}
    (hr : CtxRel c ⟨toks, []⟩) (h : bumpLoop cap F e c = .ok (e1, c1)) {m : Nat}
    (hm : engRun m e1 (⟨c1.pending, []⟩ : LCtx) = .error x) : ∃ k, engRun k e (⟨toks, []⟩ : LCtx) = .error x := by
  obtain ⟨l', k, a1, a2, a3⟩ := bumpLoop_steps cap F hr h
  refine ⟨k + m, ?_⟩
  rw [a2 m, a1.inp]
  exact engRun_frame_error.mpr hm

theorem drain_panic {cap F : Nat} (hcap : 0 < cap) (n : Nat) : ∀ {l : MacroLexer} {x : Stop}, l.Ok →
    l.drain cap F n = .error x → x ≠ .fuel → ∃ k, engRun k l.eng (⟨l.ctx.pending, []⟩ : LCtx) = .error x := by
  induction n with
  | zero =>
    intro l x hl h hx
    unfold MacroLexer.drain at h
    split at h
    · cases h
    · cases h; exact absurd rfl hx
  | succ n ih =>
    intro l x hl h hx
    rw [MacroLexer.drain] at h
    cases hp : l.peeked with
    | none => simp only [MacroLexer.eat, hp] at h; cases h
    | some p =>
      simp only [MacroLexer.eat, hp] at h
      cases hb : l.buf with
      | cons q bs =>
        simp only [MacroLexer.next, hb] at h
        split at h
        · rename_i hd
          cases h
          have hok : MacroLexer.Ok ⟨l.eng, l.ctx, some q, bs⟩ := ⟨hl.1, by simp⟩
          obtain ⟨k, hk⟩ := ih hok hd hx
          exact ⟨k, hk⟩
        · cases h
      | nil =>
        simp only [MacroLexer.next, hb, MacroLexer.bump] at h
        have hrel := reload_rel hl.1
        have hctx : ({ l.ctx with out := [] } : Ctx) = l.ctx := by
          have := hl.1.2.2
          cases hc : l.ctx; rw [hc] at this; simp at this; simp [this]
        rw [hctx] at h
        cases hbl : bumpLoop cap F l.eng (if l.ctx.peeked.isNone then l.ctx.next else l.ctx) with
        | error y =>
          rw [hbl] at h
          cases h
          exact bumpLoop_panic cap F hrel hbl hx
        | ok r =>
          obtain ⟨e1, c1⟩ := r
          rw [hbl] at h
          simp only at h
          obtain ⟨hok, -⟩ := refill_back hcap hrel hbl
          split at h
          · rename_i hd
            cases h
            obtain ⟨m, hm⟩ := ih hok hd hx
            exact refill_panic hrel hbl hm
          · cases h

theorem drain_panic_fwd {cap F : Nat} (hcap : 0 < cap) {x : Stop} (hx : x ≠ .fuel) (k : Nat) :
    ∀ (b : Nat) {l : MacroLexer}, l.Ok → l.buf.length = b → k ≤ F →
    engRun k l.eng (⟨l.ctx.pending, []⟩ : LCtx) = .error x → ∃ n, l.drain cap F n = .error x := by
  induction k using Nat.strongRecOn with
  | ind k ihk =>
    intro b
    induction b with
    | zero =>
      intro l hl hlen hk hrun
      have hb : l.buf = [] := List.length_eq_zero_iff.mp hlen
      cases hp : l.peeked with
      | none =>
        obtain ⟨_, hi⟩ := hl.2 hp
        rw [engRun_done hi] at hrun
        cases hrun
      | some p =>
        have hrel := reload_rel hl.1
        have hctx : ({ l.ctx with out := [] } : Ctx) = l.ctx := by
          have := hl.1.2.2
          cases hc : l.ctx; rw [hc] at this; simp at this; simp [this]
        have hout : (if l.ctx.peeked.isNone then l.ctx.next else l.ctx).out.length < cap := by
          have := hrel.2.2
          simp only at this
          rw [this]; simpa using hcap
        rcases bumpLoop_panic_fwd cap k hrel hrun hx F hk with h | ⟨e1, c1, l1, k1, a1, a2, hbl, a4, a5, a6⟩
        · exact ⟨1, by simp only [MacroLexer.drain, MacroLexer.eat, hp, MacroLexer.next, hb, MacroLexer.bump, hctx, h]⟩
        · obtain ⟨hok, -⟩ := refill_back hcap hrel hbl
          rw [a4.inp] at a5
          obtain ⟨n, hn⟩ := ihk k1 (a2 hout) _ hok rfl (by omega) (engRun_frame_error.mp a5)
          refine ⟨n + 1, ?_⟩
          simp only [MacroLexer.drain, MacroLexer.eat, hp, MacroLexer.next, hb, MacroLexer.bump, hctx, hbl, hn]
    | succ b ihb =>
      intro l hl hlen hk hrun
      cases hb : l.buf with
      | nil => rw [hb] at hlen; cases hlen
      | cons q bs =>
        cases hp : l.peeked with
        | none => have := (hl.2 hp).1; rw [hb] at this; cases this
        | some p =>
          have hok : MacroLexer.Ok ⟨l.eng, l.ctx, some q, bs⟩ := ⟨hl.1, by simp⟩
          obtain ⟨n, hn⟩ := ihb hok (by rw [hb] at hlen; simpa using hlen) hk hrun
          refine ⟨n + 1, ?_⟩
          simp only [MacroLexer.drain, MacroLexer.eat, hp, MacroLexer.next, hb, hn]

/-- C08, panics: for every page size, creating the macro-expanding lexer and eating from it panics at some point
exactly if expanding the whole token list does — buffering neither hides a panic nor adds one. -/
theorem C08_panics_alike (cap : Nat) (hcap : 0 < cap) (toks : List Tok) :
    (∃ F n, (do let l ← MacroLexer.new cap F toks; l.drain cap F n) = .error .panic) ↔
    ∃ fuel, expandAll fuel toks = .error .panic := by
  constructor
  · rintro ⟨F, n, h⟩
    simp only [MacroLexer.new, MacroLexer.next, MacroLexer.bump, Option.isNone_none, if_true] at h
    cases hbl : bumpLoop cap F Eng.new (⟨none, [], toks, []⟩ : Ctx).next with
    | error x =>
      rw [hbl] at h
      cases h
      obtain ⟨k, hk⟩ := bumpLoop_panic cap F (new_rel toks) hbl (fun h => (by cases h))
      exact ⟨k, by simp only [expandAll, hk]⟩
    | ok r =>
      obtain ⟨e1, c1⟩ := r
      rw [hbl] at h
      obtain ⟨hok, -⟩ := refill_back hcap (new_rel toks) hbl
      obtain ⟨m, hm⟩ := drain_panic hcap n hok h (fun h => (by cases h))
      obtain ⟨k, hk⟩ := refill_panic (new_rel toks) hbl hm
      exact ⟨k, by simp only [expandAll, hk]⟩
  · rintro ⟨fuel, h⟩
    have hrun : engRun fuel Eng.new (⟨toks, []⟩ : LCtx) = .error .panic := by
      unfold expandAll at h
      cases hr : engRun fuel Eng.new (⟨toks, []⟩ : LCtx) with
      | error x => rw [hr] at h; cases h; rfl
      | ok r => rw [hr] at h; cases h
    have hx : Stop.panic ≠ .fuel := fun h => (by cases h)
    rcases bumpLoop_panic_fwd cap fuel (new_rel toks) hrun hx fuel (Nat.le_refl _) with
      hb | ⟨e1, c1, l1, k1, a1, a2, hbl, a4, a5, a6⟩
    · refine ⟨fuel, 0, ?_⟩
      simp only [MacroLexer.new, MacroLexer.next, MacroLexer.bump, Option.isNone_none, if_true, hb]
      rfl
    · obtain ⟨hok, -⟩ := refill_back hcap (new_rel toks) hbl
      rw [a4.inp] at a5
      obtain ⟨n, hn⟩ := drain_panic_fwd hcap hx k1 _ hok rfl (by omega) (engRun_frame_error.mp a5)
      refine ⟨fuel, n, ?_⟩
      simp only [MacroLexer.new, MacroLexer.next, MacroLexer.bump, Option.isNone_none, if_true, hbl]
      exact hn

end Mitex
