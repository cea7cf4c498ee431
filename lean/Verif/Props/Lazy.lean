/-
C72: the stages run interleaved — the parser pulls tokens from a lexer that expands macros and reads the source a page at
a time — and the answers are those of the stages run one after the other.
-/
import Verif.Proof.LazyLex
import Verif.Props.Rules
import Verif.Props.Terminate
import Verif.Model.StandardSpec

namespace Mitex
open Lazy

theorem lrel_eq {bad : Stop → Prop} {x y : Res Elem} (h : LRel bad Eq x y) (hx : x ≠ .error .fuel) : (∃ e, bad e ∧ y = .error e) ∨ y = x := by
  rcases h with h | h | ⟨e, h1, h2⟩ | ⟨a, b, h1, h2, rfl⟩
  · exact absurd h hx
  · exact .inl h
  · right; rw [h1, h2]
  · right; rw [h1, h2]

theorem delivered_not_fuel (env : PEnv) {ts : List Tok} (h : ∀ t ∈ ts, DeliveredTok t) : parseToks env ts ≠ .error .fuel :=
  let h' := delivered_iff.1 h
  C28_terminates env ts h'.1 h'.2

theorem delivered_panic (env : PEnv) {ts : List Tok} (h : ∀ t ∈ ts, DeliveredTok t) {x : Stop} (hx : parseToks env ts = .error x) : x = .panic :=
  let h' := delivered_iff.1 h
  (C29_only_panic env ts h'.1 h'.2 x hx).1

/-- The macro lexer and the parser on it, once the run of the engine over all tokens is known. -/
theorem lazy_run {cap F : Nat} (hcap : 0 < cap) (env : PEnv) {s : Text} {k : Nat} {res : Ending}
    (hrun : engRun k Eng.new (⟨(rawOf env.spec s).toks, []⟩ : LCtx) = res) (hres : res ≠ .error .fuel) (N : Nat) :
    (∃ e, ((e = .fuel ∧ (F < k ∨ F < tokSize (runOut k Eng.new ⟨(rawOf env.spec s).toks, []⟩) + 1)) ∨
          (e = .panic ∧ ((rawOf env.spec s).stuck = true ∨ res = .error .panic))) ∧
        Lazy.parse N cap F env true s = .error e) ∨
      Lazy.parse N cap F env true s = parseToks env (runOut k Eng.new ⟨(rawOf env.spec s).toks, []⟩) := by
  have hd := raw_delivered env.spec s
  have h3 := runOut_inv tokInv_delivered k (e := Eng.new) (defaultTable_inv _) (l := ⟨(rawOf env.spec s).toks, []⟩) ⟨hd, fun t h => (by cases h)⟩
  have hpe : Lazy.parse N cap F env true s = (do
      let l ← MacroSrc.new cap F (rawOf env.spec s)
      parseFrom (MacroSrc.fns cap F) env F l) := rfl
  rw [hpe]
  rcases macro_new (F := F) hcap hd hrun hres with ⟨e, h1, h2⟩ | ⟨l, h1, h2⟩
  · exact .inl ⟨e, h1.imp (fun h => ⟨h.1, .inl h.2⟩) id, by rw [h2]; rfl⟩
  · rw [h1]
    generalize runOut k Eng.new ⟨(rawOf env.spec s).toks, []⟩ = ts at h2 h3 ⊢
    show (∃ e, _ ∧ parseFrom (MacroSrc.fns cap F) env F l = .error e) ∨ parseFrom (MacroSrc.fns cap F) env F l = _
    by_cases hF : tokSize ts + 1 ≤ F
    · rcases lrel_eq (parseFrom_sim env (macro_lawful cap F) h2 (.inr hF)) (delivered_not_fuel env h3) with ⟨e, h5, h6⟩ | h5
      · exact .inl ⟨e, h5.imp (fun h => ⟨h.1, .inl h.2⟩) id, h6⟩
      · exact .inr h5
    · have h2' : Follows (MacroSrc.fns cap F) (fun e => e = .fuel ∨ BadAt (rawOf env.spec s).stuck F k res e) ts l := h2.mono fun e h => .inr h
      rcases lrel_eq (parseFrom_sim env (macro_lawful cap F) h2' (.inl (.inl rfl))) (delivered_not_fuel env h3) with ⟨e, h5, h6⟩ | h5
      · refine .inl ⟨e, ?_, h6⟩
        rcases h5 with h5 | h5
        · exact .inl ⟨h5, .inr (by omega)⟩
        · exact h5.imp (fun h => ⟨h.1, .inl h.2⟩) id
      · exact .inr h5

/-- The plain lexer and the parser on it. -/
theorem lazy_plain {N F : Nat} (hN : 0 < N) (env : PEnv) (s : Text) (cap : Nat) :
    (∃ e, ((e = .fuel ∧ F < tokSize (rawOf env.spec s).toks + 1) ∨ (e = .panic ∧ (rawOf env.spec s).stuck = true)) ∧ Lazy.parse N cap F env false s = .error e) ∨
      Lazy.parse N cap F env false s = parseToks env (rawOf env.spec s).toks := by
  have hd := raw_delivered env.spec s
  have hpe : Lazy.parse N cap F env false s = (do
      let l ← PlainSrc.new N (rawOf env.spec s)
      parseFrom (PlainSrc.fns N) env F l) := rfl
  rw [hpe]
  rcases plain_step hN none [] (rawOf env.spec s).toks (rawOf env.spec s).stuck with ⟨h1, h2⟩ | ⟨l, h1, h2, h3, h4⟩
  · left
    refine ⟨_, .inr ⟨rfl, h1⟩, ?_⟩
    show (PlainSrc.new N _ >>= _) = _
    unfold PlainSrc.new
    rw [h2]; rfl
  · have hf := plain_follows hN _ h2 h4
    rw [h3] at hf
    have hn : PlainSrc.new N (rawOf env.spec s) = .ok l := h1
    rw [hn]
    show (∃ e, _ ∧ parseFrom (PlainSrc.fns N) env F l = .error e) ∨ parseFrom (PlainSrc.fns N) env F l = _
    simp only [List.nil_append] at hf
    by_cases hF : tokSize (rawOf env.spec s).toks + 1 ≤ F
    · rcases lrel_eq (parseFrom_sim env (plain_lawful N) hf (.inr hF)) (delivered_not_fuel env hd) with ⟨e, h5, h6⟩ | h5
      · exact .inl ⟨e, .inr h5, h6⟩
      · exact .inr h5
    · have h2' := hf.mono (bad' := fun e => e = .fuel ∨ (e = .panic ∧ (rawOf env.spec s).stuck = true)) fun e h => .inr h
      rcases lrel_eq (parseFrom_sim env (plain_lawful N) h2' (.inl (.inl rfl))) (delivered_not_fuel env hd) with ⟨e, h5, h6⟩ | h5
      · refine .inl ⟨e, ?_, h6⟩
        rcases h5 with h5 | h5
        · exact .inl ⟨h5, by omega⟩
        · exact .inr h5
      · exact .inr h5

/-! ### C72 -/

/-- Expanding what the source delivers comes to an end: with a token list or with a panic. -/
def ExpansionEnds (spec : CommandSpec) (s : Text) : Prop := ∃ k, expandAll k (rawOf spec s).toks ≠ .error .fuel

theorem lazy_parse_stuck {env : PEnv} {macros : Bool} {s : Text} {e : Stop} (h : tokensOf env.spec s = .error e) (k : Nat) : Mitex.parse k env macros s = .error e := by
  unfold Mitex.parse
  rw [h]; rfl

theorem lazy_parse_macros {env : PEnv} {s : Text} {toks : List Tok} (h : tokensOf env.spec s = .ok toks) (k : Nat) :
    Mitex.parse k env true s = (expandAll k toks >>= parseToks env) := by
  unfold Mitex.parse
  rw [h]; rfl

theorem lazy_parse_plain {env : PEnv} {s : Text} {toks : List Tok} (h : tokensOf env.spec s = .ok toks) (k : Nat) :
    Mitex.parse k env false s = parseToks env toks := by
  unfold Mitex.parse
  rw [h]; rfl

/-- A lazy parse that succeeds has expanded the whole source. -/
theorem lazy_ok_ends {N cap F : Nat} (hcap : 0 < cap) {env : PEnv} {s : Text} {t : Elem} (h : Lazy.parse N cap F env true s = .ok t) :
    (rawOf env.spec s).stuck = false ∧ ∃ k ef lf, engRun k Eng.new (⟨(rawOf env.spec s).toks, []⟩ : LCtx) = .ok (ef, lf) := by
  have hpe : Lazy.parse N cap F env true s = (do
      let l ← MacroSrc.new cap F (rawOf env.spec s)
      parseFrom (MacroSrc.fns cap F) env F l) := rfl
  rw [hpe] at h
  cases hl : MacroSrc.new cap F (rawOf env.spec s) with
  | error e => rw [hl] at h; cases h
  | ok l =>
    rw [hl] at h
    exact macro_end hcap hl h

/-- The lazy run without macros: an answer, or the bound is too small. -/
theorem plain_cases {N : Nat} (hN : 0 < N) (cap : Nat) (env : PEnv) (s : Text) (F k : Nat) :
    Lazy.parse N cap F env false s = Mitex.parse k env false s ∨
    (Lazy.parse N cap F env false s = .error .fuel ∧ F < tokSize (rawOf env.spec s).toks + 1) := by
  cases hs : tokensOf env.spec s with
  | ok toks =>
    have hr := raw_ok hs
    rw [lazy_parse_plain hs]
    rcases lazy_plain (F := F) hN env s cap with ⟨e, ⟨rfl, h1⟩ | ⟨_, h1⟩, h2⟩ | h1
    · exact .inr ⟨h2, h1⟩
    · rw [hr] at h1; cases h1
    · left; rw [h1, hr]
  | error e =>
    have hr := raw_stuck hs
    rw [lazy_parse_stuck hs]
    have he : e = .panic := by
      rcases C02_terminates env.spec s with ⟨toks, h⟩ | h
      · rw [h] at hs; cases hs
      · rw [h] at hs; cases hs; rfl
    subst he
    rcases lazy_plain (F := F) hN env s cap with ⟨e, ⟨rfl, h2⟩ | ⟨rfl, h2⟩, h3⟩ | h1
    · exact .inr ⟨h3, h2⟩
    · exact .inl h3
    · left
      cases hx : parseToks env (rawOf env.spec s).toks with
      | error x => rw [h1, hx, delivered_panic env (raw_delivered env.spec s) hx]
      | ok t =>
        exfalso
        rw [hx] at h1
        have hpe : Lazy.parse N cap F env false s = (do
            let l ← PlainSrc.new N (rawOf env.spec s)
            parseFrom (PlainSrc.fns N) env F l) := rfl
        rw [hpe] at h1
        cases hl : PlainSrc.new N (rawOf env.spec s) with
        | error e => rw [hl] at h1; cases h1
        | ok l =>
          rw [hl] at h1
          have := plain_end hN hl h1
          rw [hr] at this; cases this

/-- The lazy run with macros, when the engine comes to an end after `k` rounds. -/
theorem macro_cases {N cap : Nat} (hcap : 0 < cap) (env : PEnv) (s : Text) (F k : Nat)
    (hk : engRun k Eng.new (⟨(rawOf env.spec s).toks, []⟩ : LCtx) ≠ .error .fuel) (K : Nat) (hK : k ≤ K) :
    Lazy.parse N cap F env true s = Mitex.parse K env true s ∨
    (Lazy.parse N cap F env true s = .error .fuel ∧ F < k + tokSize (runOut k Eng.new ⟨(rawOf env.spec s).toks, []⟩) + 1) := by
  obtain ⟨res, hres⟩ : ∃ res, engRun k Eng.new (⟨(rawOf env.spec s).toks, []⟩ : LCtx) = res := ⟨_, rfl⟩
  rw [hres] at hk
  have hmono : ∀ F, k ≤ F → engRun F Eng.new (⟨(rawOf env.spec s).toks, []⟩ : LCtx) = res := by
    intro F hF
    have := engRun_stop_mono k _ _ res hres hk (F - k)
    rwa [Nat.sub_add_cancel hF] at this
  have hts := runOut_inv tokInv_delivered k (e := Eng.new) (defaultTable_inv _) (l := ⟨(rawOf env.spec s).toks, []⟩)
    ⟨raw_delivered env.spec s, fun t h => (by cases h)⟩
  have hrun := lazy_run (F := F) hcap env hres hk N
  by_cases hgood : (rawOf env.spec s).stuck = false ∧ ∃ ef lf, res = .ok (ef, lf)
  · obtain ⟨hst, ef, lf, rfl⟩ := hgood
    have hs : ∃ toks, tokensOf env.spec s = .ok toks := by
      rcases C02_terminates env.spec s with h | h
      · exact h
      · rw [raw_stuck h] at hst; cases hst
    obtain ⟨toks, hs⟩ := hs
    have hr := raw_ok hs
    have ho := runOut_ok k hres
    have hpK : Mitex.parse K env true s = parseToks env lf.out := by
      rw [lazy_parse_macros hs]
      have := hmono K hK
      rw [hr] at this
      unfold expandAll
      rw [this]; rfl
    rw [ho] at hrun ⊢
    rw [hpK]
    rcases hrun with ⟨e, ⟨rfl, h4⟩ | ⟨_, h4⟩, h5⟩ | h3
    · exact .inr ⟨h5, by rcases h4 with h4 | h4 <;> omega⟩
    · rcases h4 with h4 | h4
      · rw [hst] at h4; cases h4
      · cases h4
    · exact .inl h3
  · have hpK : Mitex.parse K env true s = .error .panic := by
      cases hs : tokensOf env.spec s with
      | error e =>
        rcases C02_terminates env.spec s with ⟨toks, h⟩ | h
        · rw [h] at hs; cases hs
        · rw [h] at hs; cases hs; exact lazy_parse_stuck h K
      | ok toks =>
        have hr := raw_ok hs
        have hx : ∃ x, res = .error x := by
          cases res with
          | error x => exact ⟨x, rfl⟩
          | ok r => exact absurd ⟨by rw [hr], r.1, r.2, rfl⟩ hgood
        obtain ⟨x, rfl⟩ := hx
        have hxp : x = .panic := by
          rcases (engRun_inv tokInv_delivered k (e := Eng.new) (defaultTable_inv _) (c := ⟨(rawOf env.spec s).toks, []⟩)
            ⟨raw_delivered env.spec s, fun _ h => (by cases h)⟩).2 x hres with h | ⟨h, _⟩
          · subst h; exact absurd rfl hk
          · exact h
        subst hxp
        rw [lazy_parse_macros hs]
        have := hmono K hK
        rw [hr] at this
        unfold expandAll
        rw [this]; rfl
    rw [hpK]
    rcases hrun with ⟨e, ⟨rfl, h4⟩ | ⟨rfl, _⟩, h5⟩ | h5
    · exact .inr ⟨h5, by rcases h4 with h4 | h4 <;> omega⟩
    · exact .inl h5
    · left
      cases hx : parseToks env (runOut k Eng.new ⟨(rawOf env.spec s).toks, []⟩) with
      | ok t =>
        exfalso
        rw [hx] at h5
        obtain ⟨h1, m, ef, lf, h2⟩ := lazy_ok_ends hcap h5
        refine hgood ⟨h1, ef, lf, ?_⟩
        have := engRun_mono h2 k
        rw [hmono _ (by omega)] at this
        exact this
      | error x =>
        rw [hx] at h5
        rw [h5, delivered_panic env hts hx]

theorem ends_run {spec : CommandSpec} {s : Text} (h : ExpansionEnds spec s) : ∃ k, engRun k Eng.new (⟨(rawOf spec s).toks, []⟩ : LCtx) ≠ .error .fuel := by
  obtain ⟨k, hk⟩ := h
  refine ⟨k, fun h => hk ?_⟩
  unfold expandAll
  rw [h]

/-- C72: whenever expanding the tokens of the text comes to an end (without macros there is nothing to expand), the
interleaved run has one answer, which every large enough bound gives and no bound contradicts; it is the answer of the
stages run one after the other — the same tree, or a panic in both — whatever the page sizes of the two caches. -/
theorem C72_answers (N cap : Nat) (hN : 0 < N) (hcap : 0 < cap) (env : PEnv) (macros : Bool) (s : Text)
    (h : macros = true → ExpansionEnds env.spec s) :
    ∃ r F₀, (∀ F, F₀ ≤ F → Lazy.parse N cap F env macros s = r ∧ Mitex.parse F env macros s = r) ∧
      ∀ F, Lazy.parse N cap F env macros s = r ∨ Lazy.parse N cap F env macros s = .error .fuel := by
  cases macros with
  | false =>
    have hk : ∀ k, Mitex.parse k env false s = Mitex.parse 0 env false s := fun k => rfl
    refine ⟨Mitex.parse 0 env false s, tokSize (rawOf env.spec s).toks + 1, fun F hF => ⟨?_, hk F⟩, fun F => ?_⟩
    · rcases plain_cases hN cap env s F 0 with h | ⟨_, h⟩
      · exact h
      · omega
    · exact (plain_cases hN cap env s F 0).imp_right And.left
  | true =>
    obtain ⟨k, hk⟩ := ends_run (h rfl)
    refine ⟨Mitex.parse k env true s, k + tokSize (runOut k Eng.new ⟨(rawOf env.spec s).toks, []⟩) + 1, fun F hF => ?_, fun F => ?_⟩
    · have key : ∀ K, k ≤ K → Lazy.parse N cap F env true s = Mitex.parse K env true s := by
        intro K hK
        rcases macro_cases (N := N) hcap env s F k hk K hK with h | ⟨_, h⟩
        · exact h
        · omega
      exact ⟨key k (Nat.le_refl _), (key F (by omega)).symm.trans (key k (Nat.le_refl _))⟩
    · exact (macro_cases (N := N) hcap env s F k hk k (Nat.le_refl _)).imp_right And.left

/-- C72, successes: for every text, with or without macros and whether or not their expansion ends, the interleaved run
gives a tree exactly if the stages one after the other give it.  In particular a run that succeeds has looked at the whole
text, and a text on which the expansion loops never succeeds. -/
theorem C72_success (N cap : Nat) (hN : 0 < N) (hcap : 0 < cap) (env : PEnv) (macros : Bool) (s : Text) (t : Elem) :
    (∃ F, Lazy.parse N cap F env macros s = .ok t) ↔ ∃ F, Mitex.parse F env macros s = .ok t := by
  constructor
  · rintro ⟨F, h⟩
    cases macros with
    | false =>
      rcases plain_cases hN cap env s F 0 with h1 | ⟨h1, _⟩
      · exact ⟨0, h1 ▸ h⟩
      · rw [h] at h1; cases h1
    | true =>
      obtain ⟨_, k, ef, lf, h2⟩ := lazy_ok_ends hcap h
      rcases macro_cases (N := N) hcap env s F k (by rw [h2]; exact fun h => (by cases h)) k (Nat.le_refl _) with h1 | ⟨h1, _⟩
      · exact ⟨k, h1 ▸ h⟩
      · rw [h] at h1; cases h1
  · rintro ⟨F, h⟩
    cases macros with
    | false =>
      obtain ⟨r, F₀, h1, _⟩ := C72_answers N cap hN hcap env false s (fun h => (by cases h))
      obtain ⟨h2, h3⟩ := h1 F₀ (Nat.le_refl _)
      have h4 : Mitex.parse F₀ env false s = Mitex.parse F env false s := rfl
      exact ⟨F₀, by rw [h2, ← h3, h4, h]⟩
    | true =>
      cases hs : tokensOf env.spec s with
      | error e => rw [lazy_parse_stuck hs] at h; cases h
      | ok toks =>
        rw [lazy_parse_macros hs] at h
        have hr := raw_ok hs
        have hx : ∃ outs, expandAll F toks = .ok outs := by
          cases hx : expandAll F toks with
          | error e => rw [hx] at h; cases h
          | ok outs => exact ⟨outs, rfl⟩
        obtain ⟨outs, hx⟩ := hx
        have hk : engRun F Eng.new (⟨(rawOf env.spec s).toks, []⟩ : LCtx) ≠ .error .fuel := by
          intro h'
          rw [hr] at h'
          unfold expandAll at hx
          rw [h'] at hx; cases hx
        refine ⟨F + tokSize (runOut F Eng.new ⟨(rawOf env.spec s).toks, []⟩) + 1, ?_⟩
        rcases macro_cases (N := N) hcap env s (F + tokSize (runOut F Eng.new ⟨(rawOf env.spec s).toks, []⟩) + 1) F hk F (Nat.le_refl _) with h1 | ⟨_, h1⟩
        · rw [h1, lazy_parse_macros hs]; exact h
        · omega

/-- C72, conversions: what `convert_text` and `convert_math` return for a text does not depend on the interleaving. -/
theorem C72_converts (N cap : Nat) (hN : 0 < N) (hcap : 0 < cap) (dflt : CommandSpec) (input : Text) (m : Mode) (spec : Option CommandSpec)
    (macros : Bool) (out : Text) :
    (∃ F, Lazy.convertInner N cap F dflt input m spec macros = .ok out) ↔ ∃ F, Mitex.convertInner F dflt input m spec macros = .ok out := by
  have split : ∀ {x : Res Elem}, (x >>= convertTree dflt m) = .ok out ↔ ∃ t, x = .ok t ∧ convertTree dflt m t = .ok out := by
    intro x
    cases x with
    | error e => exact ⟨fun h => (by cases h), fun ⟨t, h, _⟩ => (by cases h)⟩
    | ok t => exact ⟨fun h => ⟨t, rfl, h⟩, fun ⟨t', h1, h2⟩ => by cases h1; exact h2⟩
  constructor
  · rintro ⟨F, h⟩
    obtain ⟨t, h1, h2⟩ := split.1 h
    obtain ⟨F', h3⟩ := (C72_success N cap hN hcap _ macros input t).1 ⟨F, h1⟩
    exact ⟨F', split.2 ⟨t, h3, h2⟩⟩
  · rintro ⟨F, h⟩
    obtain ⟨t, h1, h2⟩ := split.1 h
    obtain ⟨F', h3⟩ := (C72_success N cap hN hcap _ macros input t).2 ⟨F, h1⟩
    exact ⟨F', split.2 ⟨t, h3, h2⟩⟩

/-- C72, all answers of a conversion, errors and panics included, when the expansion comes to an end. -/
theorem C72_outcome (N cap : Nat) (hN : 0 < N) (hcap : 0 < cap) (dflt : CommandSpec) (input : Text) (m : Mode) (spec : Option CommandSpec)
    (macros : Bool) (h : macros = true → ExpansionEnds (spec.getD dflt) input) :
    ∃ r F₀, ∀ F, F₀ ≤ F → Lazy.convertInner N cap F dflt input m spec macros = r ∧ Mitex.convertInner F dflt input m spec macros = r := by
  obtain ⟨r, F₀, h1, _⟩ := C72_answers N cap hN hcap ⟨spec.getD dflt, globPrefix⟩ macros input h
  refine ⟨r >>= convertTree dflt m, F₀, fun F hF => ?_⟩
  obtain ⟨h2, h3⟩ := h1 F hF
  unfold Lazy.convertInner Mitex.convertInner
  rw [h2, h3]
  exact ⟨rfl, rfl⟩

/-- C72, a text on which the source reader panics: the interleaved run meets the panic too. It never succeeds, and it panics
whenever the expansion of the tokens in front of the place comes to an end. -/
theorem C72_stuck (N cap : Nat) (hN : 0 < N) (hcap : 0 < cap) (env : PEnv) (macros : Bool) (s : Text) (hs : Stuck env.spec s) :
    (∀ F t, Lazy.parse N cap F env macros s ≠ .ok t) ∧
    ((macros = true → ExpansionEnds env.spec s) → ∃ F₀, ∀ F, F₀ ≤ F → Lazy.parse N cap F env macros s = .error .panic) := by
  have hp := (C02_panics_exactly env.spec s).1.2 hs
  constructor
  · intro F t h
    obtain ⟨F', h'⟩ := (C72_success N cap hN hcap env macros s t).1 ⟨F, h⟩
    rw [lazy_parse_stuck hp] at h'
    cases h'
  · intro h
    obtain ⟨r, F₀, h1, _⟩ := C72_answers N cap hN hcap env macros s h
    refine ⟨F₀, fun F hF => ?_⟩
    obtain ⟨h2, h3⟩ := h1 F hF
    rw [lazy_parse_stuck hp] at h3
    rw [h2, ← h3]

/-! ### Concrete cases -/

/-- A definition and a use of a macro. -/
def lazyText : Text := t!"\\newcommand{\\f}[1]{#1^2}$\\f{x}$"

/-- Pages of three and of two tokens: the definition, its body and the formula lie across pages. -/
example : Lazy.convertInner 3 2 60 defaultSpec lazyText .text none true = .ok t!"#math.equation(block: false, $x ^(2 )$);" := by decide +kernel

/-- The pages of the program on a 64-bit machine: (4096 - 16) / 24 = 170 tokens (stream.rs:51-55, macro_engine.rs:393-395). -/
example : Lazy.convertInner 170 170 60 defaultSpec lazyText .text none true = .ok t!"#math.equation(block: false, $x ^(2 )$);" := by decide +kernel

example : ExpansionEnds defaultSpec lazyText :=
  ⟨60, fun h => absurd (congrArg (fun r => match r with | .error .fuel => true | _ => false) h) (by decide +kernel)⟩

/-- A text the source reader panics on, behind tokens that are parsed first. -/
def stuckText : Text := t!"a\\begin{x%c\n%d\n\u3000}"

example : Stuck defaultSpec stuckText ∧ ∃ F₀, ∀ F, F₀ ≤ F → Lazy.parse 170 170 F ⟨defaultSpec, globPrefix⟩ true stuckText = .error .panic := by
  have h : Stuck defaultSpec stuckText := (C02_panics_exactly defaultSpec stuckText).1.1 (by
    have : (match tokensOf defaultSpec stuckText with | .error .panic => true | _ => false) = true := by decide +kernel
    revert this
    cases tokensOf defaultSpec stuckText with
    | ok _ => exact fun h => (by cases h)
    | error e => cases e <;> first | exact fun _ => rfl | exact fun h => (by cases h))
  exact ⟨h, (C72_stuck 170 170 (by decide) (by decide) ⟨defaultSpec, globPrefix⟩ true stuckText h).2 fun _ =>
    ⟨60, fun h => absurd (congrArg (fun r => match r with | .error .fuel => true | _ => false) h) (by decide +kernel)⟩⟩

/-- A macro that calls itself: no page size and no bound makes the interleaved run succeed. -/
example (N cap F : Nat) (hN : 0 < N) (hcap : 0 < cap) (t : Elem) : Lazy.parse N cap F ⟨defaultSpec, globPrefix⟩ true t!"\\newcommand{\\a}{\\a}\\a" ≠ .ok t := by
  intro h
  obtain ⟨F', h1⟩ := (C72_success N cap hN hcap ⟨defaultSpec, globPrefix⟩ true _ t).1 ⟨F, h⟩
  have h2 : tokensOf defaultSpec t!"\\newcommand{\\a}{\\a}\\a" =
      .ok [cmdTok "newcommand".toList, lBrace, cmdTok ['a'], rBrace, lBrace, cmdTok ['a'], rBrace, cmdTok ['a']] := by decide +kernel
  rw [lazy_parse_macros (env := ⟨defaultSpec, globPrefix⟩) h2, C18_self_reference_diverges F'] at h1
  cases h1

end Mitex
