/-
C65: macro expansion is exactly the rewriting of Spec/Expansion.
-/
import Verif.Proof.ExpansionStep
import Verif.Props.StreamPanic
import Verif.Props.Terminate

namespace Mitex
open TokStream

theorem Expands.run {e : Eng} {s os : List Tok} (h : Expands e s os) : EngOk e s → ∀ out, ∃ n e',
    engRun n e (⟨s, out⟩ : LCtx) = .ok (e', ⟨[], out ++ os⟩) := by
  induction h with
  | @done e => intro _ out; exact ⟨0, e, by simp [engRun]⟩
  | @step e s e' s' o os h hr ih =>
    intro hok out
    obtain ⟨t, r, rfl, hs⟩ := rewrites_step h hok out
    obtain ⟨n, e2, hn⟩ := ih (rewrites_ok h hok) (out ++ o)
    refine ⟨n + 1, e2, ?_⟩
    rw [engRun]
    simp only [lctx_peek, List.head?_cons, hs, hn, List.append_assoc]

theorem run_expands (n : Nat) : ∀ {e e' : Eng} {s s' out out' : List Tok}, EngOk e s →
    engRun n e (⟨s, out⟩ : LCtx) = .ok (e', ⟨s', out'⟩) → ∃ os, out' = out ++ os ∧ Expands e s os := by
  induction n with
  | zero =>
    intro e e' s s' out out' hok h
    cases s with
    | nil => simp [engRun] at h; exact ⟨[], by simp [h.2.2], .done⟩
    | cons t s => simp [engRun] at h
  | succ n ih =>
    intro e e' s s' out out' hok h
    cases s with
    | nil => simp [engRun] at h; exact ⟨[], by simp [h.2.2], .done⟩
    | cons t s =>
      rw [engRun] at h
      simp only [lctx_peek, List.head?_cons] at h
      cases hst : engStep e (⟨t :: s, out⟩ : LCtx) t with
      | error x => rw [hst] at h; cases h
      | ok r =>
        obtain ⟨e1, s1, out1⟩ := r
        rw [hst] at h
        obtain ⟨o, rfl, hr⟩ := (step_exact hok).mp hst
        obtain ⟨os, rfl, hx⟩ := ih (rewrites_ok hr hok) h
        exact ⟨o ++ os, by simp, .step hr hx⟩

theorem Collapses.run {e : Eng} {s : List Tok} (h : Collapses e s) : EngOk e s → ∀ out, ∃ n,
    engRun n e (⟨s, out⟩ : LCtx) = .error .panic := by
  induction h with
  | now h =>
    intro hok out
    obtain ⟨t, r, rfl, hs⟩ := panics_step h out
    refine ⟨1, ?_⟩
    rw [engRun]
    simp only [lctx_peek, List.head?_cons, hs]
  | @later e s e' s' o h hr ih =>
    intro hok out
    obtain ⟨t, r, rfl, hs⟩ := rewrites_step h hok out
    obtain ⟨n, hn⟩ := ih (rewrites_ok h hok) (out ++ o)
    refine ⟨n + 1, ?_⟩
    rw [engRun]
    simp only [lctx_peek, List.head?_cons, hs, hn]

theorem run_collapses (n : Nat) : ∀ {e : Eng} {s out : List Tok} {x : Stop}, EngOk e s →
    engRun n e (⟨s, out⟩ : LCtx) = .error x → x ≠ .fuel → x = .panic ∧ Collapses e s := by
  induction n with
  | zero =>
    intro e s out x hok h hx
    cases s with
    | nil => simp [engRun] at h
    | cons t s => simp [engRun] at h; exact absurd h.symm hx
  | succ n ih =>
    intro e s out x hok h hx
    cases s with
    | nil => simp [engRun] at h
    | cons t s =>
      rw [engRun] at h
      simp only [lctx_peek, List.head?_cons] at h
      cases hst : engStep e (⟨t :: s, out⟩ : LCtx) t with
      | error y =>
        rw [hst] at h
        cases h
        obtain ⟨h1, h2⟩ := (step_panics hok).mp hst
        exact ⟨h1, .now h2⟩
      | ok r =>
        obtain ⟨e1, s1, out1⟩ := r
        rw [hst] at h
        obtain ⟨o, rfl, hr⟩ := (step_exact hok).mp hst
        obtain ⟨h1, h2⟩ := ih (rewrites_ok hr hok) h hx
        exact ⟨h1, .later hr h2⟩

theorem run_lasts (n : Nat) : ∀ {e : Eng} {s out : List Tok}, EngOk e s →
    engRun n e (⟨s, out⟩ : LCtx) = .error .fuel → Lasts n e s := by
  induction n with
  | zero => intros; exact .zero
  | succ n ih =>
    intro e s out hok h
    cases s with
    | nil => simp [engRun] at h
    | cons t s =>
      rw [engRun] at h
      simp only [lctx_peek, List.head?_cons] at h
      cases hst : engStep e (⟨t :: s, out⟩ : LCtx) t with
      | error y => rw [hst] at h; cases h; obtain ⟨h1, -⟩ := (step_panics hok).mp hst; cases h1
      | ok r =>
        obtain ⟨e1, s1, out1⟩ := r
        rw [hst] at h
        obtain ⟨o, rfl, hr⟩ := (step_exact hok).mp hst
        exact .succ hr (ih (rewrites_ok hr hok) h)

theorem Lasts.run {n : Nat} {e : Eng} {s : List Tok} (h : Lasts (n + 1) e s) : EngOk e s → ∀ out,
    engRun n e (⟨s, out⟩ : LCtx) = .error .fuel := by
  induction n generalizing e s with
  | zero =>
    intro hok out
    cases h with
    | succ h hr =>
      obtain ⟨t, r, rfl, hs⟩ := rewrites_step h hok out
      simp [engRun]
  | succ n ih =>
    intro hok out
    cases h with
    | succ h hr =>
      obtain ⟨t, r, rfl, hs⟩ := rewrites_step h hok out
      rw [engRun]
      simp only [lctx_peek, List.head?_cons, hs]
      exact ih hr (rewrites_ok h hok) _

theorem start_ok {spec : CommandSpec} {s : Text} {toks : List Tok} (h : tokensOf spec s = .ok toks) : EngOk Eng.new toks := by
  refine ⟨defaultTable_inv _, fun t ht => ?_⟩
  have hsh := tokensOf_shape h t ht
  refine ⟨fun hk => ?_, fun hk => generic_shape hsh hk, fun hk => ?_⟩
  · rw [hk] at hsh; exact hsh.1
  · rw [hk] at hsh; exact hsh.elim


/-- C65: the tokens delivered for a text are exactly those the rewriting rules yield. -/
theorem C65_exact (spec : CommandSpec) (s : Text) (toks : List Tok) (h : tokensOf spec s = .ok toks) (outs : List Tok) :
    (∃ fuel, expandAll fuel toks = .ok outs) ↔ Expands atStart toks outs := by
  have hok := start_ok h
  constructor
  · rintro ⟨fuel, hf⟩
    unfold expandAll at hf
    cases hr : engRun fuel Eng.new (⟨toks, []⟩ : LCtx) with
    | error x => rw [hr] at hf; cases hf
    | ok r =>
      obtain ⟨e', s', out'⟩ := r
      rw [hr] at hf
      cases hf
      obtain ⟨os, ho, hx⟩ := run_expands fuel hok hr
      simp only [List.nil_append] at ho
      exact ho ▸ hx
  · intro hx
    obtain ⟨n, e', hn⟩ := hx.run hok []
    exact ⟨n, by simp only [expandAll]; rw [show Eng.new = atStart from rfl, hn]; simp⟩

/-- C65 for the lexer itself: for every page size, eating from the macro-expanding lexer until it is empty yields
`outs` exactly if the rewriting rules do. -/
theorem C65_lexer (cap : Nat) (hcap : 0 < cap) (spec : CommandSpec) (s : Text) (toks : List Tok)
    (h : tokensOf spec s = .ok toks) (outs : List Tok) :
    (∃ F n, (do let l ← MacroLexer.new cap F toks; l.drain cap F n) = .ok outs) ↔ Expands atStart toks outs := by
  rw [← C65_exact spec s toks h]
  constructor
  · rintro ⟨F, n, hf⟩
    cases hl : MacroLexer.new cap F toks with
    | error x => rw [hl] at hf; cases hf
    | ok l =>
      rw [hl] at hf
      exact C08_buffering_unobservable_conv cap hcap F n toks outs l hl hf
  · rintro ⟨fuel, hf⟩
    obtain ⟨l, h1, h2⟩ := C08_buffering_unobservable cap hcap fuel toks outs hf fuel (Nat.le_refl _)
    exact ⟨fuel, outs.length, by rw [h1]; exact h2 _ (Nat.le_refl _)⟩

/-- C65, panics: the lexer panics exactly on the texts whose rewriting leads to a bad definition. -/
theorem C65_panics (cap : Nat) (hcap : 0 < cap) (spec : CommandSpec) (s : Text) (toks : List Tok)
    (h : tokensOf spec s = .ok toks) :
    (∃ F n, (do let l ← MacroLexer.new cap F toks; l.drain cap F n) = .error .panic) ↔ Collapses atStart toks := by
  rw [C08_panics_alike cap hcap]
  have hok := start_ok h
  constructor
  · rintro ⟨fuel, hf⟩
    unfold expandAll at hf
    cases hr : engRun fuel Eng.new (⟨toks, []⟩ : LCtx) with
    | error x => rw [hr] at hf; cases hf; exact (run_collapses fuel hok hr (fun h => (by cases h))).2
    | ok r => rw [hr] at hf; cases hf
  · intro hx
    obtain ⟨n, hn⟩ := hx.run hok []
    exact ⟨n, by simp only [expandAll]; rw [show Eng.new = atStart from rfl, hn]⟩

/-- C65: a text has at most one expansion, and none if it leads to a panic. -/
theorem C65_unambiguous (spec : CommandSpec) (s : Text) (toks : List Tok) (h : tokensOf spec s = .ok toks)
    (outs outs' : List Tok) (hx : Expands atStart toks outs) :
    (Expands atStart toks outs' → outs = outs') ∧ ¬ Collapses atStart toks := by
  have hok := start_ok h
  obtain ⟨n, e1, hn⟩ := hx.run hok []
  constructor
  · intro hy
    obtain ⟨m, e2, hm⟩ := hy.run hok []
    have h1 := engRun_mono hn m
    have h2 := engRun_mono hm n
    rw [Nat.add_comm, h1] at h2
    cases h2
    rfl
  · intro hy
    obtain ⟨m, hm⟩ := hy.run hok []
    have h1 := engRun_mono hn m
    have h2 := engRun_stop_mono m _ _ _ hm (fun h => (by cases h)) n
    rw [h2] at h1
    cases h1

/-- C65: every text has an expansion, leads to a panic, or can be rewritten for ever — and only then no amount of
eating empties the lexer. -/
theorem C65_outcome (spec : CommandSpec) (s : Text) (toks : List Tok) (h : tokensOf spec s = .ok toks) :
    ((∃ outs, Expands atStart toks outs) ∨ Collapses atStart toks ∨ ∀ n, Lasts n atStart toks) ∧
    ((∀ n, Lasts n atStart toks) ↔ ∀ fuel, expandAll fuel toks = .error .fuel) := by
  have hok : EngOk atStart toks := start_ok h
  have key : ∀ fuel, expandAll fuel toks = .error .fuel ↔ engRun fuel atStart (⟨toks, []⟩ : LCtx) = .error .fuel := by
    intro fuel
    unfold expandAll
    rw [show Eng.new = atStart from rfl]
    cases engRun fuel atStart (⟨toks, []⟩ : LCtx) with
    | error x => exact ⟨fun h => (by cases h; rfl), fun h => (by cases h; rfl)⟩
    | ok r => exact ⟨fun h => (by cases h), fun h => (by cases h)⟩
  refine ⟨?_, fun hl fuel => (key fuel).mpr ((hl (fuel + 1)).run hok []), fun hf n => run_lasts n hok ((key n).mp (hf n))⟩
  by_cases hall : ∀ n, engRun n atStart (⟨toks, []⟩ : LCtx) = .error .fuel
  · exact Or.inr (Or.inr fun n => run_lasts n hok (hall n))
  · obtain ⟨n, hn⟩ := Classical.not_forall.mp hall
    cases hr : engRun n atStart (⟨toks, []⟩ : LCtx) with
    | ok r =>
      obtain ⟨e', s', out'⟩ := r
      obtain ⟨os, _, hx⟩ := run_expands n hok hr
      exact Or.inl ⟨os, hx⟩
    | error x =>
      have hx : x ≠ .fuel := by rintro rfl; exact hn hr
      exact Or.inr (Or.inl (run_collapses n hok hr hx).2)

/-! ### C18: when expansion ends -/

/-- **C18.** The lexer comes to the end of a text, or to a panic, exactly if the rewriting of the text does not go on for ever —
whatever the page size. -/
theorem C18_exact (cap : Nat) (hcap : 0 < cap) (spec : CommandSpec) (s : Text) (toks : List Tok) (h : tokensOf spec s = .ok toks) :
    (∃ F n, (∃ outs, (do let l ← MacroLexer.new cap F toks; l.drain cap F n) = .ok outs) ∨
      (do let l ← MacroLexer.new cap F toks; l.drain cap F n) = .error .panic) ↔ ¬ ∀ n, Lasts n atStart toks := by
  rw [(C65_outcome spec s toks h).2]
  constructor
  · rintro ⟨F, n, ⟨outs, ho⟩ | hp⟩ hall
    · cases hl : MacroLexer.new cap F toks with
      | error x => rw [hl] at ho; cases ho
      | ok l =>
        rw [hl] at ho
        obtain ⟨fuel, hf⟩ := C08_buffering_unobservable_conv cap hcap F n toks outs l hl ho
        rw [hall fuel] at hf
        cases hf
    · obtain ⟨fuel, hf⟩ := (C08_panics_alike cap hcap toks).1 ⟨F, n, hp⟩
      rw [hall fuel] at hf
      cases hf
  · intro hno
    rcases (C65_outcome spec s toks h).1 with ⟨outs, ho⟩ | hc | hl
    · obtain ⟨fuel, hf⟩ := (C65_exact spec s toks h outs).2 ho
      obtain ⟨l, hl, hd⟩ := C08_buffering_unobservable cap hcap fuel toks outs hf fuel (Nat.le_refl _)
      refine ⟨fuel, outs.length, .inl ⟨outs, ?_⟩⟩
      rw [hl]
      exact hd _ (Nat.le_refl _)
    · obtain ⟨F, n, hp⟩ := (C65_panics cap hcap spec s toks h).2 hc
      exact ⟨F, n, .inr hp⟩
    · exact absurd ((C65_outcome spec s toks h).2.1 hl) hno

/-- Ordinary tokens are handed on one by one. -/
theorem Lasts.ordinary {n : Nat} {e : Eng} {s : List Tok} (pre : List Tok) (hp : ∀ t ∈ pre, Ordinary t) (h : Lasts n e s) :
    Lasts (pre.length + n) e (pre ++ s) := by
  induction pre with
  | nil => simpa using h
  | cons t pre ih =>
    have := ih fun t ht => hp t (List.mem_cons_of_mem _ ht)
    rw [List.length_cons, Nat.add_right_comm]
    exact .succ (.ordinary (hp t List.mem_cons_self)) this

theorem Lasts.less {n m : Nat} {e : Eng} {s : List Tok} (h : Lasts n e s) (hm : m ≤ n) : Lasts m e s := by
  induction h generalizing m with
  | zero => cases hm; exact .zero
  | succ h hr ih =>
    cases m with
    | zero => exact .zero
    | succ m => exact .succ h (ih (by omega))

theorem Filled.plain {args : List (List Tok)} (b : List Tok) (h : ∀ t ∈ b, (∀ d, t.1 ≠ .macroArg d) ∧ t ≠ cmdTok t!"mitexrecurse") :
    Filled args b b := by
  induction b with
  | nil => exact .nil
  | cons t b ih => exact .tok (h t (by simp)).1 (h t (by simp)).2 (ih fun t ht => h t (by simp [ht]))

/-- **C18.** Recursion never ends: if each macro of a set, without parameters, has a definition in which a call of a macro of the set
comes first (after ordinary tokens), then a call of a macro of the set goes on for ever, whatever follows it. -/
theorem C18_recursion_diverges (S : Text → Prop) (e : Eng) (hS : ∀ a, S a → ∃ nm pre b post,
      e.macros a = some (.cmd nm 0 none (pre ++ cmdTok b :: post)) ∧ S b ∧ (∀ t ∈ pre, Ordinary t) ∧
      ∀ t ∈ pre ++ cmdTok b :: post, (∀ d, t.1 ≠ .macroArg d) ∧ t ≠ cmdTok t!"mitexrecurse")
    (a : Text) (ha : S a) (s : List Tok) (n : Nat) : Lasts n e (cmdTok a :: s) := by
  induction n generalizing a s with
  | zero => exact .zero
  | succ n ih =>
    obtain ⟨nm, pre, b, post, hm, hb, hpre, hbody⟩ := hS a ha
    have h1 : Rewrites e (cmdTok a :: s) e ((pre ++ cmdTok b :: post) ++ s) [] :=
      .call hm (.all .done) (Filled.plain _ hbody)
    refine .succ h1 ?_
    rw [List.append_assoc]
    exact (Lasts.ordinary pre hpre (ih b hb (post ++ s))).less (by omega)

/-- Two macros that call each other, with other text around the calls. -/
example (m : MacroTable) (ifs : List (Option IfState)) (hf : m ['f'] = some (.cmd ['f'] 0 none [(.word, ['x']), cmdTok ['g'], (.word, ['y'])]))
    (hg : m ['g'] = some (.cmd ['g'] 0 none [cmdTok ['f'], cmdTok ['f']])) (s : List Tok) (n : Nat) : Lasts n ⟨m, ifs⟩ (cmdTok ['f'] :: s) := by
  refine C18_recursion_diverges (fun a => a = ['f'] ∨ a = ['g']) ⟨m, ifs⟩ ?_ _ (.inl rfl) s n
  rintro a (rfl | rfl)
  · refine ⟨_, [(.word, ['x'])], ['g'], [(.word, ['y'])], hf, .inr rfl, ?_, ?_⟩
    · intro t ht; simp at ht; subst ht; simp [Ordinary]
    · intro t ht; simp at ht; rcases ht with rfl | rfl | rfl <;> simp [cmdTok]
  · refine ⟨_, [], ['f'], [cmdTok ['f']], hg, .inl rfl, by simp, ?_⟩
    intro t ht; simp at ht; subst ht; simp [cmdTok]

/-! ### Concrete texts -/

private def tokensIn (s : Text) : List Tok := match tokensOf (fun _ => none) s with | .ok toks => toks | .error _ => []

/-- `\newcommand{\f}[2]{#2-#1}\f{ab}xyz` expands to `x-ab` and `yz`: a word gives up one character. -/
example : ∃ toks, tokensOf (fun _ => none) t!"\\newcommand{\\f}[2]{#2-#1}\\f{ab}xyz" = .ok toks ∧
    Expands atStart toks [(.word, t!"x"), (.word, t!"-"), (.word, t!"ab"), (.word, t!"yz")] ∧ ¬ Collapses atStart toks := by
  have h : tokensOf (fun _ => none) t!"\\newcommand{\\f}[2]{#2-#1}\\f{ab}xyz" = .ok (tokensIn t!"\\newcommand{\\f}[2]{#2-#1}\\f{ab}xyz") := by
    decide +kernel
  have hx := (C65_exact (fun _ => none) _ _ h [(.word, t!"x"), (.word, t!"-"), (.word, t!"ab"), (.word, t!"yz")]).mp
    ⟨20, by decide +kernel⟩
  exact ⟨_, h, hx, (C65_unambiguous _ _ _ h _ [] hx).2⟩

/-- The nested `\else` in the skipped branch is taken for the end of the inner conditional, and the `\fi` of the
outer conditional is then handed on. -/
example : ∃ toks, tokensOf (fun _ => none) t!"\\iftrue a\\else b\\ifx c\\else d\\fi e\\fi" = .ok toks ∧
    Expands atStart toks [(.whitespace, t!" "), (.word, t!"a"), (.whitespace, t!" "), (.word, t!"e"), (.cmd .endIf, t!"\\fi")] := by
  have h : tokensOf (fun _ => none) t!"\\iftrue a\\else b\\ifx c\\else d\\fi e\\fi" = .ok (tokensIn t!"\\iftrue a\\else b\\ifx c\\else d\\fi e\\fi") := by
    decide +kernel
  exact ⟨_, h, (C65_exact (fun _ => none) _ _ h _).mp ⟨20, by decide +kernel⟩⟩

/-- A user environment with a parameter. -/
example : ∃ toks, tokensOf (fun _ => none) t!"\\newenvironment{e}[1]{+#1}{#1-}\\begin{e}{x}y\\end{e}" = .ok toks ∧
    Expands atStart toks [(.word, t!"+"), (.word, t!"x"), (.word, t!"y"), (.word, t!"x"), (.word, t!"-")] := by
  have h : tokensOf (fun _ => none) t!"\\newenvironment{e}[1]{+#1}{#1-}\\begin{e}{x}y\\end{e}" = .ok (tokensIn t!"\\newenvironment{e}[1]{+#1}{#1-}\\begin{e}{x}y\\end{e}") := by
    decide +kernel
  exact ⟨_, h, (C65_exact (fun _ => none) _ _ h _).mp ⟨20, by decide +kernel⟩⟩

/-- `\newcommand{\f}{a#}` leads to a panic. -/
example : ∃ toks, tokensOf (fun _ => none) t!"\\newcommand{\\f}{a#}" = .ok toks ∧ Collapses atStart toks := by
  have h : tokensOf (fun _ => none) t!"\\newcommand{\\f}{a#}" = .ok (tokensIn t!"\\newcommand{\\f}{a#}") := by
    decide +kernel
  exact ⟨_, h, (C65_panics 16 (by decide) _ _ _ h).mp ((C08_panics_alike 16 (by decide) _).mpr ⟨9, by decide +kernel⟩)⟩

/-- `\newcommand{\a}{\a}\a` can be rewritten for ever. -/
example : ∃ toks, tokensOf (fun _ => none) t!"\\newcommand{\\a}{\\a}\\a" = .ok toks ∧ ∀ n, Lasts n atStart toks := by
  have h : tokensOf (fun _ => none) t!"\\newcommand{\\a}{\\a}\\a" = .ok
    [cmdTok "newcommand".toList, lBrace, cmdTok ['a'], rBrace, lBrace, cmdTok ['a'], rBrace, cmdTok ['a']] := by decide +kernel
  exact ⟨_, h, (C65_outcome _ _ _ h).2.mpr fun fuel => C18_self_reference_diverges fuel⟩

end Mitex
