/-
Termination of macro expansion (C18), parameter marks (C21), panics (C57).
-/
import Verif.Proof.Terminate
import Verif.Props.EngineGlobal

namespace Mitex
open TokStream

theorem Runs.engRun_eq {e1 e2 : Eng} {c1 c2 : LCtx} (h : Runs e1 c1 e2 c2) :
    ∃ k, ∀ n, Mitex.engRun (k + n) e1 c1 = Mitex.engRun n e2 c2 := by
  induction h with
  | refl e c => exact ⟨0, fun n => by simp⟩
  | step hs _ ih =>
    obtain ⟨k, ih⟩ := ih
    refine ⟨k + 1, fun n => ?_⟩
    rw [Nat.add_right_comm k 1 n, Mitex.engRun]
    simp only [lctx_peek, List.head?_cons, hs]
    exact ih n


theorem engRun_stop_mono (n : Nat) : ∀ (e : Eng) (c : LCtx) (r : Res (Eng × LCtx)), engRun n e c = r → r ≠ .error .fuel →
    ∀ k, engRun (k + n) e c = r := by
  induction n with
  | zero =>
    intro e c r h hr k
    cases hp : peek c with
    | none =>
      rw [engRun, hp] at h
      cases k with
      | zero => rw [Nat.add_zero, engRun, hp]; exact h
      | succ k => rw [Nat.add_zero, engRun, hp]; exact h
    | some t => rw [engRun, hp] at h; exact absurd h.symm hr
  | succ n ih =>
    intro e c r h hr k
    rw [engRun] at h
    rw [← Nat.add_assoc, engRun]
    cases hp : peek c with
    | none => rw [hp] at h; exact h
    | some t =>
      rw [hp] at h
      simp only at h ⊢
      cases hs : engStep e c t with
      | error x => rw [hs] at h; exact h
      | ok ec =>
        obtain ⟨e1, c1⟩ := ec
        rw [hs] at h
        exact ih e1 c1 r h hr k

/-! ## C18 -/

/-- C18 is false of the code: a macro that calls itself makes the lexer run forever. After
`\newcommand{\a}{\a}`, the call `\a` never ends, however long one waits — in the unbuffered expansion … -/
theorem C18_self_reference_diverges (fuel : Nat) :
    expandAll fuel [cmdTok "newcommand".toList, lBrace, cmdTok ['a'], rBrace, lBrace, cmdTok ['a'], rBrace, cmdTok ['a']]
      = .error .fuel := by
  have loop : ∀ (fuel : Nat) (m : MacroTable) (ifs), m ['a'] = some (.cmd ['a'] 0 none [cmdTok ['a']]) →
      engRun fuel ⟨m, ifs⟩ (⟨[cmdTok ['a']], []⟩ : LCtx) = .error .fuel := by
    intro fuel
    induction fuel with
    | zero => intro m ifs _; rfl
    | succ n ih =>
      intro m ifs hm
      rw [engRun]
      have : engStep ⟨m, ifs⟩ (⟨[cmdTok ['a']], []⟩ : LCtx) (cmdTok ['a']) = .ok (⟨m, ifs⟩, ⟨[cmdTok ['a']], []⟩) := by
        unfold engStep
        simp only [cmdTok, dropBytes_backslash]
        unfold trappedByMacro
        simp only [hm, Bool.false_eq_true, if_false]
        rfl
      simp only [lctx_peek, List.head?_cons, this]
      exact ih m ifs hm
  have h1 := C11_newcommand defaultMacros "newcommand".toList (by simp) rfl ['a']
    [lBrace, cmdTok ['a'], rBrace] [] [lBrace, cmdTok ['a'], rBrace] [cmdTok ['a']] [cmdTok ['a']] 0 none
    (DefName.mk (ws := []) (ws' := []) (ws'' := []) (by simp [Trivia]) (by simp [Trivia]) (by simp [Trivia])) .none
    (.braced (.tok (by simp [cmdTok]) (by simp [cmdTok]) (by simp [cmdTok]) (.nil _)))
    (.tok (by simp [cmdTok]) (by simp [cmdTok]) .nil)
  have h2 := h1 [] [cmdTok ['a']] []
  rw [if_pos (by decide +kernel)] at h2
  obtain ⟨k, hk⟩ := h2.engRun_eq
  unfold expandAll
  have h3 := hk fuel
  have h4 := loop fuel (fun x => if x = ['a'] then some (.cmd ['a'] 0 none [cmdTok ['a']]) else defaultMacros x) [] (by simp)
  simp only [List.append_nil] at h3
  rw [h4] at h3
  by_cases hr : engRun fuel Eng.new (⟨[cmdTok "newcommand".toList, lBrace, cmdTok ['a'], rBrace, lBrace, cmdTok ['a'], rBrace,
      cmdTok ['a']], []⟩ : LCtx) = .error .fuel
  · rw [hr]
  · have := engRun_stop_mono fuel _ _ _ rfl hr k
    simp only [List.cons_append, List.nil_append] at h3
    rw [← this] at hr
    exact absurd h3 hr

/-- … and in the lexer itself: whatever the page size, it never reaches the end of this text. -/
theorem C18_self_reference_diverges_lexer (cap : Nat) (hcap : 0 < cap) (F n : Nat) (outs : List Tok) (l : MacroLexer)
    (hl : MacroLexer.new cap F [cmdTok "newcommand".toList, lBrace, cmdTok ['a'], rBrace, lBrace, cmdTok ['a'], rBrace,
      cmdTok ['a']] = .ok l) : l.drain cap F n ≠ .ok outs := by
  intro h
  obtain ⟨fuel, hf⟩ := C08_buffering_unobservable_conv cap hcap F n _ outs l hl h
  rw [C18_self_reference_diverges] at hf
  cases hf

/-- The tokens of the text `\newcommand{\a}{\a}\a` are the ones used above. -/
example : tokensOf (fun _ => none) "\\newcommand{\\a}{\\a}\\a".toList = .ok
    [cmdTok "newcommand".toList, lBrace, cmdTok ['a'], rBrace, lBrace, cmdTok ['a'], rBrace, cmdTok ['a']] := by
  decide +kernel

/-- Linearity is needed: with `\f` = `#1#1` and `\g` = `\f` no macro leads back to itself, yet `\g\g x` never ends
(it becomes `\f\g x`, which becomes `\g\g x`). -/
theorem C18_duplication_diverges (m : MacroTable) (hf : m ['f'] = some (.cmd ['f'] 1 none [(.macroArg 1, ['#']), (.macroArg 1, ['#'])]))
    (hg : m ['g'] = some (.cmd ['g'] 0 none [cmdTok ['f']])) (ifs : List (Option IfState)) (out : List Tok) (fuel : Nat) :
    engRun fuel ⟨m, ifs⟩ (⟨[cmdTok ['g'], cmdTok ['g'], (.word, ['x'])], out⟩ : LCtx) = .error .fuel := by
  have s1 : engStep ⟨m, ifs⟩ (⟨[cmdTok ['g'], cmdTok ['g'], (.word, ['x'])], out⟩ : LCtx) (cmdTok ['g']) =
      .ok (⟨m, ifs⟩, ⟨[cmdTok ['f'], cmdTok ['g'], (.word, ['x'])], out⟩) := by
    unfold engStep
    simp only [cmdTok, dropBytes_backslash]
    unfold trappedByMacro
    simp only [hg, Bool.false_eq_true, if_false]
    rfl
  have s2 : engStep ⟨m, ifs⟩ (⟨[cmdTok ['f'], cmdTok ['g'], (.word, ['x'])], out⟩ : LCtx) (cmdTok ['f']) =
      .ok (⟨m, ifs⟩, ⟨[cmdTok ['g'], cmdTok ['g'], (.word, ['x'])], out⟩) := by
    unfold engStep
    simp only [cmdTok, dropBytes_backslash]
    unfold trappedByMacro
    simp only [hf, Bool.false_eq_true, if_false]
    rfl
  have key : ∀ n, engRun n ⟨m, ifs⟩ (⟨[cmdTok ['g'], cmdTok ['g'], (.word, ['x'])], out⟩ : LCtx) = .error .fuel ∧
      engRun n ⟨m, ifs⟩ (⟨[cmdTok ['f'], cmdTok ['g'], (.word, ['x'])], out⟩ : LCtx) = .error .fuel := by
    intro n
    induction n with
    | zero => exact ⟨rfl, rfl⟩
    | succ n ih =>
      constructor
      · rw [engRun]; simp only [lctx_peek, List.head?_cons, s1]; exact ih.2
      · rw [engRun]; simp only [lctx_peek, List.head?_cons, s2]; exact ih.1
  exact (key fuel).1

theorem tokInv_quiet (m : MacroTable) : TokInv (Quiet m) where
  err := by intro t h; cases h
  fi := by intro h; cases h
  char := by intro w c _ _ h; cases h
  suf := by intro a b _ _ h; cases h
  leak := Or.inl (by intro d h _ _ _ h; cases h)

/-- What has been delivered does not influence what is read. -/
theorem sameInput_rel : StreamRel (fun (c d : LCtx) => c.inp = d.inp) where
  peek h := congrArg List.head? h
  next h := congrArg List.tail h
  pushFront l h := congrArg (l ++ ·) h
  setPeek t h _ := congrArg (fun x => t :: List.tail x) h
  emit _ h := h
  bound h := congrArg (fun x => List.length x + 1) h

theorem engStep_inp {e e1 : Eng} {inp out : List Tok} {t : Tok} {c1 : LCtx} (h : engStep e (⟨inp, out⟩ : LCtx) t = .ok (e1, c1)) :
    ∃ c2 : LCtx, engStep e (⟨inp, []⟩ : LCtx) t = .ok (e1, c2) ∧ c2.inp = c1.inp := by
  have := engStep_rel sameInput_rel e t (c := ⟨inp, out⟩) (d := ⟨inp, []⟩) rfl
  rw [h] at this
  cases hs : engStep e (⟨inp, []⟩ : LCtx) t with
  | error x => rw [hs] at this; exact this.elim
  | ok ec =>
    obtain ⟨e2, c2⟩ := ec
    rw [hs] at this
    obtain ⟨h1, h2⟩ := this
    simp only at h1 h2
    exact ⟨c2, by rw [h1], h2.symm⟩

theorem engStep_inp_error {e : Eng} {inp out : List Tok} {t : Tok} {x : Stop} (h : engStep e (⟨inp, out⟩ : LCtx) t = .error x) :
    engStep e (⟨inp, []⟩ : LCtx) t = .error x := by
  have := engStep_rel sameInput_rel e t (c := ⟨inp, out⟩) (d := ⟨inp, []⟩) rfl
  rw [h] at this
  cases hs : engStep e (⟨inp, []⟩ : LCtx) t with
  | error y => rw [hs] at this; have : x = y := this; rw [this]
  | ok ec => rw [hs] at this; exact this.elim

theorem engRun_terminates {W : Tok → Nat} {m : MacroTable} (hW : CallWeight W m) (hlin : Linear m)
    (htab : TableInv (Quiet m) m) (n : Nat) : ∀ (e : Eng) (c : LCtx), e.macros = m → (∀ t ∈ c.inp, Quiet m t) → wsum W c.inp ≤ n →
    engRun n e c ≠ .error .fuel := by
  induction n with
  | zero =>
    intro e c he hc hn
    have : c.inp = [] := by
      cases hi : c.inp with
      | nil => rfl
      | cons t ts => rw [hi, wsum_cons] at hn; have := hW.pos t; omega
    have hp : peek c = none := by show c.inp.head? = none; rw [this]; rfl
    rw [engRun, hp]
    simp
  | succ n ih =>
    intro e c he hc hn
    rw [engRun]
    cases hp : peek c with
    | none => simp
    | some t =>
      simp only
      obtain ⟨inp, out⟩ := c
      have hinv := engStep_inv (tokInv_quiet m) (c := (⟨inp, []⟩ : LCtx)) (t := t) hp (by rw [he]; exact htab) ⟨hc, by simp⟩
      cases hs : engStep e (⟨inp, out⟩ : LCtx) t with
      | error x =>
        simp only
        have := (hinv.2 x (engStep_inp_error hs)).1
        rw [this]; simp
      | ok ec =>
        obtain ⟨e1, c1⟩ := ec
        obtain ⟨h1, h2⟩ := engStep_weight hW hlin he hp (hc t (peek_mem hp)) hs
        obtain ⟨c2, h3, h4⟩ := engStep_inp hs
        exact ih e1 c1 h1 (fun t ht => (hinv.1 e1 c2 h3).2.1 t (by rw [h4]; exact ht)) (by omega)

theorem Runs.table {e0 e : Eng} {c0 c : LCtx} (h : Runs e0 c0 e c) (h0 : TableInv (fun _ => True) e0.macros) :
    TableInv (fun _ => True) e.macros := by
  induction h with
  | refl => exact h0
  | step hs _ ih => exact ih ((engStep_inv tokInv_true rfl h0 ⟨fun _ _ => trivial, fun _ _ => trivial⟩).1 _ _ hs).1

/-- C18, the part that holds: whatever definitions have been processed, if the macro table then is acyclic (no macro
leads back to itself) and linear (no body uses a parameter twice), and neither the remaining text nor the stored
bodies define anything further, the expansion of the whole text ends.
Missing for the full claim: it is false for cyclic tables (`C18_self_reference_diverges`); tables that duplicate
their arguments are not covered (some of them also loop: `C18_duplication_diverges`). -/
theorem C18_acyclic_linear_terminates (text : List Tok) (e : Eng) (c : LCtx) (hr : Runs Eng.new ⟨text, []⟩ e c)
    (hac : Acyclic e.macros) (hlin : Linear e.macros) (hq : QuietTable e.macros) (ht : ∀ t ∈ c.inp, Quiet e.macros t) :
    ∃ fuel, ∀ F, fuel ≤ F → expandAll F text ≠ .error .fuel := by
  obtain ⟨W, hW⟩ := acyclic_weight hac
  have hn := hr.table (defaultTable_inv _)
  have htab : TableInv (Quiet e.macros) e.macros := by
    intro name v hv
    have := hn name v hv
    cases v with
    | declare d => trivial
    | cmd nm n opt body =>
      have hs := hq _ _ (.cmd hv)
      exact ⟨this.1, fun o ho t ht => hs t (by simp [ho, ht]), fun t ht => Or.inl (hs t (by simp [ht]))⟩
    | env nm n opt b d =>
      have hs := hq _ _ (.env hv)
      exact ⟨this.1, fun o ho t ht => hs t (by simp [ho, ht]), fun t ht => Or.inl (hs t (by simp [ht])),
        fun t ht => Or.inl (hs t (by simp [ht]))⟩
  obtain ⟨k, hk⟩ := hr.engRun_eq
  refine ⟨k + wsum W c.inp, fun F hF h => ?_⟩
  obtain ⟨j, rfl⟩ := Nat.exists_eq_add_of_le hF
  refine engRun_terminates hW hlin htab (wsum W c.inp + j) e c rfl ht (by omega) ?_
  rw [← hk, ← Nat.add_assoc]
  unfold expandAll at h
  split at h
  · rename_i x hx; rw [hx]; cases h; rfl
  · cases h

/-- C18: a text without definition commands always expands, and without failure. -/
theorem C18_no_definitions_terminates (spec : CommandSpec) (s : Text) (toks : List Tok) (h : tokensOf spec s = .ok toks)
    (hd : ∀ name ∈ definitionNames, cmdTok name ∉ toks) : ∃ fuel outs, expandAll fuel toks = .ok outs := by
  have hq : ∀ t ∈ toks, t.1 = .cmd .generic → ∃ name, t = cmdTok name ∧ name ∉ definitionNames := by
    intro t ht hk
    obtain ⟨name, hn⟩ := generic_shape (tokensOf_shape h t ht) hk
    have : t = cmdTok name := by cases t; simp only at hk hn; subst hk hn; rfl
    exact ⟨name, this, fun hm => hd name hm (this ▸ ht)⟩
  have nocall : ∀ t body, ¬ Stored defaultMacros t body := by
    intro t body hs
    cases hs with
    | cmd h => rcases defaultMacros_shape _ with h1 | ⟨_, d, h1⟩ | h1 <;> rw [h1] at h <;> cases h
    | env h => rcases defaultMacros_shape _ with h1 | ⟨_, d, h1⟩ | h1 <;> rw [h1] at h <;> cases h
  have hlin : Linear defaultMacros := ⟨fun name nm n opt body h => absurd (Stored.cmd h) (nocall _ _),
    fun name nm n opt b d h => absurd (Stored.env h) (nocall _ _)⟩
  obtain ⟨fuel, hf⟩ := C18_acyclic_linear_terminates toks Eng.new ⟨toks, []⟩ (.refl _ _)
    ⟨fun _ => 0, fun t body hs => absurd hs (nocall _ _)⟩ hlin (fun t body hs => absurd hs (nocall _ _)) (by
      intro t ht hk
      obtain ⟨name, hn, hm⟩ := hq t ht hk
      refine ⟨name, hn, fun d hd => hm ?_⟩
      rcases defaultMacros_shape name with h1 | ⟨h1, _⟩ | h1
      · have := hd.symm.trans h1; cases this
      · exact h1
      · have := hd.symm.trans h1; cases this)
  have h1 := hf fuel (Nat.le_refl _)
  have h2 := (engRun_noDef fuel Eng.new ⟨toks, []⟩ rfl ⟨hq, by simp⟩).2
  have h3 := (engRun_inv tokInv_true fuel (e := Eng.new) (c := ⟨toks, []⟩) (defaultTable_inv _)
    ⟨fun _ _ => trivial, fun _ _ => trivial⟩).2
  unfold expandAll at h1 ⊢
  cases hr : engRun fuel Eng.new (⟨toks, []⟩ : LCtx) with
  | ok r => exact ⟨fuel, r.2.out, by rw [hr]⟩
  | error x =>
    rw [hr] at h1 h2
    rcases h3 x hr with rfl | ⟨rfl, _⟩
    · exact absurd rfl h1
    · exact absurd rfl h2


/-- The hypotheses of the acyclic case are met: after `\newcommand{\f}[1]{<#1>}\newcommand{\g}{\f}` the table is
acyclic, linear and quiet, and `\g{\f x}` contains no definition. -/
example : ∃ fuel, ∀ F, fuel ≤ F → expandAll F
    (cmdTok "newcommand".toList :: ([lBrace, cmdTok ['f'], rBrace] ++ [lBracket, (.word, ['1']), rBracket] ++
      [lBrace, (.word, ['<']), (.hash, ['#']), (.word, ['1']), (.word, ['>']), rBrace]) ++
     (cmdTok "newcommand".toList :: ([lBrace, cmdTok ['g'], rBrace] ++ [] ++ [lBrace, cmdTok ['f'], rBrace]) ++
      [cmdTok ['g'], lBrace, cmdTok ['f'], (.word, ['x']), rBrace])) ≠ .error .fuel := by
  have triv : Trivia [] := by simp [Trivia]
  have h1 := C11_newcommand defaultMacros "newcommand".toList (by simp) rfl ['f']
    [lBrace, cmdTok ['f'], rBrace] [lBracket, (.word, ['1']), rBracket]
    [lBrace, (.word, ['<']), (.hash, ['#']), (.word, ['1']), (.word, ['>']), rBrace]
    [(.word, ['<']), (.hash, ['#']), (.word, ['1']), (.word, ['>'])] [(.word, ['<']), (.macroArg 1, ['#']), (.word, ['>'])] 1 none
    (DefName.mk (ws := []) (ws' := []) (ws'' := []) triv triv triv)
    (.args (n := 1) (ws := []) (ws' := []) (by omega) triv triv)
    (.braced (.tok (by simp) (by simp) (by simp) (.tok (by simp) (by simp) (by simp)
      (.tok (by simp) (by simp) (by simp) (.tok (by simp) (by simp) (by simp) (.nil _))))))
    (.tok (by simp) (by simp) (.param (cs := []) (d := '1') (ds := 1) (by decide) rfl (.tok (by simp) (by simp) .nil)))
  have h2 := C11_newcommand (fun x => if x = ['f'] then some (.cmd ['f'] 1 none
      [(.word, ['<']), (.macroArg 1, ['#']), (.word, ['>'])]) else defaultMacros x) "newcommand".toList (by simp) rfl ['g']
    [lBrace, cmdTok ['g'], rBrace] [] [lBrace, cmdTok ['f'], rBrace] [cmdTok ['f']] [cmdTok ['f']] 0 none
    (DefName.mk (ws := []) (ws' := []) (ws'' := []) triv triv triv) .none
    (.braced (.tok (by simp [cmdTok]) (by simp [cmdTok]) (by simp [cmdTok]) (.nil _)))
    (.tok (by simp [cmdTok]) (by simp [cmdTok]) .nil)
  have h3 := (h1.append h2) [] [cmdTok ['g'], lBrace, cmdTok ['f'], (.word, ['x']), rBrace] []
  rw [List.append_assoc] at h3
  have nocall : ∀ t body, ¬ Stored defaultMacros t body := by
    intro t body hs
    cases hs with
    | cmd h => rcases defaultMacros_shape _ with h1 | ⟨_, d, h1⟩ | h1 <;> rw [h1] at h <;> cases h
    | env h => rcases defaultMacros_shape _ with h1 | ⟨_, d, h1⟩ | h1 <;> rw [h1] at h <;> cases h
  have hst : ∀ t body, Stored (fun x => if x = ['g'] then some (Macro.cmd ['g'] 0 none [cmdTok ['f']]) else
      if x = ['f'] then some (.cmd ['f'] 1 none [(.word, ['<']), (.macroArg 1, ['#']), (.word, ['>'])]) else defaultMacros x) t body →
      (t = cmdTok ['g'] ∧ body = [cmdTok ['f']]) ∨
      (t = cmdTok ['f'] ∧ body = [(.word, ['<']), (.macroArg 1, ['#']), (.word, ['>'])]) := by
    intro t body hs
    cases hs with
    | @cmd name nm n opt body h =>
      split at h
      · rename_i hx; cases h; exact Or.inl ⟨by rw [hx], rfl⟩
      · split at h
        · rename_i hx; cases h; exact Or.inr ⟨by rw [hx], rfl⟩
        · exact absurd (Stored.cmd h) (nocall _ _)
    | @env name nm n opt b d h =>
      split at h
      · cases h
      · split at h
        · cases h
        · exact absurd (Stored.env h) (nocall _ _)
  refine C18_acyclic_linear_terminates _ _ _ h3 ?_ ?_ ?_ ?_
  · refine ⟨fun t => if t = cmdTok ['g'] then 2 else if t = cmdTok ['f'] then 1 else 0, fun t body hs u hu => ?_⟩
    rcases hst t body hs with ⟨rfl, rfl⟩ | ⟨rfl, rfl⟩
    · simp only [List.mem_singleton] at hu; subst hu; decide
    · simp only [List.mem_cons, List.not_mem_nil, or_false] at hu
      rcases hu with rfl | rfl | rfl <;> decide
  · refine ⟨fun name nm n opt body h d => ?_, fun name nm n opt b d h k => ?_⟩
    · simp only at h
      split at h
      · cases h; simp [cmdTok, List.count_cons]
      · split at h
        · cases h
          simp only [List.map_cons, List.map_nil, List.count_cons, List.count_nil]
          have a1 : ((Token.word : Token) == .macroArg d) = false := by simp
          rw [a1]
          simp only [Bool.false_eq_true, if_false]
          split <;> omega
        · exact absurd (Stored.cmd h) (nocall _ _)
    · simp only at h
      split at h
      · cases h
      · split at h
        · cases h
        · exact absurd (Stored.env h) (nocall _ _)
  · intro t body hs u hu
    rcases hst t body hs with ⟨rfl, rfl⟩ | ⟨rfl, rfl⟩
    · simp only [List.mem_singleton] at hu; subst hu
      intro _
      exact ⟨['f'], rfl, fun d => by simp⟩
    · simp only [List.mem_cons, List.not_mem_nil, or_false] at hu
      rcases hu with rfl | rfl | rfl <;> (intro h; cases h)
  · intro t ht
    simp only [List.mem_cons, List.not_mem_nil, or_false] at ht
    rcases ht with rfl | rfl | rfl | rfl | rfl
    · intro _; exact ⟨['g'], rfl, fun d => by simp⟩
    · intro h; cases h
    · intro _; exact ⟨['f'], rfl, fun d => by simp⟩
    · intro h; cases h
    · intro h; cases h

/-! ## C21 -/

theorem tokInv_noArg : TokInv (fun t => (∀ d, t.1 ≠ .macroArg d) ∧ t ≠ cmdTok "mitexrecurse".toList) where
  err t := ⟨by simp, by simp [cmdTok]⟩
  fi := ⟨by simp [fiTok], by simp [fiTok, cmdTok]⟩
  char w c _ _ := ⟨by simp, by simp [cmdTok]⟩
  suf a b _ _ := ⟨by simp, by simp [cmdTok]⟩
  leak := Or.inr (by
    intro n h he
    exact h.2 (by rw [he]; rfl))

/-- C21, the part that holds: no raw parameter is delivered when the text does not use `\mitexrecurse` (and, being
text, contains no raw parameter itself).
With `\mitexrecurse` it is false (`C21_recurse_leaks`). -/
theorem C21_no_raw_parameters (spec : CommandSpec) (s : Text) (toks : List Tok) (h : tokensOf spec s = .ok toks)
    (hr : cmdTok "mitexrecurse".toList ∉ toks) (fuel : Nat) (outs : List Tok) (ho : expandAll fuel toks = .ok outs) :
    ∀ t ∈ outs, ∀ d, t.1 ≠ .macroArg d := by
  have hP : StreamInv (fun t => (∀ d, t.1 ≠ .macroArg d) ∧ t ≠ cmdTok "mitexrecurse".toList) ⟨toks, []⟩ := by
    refine ⟨fun t ht => ⟨fun d hd => ?_, fun he => hr (he ▸ ht)⟩, by simp⟩
    have := tokensOf_shape h t ht
    rw [hd] at this
    exact this
  unfold expandAll at ho
  split at ho
  · cases ho
  · rename_i e c hrun
    cases ho
    have := ((engRun_inv tokInv_noArg fuel (e := Eng.new) (defaultTable_inv _) hP).1 e c hrun).2.2
    exact fun t ht => (this t ht).1

/-- C21 is false of the code: `\newcommand{\f}[1]{\mitexrecurse{#1}}\f x` delivers the raw parameter 1. -/
theorem C21_recurse_leaks : (do
    let toks ← tokensOf (fun _ => none) "\\newcommand{\\f}[1]{\\mitexrecurse{#1}}\\f x".toList
    expandAll 10 toks) = (.ok [(.macroArg 1, ['#'])] : Res (List Tok)) := by decide +kernel

/-! ## C57: when the macro engine panics -/

/-- Command tokens start with a backslash, except the clauses `\begin{..}` and `\end{..}`. -/
theorem cmd_head {n : CommandName} {t : Text} (h : TokShape (.cmd n) t) (h1 : n ≠ .beginEnv) (h2 : n ≠ .endEnv) :
    t.head? = some '\\' := by
  cases n with
  | beginEnv => exact absurd rfl h1
  | endEnv => exact absurd rfl h2
  | generic => exact h.1
  | beginMath => rcases h with h | h <;> rw [h] <;> rfl
  | endMath => rcases h with h | h <;> rw [h] <;> rfl
  | errorBeginEnv => have h : t = "\\begin".toList := h; rw [h]; rfl
  | errorEndEnv => have h : t = "\\end".toList := h; rw [h]; rfl
  | cif i => have h : t = i.text := h; rw [h]; cases i <;> rfl
  | celse => have h : t = "\\else".toList := h; rw [h]; rfl
  | endIf => have h : t = "\\fi".toList := h; rw [h]; rfl
  | left => have h : t = "\\left".toList := h; rw [h]; rfl
  | right => have h : t = "\\right".toList := h; rw [h]; rfl

theorem tokInv_noHash : TokInv (fun t => t.1 ≠ .hash ∧ t.1 ≠ .macroArg 0 ∧ ∀ n, t.1 = .cmd n → t.2.head? = some '\\') where
  err t := by simp
  fi := by simp [fiTok]
  char w c _ _ := by simp
  suf a b _ _ := by simp
  leak := Or.inl (by intro d h h1 _ _; simp; omega)

/-- C57: expanding a text panics at most if the text contains both a definition command and a parameter mark `#` or a
`\begin{..}`/`\end{..}` clause. -/
theorem C57_panic_needs_definition (spec : CommandSpec) (s : Text) (toks : List Tok) (h : tokensOf spec s = .ok toks)
    (fuel : Nat) (hp : expandAll fuel toks = .error .panic) :
    (∃ name ∈ definitionNames, cmdTok name ∈ toks) ∧
    ∃ t ∈ toks, t.1 = .hash ∨ t.1 = .cmd .beginEnv ∨ t.1 = .cmd .endEnv := by
  have hrun : engRun fuel Eng.new (⟨toks, []⟩ : LCtx) = .error .panic := by
    unfold expandAll at hp
    split at hp
    · rename_i x hx; cases hp; exact hx
    · cases hp
  constructor
  · refine Decidable.byContradiction fun hne => ?_
    have hd : ∀ name ∈ definitionNames, cmdTok name ∉ toks := fun name hn ht => hne ⟨name, hn, ht⟩
    refine (engRun_noDef fuel Eng.new ⟨toks, []⟩ rfl ⟨fun t ht hk => ?_, by simp⟩).2 hrun
    obtain ⟨name, hn⟩ := generic_shape (tokensOf_shape h t ht) hk
    have : t = cmdTok name := by cases t; simp only at hk hn; subst hk hn; rfl
    exact ⟨name, this, fun hm => hd name hm (this ▸ ht)⟩
  · refine Decidable.byContradiction fun hne => ?_
    have hinv : StreamInv (fun t => t.1 ≠ .hash ∧ t.1 ≠ .macroArg 0 ∧ ∀ n, t.1 = .cmd n → t.2.head? = some '\\') ⟨toks, []⟩ := by
      refine ⟨fun t ht => ⟨fun hk => hne ⟨t, ht, Or.inl hk⟩, fun hk => ?_, fun n hk => ?_⟩, by simp⟩
      · have := tokensOf_shape h t ht; rw [hk] at this; exact this
      · have hs := tokensOf_shape h t ht
        rw [hk] at hs
        exact cmd_head hs (fun he => hne ⟨t, ht, Or.inr (Or.inl (he ▸ hk))⟩) (fun he => hne ⟨t, ht, Or.inr (Or.inr (he ▸ hk))⟩)
    have := (engRun_inv tokInv_noHash fuel (e := Eng.new) (defaultTable_inv _) hinv).2 .panic hrun
    rcases this with h1 | ⟨_, h1⟩
    · cases h1
    · rcases h1 with ⟨h, h2⟩ | ⟨n, t, h2, h3⟩ | ⟨t, h2⟩
      · exact h2.1 rfl
      · exact h3 (h2.2.2 n rfl)
      · exact h2.2.1 rfl

/-- C57: both ingredients do occur in texts that panic: `\newcommand{\begin{x}}{y}`, and (C10) `\newcommand{\a}{#}`. -/
theorem C57_begin_as_name_panics : (do
    let toks ← tokensOf (fun _ => none) "\\newcommand{\\begin{x}}{y}".toList
    expandAll 9 toks) = (.error .panic : Res (List Tok)) := by decide +kernel

end Mitex
