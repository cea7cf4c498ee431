/-
Global properties of macro expansion: C14, C15, C18, C21, C57.
-/
import Verif.Proof.EngineInv
import Verif.Props.Calls

namespace Mitex
open TokStream

/-! ## C14 -/

theorem applyUpdate_one (e : Eng) (c : LCtx) (name : Text) (a : UpdateAction) (mc : Macro) :
    ∀ n, n ≠ name → (applyUpdate e c name a mc).1.macros n = e.macros n := by
  intro n hn
  unfold applyUpdate
  cases a with
  | new => simp [MacroTable.insert, hn]
  | renew => simp [MacroTable.insert, hn]
  | provide =>
    simp only
    split
    · simp [MacroTable.insert, hn]
    · rfl

theorem trappedByMacro_one {e e' : Eng} {c c' : LCtx} {t : Tok} {name : Text} {isEnv : Bool}
    (h : trappedByMacro e c t name isEnv = .ok (e', c')) :
    (∃ nm, ∀ n, n ≠ nm → e'.macros n = e.macros n) ∧
    ((∀ d, e.macros name ≠ some (.declare (.cmdOrEnv d))) → e'.macros = e.macros) := by
  have same : ∀ {e'' : Eng}, e'' = e → (∃ nm, ∀ n, n ≠ nm → e''.macros n = e.macros n) ∧
      ((∀ d, e.macros name ≠ some (.declare (.cmdOrEnv d))) → e''.macros = e.macros) := by
    rintro _ rfl; exact ⟨⟨[], fun _ _ => rfl⟩, fun _ => rfl⟩
  unfold trappedByMacro at h
  split at h
  · cases h; exact same rfl
  · rename_i d hd
    split at h
    · cases h; exact same rfl
    · split at h
      · cases h
      · cases h; exact same rfl
      · rename_i nm a mc c1 hid
        have h : applyUpdate e c1 nm a mc = (e', c') := by injection h
        refine ⟨⟨nm, fun n hn => ?_⟩, fun hne => absurd hd (hne d)⟩
        have := applyUpdate_one e c1 nm a mc n hn
        rw [h] at this
        exact this
  · cases h; exact same rfl
  · split at h
    · cases h; exact same rfl
    · split at h
      · cases h; exact same rfl
      · split at h
        · cases h
        · cases h; exact same rfl
  · split at h
    · cases h; exact same rfl
    · split at h
      · cases h; exact same rfl
      · split at h
        · cases h; exact same rfl
        · split at h
          · cases h
          · split at h
            · cases h
            · cases h; exact same rfl

theorem engStep_one {e e' : Eng} {c c' : LCtx} {t : Tok} (h : engStep e c t = .ok (e', c')) :
    (∃ nm, ∀ n, n ≠ nm → e'.macros n = e.macros n) ∧
    ((∀ name d, t = (.cmd .generic, name) → ∀ nm, dropBytes 1 name = some nm →
        e.macros nm ≠ some (.declare (.cmdOrEnv d))) → e'.macros = e.macros) := by
  have same : ∀ {e'' : Eng} {p : Prop}, e''.macros = e.macros → (∃ nm, ∀ n, n ≠ nm → e''.macros n = e.macros n) ∧
      (p → e''.macros = e.macros) := by
    intro e'' p h; exact ⟨⟨[], fun _ _ => by rw [h]⟩, fun _ => h⟩
  unfold engStep at h
  split at h
  · rename_i i _
    have h : trappedByIf e c t i = (e', c') := by injection h
    apply same
    unfold trappedByIf at h
    split at h <;> cases h <;> rfl
  · have h : trappedByElse e c t = (e', c') := by injection h
    apply same
    unfold trappedByElse at h
    split at h <;> cases h <;> rfl
  · have h : trappedByEndif e c t = (e', c') := by injection h
    apply same
    unfold trappedByEndif at h
    split at h <;> cases h <;> rfl
  · rename_i hk
    split at h
    · cases h
    · rename_i nm hd
      obtain ⟨h1, h2⟩ := trappedByMacro_one h
      exact ⟨h1, fun hne => h2 fun d => hne t.2 d (by cases t; simp only at hk; rw [hk]) nm hd⟩
  · -- `\begin{..}` never defines
    have hb : e'.macros = e.macros := by
      unfold trappedByMacro at h
      split at h
      · cases h; rfl
      · simp at h; rw [← h.1]
      · cases h; rfl
      · simp at h; rw [← h.1]
      · split at h
        · cases h; rfl
        · split at h
          · cases h; rfl
          · split at h
            · cases h; rfl
            · split at h
              · cases h
              · split at h
                · cases h
                · cases h; rfl
    exact same hb
  · cases h; exact same rfl

/-- C14: one round of the engine — whatever tokens it reads — changes the meaning of at most one name. -/
theorem C14_one_name_per_step (e e' : Eng) (c c' : LCtx) (t : Tok) (h : engStep e c t = .ok (e', c')) :
    ∃ name, ∀ n, n ≠ name → e'.macros n = e.macros n := (engStep_one h).1

/-- C14: a round on a token that is not a command bound to a definition command changes no name. -/
theorem C14_only_definitions_define (e e' : Eng) (c c' : LCtx) (t : Tok) (h : engStep e c t = .ok (e', c'))
    (hd : ∀ name d, t = cmdTok name → e.macros name ≠ some (.declare (.cmdOrEnv d)))
    (hg : t.1 = .cmd .generic → ∃ name, t = cmdTok name) : e'.macros = e.macros := by
  refine (engStep_one h).2 ?_
  intro name d ht nm hnm
  obtain ⟨n, hn⟩ := hg (by rw [ht])
  refine hd nm d ?_
  rw [ht] at hn
  cases hn
  rw [dropBytes_backslash] at hnm
  cases hnm
  exact ht

theorem tokInv_noDef : TokInv (fun t => t.1 = .cmd .generic → ∃ name, t = cmdTok name ∧ name ∉ definitionNames) where
  err := by intro t h; cases h
  fi := by intro h; cases h
  char := by intro w c _ _ h; cases h
  suf := by intro a b _ _ h; cases h
  leak := Or.inl (by intro d h _ _ _ h; cases h)

theorem engRun_noDef (n : Nat) : ∀ (e : Eng) (c : LCtx), e.macros = defaultMacros →
    StreamInv (fun t => t.1 = .cmd .generic → ∃ name, t = cmdTok name ∧ name ∉ definitionNames) c →
    (∀ e' c', engRun n e c = .ok (e', c') → e'.macros = defaultMacros) ∧ engRun n e c ≠ .error .panic := by
  induction n with
  | zero =>
    intro e c he hc
    rw [engRun]
    cases peek c with
    | none => exact ⟨fun e' c' h => by cases h; exact he, by simp⟩
    | some t => exact ⟨fun e' c' h => (by cases h), by simp⟩
  | succ n ih =>
    intro e c he hc
    rw [engRun]
    cases hp : peek c with
    | none => exact ⟨fun e' c' h => by cases h; exact he, by simp⟩
    | some t =>
      simp only
      have hgen := hc.1 t (peek_mem hp)
      have hinv := engStep_inv tokInv_noDef hp (by rw [he]; exact defaultTable_inv _) hc
      cases hs : engStep e c t with
      | error x =>
        exfalso
        -- no token of the default table can fail
        unfold engStep at hs
        split at hs
        · cases hs
        · cases hs
        · cases hs
        · rename_i hk
          obtain ⟨name, ht, hn⟩ := hgen hk
          rw [ht] at hs
          simp only [cmdTok, dropBytes_backslash] at hs
          unfold trappedByMacro at hs
          rw [he] at hs
          rcases defaultMacros_shape name with h1 | ⟨h1, _⟩ | h1
          · rw [h1] at hs; cases hs
          · exact hn h1
          · rw [h1] at hs; cases hs
        · unfold trappedByMacro at hs
          rw [he] at hs
          rcases defaultMacros_shape t.2 with h1 | ⟨_, d, h1⟩ | h1
          · rw [h1] at hs; cases hs
          · rw [h1] at hs; simp at hs
          · rw [h1] at hs; cases hs
        · cases hs
      | ok ec =>
        obtain ⟨e1, c1⟩ := ec
        have hm : e1.macros = e.macros := by
          refine C14_only_definitions_define e e1 c c1 t hs ?_ ?_
          · intro name d ht hd
            obtain ⟨name', h1, h2⟩ := hgen (by rw [ht]; rfl)
            have : name' = name := by
              have := ht.symm.trans h1
              simp [cmdTok] at this
              exact this.symm
            rw [he] at hd
            rcases defaultMacros_shape name with h3 | ⟨h3, _⟩ | h3
            · rw [h3] at hd; cases hd
            · exact h2 (this ▸ h3)
            · rw [h3] at hd; cases hd
          · intro hk
            obtain ⟨name', h1, _⟩ := hgen hk
            exact ⟨name', h1⟩
        exact ih e1 c1 (hm.trans he) (hinv.1 e1 c1 hs).2

/-- C14: expanding a text without definition commands leaves the macro table as it was. -/
theorem C14_no_definition_no_change (spec : CommandSpec) (s : Text) (toks : List Tok) (h : tokensOf spec s = .ok toks)
    (hd : ∀ name ∈ definitionNames, cmdTok name ∉ toks) (fuel : Nat) (e : Eng) (c : LCtx)
    (hr : engRun fuel Eng.new (⟨toks, []⟩ : LCtx) = .ok (e, c)) : e.macros = defaultMacros := by
  refine (engRun_noDef fuel Eng.new ⟨toks, []⟩ rfl ⟨fun t ht hk => ?_, by simp⟩).1 e c hr
  obtain ⟨name, hn⟩ := generic_shape (tokensOf_shape h t ht) hk
  have : t = cmdTok name := by cases t; simp only at hk hn; subst hk hn; rfl
  exact ⟨name, this, fun hm => hd name hm (this ▸ ht)⟩

/-! ## C15 -/

theorem tokInv_true : TokInv (fun _ => True) where
  err _ := trivial
  fi := trivial
  char _ _ _ _ := trivial
  suf _ _ _ _ := trivial
  leak := Or.inl fun _ _ _ _ _ => trivial

/-- C15: whatever is expanded, no macro or environment is ever bound with more than nine arguments. -/
theorem C15_at_most_nine (toks : List Tok) (e : Eng) (c : LCtx) (hr : Runs Eng.new ⟨toks, []⟩ e c) (name nm : Text) (n : Nat)
    (opt : Option (List Tok)) : (∀ body, e.macros name = some (.cmd nm n opt body) → n ≤ 9) ∧
      (∀ b d, e.macros name = some (.env nm n opt b d) → n ≤ 9) := by
  have key : ∀ {e0 c0 e c}, Runs e0 c0 e c → TableInv (fun _ => True) e0.macros → TableInv (fun _ => True) e.macros := by
    intro e0 c0 e c h
    induction h with
    | refl => exact id
    | step hs _ ih =>
      intro h
      exact ih ((engStep_inv tokInv_true rfl h ⟨fun _ _ => trivial, fun _ _ => trivial⟩).1 _ _ hs).1
  have := key hr (defaultTable_inv _)
  exact ⟨fun body h => (this _ _ h).1, fun b d h => (this _ _ h).1⟩

theorem decValue_mono (ds : Text) : ∀ n, n ≤ decValue ds n := by
  induction ds with
  | nil => intro n; exact Nat.le_refl _
  | cons d ds ih =>
    intro n
    rw [decValue]
    exact Nat.le_trans (by omega) (ih _)

theorem parseU8_noplus (c : Char) (r : Text) (h : c ≠ '+') :
    parseU8 (c :: r) = none ∨ parseU8 (c :: r) = some (decValue (c :: r) 0) := by
  have key : ∀ d : Text, d = c :: r → (if d ≠ [] ∧ d.all isAsciiDigit ∧ decValue d 0 ≤ 255 then
      some (decValue d 0) else none) = none ∨ (if d ≠ [] ∧ d.all isAsciiDigit ∧ decValue d 0 ≤ 255 then
      some (decValue d 0) else none) = some (decValue (c :: r) 0) := by
    rintro d rfl
    split
    · exact Or.inr rfl
    · exact Or.inl rfl
  refine key _ ?_
  split
  · rename_i hh; simp only [List.cons.injEq] at hh; exact absurd hh.1 h
  · rfl

/-- C15: a definition asking for ten or more arguments (a numeral of several digits without leading zero) is
rejected: nothing is bound and nothing is delivered. -/
theorem C15_more_rejected (m : MacroTable) (cmd : Text) (d : DeclareCmdOrEnv) (hm : m cmd = some (.declare (.cmdOrEnv d)))
    (hd : ∀ b, d ≠ .newEnvironment b) (name : Text) (nameTxt : List Tok) (hn : DefName (cmdTok name) nameTxt)
    (d1 d2 : Char) (ds : Text) (hdig : ∀ c ∈ d1 :: d2 :: ds, isAsciiDigit c = true) (h0 : d1 ≠ '0')
    (ws ws' : List Tok) (hw : Trivia ws) (hw' : Trivia ws') :
    Delivers m (cmdTok cmd :: (nameTxt ++ lBracket :: (ws ++ (.word, d1 :: d2 :: ds) :: (ws' ++ [rBracket])))) [] m := by
  intro ifs rest out
  rw [List.cons_append]
  refine Runs.one ?_
  rw [engStep_declare hm, identifyUpdate]
  have e1 : nameTxt ++ lBracket :: (ws ++ (Token.word, d1 :: d2 :: ds) :: (ws' ++ [rBracket])) ++ rest =
    nameTxt ++ lBracket :: (ws ++ (Token.word, d1 :: d2 :: ds) :: (ws' ++ rBracket :: rest)) := by simp
  rw [e1, readDeclName_cmd hd hn]
  simp only
  unfold readNArgsOptDefn
  rw [nextNotTrivia_list ws hw _ (by rfl)]
  unfold peekU8Opt
  rw [nextNotTrivia_list ws' hw' _ (by rfl)]
  simp only [lctx_peek, List.head?_cons, lBracket, if_true]
  rw [eatIf_list (.right .bracket) rBracket rfl]
  have hp : parseU8 (d1 :: d2 :: ds) = none ∨ ∃ k, 9 < k ∧ parseU8 (d1 :: d2 :: ds) = some k := by
    have hd1 := hdig d1 (by simp)
    have hv : 10 ≤ decValue (d1 :: d2 :: ds) 0 := by
      have a1 : 49 ≤ d1.toNat := by
        simp only [isAsciiDigit, Bool.and_eq_true, decide_eq_true_eq] at hd1
        have : d1.toNat ≠ 48 := by
          intro h
          apply h0
          have := Char.ofNat_toNat d1
          rw [h] at this
          rw [← this]
        omega
      rw [decValue, decValue]
      exact Nat.le_trans (by omega) (decValue_mono _ _)
    have hplus : d1 ≠ '+' := by rintro rfl; revert hd1; decide
    rcases parseU8_noplus d1 (d2 :: ds) hplus with h | h
    · exact Or.inl h
    · exact Or.inr ⟨_, by omega, h⟩
  rcases hp with hp | ⟨k, hk, hp⟩
  · rw [hp]; simp
  · rw [hp]
    simp only
    rw [if_neg (by omega)]
    simp

end Mitex
