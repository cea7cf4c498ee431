/-
C28-C34: the parser.
-/
import Verif.Proof.ParserParse
import Verif.Props.Terminate
import Verif.Model.StandardSpec
import Verif.Props.Glob
import Verif.Model.Convert

namespace Mitex

/-! ### The tokens delivered to the parser -/

/-- The condition on one token that the parser relies on. -/
def DeliveredTok (t : Tok) : Prop :=
  (t.1 = .word → t.2 ≠ []) ∧ ∀ c, t.1 = .cmd c → c.isCommand = true → t.2.head? = some '\\'

theorem tokInv_delivered : TokInv DeliveredTok where
  err t := ⟨fun h => (by cases h), fun c h => (by cases h)⟩
  fi := ⟨fun h => (by cases h), fun _ _ _ => rfl⟩
  char w c _ _ := ⟨fun _ => List.cons_ne_nil _ _, fun c h => (by cases h)⟩
  suf a b _ hb := ⟨fun _ => hb, fun c h => (by cases h)⟩
  leak := Or.inl fun d h _ _ _ => ⟨fun e => (by cases e), fun c e => (by cases e)⟩

theorem tokensOf_delivered {spec : CommandSpec} {s : Text} {toks : List Tok} (h : tokensOf spec s = .ok toks) :
    ∀ t ∈ toks, DeliveredTok t := by
  intro t ht
  have hs := tokensOf_shape h t ht
  refine ⟨fun hk => ?_, fun c hk hc => ?_⟩
  · rw [hk] at hs
    exact hs.1
  · rw [hk] at hs
    refine cmd_head hs ?_ ?_
    · intro e; rw [e] at hc; cases hc
    · intro e; rw [e] at hc; cases hc

theorem delivered_iff {toks : List Tok} : (∀ t ∈ toks, DeliveredTok t) ↔ WordsOk toks ∧ CmdsOk toks :=
  ⟨fun h => ⟨fun t ht => (h t ht).1, fun t ht => (h t ht).2⟩, fun h t ht => ⟨h.1 t ht, h.2 t ht⟩⟩

/-- The tokens of a text, and the tokens delivered by the macro engine, contain no empty word, and command tokens
carry their backslash: the hypotheses of the theorems below hold for every stream the parser ever sees. -/
theorem C28_delivered (spec : CommandSpec) (s : Text) (toks : List Tok) (h : tokensOf spec s = .ok toks) :
    (WordsOk toks ∧ CmdsOk toks) ∧
    ∀ fuel outs, expandAll fuel toks = .ok outs → WordsOk outs ∧ CmdsOk outs := by
  have hd := tokensOf_delivered h
  refine ⟨delivered_iff.1 hd, fun fuel outs ho => ?_⟩
  unfold expandAll at ho
  split at ho
  · cases ho
  · rename_i e c hr
    cases ho
    have := (engRun_inv tokInv_delivered fuel (e := Eng.new) (defaultTable_inv _) (c := ⟨toks, []⟩)
      ⟨hd, fun _ h => (by cases h)⟩).1 e c hr
    exact delivered_iff.1 this.2.2

/-! ### C28 -/

theorem parseToks_spec (env : PEnv) {toks : List Tok} (hw : WordsOk toks) (hc : CmdsOk toks) :
    Ok (EnvsOk env.spec ∧ ScriptSafe env.spec toks) (fun e => ∃ cs, e = .node .scopeRoot cs ∧ (∀ c ∈ cs, c.Forall (Shape env)) ∧
        Reads toks [] (Elem.leaves.go cs) ∧
        (AllClosed cs ∨ ∃ pre e, cs = pre ++ [e] ∧ AllClosed pre ∧ OpenAtEnd e))
      (parseToks env toks) :=
  parseToks_ok ⟨hw, hc, fun g => g.2⟩ (fun g => g.1)

/-- C28: parsing a token stream stops (the loops of the parser never run out of the given number of rounds), whatever
the specification and the glob matcher. -/
theorem C28_terminates (env : PEnv) (toks : List Tok) (hw : WordsOk toks) (hc : CmdsOk toks) :
    parseToks env toks ≠ .error .fuel := by
  intro h
  have := parseToks_spec env hw hc
  rw [h] at this
  cases this.1

/-- C28 for texts: without macro expansion parsing stops on every text, with macro expansion on every text whose
expansion stops. -/
theorem C28_text (env : PEnv) (s : Text) :
    (∀ fuel, parse fuel env false s ≠ .error .fuel) ∧
    ∀ fuel toks outs, tokensOf env.spec s = .ok toks → expandAll fuel toks = .ok outs → parse fuel env true s ≠ .error .fuel := by
  constructor
  · intro fuel h
    unfold parse at h
    cases ht : tokensOf env.spec s with
    | error x =>
      rw [ht] at h
      cases h
      unfold tokensOf at ht
      split at ht
      · rename_i e he
        cases ht
        have := lexFuel_error env.spec s.length s .fuel (Nat.le_refl _) he
        revert this
        simp
      · cases ht
    | ok toks =>
      rw [ht] at h
      have hd := (C28_delivered env.spec s toks ht).1
      exact C28_terminates env toks hd.1 hd.2 h
  · intro fuel toks outs ht ho h
    have hd := (C28_delivered env.spec s toks ht).2 fuel outs ho
    unfold parse at h
    rw [ht] at h
    simp only [ok_bind, if_true] at h
    rw [ho] at h
    exact C28_terminates env outs hd.1 hd.2 h

theorem ok_of {α : Type} {r : Res α} (h : r.toBool = true) : ∃ a, r = .ok a := by
  cases r with
  | ok a => exact ⟨a, rfl⟩
  | error x => cases h

/-- The hypotheses are met: the tokens of a text, with the standard specification. -/
example : ∃ toks, tokensOf defaultSpec "\\frac{a}{b}_x".toList = .ok toks ∧ WordsOk toks ∧ CmdsOk toks := by
  obtain ⟨toks, h⟩ := ok_of (r := tokensOf defaultSpec "\\frac{a}{b}_x".toList) (by decide +kernel)
  exact ⟨toks, h, (C28_delivered _ _ _ h).1⟩

/-! ### C29 -/

/-- C29, the part that holds: parsing succeeds on every token stream in which no `_` or `^` is directly followed by a
command that takes the preceding item as its argument (`\limits`, `\over`, ..), for every specification whose
environments do not take greedy arguments.  Missing: both conditions are necessary, see `C29_panics`. -/
theorem C29_total (env : PEnv) (toks : List Tok) (hw : WordsOk toks) (hc : CmdsOk toks)
    (he : EnvsOk env.spec) (hs : ScriptSafe env.spec toks) : ∃ tree, parseToks env toks = .ok tree := by
  have := parseToks_spec env hw hc
  cases h : parseToks env toks with
  | ok t => exact ⟨t, rfl⟩
  | error x => rw [h] at this; exact absurd ⟨he, hs⟩ this.2

/-- C29: whatever happens, a parse that does not succeed is a panic of the tree builder, and then one of the two
conditions is violated. -/
theorem C29_only_panic (env : PEnv) (toks : List Tok) (hw : WordsOk toks) (hc : CmdsOk toks) (x : Stop)
    (h : parseToks env toks = .error x) : x = .panic ∧ ¬ (EnvsOk env.spec ∧ ScriptSafe env.spec toks) := by
  have := parseToks_spec env hw hc
  rw [h] at this
  exact this

theorem defaultSpec_envs_all : (defaultItems.all fun e => match e.2 with
    | .env sh => decide (sh.args ≠ .greedy)
    | _ => true) = true := by decide +kernel

/-- No environment of the standard specification takes greedy arguments. -/
theorem defaultSpec_envs : EnvsOk defaultSpec := by
  intro name sh h
  unfold getEnv at h
  split at h
  · rename_i hs
    cases h
    have hm : (name, SpecItem.env sh) ∈ defaultItems := by
      unfold defaultSpec specOfMap at hs
      exact mem_of_lookup' _ _ _ hs
    have := List.all_eq_true.mp defaultSpec_envs_all _ hm
    simpa using this
  · cases h

/-- C29 with the standard specification: without macros, every text without a `_` or `^` directly before a command
taking the preceding item parses. -/
theorem C29_standard (s : Text) (toks : List Tok) (ht : tokensOf defaultSpec s = .ok toks)
    (hs : ScriptSafe defaultSpec toks) (fuel : Nat) :
    ∃ tree, parse fuel ⟨defaultSpec, globPrefix⟩ false s = .ok tree := by
  have hd := (C28_delivered defaultSpec s toks ht).1
  obtain ⟨tree, h⟩ := C29_total ⟨defaultSpec, globPrefix⟩ toks hd.1 hd.2 defaultSpec_envs hs
  refine ⟨tree, ?_⟩
  unfold parse
  simp only [ht, ok_bind]
  exact h

theorem panic_of {α : Type} {r : Res α} (h : (match r with
    | .error .panic => true
    | _ => false) = true) : r = .error .panic := by
  split at h
  · rfl
  · cases h

/-- C29: the condition on scripts is needed: `\alpha x_\over y` and `&_\limits` make the parser panic. -/
theorem C29_panics :
    parse 50 ⟨defaultSpec, globPrefix⟩ false "\\alpha x_\\over y".toList = .error .panic ∧
    parse 50 ⟨defaultSpec, globPrefix⟩ false "&_\\limits".toList = .error .panic := by
  constructor
  · exact panic_of (by decide +kernel)
  · exact panic_of (by decide +kernel)

end Mitex
