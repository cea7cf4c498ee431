/-
C76: the tokens of a text depend only on the names mentioned in it.
-/
import Verif.Spec.Agree
import Verif.Props.Engine
import Verif.Proof.FormulaPrint

namespace Mitex
namespace Agree

theorem Mentioned.mono {n s t : Text} (h : Mentioned n s) (hs : s <:+: t) : Mentioned n t := by
  rcases h with h | ⟨a, h⟩
  · exact .inl (h.trans hs)
  · exact .inr ⟨a, h.trans hs⟩

theorem AgreeOn.mono {a b : CommandSpec} {s t : Text} (h : AgreeOn a b t) (hs : s <:+: t) : AgreeOn a b s :=
  fun n hn => h n (Mentioned.mono hn hs)

theorem advanceName_agree {f g : Text → Bool} : ∀ {cs pre : Text}, (∀ x, x <+: cs → f (pre ++ x) = g (pre ++ x)) →
    advanceName f pre cs = advanceName g pre cs
  | [], _, _ => rfl
  | c :: cs, pre, h => by
    rw [advanceName, advanceName]
    by_cases h1 : (c == '*') = true
    · rw [if_pos h1, if_pos h1]
      have : c = '*' := by simpa using h1
      subst this
      rw [h ['*'] ⟨cs, rfl⟩]
    · rw [if_neg h1, if_neg h1]
      by_cases h2 : (isAsciiAlpha c || c == '@') = true
      · rw [if_pos h2, if_pos h2]
        rw [advanceName_agree (f := f) (g := g) (cs := cs) (pre := pre ++ [c])]
        intro x hx
        obtain ⟨r, rfl⟩ := hx
        have := h (c :: x) ⟨r, rfl⟩
        rw [List.append_assoc]
        exact this
      · rw [if_neg h2, if_neg h2]

theorem lexCommandName_agree {a b : CommandSpec} {cs : Text} (h : AgreeOn a b ('\\' :: cs)) : lexCommandName a cs = lexCommandName b cs := by
  cases cs with
  | nil => rfl
  | cons c cs =>
    have e : advanceName (fun n => (a n).isSome) [c] cs = advanceName (fun n => (b n).isSome) [c] cs := by
      refine advanceName_agree fun x hx => ?_
      obtain ⟨r, rfl⟩ := hx
      rw [h _ (.inl ⟨[], r, rfl⟩)]
    unfold lexCommandName
    dsimp only
    rw [e]

theorem lexOne_agree {a b : CommandSpec} {s : Text} (h : AgreeOn a b s) : lexOne a s = lexOne b s := by
  cases s with
  | nil => rfl
  | cons c cs =>
    by_cases hc : c = '\\'
    · subst hc
      have e := lexCommandName_agree h
      unfold lexOne
      simp only [e]
    · unfold lexOne
      have h1 : (c == '\\') = false := by simpa using hc
      simp only [h1, Bool.false_eq_true, if_false]

theorem lexOne_rest {a : CommandSpec} {s : Text} {l : Lexed} (h : lexOne a s = some (.ok l)) : l.rest <:+ s := by
  obtain ⟨sp, _, h2, _⟩ := (lexOne_good h).span
  exact ⟨sp, h2.symm⟩

theorem lexFuel_agree {a b : CommandSpec} : ∀ {n : Nat} {s : Text}, AgreeOn a b s → lexFuel a n s = lexFuel b n s
  | 0, _, _ => rfl
  | n + 1, s, h => by
    rw [lexFuel, lexFuel, ← lexOne_agree h]
    cases hl : lexOne a s with
    | none => rfl
    | some r =>
      cases r with
      | error e => rfl
      | ok l =>
        have hs : l.rest <:+: s := (lexOne_rest hl).isInfix
        dsimp only
        rw [lexFuel_agree (AgreeOn.mono h hs)]

theorem tokensOf_agree {a b : CommandSpec} {s : Text} (h : AgreeOn a b s) : tokensOf a s = tokensOf b s := by
  unfold tokensOf lexAll
  rw [lexFuel_agree h]

theorem nameChar_facts {c : Char} (h : NameChar c) : c ≠ '\\' ∧ isWs c = false := by
  refine ⟨?_, nameChar_black (.inl h)⟩
  rintro rfl
  revert h
  decide

theorem infix_flatten {s : Text} : ∀ {ts : List Text}, s ∈ ts → s <:+: ts.flatten
  | t :: ts, h => by
    rcases List.mem_cons.1 h with rfl | h
    · exact ⟨[], ts.flatten, rfl⟩
    · obtain ⟨a, b, e⟩ := infix_flatten h
      exact ⟨t ++ a, b, by rw [List.flatten_cons, ← e]; simp only [List.append_assoc]⟩

/-- Every command token is mentioned. -/
theorem tokens_mentioned {a : CommandSpec} {s : Text} {toks : List Tok} (h : tokensOf a s = .ok toks) {t : Tok} (ht : t ∈ toks) {n : CommandName}
    (hn : t.1 = .cmd n) : (∀ name, t.2 = '\\' :: name → Mentioned name s) ∧ (n = .beginEnv → Mentioned t.2 s ∧ trim t.2 = t.2) := by
  obtain ⟨spans, h1, h2, h3⟩ := C01_lossless a s toks h
  obtain ⟨i, hi, ei⟩ := List.getElem_of_mem ht
  have hsp : i < spans.length := h2 ▸ hi
  obtain ⟨_, h5⟩ := h3 i t.1 t.2 spans[i] (by rw [List.getElem?_eq_getElem hi, ei]) (List.getElem?_eq_getElem hsp)
  have hin : spans[i] <:+: s := by rw [← h1]; exact infix_flatten (List.getElem_mem hsp)
  have hshape := tokensOf_shape h t ht
  rw [hn] at h5 hshape
  have env : EnvName t.2 → (∀ name, t.2 = '\\' :: name → False) ∧ trim t.2 = t.2 := by
    rintro ⟨l, hl, h⟩
    have hc : ∀ c ∈ t.2, c ≠ '\\' ∧ isWs c = false := by
      intro c hc
      have : NameChar c ∨ c = '*' := by
        rcases h with h | h
        · exact .inl (hl c (h ▸ hc))
        · rw [h] at hc
          rcases List.mem_append.1 hc with hc | hc
          · exact .inl (hl c hc)
          · exact .inr (List.mem_singleton.1 hc)
      rcases this with hn | rfl
      · exact nameChar_facts hn
      · decide
    exact ⟨fun name e => (hc '\\' (by rw [e]; exact List.mem_cons_self)).1 rfl, trim_black fun c h => (hc c h).2⟩
  by_cases h6 : n = .beginEnv
  · subst h6
    obtain ⟨x, y, e⟩ := h5
    obtain ⟨e1, e2⟩ := env hshape
    refine ⟨fun name e => absurd e (e1 name), fun _ => ⟨.inr ⟨x, ?_⟩, e2⟩⟩
    refine List.IsInfix.trans ⟨[], y, ?_⟩ hin
    rw [e]
    rfl
  · by_cases h7 : n = .endEnv
    · subst h7
      exact ⟨fun name e => absurd e ((env hshape).1 name), fun e => (by cases e)⟩
    · refine ⟨fun name e => .inl ?_, fun e => absurd e h6⟩
      have : SpanOf (.cmd n) t.2 spans[i] → spans[i] = t.2 := by
        unfold SpanOf
        split
        · rename_i e; cases e; exact absurd rfl h6
        · rename_i e; cases e; exact absurd rfl h7
        · exact id
      rw [← e, ← this h5]
      exact hin

end Agree
end Mitex
