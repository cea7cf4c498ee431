/-
C89: macro expansion is idempotent.
-/
import Verif.Props.Unused

namespace Mitex

namespace Again
open Renamed

/-- The conditional, as it looks in the delivered tokens: those that are decided leave no token. -/
def seen : Option IfState → List (Option IfState)
  | some .isTrue => []
  | some .isFalse => []
  | some .typstFalse => [some .typstTrue]
  | c => [c]

/-- The state in which the delivered tokens are read again: no macros but the predefined ones. -/
def again (e : Eng) : Eng := ⟨defaultMacros, e.ifs.flatMap seen⟩

theorem lookup_mem {l : List (Text × Macro)} {n : Text} {v : Macro} (h : l.lookup n = some v) : (n, v) ∈ l := by
  induction l with
  | nil => cases h
  | cons p l ih =>
    obtain ⟨a, b⟩ := p
    rw [List.lookup_cons] at h
    split at h
    · rename_i hb
      cases h
      rw [show n = a by simpa using hb]
      exact List.mem_cons_self ..
    · exact List.mem_cons_of_mem _ (ih h)

/-- What the predefined names mean: definitions, or nothing yet. -/
theorem default_cases (n : Text) : defaultMacros n = none ∨ defaultMacros n = some (.declare .unimplemented) ∨
    (n ∈ definitionNames ∧ ∃ d, defaultMacros n = some (.declare (.cmdOrEnv d))) := by
  cases h : defaultMacros n with
  | none => exact .inl rfl
  | some v =>
    right
    have hm := lookup_mem (l := declarativeMacros) h
    have hall : ∀ p ∈ declarativeMacros, p.2 = .declare .unimplemented ∨ (p.1 ∈ definitionNames ∧ ∃ d, p.2 = .declare (.cmdOrEnv d)) := by
      unfold declarativeMacros definitionNames
      simp
    rcases hall _ hm with e | ⟨h1, d, e⟩
    · left; exact congrArg some e
    · right; exact ⟨h1, d, congrArg some e⟩

theorem handedOn_again {m : MacroTable} {t : Tok} (h : HandedOn m t) (hd : ∀ n ∈ definitionNames, t ≠ cmdTok n) : HandedOn defaultMacros t := by
  have key : ∀ n, t = cmdTok n → HandedOn defaultMacros t := by
    intro n e
    subst e
    rcases default_cases n with h | h | ⟨h, _⟩
    · exact .unbound h
    · exact .reserved h
    · exact absurd rfl (hd n h)
  have begins : ∀ n, t = (.cmd .beginEnv, n) → HandedOn defaultMacros t := by
    intro n e
    subst e
    rcases default_cases n with h | h | ⟨_, _, h⟩
    · exact .beginUnbound h
    · exact .beginDeclare h
    · exact .beginDeclare h
  cases h with
  | unbound _ => exact key _ rfl
  | isEnv _ => exact key _ rfl
  | reserved _ => exact key _ rfl
  | beginUnbound _ => exact begins _ rfl
  | beginCmd _ => exact begins _ rfl
  | beginDeclare _ => exact begins _ rfl

theorem error_ordinary (x : Text) : Ordinary (.error, x) :=
  ⟨fun h => (by cases h), fun h => (by cases h), fun h => (by cases h), fun h => (by cases h), fun i h => (by cases h)⟩

/-- Reading what one step delivers. -/
theorem step_again {e f : Eng} {s s2 o os : List Tok} (h : Rewrites e s f s2 o) (hd : ∀ n ∈ definitionNames, cmdTok n ∉ o)
    (k : Expands (again f) os os) : Expands (again e) (o ++ os) (o ++ os) := by
  have hd' : ∀ {t : Tok}, o = [t] → ∀ n ∈ definitionNames, t ≠ cmdTok n := fun ho n hn e => hd n hn (by rw [ho, e]; exact List.mem_singleton.2 rfl)
  cases h with
  | ordinary h => exact .step (.ordinary h) k
  | handedOn h => exact .step (.handedOn (handedOn_again h (hd' rfl))) k
  | @cif m ifs i x s =>
    cases i <;> first | exact k | exact .step .cif k
  | elseSkips _ => exact k
  | elseSkipsTypst _ => exact k
  | elseAgain => exact k
  | elseAgainTypst => exact k
  | elseOfFalse =>
    exact .step (.fiOther ⟨fun h => (by cases h), fun h => (by cases h)⟩) k
  | @elseUndecided m ifs x s h =>
    refine .step (.elseUndecided ?_) k
    cases ifs with
    | nil => exact .inl rfl
    | cons c ifs =>
      rcases h with h | h
      · cases h
      · cases h; exact .inr rfl
  | @fiDecided m ifs c x s h =>
    rcases h with rfl | rfl <;> exact k
  | @fiOther m ifs c x s h =>
    cases c with
    | none => exact .step (.fiOther ⟨fun h => (by cases h), fun h => (by cases h)⟩) k
    | some c =>
      cases c with
      | isTrue => exact absurd rfl h.1
      | isFalse => exact absurd rfl h.2
      | _ => exact .step (.fiOther ⟨fun h => (by cases h), fun h => (by cases h)⟩) k
  | fiStray => exact .step .fiStray k
  | @define _ cmd d s name v s2 h hd =>
    show Expands (again e) ((if reports d (e.macros name) = true then [((.error, name) : Tok)] else []) ++ os) _
    split
    · exact .step (.ordinary (error_ordinary _)) k
    · exact k
  | broken _ _ => exact k
  | call _ _ _ => exact k
  | badCall _ _ => exact .step (.ordinary (error_ordinary _)) k
  | env _ _ _ _ _ _ => exact k
  | badEnvCall _ _ => exact .step (.ordinary (error_ordinary _)) k
  | envUnmatched _ _ _ _ => exact .step (.ordinary (error_ordinary _)) k
  | envUnclosed _ _ _ => exact k

theorem expands_again {e : Eng} {s os : List Tok} (h : Expands e s os) : (∀ n ∈ definitionNames, cmdTok n ∉ os) → Expands (again e) os os := by
  induction h with
  | done => intro _; exact .done
  | step h _ ih =>
    intro hd
    exact step_again h (fun n hn k => hd n hn (List.mem_append_left _ k)) (ih fun n hn k => hd n hn (List.mem_append_right _ k))

/-- The delivered tokens are as the lexer needs them. -/
theorem expands_ok {e : Eng} {s os : List Tok} (h : Expands e s os) : EngOk e s → ∀ t ∈ os, StreamTokOk t := by
  induction h with
  | done => intro _ t ht; cases ht
  | step h _ ih =>
    intro hok t ht
    rcases List.mem_append.1 ht with ht | ht
    · obtain ⟨t', r, rfl, hs⟩ := rewrites_step h hok []
      have := (engStep_inv tokInv_ok (c := ⟨t' :: r, []⟩) rfl hok.1 ⟨hok.2, by simp⟩).1 _ _ hs
      exact this.2.2 t ht
    · exact ih (rewrites_ok h hok) t ht

/-! ### No definition is delivered -/

/-- The predefined names keep a meaning, which is none of an environment. -/
def Kept (e : Eng) : Prop := (∀ n, defaultMacros n ≠ none → e.macros n ≠ none) ∧ ∀ n nm k o b d, e.macros n ≠ some (.env nm k o b d)

theorem kept_step {P : Tok → Prop} (hP : ∀ t, P t → ∀ n ∈ environmentDefiners, t ≠ cmdTok n) {e f : Eng} {s s2 o : List Tok} (h : Rewrites e s f s2 o)
    (hk : Kept e) (he : EngAlike [] [] P e e) (ht : Toks [] [] P s s) : Kept f := by
  cases h with
  | @define _ cmd d s name v s2 h hd =>
    rcases hd with ⟨h1, h2⟩ | ⟨h1, h2⟩
    · exact absurd rfl (hP _ (Unused.head_fit ht) cmd (definer he.1 h h1))
    · cases h2 with
      | defines g hh hm =>
        refine ⟨fun n hn => ?_, fun n nm k o b d' e1 => ?_⟩
        · show (if stores d (e.macros name) = true then bindName e.macros name _ else e.macros) n ≠ none
          split
          · unfold bindName
            split
            · exact fun h => (by cases h)
            · exact hk.1 n hn
          · exact hk.1 n hn
        · have e1 : (if stores d (e.macros name) = true then bindName e.macros name _ else e.macros) n = _ := e1
          split at e1
          · unfold bindName at e1
            split at e1
            · cases e1
            · exact hk.2 _ _ _ _ _ _ e1
          · exact hk.2 _ _ _ _ _ _ e1
  | _ => exact hk

theorem out_step {P : Tok → Prop} {e f : Eng} {s s2 o : List Tok} (h : Rewrites e s f s2 o)
    (hk : Kept e) (he : EngAlike [] [] P e e) : ∀ n ∈ definitionNames, cmdTok n ∉ o := by
  have hn : ∀ n ∈ definitionNames, ∃ d, defaultMacros n = some (.declare (.cmdOrEnv d)) := by
    unfold definitionNames
    simp only [List.map_cons, List.map_nil, List.mem_cons, List.not_mem_nil, or_false]
    rintro n (rfl | rfl | rfl | rfl | rfl | rfl | rfl | rfl | rfl | rfl | rfl | rfl) <;> exact ⟨_, rfl⟩
  intro n hm
  obtain ⟨d, hd⟩ := hn n hm
  cases h with
  | ordinary h => intro k; rw [← List.mem_singleton.1 k] at h; exact h.1 rfl
  | handedOn h =>
    intro k
    rw [← List.mem_singleton.1 k] at h
    generalize ht : cmdTok n = t at h
    cases h with
    | unbound h => cases ht; exact hk.1 n (by rw [hd]; exact fun h => (by cases h)) h
    | isEnv h => cases ht; exact hk.2 _ _ _ _ _ _ h
    | reserved h => cases ht; have := he.1.declared _ _ h; rw [hd] at this; cases this
    | beginUnbound _ => cases ht
    | beginCmd _ => cases ht
    | beginDeclare _ => cases ht
  | cif => split <;> simp [cmdTok]
  | define _ _ => split <;> simp [cmdTok]
  | _ => simp [cmdTok]

theorem out_expands {P : Tok → Prop} (hF : Renamed.Fit [] [] P) (hP : ∀ t, P t → ∀ n ∈ environmentDefiners, t ≠ cmdTok n) {e : Eng} {s os : List Tok}
    (h : Expands e s os) : Kept e → EngAlike [] [] P e e → Toks [] [] P s s → ∀ n ∈ definitionNames, cmdTok n ∉ os := by
  induction h with
  | done => intro _ _ _ n _ h; cases h
  | step h _ ih =>
    intro hk he ht n hn hm
    rcases List.mem_append.1 hm with hm | hm
    · exact out_step h hk he n hn hm
    · obtain ⟨_, _, _, _, g2, g3, _⟩ := rewrites_alike hF h he ht
      exact ih (kept_step hP h hk he ht) (Unused.eng_self g2) (Unused.toks_self g3) n hn hm

end Again

/-- **C89**, expansion: the tokens that are delivered by the expansion of macros are delivered unchanged if they are expanded again, unless the
name of a defining command has become one of an environment (`\newenvironment{newcommand}…`), and is left. -/
theorem C89_idempotent (spec : CommandSpec) (u : Text) (ts os : List Tok) (h : tokensOf spec u = .ok ts) (fuel : Nat) (ho : expandAll fuel ts = .ok os)
    (hd : ∀ n ∈ definitionNames, cmdTok n ∉ os) : ∃ N, ∀ F, N ≤ F → expandAll F os = .ok os := by
  have hx := (C65_exact spec u ts h os).1 ⟨fuel, ho⟩
  have hx' : Expands atStart os os := Again.expands_again hx hd
  have hok : EngOk atStart os := ⟨(start_ok h).1, Again.expands_ok hx (start_ok h)⟩
  obtain ⟨n, e', hn⟩ := hx'.run hok []
  refine ⟨n, fun F hF => expandAll_mono (fuel := n) ?_ hF⟩
  unfold expandAll
  rw [show Eng.new = atStart from rfl, hn]
  rfl

/-- **C89**: no defining command is delivered, if no environments are defined. -/
theorem C89_no_definitions (spec : CommandSpec) (u : Text) (ts os : List Tok) (h : tokensOf spec u = .ok ts) (fuel : Nat) (ho : expandAll fuel ts = .ok os)
    (he : ∀ n ∈ environmentDefiners, cmdTok n ∉ ts) : ∀ n ∈ definitionNames, cmdTok n ∉ os := by
  have hx := (C65_exact spec u ts h os).1 ⟨fuel, ho⟩
  have hsh := tokensOf_shape h
  have hF : Renamed.Fit [] [] (fun t => (∀ n ∈ environmentDefiners, t ≠ cmdTok n) ∧ (t.1 = .cmd .beginEnv ∨ t.1 = .cmd .endEnv → t.2.head? ≠ some '\\')) := by
    refine ⟨fun w c _ _ => ?_, fun u v _ => ?_, fun _ w _ _ _ => Unused.exchange_nil w, fun t h1 => h1.2, fun d x => ?_, fun x => ?_, ?_,
      Unused.no_name, Unused.no_name⟩
    · exact ⟨fun n _ h => (by cases h), fun h => (by rcases h with h | h <;> cases h)⟩
    · exact ⟨fun n _ h => (by cases h), fun h => (by rcases h with h | h <;> cases h)⟩
    · exact ⟨fun n _ h => (by cases h), fun h => (by rcases h with h | h <;> cases h)⟩
    · exact ⟨fun n _ h => (by cases h), fun h => (by rcases h with h | h <;> cases h)⟩
    · exact ⟨fun n _ h => (by cases h), fun h => (by rcases h with h | h <;> cases h)⟩
  refine Again.out_expands hF (fun t ht => ht.1) hx ⟨fun n hn => hn, fun n nm k o b d e1 => ?_⟩ (Renamed.start_alike hF)
    (Unused.toks_fit fun t ht => ⟨fun n hn e => he n hn (e ▸ ht), Renamed.clause_shape (hsh t ht)⟩)
  rcases Again.default_cases n with h | h | ⟨_, _, h⟩
  · rw [show defaultMacros n = _ from e1] at h; cases h
  · rw [show defaultMacros n = _ from e1] at h; cases h
  · rw [show defaultMacros n = _ from e1] at h; cases h

/-- **C89**, documents: if the tokens delivered for a text `u` are the tokens of a text `v`, then `u` is converted to the same output as `v`, or refused
with the same message, and `v` is converted alike with macros and without. -/
theorem C89_converts (dflt : CommandSpec) (m : Mode) (spec : Option CommandSpec) (u v : Text) (ts os : List Tok) (h : tokensOf (spec.getD dflt) u = .ok ts)
    (fuel : Nat) (ho : expandAll fuel ts = .ok os) (hv : tokensOf (spec.getD dflt) v = .ok os) (hd : ∀ n ∈ definitionNames, cmdTok n ∉ os) :
    ∃ N, ∀ F F', N ≤ F → convertInner F dflt u m spec true = convertInner F' dflt v m spec false ∧
      convertInner F dflt v m spec true = convertInner F' dflt v m spec false := by
  obtain ⟨N, hN⟩ := C89_idempotent (spec.getD dflt) u ts os h fuel ho hd
  refine ⟨N + fuel, fun F F' hF => ?_⟩
  have e1 : parserTokens F (spec.getD dflt) true u = .ok os := by
    unfold parserTokens; rw [h]; exact expandAll_mono ho (show fuel ≤ F by omega)
  have e2 : parserTokens F (spec.getD dflt) true v = .ok os := by
    unfold parserTokens; rw [hv]; exact hN F (by omega)
  have e3 : parserTokens F' (spec.getD dflt) false v = .ok os := by
    unfold parserTokens; rw [hv]; rfl
  constructor
  · unfold convertInner
    rw [Blank.parse_tokens, Blank.parse_tokens, show parserTokens F (PEnv.spec ⟨spec.getD dflt, globPrefix⟩) true u = _ from e1,
      show parserTokens F' (PEnv.spec ⟨spec.getD dflt, globPrefix⟩) false v = _ from e3]
  · unfold convertInner
    rw [Blank.parse_tokens, Blank.parse_tokens, show parserTokens F (PEnv.spec ⟨spec.getD dflt, globPrefix⟩) true v = _ from e2,
      show parserTokens F' (PEnv.spec ⟨spec.getD dflt, globPrefix⟩) false v = _ from e3]

/-- A macro call and a conditional, and the tokens that are delivered for them; `\newcommand` is not among them. -/
theorem C89_example :
    parserTokens 60 defaultSpec true t!"\\newcommand{\\x}[1]{$#1$}\\x y\\iffalse \\frac{\\else \\x{c}\\fi" =
      tokensOf defaultSpec t!"$y$\\iffalse \\frac{\\fi $c$" ∧
    (∃ os, tokensOf defaultSpec t!"$y$\\iffalse \\frac{\\fi $c$" = .ok os ∧ os.length = 12 ∧ ∀ n ∈ definitionNames, cmdTok n ∉ os) ∧
    convertText 200 defaultSpec t!"\\newcommand{\\x}[1]{$#1$}\\x y\\iffalse \\frac{\\else \\x{c}\\fi" none =
      .ok t!"#math.equation(block: false, $y $); #math.equation(block: false, $c $);" ∧
    convertText 200 defaultSpec t!"$y$\\iffalse \\frac{\\fi $c$" none =
      .ok t!"#math.equation(block: false, $y $); #math.equation(block: false, $c $);" := by
  refine ⟨by decide +kernel, ?_, by decide +kernel, by decide +kernel⟩
  have h : (match tokensOf defaultSpec t!"$y$\\iffalse \\frac{\\fi $c$" with
      | .ok os => decide (os.length = 12) && definitionNames.all fun n => decide (cmdTok n ∉ os)
      | _ => false) = true := by decide +kernel
  generalize tokensOf defaultSpec t!"$y$\\iffalse \\frac{\\fi $c$" = r at h
  cases r with
  | ok os =>
    have h := (Bool.and_eq_true _ _).mp h
    exact ⟨os, rfl, of_decide_eq_true h.1, fun n hn => of_decide_eq_true (List.all_eq_true.1 h.2 n hn)⟩
  | _ => cases h

end Mitex
