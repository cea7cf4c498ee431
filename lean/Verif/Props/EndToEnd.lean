import Verif.Spec.EndToEnd
import Verif.Props.Expansion
import Verif.Props.Lexer
import Verif.Props.Grammar
import Verif.Props.Template
import Verif.Props.Stream
import Verif.Props.StreamPanic
import Verif.Props.Calls
import Verif.Props.NoPanic
import Verif.Props.Rules

/-!
# C66: the answer of a conversion, end to end
-/

namespace Mitex

private theorem expandAll_collapses {spec : CommandSpec} {s : Text} {raw : List Tok} (h : tokensOf spec s = .ok raw) :
    (∃ fuel, expandAll fuel raw = .error .panic) ↔ Collapses atStart raw :=
  (C08_panics_alike 1 (by decide) raw).symm.trans (C65_panics 1 (by decide) spec s raw h)

private theorem expandAll_outcome {spec : CommandSpec} {s : Text} {raw : List Tok} (h : tokensOf spec s = .ok raw)
    (fuel : Nat) : (∃ outs, expandAll fuel raw = .ok outs) ∨ expandAll fuel raw = .error .panic ∨
      expandAll fuel raw = .error .fuel := by
  cases hx : expandAll fuel raw with
  | ok outs => exact .inl ⟨outs, rfl⟩
  | error x =>
    by_cases hf : x = .fuel
    · exact .inr (.inr (by rw [hf]))
    · refine .inr (.inl ?_)
      unfold expandAll at hx
      split at hx
      case h_1 y hr =>
        have hy : y = x := by simpa using hx
        subst hy
        rw [(run_collapses fuel (start_ok h) hr hf).1]
      case h_2 => cases hx

private theorem parseToks_outcome (env : PEnv) (toks : List Tok) (hw : WordsOk toks) (hc : CmdsOk toks) :
    (∃ e, parseToks env toks = .ok e) ∨ parseToks env toks = .error .panic := by
  cases hx : parseToks env toks with
  | ok e => exact .inl ⟨e, rfl⟩
  | error x => exact .inr (by rw [(C29_only_panic env toks hw hc x hx).1])

/-- One run of a conversion: it runs out of fuel in an expansion, or its answer is one of the rules'. -/
private theorem run_answers (fuel : Nat) (dflt : CommandSpec) (input : Text) (m : Mode) (spec : Option CommandSpec)
    (macros : Bool) : Answers dflt (spec.getD dflt) macros m input (convertInner fuel dflt input m spec macros) ∨
    (convertInner fuel dflt input m spec macros = .error .fuel ∧ macros = true ∧
      ∃ raw, tokensOf (spec.getD dflt) input = .ok raw ∧ expandAll fuel raw = .error .fuel) := by
  rcases C02_terminates (spec.getD dflt) input with ⟨raw, hraw⟩ | hp
  · have hT := (C59_tokens _ _ _).1 hraw
    have hd := C28_delivered _ _ _ hraw
    -- what follows once the tokens for the parser are known
    have go : ∀ toks, Delivered (spec.getD dflt) macros input toks → WordsOk toks → CmdsOk toks →
        parse fuel ⟨spec.getD dflt, globPrefix⟩ macros input = parseToks ⟨spec.getD dflt, globPrefix⟩ toks →
        Answers dflt (spec.getD dflt) macros m input (convertInner fuel dflt input m spec macros) := by
      intro toks hD hw hc hpe
      rcases parseToks_outcome ⟨spec.getD dflt, globPrefix⟩ toks hw hc with ⟨e, he⟩ | he
      · have hden : Denotes (spec.getD dflt) macros input e := ⟨toks, hD, (C62_exact _ _ hw hc e).1 he⟩
        have hparse := hpe.trans he
        rcases (C61_outcome dflt (Place.top m) e ⟨none, true⟩).1 with ⟨t, m', hpr⟩ | ⟨f, hf⟩
        · rw [(C61_document fuel dflt input m spec macros e hparse t).2 ⟨m', hpr⟩]
          exact .printed hden hpr
        · rw [(C61_document_fails fuel dflt input m spec macros e hparse f).2 hf]
          rcases (C61_outcome dflt (Place.top m) e ⟨none, true⟩).2.2.2 f hf with rfl | ⟨msg, rfl⟩
          · exact .crashed hden hf
          · exact .refused hden hf
      · have : convertInner fuel dflt input m spec macros = .error .panic := by
          unfold convertInner; rw [hpe, he]; rfl
        rw [this]
        exact .unreadable hD ((C62_panics _ _ hw hc).1 he)
    cases macros with
    | false =>
      refine .inl (go raw ⟨raw, hT, rfl⟩ hd.1.1 hd.1.2 ?_)
      unfold parse; rw [hraw]; rfl
    | true =>
      rcases expandAll_outcome hraw fuel with ⟨outs, ho⟩ | ho | ho
      · have hok := hd.2 fuel outs ho
        refine .inl (go outs ⟨raw, hT, ?_⟩ hok.1 hok.2 ?_)
        · exact (C65_exact _ _ _ hraw outs).1 ⟨fuel, ho⟩
        · unfold parse; rw [hraw]
          show (expandAll fuel raw >>= parseToks _) = _
          rw [ho]; rfl
      · refine .inl ?_
        have : convertInner fuel dflt input m spec true = .error .panic := by
          unfold convertInner parse; rw [hraw]
          show ((expandAll fuel raw >>= parseToks _) >>= convertTree dflt m) = _
          rw [ho]; rfl
        rw [this]
        exact .collapsed rfl hT ((expandAll_collapses hraw).1 ⟨fuel, ho⟩)
      · refine .inr ⟨?_, rfl, raw, hraw, ho⟩
        unfold convertInner parse; rw [hraw]
        show ((expandAll fuel raw >>= parseToks _) >>= convertTree dflt m) = _
        rw [ho]; rfl
  · refine .inl ?_
    have : convertInner fuel dflt input m spec macros = .error .panic := by
      unfold convertInner parse; rw [hp]; rfl
    rw [this]
    exact .stuck ((C02_panics_exactly _ _).1.1 hp)

/-- Two deliveries of the same text are the same, and exclude that the text is stuck, collapses. -/
private theorem delivered_unique {spec : CommandSpec} {macros : Bool} {input : Text} {toks toks' : List Tok}
    (h : Delivered spec macros input toks) (h' : Delivered spec macros input toks') : toks = toks' := by
  obtain ⟨raw, hT, hx⟩ := h
  obtain ⟨raw', hT', hx'⟩ := h'
  have h1 := (C59_tokens _ _ _).2 hT
  have h2 := (C59_tokens _ _ _).2 hT'
  rw [h1] at h2; cases h2
  cases macros with
  | false => exact hx.trans hx'.symm
  | true => exact (C65_unambiguous _ _ _ h1 _ _ hx).1 hx'

private theorem not_stuck {spec : CommandSpec} {input : Text} {raw : List Tok} (h : Tokenized spec input raw) :
    ¬ Stuck spec input :=
  (C02_panics_exactly spec input).2.1 ⟨raw, (C59_tokens _ _ _).2 h⟩

private theorem delivered_not_collapsed {spec : CommandSpec} {macros : Bool} {input : Text} {toks raw : List Tok}
    (h : Delivered spec macros input toks) (hm : macros = true) (hT : Tokenized spec input raw) : ¬ Collapses atStart raw := by
  subst hm
  obtain ⟨raw', hT', hx'⟩ := h
  have h1 := (C59_tokens _ _ _).2 hT
  have h2 := (C59_tokens _ _ _).2 hT'
  rw [h1] at h2; cases h2
  exact (C65_unambiguous _ _ _ h1 toks toks hx').2

private theorem denotes_unique {spec : CommandSpec} {macros : Bool} {input : Text} {e e' : Elem}
    (h : Denotes spec macros input e) (h' : Denotes spec macros input e') : e = e' := by
  obtain ⟨toks, hD, hg⟩ := h
  obtain ⟨toks', hD', hg'⟩ := h'
  cases delivered_unique hD hD'
  exact C62_unambiguous _ _ _ _ hg hg'

private theorem denotes_readable {spec : CommandSpec} {macros : Bool} {input : Text} {e : Elem} {toks : List Tok}
    (h : Denotes spec macros input e) (h' : Delivered spec macros input toks) :
    ∃ tree, Grammar.Document ⟨spec, globPrefix⟩ toks tree := by
  obtain ⟨toks', hD, hg⟩ := h
  cases delivered_unique hD h'
  exact ⟨e, hg⟩

private theorem denotes_delivered {spec : CommandSpec} {macros : Bool} {input : Text} {e : Elem}
    (h : Denotes spec macros input e) : ∃ toks, Delivered spec macros input toks := by
  obtain ⟨toks, hD, _⟩ := h; exact ⟨toks, hD⟩

/-- An answer that comes from a document, from unreadable tokens, or from a text that delivers nothing. -/
private theorem answers_unique {dflt spec : CommandSpec} {macros : Bool} {m : Mode} {input : Text} {r r' : Res Text}
    (h : Answers dflt spec macros m input r) (h' : Answers dflt spec macros m input r') : r = r' := by
  have key : ∀ {tree r'}, Denotes spec macros input tree → Answers dflt spec macros m input r' →
      (∃ t m', r' = .ok t ∧ Printed dflt (Place.top m) tree ⟨none, true⟩ t m') ∨
      (∃ f, r' = .error f ∧ Failed dflt (Place.top m) tree ⟨none, true⟩ f) := by
    intro tree r' hden ha
    cases ha with
    | printed hd hp => cases denotes_unique hden hd; exact .inl ⟨_, _, rfl, hp⟩
    | refused hd hp => cases denotes_unique hden hd; exact .inr ⟨_, rfl, hp⟩
    | crashed hd hp => cases denotes_unique hden hd; exact .inr ⟨_, rfl, hp⟩
    | unreadable hd hp => exact absurd (denotes_readable hden hd) hp
    | collapsed hm hT hc =>
      obtain ⟨toks, hD⟩ := denotes_delivered hden
      exact absurd hc (delivered_not_collapsed hD hm hT)
    | stuck hs =>
      obtain ⟨toks, raw, hT, _⟩ := denotes_delivered hden
      exact absurd hs (not_stuck hT)
  have fin : ∀ {tree r r'}, Denotes spec macros input tree → Answers dflt spec macros m input r →
      Answers dflt spec macros m input r' → r = r' := by
    intro tree r r' hden ha ha'
    have hout := C61_outcome dflt (Place.top m) tree ⟨none, true⟩
    rcases key hden ha with ⟨t, m1, rfl, hp⟩ | ⟨f, rfl, hf⟩
    · rcases key hden ha' with ⟨t', m2, rfl, hp'⟩ | ⟨f', rfl, hf'⟩
      · rw [(C61_unambiguous _ _ _ _ _ _ _ _ hp hp').1]
      · exact absurd hf' (hout.2.1 _ _ _ hp)
    · rcases key hden ha' with ⟨t', m2, rfl, hp'⟩ | ⟨f', rfl, hf'⟩
      · exact absurd hf (hout.2.1 _ _ _ hp')
      · rw [hout.2.2.1 _ _ hf hf']
  cases h with
  | printed hd hp => exact fin hd (.printed hd hp) h'
  | refused hd hp => exact fin hd (.refused hd hp) h'
  | crashed hd hp => exact fin hd (.crashed hd hp) h'
  | unreadable hd hp =>
    cases h' with
    | printed hd' hp' => exact fin hd' (.unreadable hd hp) (.printed hd' hp')
    | refused hd' hp' => exact fin hd' (.unreadable hd hp) (.refused hd' hp')
    | crashed hd' hp' => rfl
    | unreadable => rfl
    | collapsed => rfl
    | stuck => rfl
  | collapsed hm hT hc =>
    cases h' with
    | printed hd' hp' => exact fin hd' (.collapsed hm hT hc) (.printed hd' hp')
    | refused hd' hp' => exact fin hd' (.collapsed hm hT hc) (.refused hd' hp')
    | crashed hd' hp' => rfl
    | unreadable => rfl
    | collapsed => rfl
    | stuck => rfl
  | stuck hs =>
    cases h' with
    | printed hd' hp' => exact fin hd' (.stuck hs) (.printed hd' hp')
    | refused hd' hp' => exact fin hd' (.stuck hs) (.refused hd' hp')
    | crashed hd' hp' => rfl
    | unreadable => rfl
    | collapsed => rfl
    | stuck => rfl

private theorem answers_not_fuel {dflt spec : CommandSpec} {macros : Bool} {m : Mode} {input : Text} {r : Res Text}
    (h : Answers dflt spec macros m input r) : r ≠ .error .fuel := by
  intro hr; cases h <;> cases hr

private theorem delivered_not_lasts {spec : CommandSpec} {input : Text} {toks raw : List Tok}
    (h : Delivered spec true input toks) (hT : Tokenized spec input raw) : ¬ ∀ n, Lasts n atStart raw := by
  obtain ⟨raw', hT', hx'⟩ := h
  have h1 := (C59_tokens _ _ _).2 hT
  have h2 := (C59_tokens _ _ _).2 hT'
  rw [h1] at h2; cases h2
  intro hl
  obtain ⟨fuel, hf⟩ := (C65_exact _ _ _ h1 toks).2 hx'
  rw [(C65_outcome _ _ _ h1).2.1 hl fuel] at hf
  cases hf

private theorem answers_not_endless {dflt spec : CommandSpec} {macros : Bool} {m : Mode} {input : Text} {r : Res Text}
    (h : Answers dflt spec macros m input r) : ¬ Endless spec macros input := by
  rintro ⟨rfl, raw, hT, hl⟩
  have h1 := (C59_tokens _ _ _).2 hT
  cases h with
  | printed hd hp => obtain ⟨toks, hD⟩ := denotes_delivered hd; exact delivered_not_lasts hD hT hl
  | refused hd hp => obtain ⟨toks, hD⟩ := denotes_delivered hd; exact delivered_not_lasts hD hT hl
  | crashed hd hp => obtain ⟨toks, hD⟩ := denotes_delivered hd; exact delivered_not_lasts hD hT hl
  | unreadable hD hp => exact delivered_not_lasts hD hT hl
  | collapsed hm hT' hc =>
    have h2 := (C59_tokens _ _ _).2 hT'
    rw [h1] at h2; cases h2
    obtain ⟨fuel, hf⟩ := (expandAll_collapses h1).2 hc
    rw [(C65_outcome _ _ _ h1).2.1 hl fuel] at hf
    cases hf
  | stuck hs => exact not_stuck hT hs

/-- A text that is not `Endless` comes to an answer with enough fuel. -/
private theorem reaches (dflt : CommandSpec) (input : Text) (m : Mode) (spec : Option CommandSpec) (macros : Bool)
    (h : ¬ Endless (spec.getD dflt) macros input) :
    ∃ fuel, Answers dflt (spec.getD dflt) macros m input (convertInner fuel dflt input m spec macros) := by
  refine Classical.byContradiction fun hno => h ?_
  have hall : ∀ fuel, macros = true ∧ ∃ raw, tokensOf (spec.getD dflt) input = .ok raw ∧ expandAll fuel raw = .error .fuel := by
    intro fuel
    rcases run_answers fuel dflt input m spec macros with ha | ⟨_, hb⟩
    · exact absurd ⟨fuel, ha⟩ hno
    · exact hb
  obtain ⟨hm, raw, hraw, _⟩ := hall 0
  refine ⟨hm, raw, (C59_tokens _ _ _).1 hraw, (C65_outcome _ _ _ hraw).2.2 fun fuel => ?_⟩
  obtain ⟨_, raw', hraw', hf⟩ := hall fuel
  rw [hraw] at hraw'; cases hraw'
  exact hf

/-- **C66.** Whatever the input, the mode, the specification given and whether macros are enabled: the
conversion comes to the answer `r` — an output text, a message, a panic — exactly when the rules of
`Spec/EndToEnd` give that answer. -/
theorem C66_exact (dflt : CommandSpec) (input : Text) (m : Mode) (spec : Option CommandSpec) (macros : Bool) (r : Res Text)
    (hr : r ≠ .error .fuel) :
    (∃ fuel, convertInner fuel dflt input m spec macros = r) ↔ Answers dflt (spec.getD dflt) macros m input r := by
  constructor
  · rintro ⟨fuel, rfl⟩
    rcases run_answers fuel dflt input m spec macros with ha | ⟨hb, _⟩
    · exact ha
    · exact absurd hb hr
  · intro ha
    obtain ⟨fuel, hf⟩ := reaches dflt input m spec macros (answers_not_endless ha)
    exact ⟨fuel, answers_unique hf ha⟩

/-- **C66.** The conversion runs for ever exactly when macros are enabled and the expansion goes on for ever. -/
theorem C66_endless (dflt : CommandSpec) (input : Text) (m : Mode) (spec : Option CommandSpec) (macros : Bool) :
    (∀ fuel, convertInner fuel dflt input m spec macros = .error .fuel) ↔ Endless (spec.getD dflt) macros input := by
  constructor
  · intro h
    refine Classical.byContradiction fun hno => ?_
    obtain ⟨fuel, hf⟩ := reaches dflt input m spec macros hno
    exact answers_not_fuel hf (h fuel)
  · intro h fuel
    rcases run_answers fuel dflt input m spec macros with ha | ⟨hb, _⟩
    · exact absurd h (answers_not_endless ha)
    · exact hb

/-- **C66.** Every text has exactly one outcome: one answer, and it is not endless; or it is endless, and
has no answer. -/
theorem C66_outcome (dflt spec : CommandSpec) (macros : Bool) (m : Mode) (input : Text) :
    (∃ r, Answers dflt spec macros m input r ∧ (∀ r', Answers dflt spec macros m input r' → r' = r) ∧
      ¬ Endless spec macros input) ∨
    (Endless spec macros input ∧ ∀ r, ¬ Answers dflt spec macros m input r) := by
  by_cases h : Endless spec macros input
  · exact .inr ⟨h, fun r ha => answers_not_endless ha h⟩
  · obtain ⟨fuel, hf⟩ := reaches dflt input m (some spec) macros h
    exact .inl ⟨_, hf, fun r' h' => answers_unique h' hf, h⟩

/-- **C66.** Without macros the answer comes always, and the same for every fuel. -/
theorem C66_no_macro (fuel : Nat) (dflt : CommandSpec) (input : Text) (spec : Option CommandSpec) (r : Res Text) :
    convertMathNoMacro fuel dflt input spec = r ↔ Answers dflt (spec.getD dflt) false .math input r := by
  have hall : Answers dflt (spec.getD dflt) false .math input (convertMathNoMacro fuel dflt input spec) := by
    rcases run_answers fuel dflt input .math spec false with ha | ⟨_, hb, _⟩
    · exact ha
    · cases hb
  constructor
  · rintro rfl; exact hall
  · intro ha; exact answers_unique hall ha

/-- **C66.** `convert_text` and `convert_math` return the text `out` exactly when the rules say so. -/
theorem C66_converts (dflt : CommandSpec) (input : Text) (spec : Option CommandSpec) (out : Text) :
    ((∃ fuel, convertText fuel dflt input spec = .ok out) ↔
      ∃ tree m', Denotes (spec.getD dflt) true input tree ∧ Printed dflt (Place.top .text) tree ⟨none, true⟩ out m') ∧
    ((∃ fuel, convertMath fuel dflt input spec = .ok out) ↔
      ∃ tree m', Denotes (spec.getD dflt) true input tree ∧ Printed dflt (Place.top .math) tree ⟨none, true⟩ out m') := by
  constructor
  all_goals
    refine (C66_exact dflt input _ spec true (.ok out) (fun h => (by cases h))).trans ⟨fun h => ?_, ?_⟩
    · cases h with
      | printed hd hp => exact ⟨_, _, hd, hp⟩
    · rintro ⟨tree, m', hd, hp⟩
      exact .printed hd hp

/-- **C46.** A conversion panics exactly if the text cannot be cut into tokens, or (with macros) its expansion comes to a bad definition,
or the delivered tokens are no document of the grammar, or a template of the document crashes. -/
theorem C46_exact (dflt : CommandSpec) (input : Text) (m : Mode) (spec : Option CommandSpec) (macros : Bool) :
    (∃ fuel, convertInner fuel dflt input m spec macros = .error .panic) ↔
      Stuck (spec.getD dflt) input ∨
      (macros = true ∧ ∃ raw, Tokenized (spec.getD dflt) input raw ∧ Collapses atStart raw) ∨
      (∃ toks, Delivered (spec.getD dflt) macros input toks ∧ ¬ ∃ tree, Grammar.Document ⟨spec.getD dflt, globPrefix⟩ toks tree) ∨
      ∃ tree, Denotes (spec.getD dflt) macros input tree ∧ Failed dflt (Place.top m) tree ⟨none, true⟩ .panic := by
  refine (C66_exact dflt input m spec macros (.error .panic) (fun h => (by cases h))).trans ⟨fun h => ?_, ?_⟩
  · cases h with
    | crashed hd hf => exact .inr (.inr (.inr ⟨_, hd, hf⟩))
    | unreadable hd hn => exact .inr (.inr (.inl ⟨_, hd, hn⟩))
    | collapsed hm ht hc => exact .inr (.inl ⟨hm, _, ht, hc⟩)
    | stuck hs => exact .inl hs
  · rintro (hs | ⟨hm, raw, ht, hc⟩ | ⟨toks, hd, hn⟩ | ⟨tree, hd, hf⟩)
    · exact .stuck hs
    · exact .collapsed hm ht hc
    · exact .unreadable hd hn
    · exact .crashed hd hf

/-- **C48.** The given specification directs lexing and parsing only: the answer depends on it through the denoted document alone, whose
templates are those of the default specification. -/
theorem C48_exact (dflt spec : CommandSpec) (input : Text) (m : Mode) (macros : Bool) (out : Text) :
    (∃ fuel, convertInner fuel dflt input m (some spec) macros = .ok out) ↔
      ∃ tree m', Denotes spec macros input tree ∧ Printed dflt (Place.top m) tree ⟨none, true⟩ out m' := by
  refine (C66_exact dflt input m (some spec) macros (.ok out) (fun h => (by cases h))).trans ⟨fun h => ?_, ?_⟩
  · cases h with
    | printed hd hp => exact ⟨_, _, hd, hp⟩
  · rintro ⟨tree, m', hd, hp⟩
    exact .printed hd hp

/-! The four kinds of answers exist, and so does an endless conversion. -/

example : Answers defaultSpec defaultSpec false .math t!"\\frac{a}{b}" (.ok t!"frac(a ,b )") :=
  (C66_no_macro 50 defaultSpec t!"\\frac{a}{b}" none _).1 (by decide +kernel)

example : Answers defaultSpec defaultSpec false .math t!"\\nonsense" (.error (.error t!"unknown command: \\nonsense")) :=
  (C66_no_macro 50 defaultSpec t!"\\nonsense" none _).1 (by decide +kernel)

example : Answers defaultSpec defaultSpec false .math t!"\\label" (.error .panic) :=
  (C66_no_macro 50 defaultSpec t!"\\label" none _).1 (C46_crashes _ (by simp))

example : Answers defaultSpec defaultSpec true .text t!"\\newcommand{\\a}[1]{#1 #1}\\a{x}" (.ok t!"x x") :=
  (C66_exact defaultSpec t!"\\newcommand{\\a}[1]{#1 #1}\\a{x}" .text none true _ (fun h => (by cases h))).1 ⟨20, by decide +kernel⟩

example (dflt : CommandSpec) (m : Mode) : ¬ ∃ r, Answers dflt dflt true m t!"\\newcommand{\\a}{\\a}\\a" r := by
  have he : Endless dflt true t!"\\newcommand{\\a}{\\a}\\a" := by
    have ht : tokensOf dflt t!"\\newcommand{\\a}{\\a}\\a" = .ok [cmdTok "newcommand".toList, lBrace, cmdTok ['a'], rBrace,
      lBrace, cmdTok ['a'], rBrace, cmdTok ['a']] := rfl
    exact ⟨rfl, _, (C59_tokens _ _ _).1 ht, (C65_outcome _ _ _ ht).2.2 C18_self_reference_diverges⟩
  rintro ⟨r, hr⟩
  exact (C66_outcome dflt dflt true m _).elim (fun ⟨_, _, _, h⟩ => h he) fun h => h.2 r hr

end Mitex
