/-
C76: only the entries of the names mentioned in the text matter.
-/
import Verif.Proof.AgreeLex
import Verif.Proof.AgreeParse
import Verif.Proof.AgreeConvert
import Verif.Props.SpecQuery

namespace Mitex
open Agree (Apt AllAlike)

/-- **C76.** Two specifications with the same entries for the names mentioned in a text read the same tokens from it. -/
theorem C76_tokens (a b : CommandSpec) (s : Text) (h : AgreeOn a b s) : tokensOf a s = tokensOf b s := Agree.tokensOf_agree h

namespace Agree

/-- The tokens of the text, and those delivered by the macro engine. -/
theorem tokens_same {a b : CommandSpec} {spec : CommandSpec} {s : Text} {toks : List Tok} (h : AgreeOn a b s) (ht : tokensOf spec s = .ok toks) :
    ∀ t ∈ toks, ∀ n, t.1 = .cmd n → Same a b n t.2 := by
  intro t hm n hn
  obtain ⟨h1, h2⟩ := tokens_mentioned ht hm hn
  refine ⟨fun name e => h _ (h1 name e), fun e => ?_, fun e => ?_⟩
  · obtain ⟨h3, h4⟩ := h2 e
    rw [h4]
    exact h _ h3
  · have hs := tokensOf_shape ht t hm
    rw [hn, e] at hs
    obtain ⟨hs, _⟩ := hs
    cases ht2 : t.2 with
    | nil => rw [ht2] at hs; cases hs
    | cons c cs => rw [ht2] at hs; cases hs; exact ⟨cs, rfl⟩

theorem tokens_alike {a b : CommandSpec} {s : Text} {toks : List Tok} (h : AgreeOn a b s) (ht : tokensOf a s = .ok toks) : AllAlike a b toks := by
  intro t hm n hn
  obtain ⟨h1, h2⟩ := tokens_mentioned ht hm hn
  exact ⟨fun name e => h _ (h1 name e), fun e => h _ (h2 e).1⟩

theorem tokInv_alike {a b : CommandSpec} (hfi : a t!"fi" = b t!"fi") : TokInv (Alike a b) where
  err _ := fun n h => (by cases h)
  fi := fun n h => (by
    cases h
    refine ⟨fun name e => ?_, fun e => (by cases e)⟩
    cases (show t!"\\fi" = '\\' :: name from e)
    exact hfi)
  char _ _ _ _ := fun n h => (by cases h)
  suf _ _ _ _ := fun n h => (by cases h)
  leak := .inl fun d h _ _ _ => fun n h => (by cases h)

end Agree

/-- **C76.** They parse it to the same tree, or fail in the same way; with macros they must also agree on `fi` (the macro engine puts a `\fi`
where one is missing). -/
theorem C76_parse (fuel : Nat) (a b : CommandSpec) (glob : GlobFn) (macros : Bool) (s : Text) (h : AgreeOn a b s)
    (hfi : macros = true → a t!"fi" = b t!"fi") : parse fuel ⟨a, glob⟩ macros s = parse fuel ⟨b, glob⟩ macros s := by
  unfold parse
  rw [C76_tokens a b s h]
  cases ht : tokensOf b s with
  | error e => rfl
  | ok toks =>
    have ha : tokensOf a s = .ok toks := (C76_tokens a b s h).trans ht
    have hal := Agree.tokens_alike h ha
    obtain ⟨hw, hm⟩ := C28_delivered a s toks ha
    cases macros with
    | false => exact Agree.parseToks_alike hal hw.1 hw.2
    | true =>
      show (expandAll fuel toks >>= parseToks _) = (expandAll fuel toks >>= parseToks _)
      cases hx : expandAll fuel toks with
      | error e => rfl
      | ok outs =>
        refine Agree.parseToks_alike (a := a) (b := b) ?_ (hm fuel outs hx).1 (hm fuel outs hx).2
        unfold expandAll at hx
        split at hx
        · cases hx
        · rename_i e c hr
          cases hx
          exact ((engRun_inv (Agree.tokInv_alike (hfi rfl)) fuel (e := Eng.new) (defaultTable_inv _) (c := ⟨toks, []⟩)
            ⟨hal, fun _ h => (by cases h)⟩).1 e c hr).2.2

/-- **C76.** The same answers for every input: if the specifications used for parsing, and those used for printing, agree on the names mentioned in
the text (and on `fi`, with macros), the converter gives the same Typst text, or fails in the same way. -/
theorem C76_converts (fuel : Nat) (d1 d2 : CommandSpec) (s1 s2 : Option CommandSpec) (mode : Mode) (macros : Bool) (s : Text)
    (hd : AgreeOn d1 d2 s) (hs : AgreeOn (s1.getD d1) (s2.getD d2) s)
    (hfi : macros = true → d1 t!"fi" = d2 t!"fi" ∧ s1.getD d1 t!"fi" = s2.getD d2 t!"fi") :
    convertInner fuel d1 s mode s1 macros = convertInner fuel d2 s mode s2 macros := by
  have hp := C76_parse fuel (s1.getD d1) (s2.getD d2) globPrefix macros s hs fun h => (hfi h).2
  cases h1 : parse fuel ⟨s1.getD d1, globPrefix⟩ macros s with
  | error e =>
    unfold convertInner
    rw [← hp, h1]
    rfl
  | ok tree =>
    have h2 := hp.symm.trans h1
    have hapt : Apt d1 d2 tree := by
      cases macros with
      | false =>
        obtain ⟨toks, ht, hdoc⟩ := (C62_text _ fuel s tree).1 h1
        have hf : FineToks (Agree.Same d1 d2) toks := fun t hm => shape_fine (tokensOf_shape ht t hm) (Agree.tokens_same hd ht t hm)
        exact Agree.whole_apt (document_parts hdoc hf).1 (document_parts hdoc hf).2
      | true =>
        have hq : Agree.Same d1 d2 .endIf t!"\\fi" := ⟨fun name e => (by cases e; exact (hfi rfl).1), fun e => (by cases e), fun e => (by cases e)⟩
        obtain ⟨g1, g2⟩ := parse_parts (Q := Agree.Same d1 d2) hq (fun toks ht t hm n hn => Agree.tokens_same hd ht t hm n hn) h1
        exact Agree.whole_apt g1 g2
    cases hc : convertInner fuel d1 s mode s1 macros with
    | ok out =>
      obtain ⟨m', hpr⟩ := (C61_document fuel d1 s mode s1 macros tree h1 out).1 hc
      exact ((C61_document fuel d2 s mode s2 macros tree h2 out).2 ⟨m', Agree.printed_apt hpr hapt⟩).symm
    | error f =>
      have hpr := (C61_document_fails fuel d1 s mode s1 macros tree h1 f).1 hc
      exact ((C61_document_fails fuel d2 s mode s2 macros tree h2 f).2 (Agree.failed_apt hpr hapt)).symm

/-- **C76.** Adding, changing or removing the entry of a name that is not mentioned does not matter. -/
theorem C76_entry (fuel : Nat) (d : CommandSpec) (n : Text) (v : Option SpecItem) (mode : Mode) (macros : Bool) (s : Text)
    (hn : ¬ Mentioned n s) (hfi : macros = true → n ≠ t!"fi") :
    convertInner fuel (fun k => if k = n then v else d k) s mode none macros = convertInner fuel d s mode none macros := by
  have h : AgreeOn (fun k => if k = n then v else d k) d s := fun k hk => if_neg fun (e : k = n) => hn (e ▸ hk)
  exact C76_converts fuel _ d none none mode macros s h h fun hm => ⟨if_neg (hfi hm).symm, if_neg (hfi hm).symm⟩

namespace Agree

theorem merge_nodup (pkgs : List (HMap SugarItem)) : ((mergePackages pkgs).map Prod.fst).Nodup := by
  have inner : ∀ (es : List (Text × SugarItem)) (m : HMap SugarItem), (m.map Prod.fst).Nodup →
      ((es.foldl (fun acc e => HMap.insert acc e.1 e.2) m).map Prod.fst).Nodup := by
    intro es
    induction es with
    | nil => intro m h; exact h
    | cons e es ih => intro m h; exact ih _ (HMap.insert_nodup m e.1 e.2 h)
  have outer : ∀ (pkgs : List (HMap SugarItem)) (m : HMap SugarItem), (m.map Prod.fst).Nodup →
      ((pkgs.foldl (fun acc pkg => pkg.foldl (fun acc e => HMap.insert acc e.1 e.2) acc) m).map Prod.fst).Nodup := by
    intro pkgs
    induction pkgs with
    | nil => intro m h; exact h
    | cons e es ih => intro m h; exact ih _ (inner e m h)
  exact outer pkgs [] List.nodup_nil

theorem lastDefinition_skip {n : Text} {p : HMap SugarItem} (h : p.get n = none) : ∀ (ps qs : List (HMap SugarItem)),
    lastDefinition n (ps ++ p :: qs) = lastDefinition n (ps ++ qs)
  | [], qs => by
    rw [List.nil_append, List.nil_append, lastDefinition, h]
    cases lastDefinition n qs <;> rfl
  | a :: ps, qs => by
    rw [List.cons_append, List.cons_append, lastDefinition, lastDefinition, lastDefinition_skip h ps qs]

end Agree

/-- **C76.** A package none of whose names is mentioned does not matter, wherever it is among the packages. -/
theorem C76_package (fuel : Nat) (ps qs : List (HMap SugarItem)) (p : HMap SugarItem) (mode : Mode) (macros : Bool) (s : Text)
    (hk : ∀ q ∈ ps ++ p :: qs, (q.map Prod.fst).Nodup)
    (hn : ∀ n, Mentioned n s → p.get n = none) (hfi : macros = true → p.get t!"fi" = none) :
    convertInner fuel (specOfMap (canonRepr (mergePackages (ps ++ p :: qs)))) s mode none macros =
      convertInner fuel (specOfMap (canonRepr (mergePackages (ps ++ qs)))) s mode none macros := by
  have key : ∀ n, p.get n = none → specOfMap (canonRepr (mergePackages (ps ++ p :: qs))) n = specOfMap (canonRepr (mergePackages (ps ++ qs))) n := by
    intro n h
    rw [C50_canonicalise _ (Agree.merge_nodup _), C50_canonicalise _ (Agree.merge_nodup _), C51_merge _ hk, C51_merge _, Agree.lastDefinition_skip h]
    intro q hq
    rcases List.mem_append.1 hq with hq | hq
    · exact hk q (List.mem_append_left _ hq)
    · exact hk q (List.mem_append_right _ (List.mem_cons_of_mem _ hq))
  have h : AgreeOn (specOfMap (canonRepr (mergePackages (ps ++ p :: qs)))) (specOfMap (canonRepr (mergePackages (ps ++ qs)))) s :=
    fun n hm => key n (hn n hm)
  exact C76_converts fuel _ _ none none mode macros s h h fun hm => ⟨key _ (hfi hm), key _ (hfi hm)⟩

/-- The command used in the examples. -/
def Agree.beta : SpecItem := .cmd ⟨.right .none, some t!"gamma"⟩

/-- The hypotheses are met: `beta` is not mentioned in `$\alpha+\frac{1}{2}$`, so a specification that changes it gives the same answer. -/
example : convertText 50 (fun k => if k = t!"beta" then some Agree.beta else defaultSpec k) t!"$\\alpha+\\frac{1}{2}$" none =
    .ok t!"#math.equation(block: false, $alpha + frac(1 ,2 )$);" := by
  have hb : 'b' ∉ t!"$\\alpha+\\frac{1}{2}$" := by decide
  refine (C76_entry 50 defaultSpec t!"beta" (some Agree.beta) .text true t!"$\\alpha+\\frac{1}{2}$" ?_ (fun _ => by decide)).trans (by decide +kernel)
  rintro (h | ⟨a, h⟩)
  · exact hb (h.subset (by simp))
  · exact hb (h.subset (by simp))

/-- **C76**, its limit: the entries of the names that are mentioned do matter, also for the tokens: `\alpha*` is one command if
`alpha*` has an entry, and else `\alpha` and an asterisk. -/
theorem C76_mentioned : ∃ d1 d2 : CommandSpec, (∀ k, k ≠ t!"alpha*" → d1 k = d2 k) ∧
    convertMathNoMacro 50 d1 t!"\\alpha*" none = .ok t!"alpha \\*" ∧ convertMathNoMacro 50 d2 t!"\\alpha*" none = .ok t!"gamma " :=
  ⟨defaultSpec, fun k => if k = t!"alpha*" then some Agree.beta else defaultSpec k, fun k h => (if_neg h).symm, by decide +kernel, by decide +kernel⟩

end Mitex
