/-
C87: what macros are called does not matter.
-/
import Verif.Proof.Renamed
import Verif.Props.Blank

namespace Mitex

namespace Renamed

theorem exchangeTok_silent {a b : Text} {t : Tok} (h : ¬ SaysName a t ∧ ¬ SaysName b t) : exchangeTok a b t = t := by
  unfold exchangeTok
  split
  · rename_i k n
    rw [exchange_other (fun e => h.1 (.inl ⟨k, by rw [e]⟩)) (fun e => h.2 (.inl ⟨k, by rw [e]⟩))]
  · rename_i n
    rw [exchange_other (fun e => h.1 (.inr (by rw [e]))) (fun e => h.2 (.inr (by rw [e])))]
  · rfl

theorem clause_shape {t : Tok} (h : TokShape t.1 t.2) (hk : t.1 = .cmd .beginEnv ∨ t.1 = .cmd .endEnv) : t.2.head? ≠ some '\\' := by
  have he : EnvName t.2 := by rcases hk with e | e <;> (rw [e] at h; exact h)
  obtain ⟨l, h1, h2⟩ := he
  intro hh
  have key : ∀ c, NameChar c → c ≠ '\\' := by
    rintro _ hc rfl
    revert hc; unfold NameChar; decide
  rcases h2 with e | e
  · rw [e] at hh
    cases l with
    | nil => cases hh
    | cons c l => cases hh; exact key _ (h1 _ (List.mem_cons_self ..)) rfl
  · rw [e] at hh
    cases l with
    | nil => cases hh
    | cons c l => cases hh; exact key _ (h1 _ (List.mem_cons_self ..)) rfl

/-- The tokens of a text can be exchanged. -/
theorem fit {spec : CommandSpec} {s : Text} {ts : List Tok} (h : tokensOf spec s = .ok ts) {a b : Text} (ha : OwnName a) (hb : OwnName b)
    (hn : NoEnvironment a b ts) : ∃ P, Fit a b P ∧ ∀ t ∈ ts, P t := by
  have hsh := tokensOf_shape h
  rcases hn with hn | hn
  · refine ⟨fun t => (∀ n ∈ environmentDefiners, t ≠ cmdTok n) ∧ (t.1 = .cmd .beginEnv ∨ t.1 = .cmd .endEnv → t.2.head? ≠ some '\\'), ?_, fun t ht => ⟨?_, ?_⟩⟩
    · refine ⟨fun w c _ _ => ?_, fun u v _ => ?_, fun n w h1 h2 _ => absurd rfl (h2.1 n h1), fun t h1 => h1.2, fun d x => ?_, fun x => ?_, ?_, ha, hb⟩
      · exact ⟨fun n _ h => (by cases h), fun h => (by rcases h with h | h <;> cases h)⟩
      · exact ⟨fun n _ h => (by cases h), fun h => (by rcases h with h | h <;> cases h)⟩
      · exact ⟨fun n _ h => (by cases h), fun h => (by rcases h with h | h <;> cases h)⟩
      · exact ⟨fun n _ h => (by cases h), fun h => (by rcases h with h | h <;> cases h)⟩
      · exact ⟨fun n _ h => (by cases h), fun h => (by rcases h with h | h <;> cases h)⟩
    · exact fun n hm e => hn n hm (e ▸ ht)
    · exact clause_shape (hsh t ht)
  · refine ⟨fun t => (t.1 = .word → SpellsNot a t.2 ∧ SpellsNot b t.2) ∧ (t.1 = .cmd .beginEnv ∨ t.1 = .cmd .endEnv → t.2.head? ≠ some '\\'), ?_,
      fun t ht => ⟨?_, ?_⟩⟩
    · have one : ∀ {n w : Text} {c : Char}, SpellsNot n w → c ∈ w → SpellsNot n [c] := by
        intro n w c h hc
        have hne : ([] : Text) ≠ n := h.1 w [] (by simp)
        refine ⟨fun p q e => ?_, fun d hd => ?_⟩
        · cases p with
          | nil => rw [← (show [c] = q from e)]; exact h.2 c hc
          | cons x p =>
            have : q = [] := by
              have := congrArg List.length e
              cases q with
              | nil => rfl
              | cons y q => simp at this
            rw [this]; exact hne
        · rw [List.mem_singleton.1 hd]; exact h.2 c hc
      have rest : ∀ {n u v : Text}, SpellsNot n (u ++ v) → SpellsNot n v := fun {_ u _} h =>
        ⟨fun p q e => h.1 (u ++ p) q (by rw [e, List.append_assoc]), fun c hc => h.2 c (List.mem_append_right _ hc)⟩
      refine ⟨fun w c h1 hc => ?_, fun u v h1 => ?_, fun n w _ _ h2 => ?_, fun t h1 => h1.2, fun d x => ?_, fun x => ?_, ?_, ha, hb⟩
      · exact ⟨fun _ => ⟨one (h1.1 rfl).1 hc, one (h1.1 rfl).2 hc⟩, fun h => (by rcases h with h | h <;> cases h)⟩
      · exact ⟨fun _ => ⟨rest (h1.1 rfl).1, rest (h1.1 rfl).2⟩, fun h => (by rcases h with h | h <;> cases h)⟩
      · exact exchange_other ((h2.1 rfl).1.1 [] w rfl) ((h2.1 rfl).2.1 [] w rfl)
      · exact ⟨fun h => (by cases h), fun h => (by rcases h with h | h <;> cases h)⟩
      · exact ⟨fun h => (by cases h), fun h => (by rcases h with h | h <;> cases h)⟩
      · exact ⟨fun h => (by cases h), fun h => (by rcases h with h | h <;> cases h)⟩
    · exact fun e => hn t.2 (e ▸ ht)
    · exact clause_shape (hsh t ht)

theorem start_alike {a b : Text} {P : Tok → Prop} (hP : Fit a b P) : EngAlike a b P atStart atStart := by
  have hd : ∀ n v, defaultMacros n = some v → ∃ d, v = .declare d := by
    intro n v h
    have e : ∀ l : List (Text × Macro), (∀ p ∈ l, ∃ d, p.2 = .declare d) → l.lookup n = some v → ∃ d, v = .declare d := by
      intro l
      induction l with
      | nil => intro _ h; cases h
      | cons p l ih =>
        intro hl h
        obtain ⟨x, y⟩ := p
        rw [List.lookup_cons] at h
        split at h
        · cases h; exact hl _ (List.mem_cons_self ..)
        · exact ih (fun q hq => hl q (List.mem_cons_of_mem _ hq)) h
    refine e declarativeMacros ?_ h
    unfold declarativeMacros
    simp
  refine ⟨⟨fun n => ?_, fun n d h => h, fun n nm k o b' d h => ?_⟩, rfl⟩
  · show Opt _ (defaultMacros n) (defaultMacros (exchange a b n))
    cases h : defaultMacros n with
    | some v =>
      rw [hP.same (.inl (by rw [h]; exact fun h => (by cases h))), h]
      obtain ⟨d, rfl⟩ := hd n v h
      exact .some (.declare d)
    | none =>
      cases h' : defaultMacros (exchange a b n) with
      | none => exact .none
      | some v =>
        have e := hP.same (.inl (show defaultMacros (exchange a b n) ≠ none by rw [h']; exact fun h => (by cases h)))
        rw [exchange_twice] at e
        rw [← e, h] at h'
        cases h'
  · obtain ⟨_, h'⟩ := hd n _ h
    cases h'

end Renamed

/-- **C87**, expansion: if two texts are the same but for the names `a` and `b`, which are exchanged (so that a macro called `a` is called `b`
instead), then (with enough fuel) the delivered tokens are the same but for these names, or both end in a panic, or neither ends. -/
theorem C87_expansion (spec : CommandSpec) (s s' : Text) (a b : Text) (ha : OwnName a) (hb : OwnName b) (ts : List Tok)
    (h : tokensOf spec s = .ok ts) (h' : tokensOf spec s' = .ok (ts.map (exchangeTok a b))) (hn : NoEnvironment a b ts) :
    ∃ N, ∀ F, N ≤ F →
      (∃ o, expandAll F ts = .ok o ∧ expandAll F (ts.map (exchangeTok a b)) = .ok (o.map (exchangeTok a b))) ∨
      (expandAll F ts = .error .panic ∧ expandAll F (ts.map (exchangeTok a b)) = .error .panic) ∨
      (expandAll F ts = .error .fuel ∧ expandAll F (ts.map (exchangeTok a b)) = .error .fuel) := by
  obtain ⟨P, hP, hts⟩ := Renamed.fit h ha hb hn
  have he := Renamed.start_alike hP
  have ht := Renamed.toks_of (na := a) (nb := b) hts
  obtain ⟨hout, hlast⟩ := C65_outcome spec s ts h
  rcases hout with ⟨outs, hx⟩ | hx | hx
  · obtain ⟨outs', hx', ho⟩ := Renamed.expands_alike hP hx he ht
    rw [Renamed.toks_map ho] at hx'
    obtain ⟨n, hn⟩ := (C65_exact spec s ts h outs).2 hx
    obtain ⟨n', hn'⟩ := (C65_exact spec s' _ h' _).2 hx'
    exact ⟨n + n', fun F hF => .inl ⟨_, expandAll_mono hn (by omega), expandAll_mono hn' (by omega)⟩⟩
  · have hx' := Renamed.collapses_alike hP hx he ht
    have stop : ∀ {u : Text} {us : List Tok}, tokensOf spec u = .ok us → Collapses atStart us → ∃ n, ∀ F, n ≤ F → expandAll F us = .error .panic := by
      intro u us hu hc
      obtain ⟨n, hn⟩ := hc.run (start_ok hu) []
      refine ⟨n, fun F hF => ?_⟩
      obtain ⟨k, rfl⟩ := Nat.exists_eq_add_of_le hF
      have := engRun_stop_mono n _ _ _ hn (fun h => (by cases h)) k
      simp only [expandAll]
      rw [show Eng.new = atStart from rfl, Nat.add_comm, this]
    obtain ⟨n, hn⟩ := stop h hx
    obtain ⟨n', hn'⟩ := stop h' hx'
    exact ⟨n + n', fun F hF => .inr (.inl ⟨hn F (by omega), hn' F (by omega)⟩)⟩
  · have hx' : ∀ n, Lasts n atStart (ts.map (exchangeTok a b)) := fun n => Renamed.lasts_alike hP (hx n) he ht
    exact ⟨0, fun F _ => .inr (.inr ⟨hlast.1 hx F, (C65_outcome spec s' _ h').2.1 hx' F⟩)⟩

/-- **C87**, documents: if in addition no delivered token says one of the names (no call is left, and no report about them), then the two texts are
converted to the same output, or fail in the same way. -/
theorem C87_converts (dflt : CommandSpec) (m : Mode) (spec : Option CommandSpec) (s s' : Text) (a b : Text) (ha : OwnName a) (hb : OwnName b)
    (ts : List Tok) (h : tokensOf (spec.getD dflt) s = .ok ts) (h' : tokensOf (spec.getD dflt) s' = .ok (ts.map (exchangeTok a b)))
    (hn : NoEnvironment a b ts) :
    ∃ N, ∀ F, N ≤ F → (∀ o, expandAll F ts = .ok o → ∀ t ∈ o, ¬ SaysName a t ∧ ¬ SaysName b t) →
      convertInner F dflt s m spec true = convertInner F dflt s' m spec true := by
  obtain ⟨N, hN⟩ := C87_expansion (spec.getD dflt) s s' a b ha hb ts h h' hn
  refine ⟨N, fun F hF ho => ?_⟩
  have e1 : parserTokens F (spec.getD dflt) true s = expandAll F ts := by unfold parserTokens; rw [h]; rfl
  have e2 : parserTokens F (spec.getD dflt) true s' = expandAll F (ts.map (exchangeTok a b)) := by unfold parserTokens; rw [h']; rfl
  have e : expandAll F ts = expandAll F (ts.map (exchangeTok a b)) := by
    rcases hN F hF with ⟨o, k1, k2⟩ | ⟨k1, k2⟩ | ⟨k1, k2⟩
    · rw [k1, k2]
      congr 1
      have h1 := ho o k1
      clear k1 k2 ho
      induction o with
      | nil => rfl
      | cons t o ih =>
        rw [List.map_cons, Renamed.exchangeTok_silent (h1 t (List.mem_cons_self ..)), ← ih fun u hu => h1 u (List.mem_cons_of_mem _ hu)]
    · rw [k1, k2]
    · rw [k1, k2]
  unfold convertInner
  rw [Blank.parse_tokens, Blank.parse_tokens, show parserTokens F (PEnv.spec ⟨spec.getD dflt, globPrefix⟩) true s = _ from e1,
    show parserTokens F (PEnv.spec ⟨spec.getD dflt, globPrefix⟩) true s' = _ from e2, e]

namespace Renamed

theorem exchanged_head {spec : CommandSpec} {a b s s' : Text} {ts : List Tok} (h : Exchanged spec a b s s' ts) : s.head? = s'.head? := by
  induction h with
  | nil => rfl
  | @part p r r' _ _ _ _ _ _ _ ih =>
    cases p with
    | nil => exact ih
    | cons c p => rfl
  | name => rfl

theorem noMore_head {p : Char → Prop} {r r' : Text} (h : r.head? = r'.head?) (k : NoMore p r) : NoMore p r' := fun c hc => k c (h.trans hc)

theorem separate_head {t : Tok} {r r' : Text} (h : r.head? = r'.head?) (k : Separate t r) : Separate t r' := by
  obtain ⟨t, x⟩ := t
  unfold Separate at k ⊢
  cases t with
  | cmd n => cases n <;> first | exact k | exact ⟨k.1, noMore_head h k.2⟩
  | lineBreak => exact noMore_head h k
  | whitespace => exact noMore_head h k
  | word => exact noMore_head h k
  | lineComment => exact noMore_head h k
  | dollar => exact noMore_head h k
  | _ => exact k

theorem name_token {spec : CommandSpec} {n r : Text} (hn : CommandWord n) (hr : NoMore (fun c => NameChar c ∨ c = '*') r) :
    TokenAt spec ('\\' :: n ++ r) (.cmd .generic) ('\\' :: n) r :=
  .command n r .generic hn.1 hn.2.1 (fun c hc h => hr c hc (.inl h)) (fun h => hr _ h.1 (.inr rfl)) hn.2.2.1 hn.2.2.2.1 (.inr ⟨rfl, hn.2.2.2.2⟩)

theorem exchanged_tokens {spec : CommandSpec} {a b s s' : Text} {ts : List Tok} (ha : CommandWord a) (hb : CommandWord b) (h : Exchanged spec a b s s' ts) :
    Tokenized spec s ts ∧ Tokenized spec s' (ts.map (exchangeTok a b)) := by
  induction h with
  | nil => exact ⟨.nil, .nil⟩
  | @part p r r' tp tr hp hw hn hs h ih =>
    have e : tp.map (exchangeTok a b) = tp := by
      clear hp hw hs
      induction tp with
      | nil => rfl
      | cons t tp ih' => rw [List.map_cons, exchangeTok_silent (hn t (List.mem_cons_self ..)), ih' fun u hu => hn u (List.mem_cons_of_mem _ hu)]
    have k := (C59_tokens ..).1 hp
    refine ⟨Local.tokenized_join k ih.1 hw hs, ?_⟩
    rw [List.map_append, e]
    exact Local.tokenized_join k ih.2 hw fun t ht => separate_head (exchanged_head h) (hs t ht)
  | @name n r r' tr hn hr h ih =>
    have w : CommandWord n ∧ CommandWord (exchange a b n) := by
      unfold exchange
      rcases hn with e | e
      · subst e; rw [if_pos rfl]; exact ⟨ha, hb⟩
      · subst e
        refine ⟨hb, ?_⟩
        split
        · exact hb
        · rw [if_pos rfl]; exact ha
    exact ⟨.cons _ _ _ _ _ (name_token w.1 hr) ih.1, .cons _ _ _ _ _ (name_token w.2 (noMore_head (exchanged_head h) hr)) ih.2⟩

end Renamed

/-- **C87**, tokens: the tokens of a text in which the commands `\a` and `\b` are exchanged. -/
theorem C87_tokens (spec : CommandSpec) (a b s s' : Text) (ts : List Tok) (ha : CommandWord a) (hb : CommandWord b) (h : Exchanged spec a b s s' ts) :
    tokensOf spec s = .ok ts ∧ tokensOf spec s' = .ok (ts.map (exchangeTok a b)) := by
  obtain ⟨h1, h2⟩ := Renamed.exchanged_tokens ha hb h
  exact ⟨(C59_tokens ..).2 h1, (C59_tokens ..).2 h2⟩

/-- **C87**, texts: what the macros of a document are called does not matter: if `\a` and `\b` are exchanged everywhere in a text, and neither of them
is left after the expansion, then the output is the same, or the failure is. -/
theorem C87_text (dflt : CommandSpec) (m : Mode) (spec : Option CommandSpec) (a b s s' : Text) (ts : List Tok) (ha : OwnName a ∧ CommandWord a)
    (hb : OwnName b ∧ CommandWord b) (h : Exchanged (spec.getD dflt) a b s s' ts) (hn : NoEnvironment a b ts) :
    ∃ N, ∀ F, N ≤ F → (∀ o, expandAll F ts = .ok o → ∀ t ∈ o, ¬ SaysName a t ∧ ¬ SaysName b t) →
      convertInner F dflt s m spec true = convertInner F dflt s' m spec true := by
  obtain ⟨h1, h2⟩ := C87_tokens _ a b s s' ts ha.2 hb.2 h
  exact C87_converts dflt m spec s s' a b ha.1 hb.1 ts h1 h2 hn

/-! ### A concrete case -/

namespace Renamed

def part1 : Text := t!"\\newcommand{"
def part2 : Text := t!"}[1]{\\frac{#1}{2}} $"
def part3 : Text := t!"{x}$"

def toks1 : List Tok := [cmdTok t!"newcommand", lBrace]
def toks2 : List Tok := [rBrace, lBracket, (.word, t!"1"), rBracket, lBrace, cmdTok t!"frac", lBrace, (.hash, t!"#"), (.word, t!"1"), rBrace, lBrace,
  (.word, t!"2"), rBrace, rBrace, (.whitespace, t!" "), (.dollar, t!"$")]
def toks3 : List Tok := [lBrace, (.word, t!"x"), rBrace, (.dollar, t!"$")]

/-- A test for tokens. -/
def silentB (n : Text) (t : Tok) : Bool := decide (t.2 ≠ '\\' :: n ∧ t.2 ≠ n)

theorem silentB_sound {n : Text} {t : Tok} (h : silentB n t = true) : ¬ SaysName n t := by
  have h := of_decide_eq_true h
  rintro (⟨k, rfl⟩ | rfl)
  · exact h.1 rfl
  · exact h.2 rfl

theorem silent {ts : List Tok} {a b : Text} (h : ts.all (fun t => silentB a t && silentB b t) = true) : ∀ t ∈ ts, ¬ SaysName a t ∧ ¬ SaysName b t := by
  intro t ht
  have := List.all_eq_true.1 h t ht
  rw [Bool.and_eq_true] at this
  exact ⟨silentB_sound this.1, silentB_sound this.2⟩

end Renamed

/-- `\newcommand{\half}[1]{\frac{#1}{2}} $\half{x}$`, with `\R` instead of `\half`: the hypotheses of C87 hold, and the outputs are the same. -/
theorem C87_example :
    Exchanged defaultSpec t!"half" t!"R" t!"\\newcommand{\\half}[1]{\\frac{#1}{2}} $\\half{x}$" t!"\\newcommand{\\R}[1]{\\frac{#1}{2}} $\\R{x}$"
      (Renamed.toks1 ++ cmdTok t!"half" :: (Renamed.toks2 ++ cmdTok t!"half" :: (Renamed.toks3 ++ []))) ∧
    (OwnName t!"half" ∧ CommandWord t!"half") ∧ (OwnName t!"R" ∧ CommandWord t!"R") ∧
    NoEnvironment t!"half" t!"R" (Renamed.toks1 ++ cmdTok t!"half" :: (Renamed.toks2 ++ cmdTok t!"half" :: (Renamed.toks3 ++ []))) ∧
    (∃ o, expandAll 200 (Renamed.toks1 ++ cmdTok t!"half" :: (Renamed.toks2 ++ cmdTok t!"half" :: (Renamed.toks3 ++ []))) = .ok o ∧
      ∀ t ∈ o, ¬ SaysName t!"half" t ∧ ¬ SaysName t!"R" t) ∧
    convertText 200 defaultSpec t!"\\newcommand{\\half}[1]{\\frac{#1}{2}} $\\half{x}$" none = .ok t!" #math.equation(block: false, $frac(x ,2 )$);" ∧
    convertText 200 defaultSpec t!"\\newcommand{\\R}[1]{\\frac{#1}{2}} $\\R{x}$" none = .ok t!" #math.equation(block: false, $frac(x ,2 )$);" := by
  have own : ∀ n, decide (defaultMacros n = none ∧ n ∉ [t!"mitexrecurse", t!"fi", t!"invalid number of arguments", t!"unmatched environment"]) = true → OwnName n :=
    fun n h => (of_decide_eq_true h : defaultMacros n = none ∧ _)
  have word : ∀ n, n ≠ [] → (∀ c ∈ n, NameChar c) → n ≠ t!"begin" → n ≠ t!"end" → builtinCommands.all (fun p => decide (p.1 ≠ n)) = true → CommandWord n :=
    fun n h1 h2 h3 h4 h5 => ⟨h1, h2, h3, h4, fun k hk => of_decide_eq_true (List.all_eq_true.1 h5 _ hk) rfl⟩
  refine ⟨?_, ⟨own _ (by decide +kernel), word _ (by decide) (by decide +kernel) (by decide +kernel) (by decide +kernel) (by decide +kernel)⟩,
    ⟨own _ (by decide +kernel), word _ (by decide) (by decide +kernel) (by decide +kernel) (by decide +kernel) (by decide +kernel)⟩,
    .inl (by decide +kernel), ?_, by decide +kernel, by decide +kernel⟩
  · have whole : ∀ ts : List Tok, ts.all (fun t => decide (t.1 ≠ .cmd .errorBeginEnv ∧ t.1 ≠ .cmd .errorEndEnv)) = true →
        ∀ t ∈ ts, t.1 ≠ .cmd .errorBeginEnv ∧ t.1 ≠ .cmd .errorEndEnv := fun ts h t ht => of_decide_eq_true (List.all_eq_true.1 h t ht)
    have last : ∀ (ts : List Tok) (t : Tok) (r : Text), ts.getLast? = some t → Separate t r → ∀ u, ts.getLast? = some u → Separate u r := by
      intro ts t r h1 h2 u h3
      rw [h1] at h3
      cases h3
      exact h2
    refine .part (p := Renamed.part1) (by decide +kernel) (whole _ (by decide +kernel)) (Renamed.silent (by decide +kernel)) (last _ lBrace _ rfl trivial) ?_
    refine .name (.inl rfl) (r := Renamed.part2 ++ ('\\' :: t!"half" ++ (Renamed.part3 ++ []))) (r' := Renamed.part2 ++ ('\\' :: exchange t!"half" t!"R" t!"half" ++ (Renamed.part3 ++ [])))
      (fun c h => by cases h; decide +kernel) ?_
    refine .part (by decide +kernel) (whole _ (by decide +kernel)) (Renamed.silent (by decide +kernel)) (last _ (.dollar, t!"$") _ rfl (fun c h => by cases h; decide +kernel)) ?_
    refine .name (.inl rfl) (fun c h => by cases h; decide +kernel) ?_
    exact .part (by decide +kernel) (whole _ (by decide +kernel)) (Renamed.silent (by decide +kernel)) (last _ (.dollar, t!"$") _ rfl (fun c h => by cases h)) .nil
  · obtain ⟨o, ho⟩ := ok_of (r := expandAll 200 (Renamed.toks1 ++ cmdTok t!"half" :: (Renamed.toks2 ++ cmdTok t!"half" :: (Renamed.toks3 ++ [])))) (by decide +kernel)
    have h1 : (expandAll 200 (Renamed.toks1 ++ cmdTok t!"half" :: (Renamed.toks2 ++ cmdTok t!"half" :: (Renamed.toks3 ++ [])))).map
      (fun ts => ts.all fun t => Renamed.silentB t!"half" t && Renamed.silentB t!"R" t) = .ok true := by decide +kernel
    rw [ho] at h1
    exact ⟨o, ho, Renamed.silent (Except.ok.inj h1)⟩

end Mitex
