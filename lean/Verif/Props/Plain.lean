/-
C39, C40: plain text, from the source to the output.
-/
import Verif.Proof.Plain
import Verif.Props.Lexer

namespace Mitex

/-! ### Lexing -/

theorem plain_tokens {m : Mode} {spec : CommandSpec} {s : Text} (h : Plain m s) :
    ∃ toks, tokensOf spec s = .ok toks ∧ (∀ t ∈ toks, plainToken m t.1 = true) ∧ (toks.map Prod.snd).flatten = s := by
  obtain ⟨toks, ht⟩ := C02_total_unless_slip spec s (fun pre suf he hc => by
    exfalso
    have : '\\' ∈ s := by
      rw [he]
      refine List.mem_append_right _ ?_
      rcases hc with hc | hc <;> exact hc.subset (by decide)
    exact (h _ this).1 (by decide))
  have hp : ∀ t ∈ toks, plainToken m t.1 = true := by
    obtain ⟨spans, h1, h2, h3⟩ := tokensOf_spec ht
    intro t ht
    obtain ⟨i, hi, rfl⟩ := List.getElem_of_mem ht
    obtain ⟨_, hsp, hsh, _⟩ := h3 i toks[i].1 toks[i].2 (spans[i]'(by omega)) (List.getElem?_eq_getElem hi) (List.getElem?_eq_getElem (by omega))
    have hin : ∀ c ∈ spans[i]'(by omega), c ∉ ['\\', '{', '}', '$'] ∧ (m = .math → c ∉ ['_', '^']) := fun c hc =>
      h c (by rw [← h2]; exact List.mem_flatten.2 ⟨_, List.getElem_mem _, hc⟩)
    revert hsp hsh hin
    generalize spans[i]'(by omega) = sp
    generalize toks[i] = t
    obtain ⟨k, t⟩ := t
    intro hsp hsh hin
    dsimp only at hsp hsh ⊢
    have bad : ∀ {c : Char}, c ∈ ['\\', '{', '}', '$'] → c ∈ sp → plainToken m k = true := fun h1 h2 => absurd h1 (hin _ h2).1
    have bad' : ∀ {c : Char}, c ∈ ['_', '^'] → c ∈ sp → decide (m = .text) = true := fun h1 h2 => by
      cases m with
      | text => rfl
      | math => exact absurd h1 ((hin _ h2).2 rfl)
    cases k with
    | left b =>
      cases b with
      | curly => simp only [TokShape, SpanOf] at hsh hsp; exact bad (c := '{') (by decide) (by rw [hsp, hsh]; decide)
      | _ => rfl
    | right b =>
      cases b with
      | curly => simp only [TokShape, SpanOf] at hsh hsp; exact bad (c := '}') (by decide) (by rw [hsp, hsh]; decide)
      | _ => rfl
    | underscore => simp only [TokShape, SpanOf] at hsh hsp; exact bad' (c := '_') (by decide) (by rw [hsp, hsh]; decide)
    | caret => simp only [TokShape, SpanOf] at hsh hsp; exact bad' (c := '^') (by decide) (by rw [hsp, hsh]; decide)
    | dollar =>
      simp only [TokShape, SpanOf] at hsh hsp
      exact bad (c := '$') (by decide) (by rw [hsp]; rcases hsh with h | h <;> rw [h] <;> decide)
    | newLine => simp only [TokShape, SpanOf] at hsh hsp; exact bad (c := '\\') (by decide) (by rw [hsp, hsh]; decide)
    | cmd n =>
      refine bad (c := '\\') (by decide) ?_
      cases n with
      | generic =>
        simp only [TokShape, SpanOf] at hsh hsp
        rw [hsp]
        exact List.mem_of_mem_head? hsh.1
      | beginEnv => simp only [SpanOf] at hsp; obtain ⟨a, b, hsp⟩ := hsp; rw [hsp]; simp
      | endEnv => simp only [SpanOf] at hsp; obtain ⟨a, b, hsp⟩ := hsp; rw [hsp]; simp
      | beginMath => simp only [TokShape, SpanOf] at hsh hsp; rw [hsp]; rcases hsh with h | h <;> rw [h] <;> decide
      | endMath => simp only [TokShape, SpanOf] at hsh hsp; rw [hsp]; rcases hsh with h | h <;> rw [h] <;> decide
      | cif i => simp only [TokShape, SpanOf] at hsh hsp; rw [hsp, hsh]; cases i <;> decide
      | _ => simp only [TokShape, SpanOf] at hsh hsp; rw [hsp, hsh]; decide
    | error => cases hsh
    | macroArg n => cases hsh
    | _ => rfl
  refine ⟨toks, ht, hp, C01_lossless_flat spec s toks ht fun t h => ?_⟩
  have := hp t h
  constructor <;> intro e <;> rw [e] at this <;> cases this

/-! ### From tokens to characters -/

theorem isWs_nl {c : Char} (h : c = '\n' ∨ c = '\r') : isWs c = true := by rcases h with rfl | rfl <;> decide

theorem out_nl (m : Mode) (w : Where) (t r : Text) (h0 : t ≠ []) (h : ∀ c ∈ t, c = '\n' ∨ c = '\r') :
    plainOut m w (t ++ r) = t ++ plainOut m .start r := by
  induction t generalizing w with
  | nil => exact absurd rfl h0
  | cons c t ih =>
    rw [List.cons_append, plainOut, if_pos (h c List.mem_cons_self)]
    cases t with
    | nil => rfl
    | cons d t => rw [ih _ (by simp) fun c hc => h c (List.mem_cons_of_mem _ hc)]; rfl

theorem out_comment (m : Mode) (t r : Text) (h : ∀ c ∈ t, c ≠ '\n' ∧ c ≠ '\r') : plainOut m .comment (t ++ r) = plainOut m .comment r := by
  induction t with
  | nil => rfl
  | cons c t ih =>
    have := h c List.mem_cons_self
    rw [List.cons_append, plainOut, if_neg (by simp [this]), if_pos (Or.inl rfl), ih fun c hc => h c (List.mem_cons_of_mem _ hc)]

theorem out_ws (m : Mode) (w : Where) (hw : w ≠ .comment) (t r : Text) (h : ∀ c ∈ t, isWs c = true ∧ c ≠ '\n' ∧ c ≠ '\r') (h0 : t ≠ []) :
    plainOut m w (t ++ r) = if w = .start then plainOut m .start r else t ++ plainOut m .inside r := by
  induction t generalizing w with
  | nil => exact absurd rfl h0
  | cons c t ih =>
    obtain ⟨h1, h2, h3⟩ := h c List.mem_cons_self
    have h4 : c ≠ '%' := by rintro rfl; exact absurd h1 (by decide)
    rw [List.cons_append, plainOut, if_neg (by simp [h2, h3]), if_neg (by simp [hw, h4]), if_pos h1]
    cases t with
    | nil => cases w <;> first | rfl | exact absurd rfl hw
    | cons d t =>
      have ih' := fun w hw => ih w hw (fun c hc => h c (List.mem_cons_of_mem _ hc)) (by simp)
      rw [ih' .start (by decide), ih' .inside (by decide)]
      cases w <;> rfl

theorem out_chars (m : Mode) (w : Where) (hw : w ≠ .comment) (t r : Text) (h : ∀ c ∈ t, isWs c = false ∧ c ≠ '%') (h0 : t ≠ []) :
    plainOut m w (t ++ r) = (t.map (escape m)).flatten ++ plainOut m .inside r := by
  induction t generalizing w with
  | nil => exact absurd rfl h0
  | cons c t ih =>
    obtain ⟨h1, h2⟩ := h c List.mem_cons_self
    have h3 : ¬ (c = '\n' ∨ c = '\r') := fun h => by rw [isWs_nl h] at h1; cases h1
    rw [List.cons_append, plainOut, if_neg h3, if_neg (by simp [hw, h2]), if_neg (by simp [h1])]
    cases t with
    | nil => simp
    | cons d t => rw [ih .inside (by decide) (fun c hc => h c (List.mem_cons_of_mem _ hc)) (by simp)]; simp

/-- Whitespace is not split, comments end at line breaks. -/
def Adj : List Tok → Prop
  | [] => True
  | t :: ts => (∀ u, ts.head? = some u → (t.1 = .whitespace → u.1 ≠ .whitespace) ∧ (t.1 = .lineComment → u.1 = .lineBreak)) ∧ Adj ts

theorem adj_of {toks : List Tok} (h : ∀ (i : Nat) t u, toks[i]? = some t → toks[i + 1]? = some u →
    (t.1 = .whitespace → u.1 ≠ .whitespace) ∧ (t.1 = .lineComment → u.1 = .lineBreak)) : Adj toks := by
  induction toks with
  | nil => trivial
  | cons t ts ih =>
    refine ⟨fun u hu => h 0 t u rfl ?_, ih fun i a b h1 h2 => h (i + 1) a b h1 h2⟩
    rw [List.head?_eq_getElem?] at hu
    exact hu

theorem escape_word {m : Mode} {c : Char} (h : c ∉ specials) : escape m c = if m = .math then [c, ' '] else [c] := by
  unfold escape
  rw [if_neg, if_neg, if_neg]
  · rintro rfl; exact h (by decide)
  · rintro (rfl | rfl) <;> exact h (by decide)
  · intro hc
    apply h
    revert hc
    simp only [List.mem_cons, List.not_mem_nil, or_false]
    rintro (rfl | rfl | rfl | rfl | rfl | rfl | rfl | rfl | rfl | rfl | rfl | rfl | rfl) <;> decide

/-- The text of a leaf that is no whitespace, line break or comment, in characters. -/
theorem leafText_chars {m : Mode} {k : Token} {t : Text} (hp : plainToken m k = true) (hs : TokShape k t) (hk : k.isTrivia = false) :
    t ≠ [] ∧ (∀ c ∈ t, isWs c = false ∧ c ≠ '%') ∧ leafText m k.kind t = (t.map (escape m)).flatten := by
  cases k with
  | word =>
    obtain ⟨h1, h2⟩ := hs
    refine ⟨h1, fun c hc => ⟨(h2 c hc).1, fun h => (h2 c hc).2 (by rw [h]; decide)⟩, ?_⟩
    show (if m = .math then (t.map fun c => [c, ' ']).flatten else t) = _
    rw [List.map_congr_left fun c hc => escape_word (m := m) (h2 c hc).2]
    split
    · rfl
    · clear hp h1 h2 hk
      induction t with
      | nil => rfl
      | cons c t ih => rw [List.map_cons, List.flatten_cons, ← ih]; rfl
  | left b =>
    cases b with
    | curly => cases hp
    | bracket => cases hs; exact ⟨by simp, by decide, by cases m <;> rfl⟩
    | paren => cases hs; exact ⟨by simp, by decide, by cases m <;> rfl⟩
  | right b =>
    cases b with
    | curly => cases hp
    | bracket => cases hs; exact ⟨by simp, by decide, by cases m <;> rfl⟩
    | paren => cases hs; exact ⟨by simp, by decide, by cases m <;> rfl⟩
  | lineBreak => cases hk
  | whitespace => cases hk
  | lineComment => cases hk
  | dollar => cases hp
  | newLine => cases hp
  | cmd => cases hp
  | error => cases hp
  | macroArg => cases hp
  | _ => cases hs; exact ⟨by simp, by decide, by cases m <;> rfl⟩

theorem plainToken_trivia {m : Mode} {k : Token} (hp : plainToken m k = true) (hk : k.isTrivia = false) :
    k.kind ≠ .tokenWhiteSpace ∧ k.kind ≠ .tokenLineBreak := by
  cases k with
  | left b => cases b <;> simp [Token.kind]
  | right b => cases b <;> simp [Token.kind]
  | cmd => cases hp
  | _ => simp [Token.kind, Token.isTrivia] at *

theorem fold_out {m : Mode} (toks : List Tok) (hp : ∀ t ∈ toks, plainToken m t.1 = true) (hs : ∀ t ∈ toks, TokShape t.1 t.2) (ha : Adj toks) :
    ∀ (w : Where) (s : CState), Outside m s → (∀ t, toks.head? = some t → (t.1 = .whitespace → (w = .start ↔ s.skip = true)) ∧
      (w = .comment → t.1 = .lineBreak)) →
    ((toks.map lf).foldl leafStep s).out = s.out ++ plainOut m w (toks.map Prod.snd).flatten := by
  induction toks with
  | nil => intro w s _ _; cases w <;> simp [plainOut]
  | cons t ts ih =>
    intro w s ho hw
    have ih' := ih (fun t h => hp t (List.mem_cons_of_mem _ h)) (fun t h => hs t (List.mem_cons_of_mem _ h)) ha.2
    have hpt := hp t List.mem_cons_self
    have hst := hs t List.mem_cons_self
    obtain ⟨hw1, hw2⟩ := hw t rfl
    have hadj := ha.1
    obtain ⟨k, x⟩ := t
    dsimp only at hpt hst hw1 hw2 hadj
    rw [List.map_cons, List.foldl_cons, List.map_cons, List.flatten_cons]
    dsimp only
    by_cases hk : k.isTrivia = true
    · cases k with
      | lineBreak =>
        rw [out_nl m w x _ hst.1 hst.2, ih' .start _ (ho.step _)]
        · show s.out ++ x ++ _ = _
          rw [List.append_assoc]
        · intro u hu
          exact ⟨fun _ => ⟨fun _ => rfl, fun _ => rfl⟩, fun h => (by cases h)⟩
      | lineComment =>
        obtain ⟨h1, h2⟩ := hst
        cases x with
        | nil => cases h1
        | cons c x =>
          cases h1
          have : w ≠ .comment := fun h => by cases hw2 h
          have e : plainOut m w (('%' :: x) ++ (ts.map Prod.snd).flatten) = plainOut m .comment (ts.map Prod.snd).flatten := by
            rw [List.cons_append, plainOut, if_neg (by decide), if_pos (Or.inr rfl),
              out_comment m x _ fun c hc => h2 c (List.mem_cons_of_mem _ hc)]
          rw [e, ih' .comment _ (ho.step _)]
          · show s.out ++ leafText s.mode .tokenComment _ ++ _ = _
            simp [leafText]
          · intro u hu
            have hu' := (hadj u hu).2 rfl
            exact ⟨fun h => (by rw [hu'] at h; cases h), fun _ => hu'⟩
      | whitespace =>
        have hc : w ≠ .comment := fun h => by cases hw2 h
        rw [out_ws m w hc x _ hst.2 hst.1]
        have hnext : ∀ (w' : Where) (s' : CState), w' ≠ .comment → ∀ u, ts.head? = some u → (u.1 = .whitespace → (w' = .start ↔ s'.skip = true)) ∧
            (w' = .comment → u.1 = .lineBreak) := fun w' s' h u hu => ⟨fun h' => absurd h' ((hadj u hu).1 rfl), fun h' => absurd h' h⟩
        by_cases hst' : w = .start
        · have hsk := (hw1 rfl).1 hst'
          rw [if_pos hst', ih' .start _ (ho.step _) (hnext _ _ (by decide))]
          have : leafStep s (lf (.whitespace, x)) = { s with skip := false } := by
            unfold leafStep lf
            simp [Token.kind, hsk]
          rw [this]
        · have hsk : ¬ s.skip = true := fun h => hst' ((hw1 rfl).2 h)
          rw [if_neg hst', ih' .inside _ (ho.step _) (hnext _ _ (by decide))]
          have : leafStep s (lf (.whitespace, x)) = s.write x := by
            unfold leafStep lf
            simp [Token.kind, hsk]
          rw [this]
          show s.out ++ x ++ _ = _
          rw [List.append_assoc]
      | _ => cases hk
    · have hk : k.isTrivia = false := by simpa using hk
      have hc : w ≠ .comment := fun h => by rw [hw2 h] at hk; cases hk
      obtain ⟨h1, h2, h3⟩ := leafText_chars hpt hst hk
      obtain ⟨k1, k2⟩ := plainToken_trivia hpt hk
      rw [out_chars m w hc x _ h2 h1, ih' .inside _ (ho.step _)]
      · have : leafStep s (lf (k, x)) = { s with skip := false, out := s.out ++ leafText s.mode k.kind x } := by
          unfold leafStep lf
          simp only [k1, k2, if_false]
        rw [this, ho.1, h3, List.append_assoc]
      · intro u hu
        have : (leafStep s (lf (k, x))).skip = false := by
          unfold leafStep lf
          simp only [k1, k2, if_false]
        rw [this]
        exact ⟨fun _ => ⟨fun h => (by cases h), fun h => (by cases h)⟩, fun h => (by cases h)⟩

/-- Splitting words does not matter. -/
theorem exact_fold {m : Mode} {toks : List Tok} {lv : List (Kind × Text)} (h : Exact toks [] lv) : ∀ s : CState, Outside m s →
    lv.foldl leafStep s = (toks.map lf).foldl leafStep s := by
  generalize hr : ([] : List Tok) = rest at h
  induction h with
  | done => intro s _; subst hr; rfl
  | keep t _ ih => intro s hs; exact ih hr _ (hs.step _)
  | @char c w ts rest lv hw _ ih =>
    intro s hs
    rw [List.foldl_cons, ih hr _ (hs.step _), List.map_cons, List.map_cons, List.foldl_cons, List.foldl_cons]
    congr 1
    unfold leafStep lf leafText
    simp only [Token.kind, reduceCtorEq, if_false]
    split <;> simp

/-! ### C39, C40 -/

theorem plain_convert (fuel : Nat) (dflt : CommandSpec) (s : Text) (m : Mode) (spec : Option CommandSpec) (wm : Bool) (h : Plain m s)
    (hf : s.length ≤ fuel) : convertInner fuel dflt s m spec wm = .ok (plainOut m .inside s) := by
  obtain ⟨toks, ht, hp, hs⟩ := plain_tokens (spec := spec.getD dflt) h
  have hsh := tokensOf_shape ht
  have hlen : toks.length ≤ s.length := by
    obtain ⟨spans, h1, h2, h3⟩ := C01_lossless _ _ _ ht
    have : ∀ (spans : List Text), (∀ sp ∈ spans, sp ≠ []) → spans.length ≤ spans.flatten.length := by
      intro spans
      induction spans with
      | nil => intro _; exact Nat.le_refl _
      | cons a as ih =>
        intro hx
        have h1 := ih fun sp h => hx sp (List.mem_cons_of_mem _ h)
        have h2 := List.length_pos_iff.2 (hx a List.mem_cons_self)
        rw [List.flatten_cons, List.length_append, List.length_cons]
        omega
    rw [← h1, ← h2]
    refine this spans fun sp hm => ?_
    obtain ⟨i, hi, rfl⟩ := List.getElem_of_mem hm
    exact (h3 i toks[i].1 toks[i].2 _ (List.getElem?_eq_getElem (by omega)) (List.getElem?_eq_getElem hi)).1
  have he : wm = true → expandAll fuel toks = .ok toks := by
    intro hwm
    cases wm with
    | false => cases hwm
    | true =>
      obtain ⟨ifs', h1⟩ := engRun_quiet toks (fun t ht h => by have := hp t ht; rw [h] at this; cases this)
        (fun name _ hm => by have := hp _ hm; cases this)
        (fun t ht => ⟨fun h => (by have := hp t ht; rw [h] at this; cases this), fun h => (by have := hp t ht; rw [h] at this; cases this)⟩)
        [] [] (by simp [QuietIfs])
      unfold expandAll Eng.new
      have h2 := engRun_mono h1 (fuel - toks.length)
      rw [Nat.add_sub_cancel' (Nat.le_trans hlen hf)] at h2
      rw [h2]
      simp
  have hwords : WordsOk toks := fun t ht hk => by
    have := hsh t ht
    rw [hk] at this
    exact this.1
  obtain ⟨cs, hparse, hflat, hex⟩ := parse_plain m ⟨spec.getD dflt, globPrefix⟩ toks hp hwords
  unfold convertInner parse
  dsimp only
  have hpp : (if wm = true then (expandAll fuel toks >>= fun toks => parseToks ⟨spec.getD dflt, globPrefix⟩ toks)
      else (.ok toks >>= fun toks => parseToks ⟨spec.getD dflt, globPrefix⟩ toks)) = .ok (.node .scopeRoot cs) := by
    split
    · rename_i hwm; rw [he hwm, ok_bind, hparse]
    · rw [ok_bind, hparse]
  rw [ht, ok_bind, hpp, ok_bind]
  unfold convertTree
  have hconv : convert dflt (Elem.node .scopeRoot cs).depth (.node .scopeRoot cs) (CState.new m) =
      .ok ((Elem.leaves.go cs).foldl leafStep { CState.new m with skip := false }) := by
    rw [Elem.depth]
    show convList _ cs { CState.new m with skip := false } = _
    exact convList_leaves cs (fun e he s hs => convert_plain dflt e _ (by
      have := child_depth (e := .node .scopeRoot cs) he
      rw [Elem.depth] at this
      omega) (hflat e he) s hs) _ ⟨rfl, rfl, rfl⟩
  rw [hconv]
  dsimp only
  rw [exact_fold (m := m) hex _ ⟨rfl, rfl, rfl⟩, fold_out toks hp hsh (adj_of fun i t u h1 h2 => by
    have := C05_no_split_tokens _ _ _ ht i t.1 u.1 t.2 u.2 h1 h2
    exact ⟨this.2.1, this.2.2.2⟩) .inside _ ⟨rfl, rfl, rfl⟩ (fun t _ => ⟨fun _ => ⟨fun h => (by cases h), fun h => (by cases h)⟩, fun h => (by cases h)⟩), hs]
  rfl

/-- C39: converting a text without commands, groups and formulas in text mode returns the text with the documented escapes, without
comments and without the indentation of its lines, whatever the specifications.  (The macro engine needs as many rounds as there
are tokens.) -/
theorem C39_plain_text (fuel : Nat) (dflt : CommandSpec) (s : Text) (spec : Option CommandSpec)
    (h : ∀ c ∈ s, c ∉ ['\\', '{', '}', '$']) (hf : s.length ≤ fuel) :
    convertText fuel dflt s spec = .ok (plainOut .text .inside s) :=
  plain_convert fuel dflt s .text spec true (fun c hc => ⟨h c hc, fun h => (by cases h)⟩) hf

theorem plainOut_ordinary (s : Text) (h : ∀ c ∈ s, c = ' ' ∨ (isWs c = false ∧ c ∉ specials)) (w : Where) (hw : w = .inside) :
    plainOut .text w s = s := by
  subst hw
  induction s with
  | nil => rfl
  | cons c s ih =>
    have ih := ih fun c hc => h c (List.mem_cons_of_mem _ hc)
    rw [plainOut]
    rcases h c List.mem_cons_self with rfl | ⟨h1, h2⟩
    · rw [if_neg (by decide), if_neg (by decide), if_pos (by decide), if_neg (by decide), ih]
    · have h3 : ¬ (c = '\n' ∨ c = '\r') := fun h => by rw [isWs_nl h] at h1; cases h1
      have h4 : c ≠ '%' := fun h => h2 (by rw [h]; decide)
      rw [if_neg h3, if_neg (by simp [h4]), if_neg (by simp [h1]), escape_word h2, if_neg (by decide), ih]
      rfl

/-- C39: ordinary words with spaces between them are their own conversion. -/
theorem C39_words (fuel : Nat) (dflt : CommandSpec) (s : Text) (spec : Option CommandSpec)
    (h : ∀ c ∈ s, c = ' ' ∨ (isWs c = false ∧ c ∉ specials)) (hf : s.length ≤ fuel) :
    convertText fuel dflt s spec = .ok s := by
  have := C39_plain_text fuel dflt s spec (fun c hc hm => by
    rcases h c hc with rfl | ⟨_, h2⟩
    · exact absurd hm (by decide)
    · refine h2 ?_
      simp only [List.mem_cons, List.not_mem_nil, or_false] at hm
      rcases hm with rfl | rfl | rfl | rfl <;> decide) hf
  rw [this, plainOut_ordinary s h .inside rfl]

/-- Punctuation, indentation, a comment, scripts. -/
example : (∀ c ∈ t!"ab, c/d*\n  e@f;\"g\" % r\n h_i", c ∉ ['\\', '{', '}', '$']) ∧
    plainOut .text .inside t!"ab, c/d*\n  e@f;\"g\" % r\n h_i" = t!"ab\\, c\\/d\\*\ne\\@f\\;\\\"g\\\" \nh\\_i" := ⟨by decide, by decide +kernel⟩

example : ∀ c ∈ t!"un café au lait", c = ' ' ∨ (isWs c = false ∧ c ∉ specials) := by decide +kernel

/-- C40: converting a text without commands, groups, formulas and scripts in math mode returns it character by character:
each character of a word followed by a space, the rest as in text mode, with and without macro expansion. -/
theorem C40_plain_math (fuel : Nat) (dflt : CommandSpec) (s : Text) (spec : Option CommandSpec)
    (h : ∀ c ∈ s, c ∉ ['\\', '{', '}', '$', '_', '^']) (hf : s.length ≤ fuel) :
    convertMath fuel dflt s spec = .ok (plainOut .math .inside s) ∧
    convertMathNoMacro fuel dflt s spec = .ok (plainOut .math .inside s) := by
  have hp : Plain .math s := fun c hc => ⟨fun hm => h c hc (by simp at hm ⊢; rcases hm with h | h | h | h <;> simp [h]),
    fun _ hm => h c hc (by simp at hm ⊢; rcases hm with h | h <;> simp [h])⟩
  exact ⟨plain_convert fuel dflt s .math spec true hp hf, plain_convert fuel dflt s .math spec false hp hf⟩

/-- C40: a sequence of words gives each character followed by one space, in order (and the spaces between the words). -/
theorem C40_words (fuel : Nat) (dflt : CommandSpec) (s : Text) (spec : Option CommandSpec)
    (h : ∀ c ∈ s, c = ' ' ∨ (isWs c = false ∧ c ∉ specials)) (hf : s.length ≤ fuel) :
    convertMath fuel dflt s spec = .ok (s.map fun c => if c = ' ' then [' '] else [c, ' ']).flatten := by
  have := (C40_plain_math fuel dflt s spec (fun c hc hm => by
    rcases h c hc with rfl | ⟨_, h2⟩
    · exact absurd hm (by decide)
    · refine h2 ?_
      simp only [List.mem_cons, List.not_mem_nil, or_false] at hm
      rcases hm with rfl | rfl | rfl | rfl | rfl | rfl <;> decide) hf).1
  rw [this]
  congr 1
  clear this hf
  induction s with
  | nil => rfl
  | cons c s ih =>
    have ih := ih fun c hc => h c (List.mem_cons_of_mem _ hc)
    rw [plainOut, List.map_cons, List.flatten_cons, ← ih]
    rcases h c List.mem_cons_self with rfl | ⟨h1, h2⟩
    · rw [if_neg (by decide), if_neg (by decide), if_pos (by decide), if_neg (by decide), if_pos rfl]
      rfl
    · have h3 : ¬ (c = '\n' ∨ c = '\r') := fun h => by rw [isWs_nl h] at h1; cases h1
      have h4 : c ≠ '%' := fun h => h2 (by rw [h]; decide)
      have h5 : c ≠ ' ' := fun h => by rw [h] at h1; exact absurd h1 (by decide)
      rw [if_neg h3, if_neg (by simp [h4]), if_neg (by simp [h1]), escape_word h2, if_pos rfl, if_neg h5]

example : plainOut .math .inside t!"xy + 2,f'(x)~z" = t!"x y  +  2 \\,f '\\(x \\)space.nobreak z " := by decide +kernel

end Mitex
