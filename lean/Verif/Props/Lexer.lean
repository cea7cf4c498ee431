/-
C01, C02, C04, C05, C06: the lexer (crates/mitex-lexer/src/token.rs).
-/
import Verif.Proof.Lex

namespace Mitex

/-! ### Iterating `lexOne` -/

theorem lexFuel_spec (spec : CommandSpec) (n : Nat) : ∀ (s : Text) (ls : List Lexed),
    lexFuel spec n s = .ok ls → ∃ spans : List Text, spans.length = ls.length ∧ spans.flatten = s ∧
      ∀ (i : Nat) l sp, ls[i]? = some l → spans[i]? = some sp →
        sp ≠ [] ∧ SpanOf l.tok l.text sp ∧ TokShape l.tok l.text ∧ Maximal l.tok (spans.drop (i + 1)).flatten := by
  induction n with
  | zero =>
    intro s ls h
    simp only [lexFuel] at h
    split at h
    · cases h; rename_i hs; exact ⟨[], by simp [hs]⟩
    · cases h
  | succ n ih =>
    intro s ls h
    rw [lexFuel] at h
    split at h
    · rename_i h1
      cases h
      have : s = [] := by
        cases s with
        | nil => rfl
        | cons c cs =>
          exfalso
          unfold lexOne at h1
          simp only at h1
          split at h1
          · cases h1
          · split at h1
            · cases h1
            · split at h1
              · cases h1
              · split at h1
                · cases h1
                · split at h1
                  · split at h1 <;> cases h1
                  · split at h1
                    · split at h1 <;> cases h1
                    · split at h1 <;> cases h1
      exact ⟨[], by simp [this]⟩
    · cases h
    · rename_i l h1
      split at h
      · cases h
      · rename_i ls' h2
        cases h
        obtain ⟨hs, hm, span, hne, he, hsp⟩ := lexOne_good h1
        obtain ⟨spans, hlen, hflat, hall⟩ := ih _ _ h2
        refine ⟨span :: spans, by simp [hlen], by simp [hflat, he], ?_⟩
        intro i l' sp hl hsp'
        cases i with
        | zero =>
          simp at hl hsp'
          subst hl; subst hsp'
          simp only [List.drop_succ_cons, List.drop_zero, hflat]
          exact ⟨hne, hsp, hs, hm⟩
        | succ i =>
          simp at hl hsp'
          have := hall i l' sp hl hsp'
          simpa using this

theorem tokensOf_spec {spec : CommandSpec} {s : Text} {toks : List Tok} (h : tokensOf spec s = .ok toks) :
    ∃ spans : List Text, spans.length = toks.length ∧ spans.flatten = s ∧
      ∀ (i : Nat) k t sp, toks[i]? = some (k, t) → spans[i]? = some sp →
        sp ≠ [] ∧ SpanOf k t sp ∧ TokShape k t ∧ Maximal k (spans.drop (i + 1)).flatten := by
  unfold tokensOf at h
  split at h
  · cases h
  · rename_i ls hl
    cases h
    obtain ⟨spans, h1, h2, h3⟩ := lexFuel_spec _ _ _ _ hl
    refine ⟨spans, by simp [h1], h2, ?_⟩
    intro i k t sp hk hs
    rw [List.getElem?_map] at hk
    cases hi : ls[i]? with
    | none => rw [hi] at hk; cases hk
    | some l =>
      rw [hi] at hk
      simp [Lexed.toTok] at hk
      have := h3 i l sp hi hs
      rw [hk.1, hk.2] at this
      exact this

/-! ### C01 -/

/-- C01: the tokens of a text are the pieces of a division of the text into non-empty contiguous spans, in
order: joined, the spans are the text. The text of a token is its span, except that `\begin{..}` and
`\end{..}` clauses carry the name found inside of the span. -/
theorem C01_lossless (spec : CommandSpec) (s : Text) (toks : List Tok) (h : tokensOf spec s = .ok toks) :
    ∃ spans : List Text, spans.flatten = s ∧ spans.length = toks.length ∧
      ∀ (i : Nat) k t sp, toks[i]? = some (k, t) → spans[i]? = some sp → sp ≠ [] ∧ SpanOf k t sp := by
  obtain ⟨spans, h1, h2, h3⟩ := tokensOf_spec h
  exact ⟨spans, h2, h1, fun i k t sp a b => ⟨(h3 i k t sp a b).1, (h3 i k t sp a b).2.1⟩⟩

/-- C01, read without environment clauses: joining the token texts gives back the input. -/
theorem C01_lossless_flat (spec : CommandSpec) (s : Text) (toks : List Tok) (h : tokensOf spec s = .ok toks)
    (hb : ∀ t ∈ toks, t.1 ≠ .cmd .beginEnv ∧ t.1 ≠ .cmd .endEnv) :
    (toks.map Prod.snd).flatten = s := by
  obtain ⟨spans, h1, h2, h3⟩ := tokensOf_spec h
  rw [← h2]
  congr 1
  apply List.ext_getElem?
  intro i
  rw [List.getElem?_map]
  cases ht : toks[i]? with
  | none =>
    have : spans[i]? = none := by
      rw [List.getElem?_eq_none_iff] at ht ⊢; omega
    simp [this]
  | some kt =>
    obtain ⟨k, t⟩ := kt
    have hlt : i < spans.length := by
      have := (List.getElem?_eq_some_iff.mp ht).1; omega
    have hsp := (h3 i k t spans[i] ht (List.getElem?_eq_getElem hlt)).2.1
    have hn := hb (k, t) (List.mem_of_getElem? ht)
    rw [List.getElem?_eq_getElem hlt]
    unfold SpanOf at hsp
    split at hsp
    · simp at hn
    · simp at hn
    · simp [hsp]

example : tokensOf (fun _ => none) "a \\begin{x} é%c\n\\b*".toList = .ok [
    (.word, "a".toList), (.whitespace, " ".toList), (.cmd .beginEnv, "x".toList), (.whitespace, " ".toList),
    (.word, "é".toList), (.lineComment, "%c".toList), (.lineBreak, "\n".toList), (.cmd .generic, "\\b".toList),
    (.asterisk, "*".toList)] := by decide +kernel

/-! ### C05 -/

theorem IfName.text_head (i : IfName) : i.text.head? = some '\\' := by cases i <;> rfl

theorem span_head_cmd (n : CommandName) (t span : Text) (h : TokShape (.cmd n) t) (hs : SpanOf (.cmd n) t span) :
    span.head? = some '\\' := by
  cases n with
  | beginEnv => simp only [SpanOf] at hs; obtain ⟨a, b, rfl⟩ := hs; rfl
  | endEnv => simp only [SpanOf] at hs; obtain ⟨a, b, rfl⟩ := hs; rfl
  | generic => simp only [SpanOf] at hs; subst hs; exact h.1
  | beginMath => simp only [SpanOf] at hs; subst hs; simp only [TokShape] at h; rcases h with rfl | rfl <;> rfl
  | endMath => simp only [SpanOf] at hs; subst hs; simp only [TokShape] at h; rcases h with rfl | rfl <;> rfl
  | cif i => simp only [SpanOf] at hs; subst hs; simp only [TokShape] at h; rw [h]; exact i.text_head
  | errorBeginEnv => simp only [SpanOf] at hs; subst hs; simp only [TokShape] at h; rw [h]; rfl
  | errorEndEnv => simp only [SpanOf] at hs; subst hs; simp only [TokShape] at h; rw [h]; rfl
  | celse => simp only [SpanOf] at hs; subst hs; simp only [TokShape] at h; rw [h]; rfl
  | endIf => simp only [SpanOf] at hs; subst hs; simp only [TokShape] at h; rw [h]; rfl
  | left => simp only [SpanOf] at hs; subst hs; simp only [TokShape] at h; rw [h]; rfl
  | right => simp only [SpanOf] at hs; subst hs; simp only [TokShape] at h; rw [h]; rfl

/-- C05: every token has a text of its kind (words contain neither whitespace nor special characters,
whitespace no line breaks, ...), and words, whitespace, line breaks and comments are as long as possible. -/
theorem C05_pure_and_maximal (spec : CommandSpec) (s : Text) (toks : List Tok) (h : tokensOf spec s = .ok toks) :
    ∃ spans : List Text, spans.flatten = s ∧ spans.length = toks.length ∧
      ∀ (i : Nat) k t sp, toks[i]? = some (k, t) → spans[i]? = some sp →
        SpanOf k t sp ∧ TokShape k t ∧ Maximal k (spans.drop (i + 1)).flatten := by
  obtain ⟨spans, h1, h2, h3⟩ := tokensOf_spec h
  exact ⟨spans, h2, h1, fun i k t sp a b => (h3 i k t sp a b).2⟩

/-- C05, consequence: two words, two whitespaces or two line breaks are never adjacent, and a comment is
followed by a line break. -/
theorem C05_no_split_tokens (spec : CommandSpec) (s : Text) (toks : List Tok) (h : tokensOf spec s = .ok toks)
    (i : Nat) (k k' : Token) (t t' : Text) (h1 : toks[i]? = some (k, t)) (h2 : toks[i + 1]? = some (k', t')) :
    (k = .word → k' ≠ .word) ∧ (k = .whitespace → k' ≠ .whitespace) ∧ (k = .lineBreak → k' ≠ .lineBreak) ∧
    (k = .lineComment → k' = .lineBreak) := by
  obtain ⟨spans, hlen, hflat, hall⟩ := tokensOf_spec h
  have l1 := (List.getElem?_eq_some_iff.mp h1).1
  have l2 := (List.getElem?_eq_some_iff.mp h2).1
  have a1 := hall i k t spans[i] h1 (List.getElem?_eq_getElem (by omega))
  have a2 := hall (i+1) k' t' spans[i+1] h2 (List.getElem?_eq_getElem (by omega))
  obtain ⟨_, _, _, hm⟩ := a1
  obtain ⟨hne, hsp, hsh, _⟩ := a2
  rw [List.drop_eq_getElem_cons (by omega), List.flatten_cons] at hm
  cases hs : spans[i + 1] with
  | nil => exact absurd hs hne
  | cons c r =>
    rw [hs] at hm hsp
    simp only [List.cons_append] at hm
    refine ⟨?_, ?_, ?_, ?_⟩
    · rintro rfl rfl
      simp only [SpanOf] at hsp
      subst hsp
      simp only [TokShape] at hsh
      have := hsh.2 c (by simp)
      simp only [Maximal] at hm
      rcases hm with h | h
      · rw [this.1] at h; cases h
      · exact this.2 h
    · rintro rfl rfl
      simp only [SpanOf] at hsp
      subst hsp
      simp only [TokShape] at hsh
      have := hsh.2 c (by simp)
      simp only [Maximal] at hm
      simp_all
    · rintro rfl rfl
      simp only [SpanOf] at hsp
      subst hsp
      simp only [TokShape] at hsh
      have := hsh.2 c (by simp)
      simp only [Maximal] at hm
      simp_all
    · rintro rfl
      simp only [Maximal] at hm
      cases k' with
      | lineBreak => rfl
      | cmd n =>
        exfalso
        have : c = '\\' := by
          have := span_head_cmd n t' (c :: r) hsh hsp
          simpa using this
        subst this
        simp at hm
      | error => exact hsh.elim
      | macroArg n => exact hsh.elim
      | left b => cases b <;> (simp only [SpanOf] at hsp; subst hsp; simp [TokShape] at hsh; simp_all)
      | right b => cases b <;> (simp only [SpanOf] at hsp; subst hsp; simp [TokShape] at hsh; simp_all)
      | whitespace =>
        simp only [SpanOf] at hsp; subst hsp; simp only [TokShape] at hsh
        have := hsh.2 c (by simp)
        simp_all
      | lineComment =>
        simp only [SpanOf] at hsp; subst hsp; simp only [TokShape] at hsh
        have := hsh.2 c (by simp)
        simp_all
      | word =>
        simp only [SpanOf] at hsp; subst hsp; simp only [TokShape] at hsh
        have := (hsh.2 c (by simp)).1
        rcases hm with rfl | rfl <;> simp [isWs] at this
      | dollar =>
        simp only [SpanOf] at hsp; subst hsp; simp [TokShape] at hsh
        rcases hsh with h | h <;> simp_all
      | _ => simp only [SpanOf] at hsp; subst hsp; simp [TokShape] at hsh; simp_all

/-! ### C02 -/

theorem beginEndWork_error {after : Text} {e : Stop} (h : beginEndWork after = .error e) :
    e = .panic ∧ '%' ∈ after ∧ ¬ Ascii after := by
  unfold beginEndWork at h
  split at h
  · cases h
  · rename_i c r1 n1 h1
    split at h
    · cases h
    · rename_i hc
      have hle1 := nextNonTrivia_le h1
      split at h
      · rename_i hd
        cases h
        refine ⟨rfl, ?_, ?_⟩
        · refine Decidable.byContradiction fun hp => ?_
          obtain ⟨p, e1, _, e2⟩ := nextNonTrivia_exact hp h1
          rw [e2, e1, Nat.zero_add, show p ++ c :: r1 = (p ++ [c]) ++ r1 by simp, dropBytes_append] at hd
          cases hd
        · intro ha
          obtain ⟨r, hr⟩ := dropBytes_ascii ha n1 (by omega)
          rw [hr] at hd; cases hd
      · rename_i rest1 hd1
        simp only at h
        split at h
        · cases h
        · rename_i c2 r2 n2 h2
          split at h
          · cases h
          · split at h
            · rename_i hd
              cases h
              obtain ⟨p1, e1, l1⟩ := dropBytes_some hd1
              have ha := advanceName_append (fun _ => true) rest1 []
              generalize advanceName (fun _ => true) [] rest1 = A at *
              refine ⟨rfl, ?_, ?_⟩
              · refine Decidable.byContradiction fun hp => ?_
                have hp2 : '%' ∉ A.2 := fun hm => hp (by rw [e1, ← ha]; simp [hm])
                obtain ⟨p, e2, _, e3⟩ := nextNonTrivia_exact hp2 h2
                have hx : after = (p1 ++ A.1 ++ (p ++ [c2])) ++ r2 := by
                  rw [e1, ← ha, e2]; simp
                have hy : n2 = byteLen (p1 ++ A.1 ++ (p ++ [c2])) := by
                  rw [e3, byteLen_append (p1 ++ A.1), byteLen_append p1, l1]
                rw [hx, hy, dropBytes_append] at hd
                cases hd
              · intro hasc
                have hle2 := nextNonTrivia_le h2
                have hl : byteLen after = n1 + (byteLen A.1 + byteLen A.2) := by
                  rw [e1, ← ha, byteLen_append, byteLen_append, l1]
                obtain ⟨r, hr⟩ := dropBytes_ascii hasc n2 (by omega)
                rw [hr] at hd; cases hd
            · cases h

theorem singleTok_some {c : Char} (h : isWordStop c = true) (h1 : c ≠ '%') (h2 : c ≠ '$') (h3 : c ≠ '\\') :
    ∃ t, singleTok c = some t := by
  unfold isWordStop at h
  rw [List.contains_iff_mem] at h
  simp only [List.mem_cons, List.not_mem_nil, or_false] at h
  rcases h with h | h | h | h | h | h | h | h | h | h | h | h | h | h | h | h | h | h | h | h | h <;> subst h <;>
    first
    | contradiction
    | exact ⟨_, rfl⟩

/-- The text starts with an environment command. -/
def EnvCommand (s : Text) : Prop := "\\begin".toList <+: s ∨ "\\end".toList <+: s

theorem Ascii.suffix {a b : Text} (h : Ascii (a ++ b)) : Ascii b := fun c hc => h c (by simp [hc])

theorem lexBeginEnd_error {full after : Text} {a b : CommandName} {e : Stop}
    (h : lexBeginEnd full after a b = .error e) : e = .panic ∧ '%' ∈ after ∧ ¬ Ascii after := by
  unfold lexBeginEnd at h
  split at h
  · cases h; rename_i hw; exact beginEndWork_error hw
  · cases h
  · cases h

theorem lexCommandName_error {spec : CommandSpec} {cs : Text} {e : Stop}
    (h : lexCommandName spec cs = .error e) :
    e = .panic ∧ '%' ∈ cs ∧ ¬ Ascii cs ∧ EnvCommand ('\\' :: cs) := by
  unfold lexCommandName at h
  split at h
  · cases h
  · rename_i c cs'
    split at h
    · cases h
    · split at h
      · cases h
      · split at h
        · cases h
        · split at h
          · cases h
          · simp only at h
            have ha := advanceName_append (fun n => (spec n).isSome) cs' [c]
            generalize advanceName (fun n => (spec n).isSome) [c] cs' = A at *
            have hcs : c :: cs' = (c :: A.1) ++ A.2 := by simp [ha]
            split at h
            · rename_i hb
              obtain ⟨h1, h2, h3⟩ := lexBeginEnd_error h
              rw [hcs]
              exact ⟨h1, by simp [h2], fun h => h3 h.suffix, .inl ⟨A.2, by rw [hb]; rfl⟩⟩
            · split at h
              · rename_i hb
                obtain ⟨h1, h2, h3⟩ := lexBeginEnd_error h
                rw [hcs]
                exact ⟨h1, by simp [h2], fun h => h3 h.suffix, .inr ⟨A.2, by rw [hb]; rfl⟩⟩
              · cases h

theorem lexOne_error {spec : CommandSpec} {s : Text} {e : Stop} (h : lexOne spec s = some (.error e)) :
    e = .panic ∧ '%' ∈ s ∧ ¬ Ascii s ∧ EnvCommand s := by
  unfold lexOne at h
  split at h
  · cases h
  · rename_i c cs
    split at h
    · cases h
    · split at h
      · cases h
      · rename_i hws
        split at h
        · cases h
        · rename_i hwc
          split at h
          · cases h
          · rename_i hpc
            split at h
            · split at h <;> cases h
            · rename_i hdl
              split at h
              · rename_i hbs
                simp at hbs; subst hbs
                split at h
                · cases h
                · simp at h
                  obtain ⟨h1, h2, h3, h4⟩ := lexCommandName_error h
                  exact ⟨h1, by simp [h2], fun h => h3 (fun d hd => h d (by simp [hd])), h4⟩
              · rename_i hbs
                have : isWordStop c = true := by
                  simp [isWordChar, hws] at hwc; exact hwc
                obtain ⟨t, ht⟩ := singleTok_some this (by simpa using hpc) (by simpa using hdl) (by simpa using hbs)
                rw [ht] at h
                cases h

theorem lexFuel_error (spec : CommandSpec) (n : Nat) : ∀ (s : Text) (e : Stop), s.length ≤ n →
    lexFuel spec n s = .error e →
    e = .panic ∧ ∃ pre suf, s = pre ++ suf ∧ '%' ∈ suf ∧ ¬ Ascii suf ∧ EnvCommand suf := by
  induction n with
  | zero =>
    intro s e hs h
    simp at hs
    simp [lexFuel, hs] at h
  | succ n ih =>
    intro s e hs h
    rw [lexFuel] at h
    split at h
    · cases h
    · rename_i e' h1
      cases h
      obtain ⟨h1, h2, h3, h4⟩ := lexOne_error h1
      exact ⟨h1, [], s, rfl, h2, h3, h4⟩
    · rename_i l h1
      split at h
      · rename_i e' h2
        cases h
        obtain ⟨_, _, span, hne, he, _⟩ := lexOne_good h1
        have hl : l.rest.length ≤ n := by
          have : s.length = span.length + l.rest.length := by rw [he]; simp
          have : 0 < span.length := List.length_pos_iff.mpr hne
          omega
        obtain ⟨h1, pre, suf, h3, h4⟩ := ih _ _ hl h2
        exact ⟨h1, span ++ pre, suf, by rw [he, h3]; simp, h4⟩
      · cases h

/-- C02, termination: lexing any text ends; it is never still running after as many tokens as the text has
characters, and it never reports an error. The only other outcome is a panic. -/
theorem C02_terminates (spec : CommandSpec) (s : Text) :
    (∃ toks, tokensOf spec s = .ok toks) ∨ tokensOf spec s = .error .panic := by
  unfold tokensOf lexAll
  cases h : lexFuel spec s.length s with
  | ok ls => exact .inl ⟨_, rfl⟩
  | error e => right; rw [(lexFuel_error _ _ _ _ (Nat.le_refl _) h).1]

/-- C02, without panic, for every text in which no `\begin` or `\end` is followed by both a `%` and a
non-ASCII character; in particular for every ASCII text, every text without `%`, and every text without
environments. (`C02_panics_exactly` has the exact condition.) -/
theorem C02_total_unless_slip (spec : CommandSpec) (s : Text)
    (hs : ∀ pre suf, s = pre ++ suf → EnvCommand suf → '%' ∉ suf ∨ Ascii suf) :
    ∃ toks, tokensOf spec s = .ok toks := by
  unfold tokensOf lexAll
  cases h : lexFuel spec s.length s with
  | ok ls => exact ⟨_, rfl⟩
  | error e =>
    obtain ⟨_, pre, suf, h1, h2, h3, h4⟩ := lexFuel_error _ _ _ _ (Nat.le_refl _) h
    rcases hs pre suf h1 h4 with h5 | h5
    · exact absurd h2 h5
    · exact absurd h5 h3

theorem C02_total_no_comment (spec : CommandSpec) (s : Text) (h : '%' ∉ s) :
    ∃ toks, tokensOf spec s = .ok toks :=
  C02_total_unless_slip spec s fun pre suf he _ => .inl fun hm => h (by rw [he]; simp [hm])

theorem C02_total_ascii (spec : CommandSpec) (s : Text) (h : Ascii s) :
    ∃ toks, tokensOf spec s = .ok toks :=
  C02_total_unless_slip spec s fun pre suf he _ => .inr (he ▸ h : Ascii (pre ++ suf)).suffix

example : Ascii "\\begin{x}%c\n\\alpha_2".toList ∧ '%' ∉ "\\begin{é}ß".toList :=
  ⟨by unfold Ascii; decide, by decide⟩

/-- C02 is false in general: the byte counter of the environment clause does not count the line ends that
close comments, so that an ideographic space after two comments is split in the middle, which panics. -/
theorem C02_not_total (spec : CommandSpec) :
    tokensOf spec "\\begin{x%c\n%d\n\u3000}".toList = .error .panic := by
  rfl

/-! ### C04 -/

/-- C04: after a backslash, the longest run of letters and `@` is the command name; a star directly after it
belongs to the command iff the specification has an item with the starred name. (`\begin` and `\end` are
read with their clause, property C06.) -/
theorem C04_starred_names (spec : CommandSpec) (name rest : Text) (hne : name ≠ [])
    (hn : ∀ c ∈ name, NameChar c) (hr : ∀ c, rest.head? = some c → ¬ NameChar c)
    (hb : name ≠ "begin".toList ∧ name ≠ "end".toList) :
    ∃ k, lexOne spec ('\\' :: name ++ rest) = some (.ok
      (if rest.head? = some '*' ∧ (spec (name ++ ['*'])).isSome
       then ⟨.cmd k, '\\' :: name ++ ['*'], rest.tail⟩
       else ⟨.cmd k, '\\' :: name, rest⟩)) := by
  cases name with
  | nil => contradiction
  | cons c name =>
    have hc := hn c (by simp)
    have hnb : c ≠ '\\' := by rintro rfl; simp [NameChar, isAsciiAlpha] at hc
    have hlc : lexOne spec ('\\' :: (c :: name) ++ rest) = some (lexCommandName spec ((c :: name) ++ rest)) := by
      rw [List.cons_append]
      unfold lexOne
      simp only [List.cons_append]
      rw [if_neg (by decide), if_neg (by decide), if_neg (by decide), if_neg (by decide), if_neg (by decide),
        if_pos (by decide)]
      split
      · rename_i h; simp at h; exact absurd h.1 hnb
      · rfl
    rw [hlc]
    have h1 : isWs c = false := by
      rcases hc with hc | hc
      · unfold isAsciiAlpha at hc; unfold isWs
        simp at hc ⊢; omega
      · subst hc; decide
    have h2 : (c == '(' || c == '[') = false := by
      rw [← Bool.not_eq_true]; intro h; simp at h
      rcases h with rfl | rfl <;> simp [NameChar, isAsciiAlpha] at hc
    have h3 : (c == ')' || c == ']') = false := by
      rw [← Bool.not_eq_true]; intro h; simp at h
      rcases h with rfl | rfl <;> simp [NameChar, isAsciiAlpha] at hc
    have h4 : (c != '@' && !isAsciiAlpha c) = false := by
      rcases hc with hc | hc <;> simp [hc]
    have ha := advanceName_run (fun n => (spec n).isSome) name rest (fun d hd => hn d (by simp [hd])) hr [c]
    rw [List.cons_append, lexCommandName]
    simp only [h1, h2, h3, h4, Bool.false_eq_true, if_false]
    rw [ha]
    simp only [List.cons_append, List.nil_append] at hb ⊢
    split
    · have n1 : c :: (name ++ ['*']) ≠ "begin".toList := by
        intro h
        have : '*' ∈ "begin".toList := by rw [← h]; simp
        revert this; decide
      have n2 : c :: (name ++ ['*']) ≠ "end".toList := by
        intro h
        have : '*' ∈ "end".toList := by rw [← h]; simp
        revert this; decide
      rename_i hst
      rw [if_neg n1, if_neg n2]
      exact ⟨_, rfl⟩
    · rename_i hst
      rw [if_neg hb.1, if_neg hb.2]
      exact ⟨_, rfl⟩

example : lexOne (fun n => if n = "op*".toList then some (.cmd ⟨.left1, none⟩) else none) "\\op*x".toList
    = some (.ok ⟨.cmd .generic, "\\op*".toList, "x".toList⟩) ∧
    lexOne (fun n => if n = "op*".toList then some (.cmd ⟨.left1, none⟩) else none) "\\ope*x".toList
    = some (.ok ⟨.cmd .generic, "\\ope".toList, "*x".toList⟩) := by
  decide

/-! ### C06 -/

theorem beginEndWork_ws (ws1 name ws2 rest : Text) (h1 : ∀ c ∈ ws1, isWs c = true) (hn : EnvName name)
    (h2 : ∀ c ∈ ws2, isWs c = true) :
    beginEndWork (ws1 ++ '{' :: (name ++ (ws2 ++ '}' :: rest))) = .ok (some (name, rest)) := by
  have hwsn : ∀ c, isWs c = true → ¬ NameChar c ∧ c ≠ '*' := by
    intro c hc
    constructor
    · rintro (h | rfl)
      · unfold isAsciiAlpha at h; unfold isWs at hc
        simp at h hc; omega
      · simp [isWs] at hc
    · rintro rfl; simp [isWs] at hc
  have hhead : ∀ c, (ws2 ++ '}' :: rest).head? = some c → ¬ NameChar c ∧ c ≠ '*' := by
    intro c hc
    cases ws2 with
    | nil => simp at hc; subst hc; simp [NameChar, isAsciiAlpha]
    | cons d w => simp at hc; subst hc; exact hwsn _ (h2 d (by simp))
  have ha : advanceName (fun _ => true) [] (name ++ (ws2 ++ '}' :: rest)) = (name, ws2 ++ '}' :: rest) := by
    obtain ⟨l, hl, rfl | rfl⟩ := hn
    · rw [advanceName_run _ _ _ hl (fun c hc => (hhead c hc).1)]
      rw [if_neg]
      rintro ⟨h, _⟩
      exact (hhead _ h).2 rfl
    · rw [List.append_assoc, advanceName_run _ l _ hl (by intro c hc; simp at hc; subst hc; simp [NameChar, isAsciiAlpha])]
      simp
  unfold beginEndWork
  rw [nextNonTrivia_ws ws1 h1 '{' (by decide) (by decide)]
  simp only [ne_eq, not_true_eq_false, if_false, Nat.zero_add]
  rw [show ws1 ++ '{' :: (name ++ (ws2 ++ '}' :: rest)) = (ws1 ++ ['{']) ++ (name ++ (ws2 ++ '}' :: rest)) by simp,
    dropBytes_append]
  simp only [ha]
  rw [nextNonTrivia_ws ws2 h2 '}' (by decide) (by decide)]
  simp only [ne_eq, not_true_eq_false, if_false]
  rw [show (ws1 ++ ['{']) ++ (name ++ (ws2 ++ '}' :: rest)) = (ws1 ++ ['{'] ++ name ++ (ws2 ++ ['}'])) ++ rest by simp,
    show byteLen (ws1 ++ ['{']) + byteLen name + byteLen (ws2 ++ ['}']) =
      byteLen (ws1 ++ ['{'] ++ name ++ (ws2 ++ ['}'])) by
      rw [byteLen_append (ws1 ++ ['{'] ++ name), byteLen_append (ws1 ++ ['{'])],
    dropBytes_append]

theorem lexCommandName_env (spec : CommandSpec) (s : Text) (after : Text) (hs : s = "begin".toList ∨ s = "end".toList)
    (hr : ∀ c, after.head? = some c → ¬ NameChar c ∧ c ≠ '*') :
    lexOne spec ('\\' :: (s ++ after)) = some (if s = "begin".toList
      then lexBeginEnd "\\begin".toList after .beginEnv .errorBeginEnv
      else lexBeginEnd "\\end".toList after .endEnv .errorEndEnv) := by
  have hl : lexOne spec ('\\' :: (s ++ after)) = some (lexCommandName spec (s ++ after)) := by
    rcases hs with rfl | rfl <;> rfl
  rw [hl]
  congr 1
  rcases hs with rfl | rfl
  · have ha := advanceName_run (fun n => (spec n).isSome) "egin".toList after (by decide) (fun c hc => (hr c hc).1) ['b']
    rw [if_neg (by rintro ⟨h, _⟩; exact (hr _ h).2 rfl)] at ha
    show lexCommandName spec ('b' :: ("egin".toList ++ after)) = _
    unfold lexCommandName
    simp only [ha]
    rfl
  · have ha := advanceName_run (fun n => (spec n).isSome) "nd".toList after (by decide) (fun c hc => (hr c hc).1) ['e']
    rw [if_neg (by rintro ⟨h, _⟩; exact (hr _ h).2 rfl)] at ha
    show lexCommandName spec ('e' :: ("nd".toList ++ after)) = _
    unfold lexCommandName
    simp only [ha]
    rfl

/-- C06, clauses with whitespace: `\begin`, whitespace, `{`, a name, whitespace, `}` is one token with the
name as text, and lexing goes on after the closing brace. (`C06_exact` covers all
texts; comments break the clause, `C06_comment_breaks_clause`.) -/
theorem C06_begin_clause (spec : CommandSpec) (ws1 name ws2 rest : Text) (h1 : ∀ c ∈ ws1, isWs c = true)
    (hn : EnvName name) (h2 : ∀ c ∈ ws2, isWs c = true) :
    lexOne spec ("\\begin".toList ++ ws1 ++ ['{'] ++ name ++ ws2 ++ ['}'] ++ rest) =
      some (.ok ⟨.cmd .beginEnv, name, rest⟩) := by
  have he : "\\begin".toList ++ ws1 ++ ['{'] ++ name ++ ws2 ++ ['}'] ++ rest =
      '\\' :: ("begin".toList ++ (ws1 ++ '{' :: (name ++ (ws2 ++ '}' :: rest)))) := by simp
  rw [he, lexCommandName_env spec _ _ (.inl rfl), if_pos rfl, lexBeginEnd, beginEndWork_ws _ _ _ _ h1 hn h2]
  intro c hc
  cases ws1 with
  | nil => simp at hc; subst hc; simp [NameChar, isAsciiAlpha]
  | cons d w =>
    simp at hc; subst hc
    have := h1 d (by simp)
    constructor
    · rintro (h | rfl)
      · unfold isAsciiAlpha at h; unfold isWs at this
        simp at h this; omega
      · simp [isWs] at this
    · rintro rfl; simp [isWs] at this

/-- C06 for `\end`. -/
theorem C06_end_clause (spec : CommandSpec) (ws1 name ws2 rest : Text) (h1 : ∀ c ∈ ws1, isWs c = true)
    (hn : EnvName name) (h2 : ∀ c ∈ ws2, isWs c = true) :
    lexOne spec ("\\end".toList ++ ws1 ++ ['{'] ++ name ++ ws2 ++ ['}'] ++ rest) =
      some (.ok ⟨.cmd .endEnv, name, rest⟩) := by
  have he : "\\end".toList ++ ws1 ++ ['{'] ++ name ++ ws2 ++ ['}'] ++ rest =
      '\\' :: ("end".toList ++ (ws1 ++ '{' :: (name ++ (ws2 ++ '}' :: rest)))) := by simp
  rw [he, lexCommandName_env spec _ _ (.inr rfl), if_neg (by decide), lexBeginEnd, beginEndWork_ws _ _ _ _ h1 hn h2]
  intro c hc
  cases ws1 with
  | nil => simp at hc; subst hc; simp [NameChar, isAsciiAlpha]
  | cons d w =>
    simp at hc; subst hc
    have := h1 d (by simp)
    constructor
    · rintro (h | rfl)
      · unfold isAsciiAlpha at h; unfold isWs at this
        simp at h this; omega
      · simp [isWs] at this
    · rintro rfl; simp [isWs] at this

example : EnvName "matrix*".toList := ⟨"matrix".toList, by decide, .inr rfl⟩

/-- C06 is false with comments in the clause: `\begin%c⏎{x}` is a malformed clause, and `\begin{x%c⏎}` does
not consume its closing brace. -/
theorem C06_comment_breaks_clause (spec : CommandSpec) :
    lexOne spec "\\begin%c\n{x}".toList = some (.ok ⟨.cmd .errorBeginEnv, "\\begin".toList, "%c\n{x}".toList⟩) ∧
    lexOne spec "\\begin{x%c\n}".toList = some (.ok ⟨.cmd .beginEnv, "x".toList, "}".toList⟩) :=
  ⟨rfl, rfl⟩

/-- What stands between `\begin` and the rest, when the clause is read and the text has no `%`. -/
theorem beginEndWork_shape {after name rest : Text} (hp : '%' ∉ after)
    (h : beginEndWork after = .ok (some (name, rest))) :
    ∃ ws1 ws2, (∀ c ∈ ws1, isWs c = true) ∧ (∀ c ∈ ws2, isWs c = true) ∧
      after = ws1 ++ ['{'] ++ name ++ ws2 ++ ['}'] ++ rest := by
  unfold beginEndWork at h
  split at h
  · cases h
  · rename_i c r1 n1 h1
    split at h
    · cases h
    · rename_i hc
      obtain ⟨p, e1, hws1, e2⟩ := nextNonTrivia_exact hp h1
      rw [e2, e1, Nat.zero_add, show p ++ c :: r1 = (p ++ [c]) ++ r1 by simp, dropBytes_append] at h
      simp only at h
      have ha := advanceName_append (fun _ => true) r1 []
      generalize advanceName (fun _ => true) [] r1 = A at *
      have hp2 : '%' ∉ A.2 := fun hm => hp (by rw [e1, ← ha]; simp [hm])
      split at h
      · cases h
      · rename_i c2 r2 n2 h2
        obtain ⟨q, e3, hws2, e4⟩ := nextNonTrivia_exact hp2 h2
        split at h
        · cases h
        · rename_i hc2
          have hx : (p ++ [c]) ++ r1 = ((p ++ [c]) ++ A.1 ++ (q ++ [c2])) ++ r2 := by rw [← ha, e3]; simp
          rw [hx, e4, ← byteLen_append, ← byteLen_append, dropBytes_append] at h
          simp only [Except.ok.injEq, Option.some.injEq, Prod.mk.injEq] at h
          obtain ⟨rfl, rfl⟩ := h
          simp only [ne_eq, Decidable.not_not] at hc hc2
          exact ⟨p, q, hws1, hws2, by rw [e1, ← ha, e3, hc, hc2]; simp⟩

/-- C06, converse, for texts without `%`: a begin token stands for a clause of this form, and the
environment name is what the braces contain. -/
theorem C06_begin_converse (spec : CommandSpec) (s : Text) (l : Lexed) (hp : '%' ∉ s)
    (h : lexOne spec s = some (.ok l)) (hk : l.tok = .cmd .beginEnv) :
    ∃ ws1 ws2, (∀ c ∈ ws1, isWs c = true) ∧ (∀ c ∈ ws2, isWs c = true) ∧ EnvName l.text ∧
      s = "\\begin".toList ++ ws1 ++ ['{'] ++ l.text ++ ws2 ++ ['}'] ++ l.rest := by
  have hg := lexOne_good h
  unfold lexOne at h
  split at h
  · cases h
  · rename_i c cs
    split at h
    · cases h; cases hk
    · split at h
      · cases h; cases hk
      · split at h
        · cases h; cases hk
        · split at h
          · cases h; cases hk
          · split at h
            · split at h <;> (cases h; cases hk)
            · split at h
              · rename_i hbs
                simp at hbs; subst hbs
                split at h
                · cases h; cases hk
                · simp only [Option.some.injEq] at h
                  unfold lexCommandName at h
                  split at h
                  · cases h; cases hk
                  · rename_i c cs' _
                    split at h
                    · cases h; cases hk
                    · split at h
                      · cases h; cases hk
                      · split at h
                        · cases h; cases hk
                        · split at h
                          · cases h; cases hk
                          · simp only at h
                            have ha := advanceName_append (fun n => (spec n).isSome) cs' [c]
                            generalize advanceName (fun n => (spec n).isSome) [c] cs' = A at *
                            split at h
                            · rename_i hb
                              unfold lexBeginEnd at h
                              split at h
                              · cases h
                              · cases h; cases hk
                              · rename_i name rest hw
                                cases h
                                have hp2 : '%' ∉ A.2 := fun hm => hp (by rw [← ha]; simp [hm])
                                obtain ⟨w1, w2, a1, a2, a3⟩ := beginEndWork_shape hp2 hw
                                refine ⟨w1, w2, a1, a2, ?_, ?_⟩
                                · simpa [TokShape] using hg.shape
                                · have : '\\' :: c :: cs' = ('\\' :: (c :: A.1)) ++ A.2 := by simp [ha]
                                  rw [this, hb, a3]
                                  simp
                            · split at h
                              · unfold lexBeginEnd at h
                                split at h
                                · cases h
                                · cases h; cases hk
                                · cases h; cases hk
                              · cases h
                                have hs := hg.shape
                                simp only at hk hs
                                rw [hk] at hs
                                exfalso
                                simp only [TokShape, EnvName] at hs
                                obtain ⟨l, hl, he | he⟩ := hs
                                · have := hl '\\' (by rw [← he]; simp)
                                  simp [NameChar, isAsciiAlpha] at this
                                · cases l with
                                  | nil => simp at he
                                  | cons x y =>
                                    simp at he
                                    have := hl '\\' (List.mem_cons.mpr (.inl he.1))
                                    simp [NameChar, isAsciiAlpha] at this
              · split at h
                · rename_i t hs
                  cases h
                  exfalso
                  simp only at hk
                  subst hk
                  unfold singleTok at hs
                  split at hs <;> cases hs
                · cases h

theorem utf8Len_eq (c : Char) : utf8Len c = c.utf8Size := by
  unfold utf8Len Char.utf8Size
  have : c.toNat = c.val.toNat := rfl
  simp only [this, UInt32.le_iff_toNat_le]
  simp only [show (UInt32.ofNatLT 0x7f (by decide)).toNat = 0x7f from rfl, show (UInt32.ofNatLT 0x7ff (by decide)).toNat = 0x7ff from rfl, show (UInt32.ofNatLT 0xffff (by decide)).toNat = 0xffff from rfl]
  repeat' split
  all_goals first | rfl | omega
/-- **C06.** Lengths of texts, by which `\begin` and `\end` clauses move the lexer, are lengths of the UTF-8 encoding. -/
theorem C06_bytes (t : Text) : byteLen t = (String.ofList t).utf8ByteSize := by
  induction t with
  | nil => rfl
  | cons c cs ih =>
    rw [byteLen, ih, utf8Len_eq]
    rw [show String.ofList (c :: cs) = String.singleton c ++ String.ofList cs from by apply String.ext; simp, String.utf8ByteSize_append]
    simp

/-- The 25 characters with the Unicode property `White_Space` (Unicode 15, PropList.txt). -/
def whiteSpace : List Char :=
  ['\u0009', '\u000a', '\u000b', '\u000c', '\u000d', '\u0020', '\u0085', '\u00a0', '\u1680', '\u2000', '\u2001', '\u2002', '\u2003',
   '\u2004', '\u2005', '\u2006', '\u2007', '\u2008', '\u2009', '\u200a', '\u2028', '\u2029', '\u202f', '\u205f', '\u3000']

/-- **C06.** White space, which ends words and may stand around the names of environments, is Unicode white space. -/
theorem C06_white_space (c : Char) : isWs c = true ↔ c ∈ whiteSpace := by
  have key : ∀ d : Char, c = d ↔ c.toNat = d.toNat := fun d =>
    ⟨fun h => by rw [h], fun h => Char.ext (UInt32.toNat_inj.1 h)⟩
  simp only [whiteSpace, List.mem_cons, List.not_mem_nil, key, or_false]
  unfold isWs
  generalize c.toNat = n
  show _ ↔ (n = 0x9 ∨ n = 0xa ∨ n = 0xb ∨ n = 0xc ∨ n = 0xd ∨ n = 0x20 ∨ n = 0x85 ∨ n = 0xa0 ∨ n = 0x1680 ∨ n = 0x2000 ∨ n = 0x2001 ∨ n = 0x2002 ∨ n = 0x2003 ∨ n = 0x2004 ∨
    n = 0x2005 ∨ n = 0x2006 ∨ n = 0x2007 ∨ n = 0x2008 ∨ n = 0x2009 ∨ n = 0x200a ∨ n = 0x2028 ∨ n = 0x2029 ∨ n = 0x202f ∨ n = 0x205f ∨ n = 0x3000)
  simp only [Bool.or_eq_true, Bool.and_eq_true, decide_eq_true_eq, beq_iff_eq]
  omega

end Mitex
