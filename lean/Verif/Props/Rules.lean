/-
C59: the lexer implements the lexical grammar, completely and deterministically.
-/
import Verif.Spec.Rules
import Verif.Props.Lexer
import Verif.Proof.Clause

namespace Mitex

/-! ### From the rules to the lexer -/

theorem takeWhile_cut (p : Char → Bool) (t rest : Text) (h : ∀ c ∈ t, p c = true)
    (hr : ∀ c, rest.head? = some c → p c = false) :
    (t ++ rest).takeWhile p = t ∧ (t ++ rest).dropWhile p = rest := by
  induction t with
  | nil =>
    cases rest with
    | nil => simp
    | cons c r => simp [hr c rfl]
  | cons c t ih =>
    have := ih (fun d hd => h d (by simp [hd]))
    simp [h c (by simp), this.1, this.2]

theorem lexRun_cut (k : Token) (p : Char → Bool) (c : Char) (t rest : Text) (h : ∀ d ∈ t, p d = true)
    (hr : ∀ d, rest.head? = some d → p d = false) : lexRun k p c (t ++ rest) = ⟨k, c :: t, rest⟩ := by
  obtain ⟨a, b⟩ := takeWhile_cut p t rest h hr
  simp [lexRun, a, b]

theorem nameChar_plain {c : Char} (hc : NameChar c) :
    c ≠ '\\' ∧ c ≠ '*' ∧ isWs c = false ∧ (c == '(' || c == '[') = false ∧ (c == ')' || c == ']') = false ∧
    (c != '@' && !isAsciiAlpha c) = false := by
  refine ⟨?_, ?_, ?_, ?_, ?_, ?_⟩
  · rintro rfl; simp [NameChar, isAsciiAlpha] at hc
  · rintro rfl; simp [NameChar, isAsciiAlpha] at hc
  · rcases hc with hc | hc
    · unfold isAsciiAlpha at hc; unfold isWs
      simp at hc ⊢; omega
    · subst hc; decide
  · rw [← Bool.not_eq_true]; intro h; simp at h
    rcases h with rfl | rfl <;> simp [NameChar, isAsciiAlpha] at hc
  · rw [← Bool.not_eq_true]; intro h; simp at h
    rcases h with rfl | rfl <;> simp [NameChar, isAsciiAlpha] at hc
  · rcases hc with hc | hc <;> simp [hc]

theorem lexOne_back (spec : CommandSpec) (cs : Text) (h : cs.head? ≠ some '\\') :
    lexOne spec ('\\' :: cs) = some (lexCommandName spec cs) := by
  unfold lexOne
  simp only
  rw [if_neg (by decide), if_neg (by decide), if_neg (by decide), if_neg (by decide), if_neg (by decide),
    if_pos (by decide)]
  split
  · rename_i h'; exact absurd rfl h
  · rfl

/-- What the lexer does after a backslash and a name. -/
theorem lexOne_name (spec : CommandSpec) (name rest : Text) (hne : name ≠ []) (hn : ∀ c ∈ name, NameChar c)
    (hr : NoMore NameChar rest) :
    lexOne spec ('\\' :: name ++ rest) = some (
      if rest.head? = some '*' ∧ (spec (name ++ ['*'])).isSome then
        .ok ⟨.cmd .generic, '\\' :: name ++ ['*'], rest.tail⟩
      else if name = t!"begin" then lexBeginEnd t!"\\begin" rest .beginEnv .errorBeginEnv
      else if name = t!"end" then lexBeginEnd t!"\\end" rest .endEnv .errorEndEnv
      else .ok ⟨.cmd (builtinName name), '\\' :: name, rest⟩) := by
  cases name with
  | nil => contradiction
  | cons c name =>
    have hc := hn c (by simp)
    obtain ⟨h0, _, h1, h2, h3, h4⟩ := nameChar_plain hc
    rw [List.cons_append, lexOne_back _ _ (by simpa using h0)]
    have ha := advanceName_run (fun n => (spec n).isSome) name rest (fun d hd => hn d (by simp [hd])) hr [c]
    congr 1
    rw [List.cons_append, lexCommandName]
    simp only [h1, h2, h3, h4, Bool.false_eq_true, if_false]
    rw [ha]
    simp only [List.cons_append, List.nil_append]
    have hstar : ∀ w : Text, (∀ d ∈ w, d ≠ '*') → c :: (name ++ ['*']) ≠ w := by
      intro w hw he
      exact hw '*' (by rw [← he]; simp) rfl
    split
    · rw [if_neg (hstar _ (by decide)), if_neg (hstar _ (by decide))]
      have hb : builtinName (c :: (name ++ ['*'])) = .generic := by
        unfold builtinName
        iterate 22 rw [if_neg (hstar _ (by decide))]
      rw [hb]
    · show (if c :: name = t!"begin" then _ else if c :: name = t!"end" then _ else _) = _
      split
      · rename_i hb
        rw [hb]
      · split
        · rename_i hb
          rw [hb]
        · rfl

theorem builtinName_kindOf {name : Text} {k : CommandName} (h : KindOf name k) : builtinName name = k := by
  rcases h with h | ⟨rfl, h⟩
  · simp only [builtinCommands, List.mem_cons, List.not_mem_nil, or_false, Prod.mk.injEq] at h
    rcases h with h|h|h|h|h|h|h|h|h|h|h|h|h|h|h|h|h|h|h|h|h|h <;> (obtain ⟨rfl, rfl⟩ := h; rfl)
  · unfold builtinName
    iterate 22 rw [if_neg (by
      intro he
      subst he
      first
        | exact h _ (List.mem_cons_self ..)
        | exact absurd (h _) (by decide)
        | exact h _ (by simp [builtinCommands]; rfl))]

theorem spaces_head {sp rest : Text} {k : Nat} (h : Spaces sp k) :
    NoMore NameChar (sp ++ '{' :: rest) ∧ (sp ++ '{' :: rest).head? ≠ some '*' := by
  have key : ∀ c, (sp ++ '{' :: rest).head? = some c → isWs c = true ∨ c = '{' ∨ c = '%' := by
    intro c hc
    cases h with
    | nil => simp at hc; exact .inr (.inl hc.symm)
    | blank hd h => simp at hc; subst hc; exact .inl hd
    | comment => simp at hc; exact .inr (.inr hc.symm)
  constructor
  · intro c hc hn
    have hp := (nameChar_plain hn).2.2.1
    rcases key c hc with h | rfl | rfl
    · rw [hp] at h; cases h
    · simp [NameChar, isAsciiAlpha] at hn
    · simp [NameChar, isAsciiAlpha] at hn
  · intro hc
    rcases key _ hc with h | h | h
    · exact absurd h (by decide)
    · cases h
    · cases h

theorem clause_blank {after name rest : Text} (h : Clause after name rest) :
    NoMore NameChar after ∧ after.head? ≠ some '*' := by
  obtain ⟨t, ⟨sp, k, r, h1, rfl, -⟩, -⟩ := h
  exact spaces_head h1

theorem torn_blank {after : Text} (h : TornClause after) : NoMore NameChar after ∧ after.head? ≠ some '*' := by
  rcases h with ⟨sp, k, r, h1, rfl, -⟩ | ⟨name, t, ⟨sp, k, r, h1, rfl, -⟩, -⟩
  · exact spaces_head h1
  · exact spaces_head h1

theorem lexBeginEnd_clause {full after name rest : Text} {a b : CommandName} (h : Clause after name rest) :
    lexBeginEnd full after a b = .ok ⟨.cmd a, name, rest⟩ := by
  rw [lexBeginEnd, ((beginEndWork_exact after).1 name rest).mpr h]

theorem lexBeginEnd_torn {full after : Text} {a b : CommandName} (h : TornClause after) :
    lexBeginEnd full after a b = .error .panic := by
  rw [lexBeginEnd, ((beginEndWork_exact after).2 .panic).mpr ⟨rfl, h⟩]

theorem lexBeginEnd_bad {full rest : Text} {a b : CommandName} (hp : ¬ TornClause rest)
    (h : ∀ name r, ¬ Clause rest name r) : lexBeginEnd full rest a b = .ok ⟨.cmd b, full, rest⟩ := by
  unfold lexBeginEnd
  cases hw : beginEndWork rest with
  | error e => exact absurd (((beginEndWork_exact rest).2 e).mp hw).2 hp
  | ok o =>
    cases o with
    | none => rfl
    | some nr => exact absurd (((beginEndWork_exact rest).1 nr.1 nr.2).mp hw) (h _ _)

theorem lexOne_begin {spec : CommandSpec} {after : Text} (h1 : NoMore NameChar after)
    (h2 : ¬ (after.head? = some '*' ∧ (spec t!"begin*").isSome)) :
    lexOne spec (t!"\\begin" ++ after) = some (lexBeginEnd t!"\\begin" after .beginEnv .errorBeginEnv) := by
  have := lexOne_name spec t!"begin" after (by simp) (by decide) h1
  rw [if_neg (show ¬ (after.head? = some '*' ∧ (spec (t!"begin" ++ ['*'])).isSome = true) from h2), if_pos rfl] at this
  exact this

theorem lexOne_end {spec : CommandSpec} {after : Text} (h1 : NoMore NameChar after)
    (h2 : ¬ (after.head? = some '*' ∧ (spec t!"end*").isSome)) :
    lexOne spec (t!"\\end" ++ after) = some (lexBeginEnd t!"\\end" after .endEnv .errorEndEnv) := by
  have := lexOne_name spec t!"end" after (by simp) (by decide) h1
  rw [if_neg (show ¬ (after.head? = some '*' ∧ (spec (t!"end" ++ ['*'])).isSome = true) from h2), if_neg (by decide),
    if_pos rfl] at this
  exact this

/-- Every rule of the grammar is what the lexer does. -/
theorem TokenAt.lexOne {spec : CommandSpec} {s : Text} {k : Token} {t rest : Text}
    (h : TokenAt spec s k t rest) : Mitex.lexOne spec s = some (.ok ⟨k, t, rest⟩) := by
  cases h with
  | lineBreak t rest hne ht hr =>
    cases t with
    | nil => contradiction
    | cons c t =>
      have hc := (isNl_iff c).mpr (ht c (by simp))
      rw [List.cons_append]
      unfold Mitex.lexOne
      simp only [hc, if_true]
      rw [lexRun_cut _ _ _ _ _ (fun d hd => (isNl_iff d).mpr (ht d (by simp [hd])))]
      intro d hd
      rw [← Bool.not_eq_true, isNl_iff]
      exact hr d hd
  | whitespace t rest hne ht hr =>
    cases t with
    | nil => contradiction
    | cons c t =>
      have hc := ht c (by simp)
      rw [List.cons_append]
      unfold Mitex.lexOne
      have hnl : isNl c = false := by simp [isNl, hc.2]
      simp only [hc.1, hnl, Bool.false_eq_true, if_false, if_true]
      rw [lexRun_cut]
      · intro d hd
        have := ht d (by simp [hd])
        simp [isNl, this]
      · intro d hd
        have := hr d hd
        rw [← Bool.not_eq_true]
        intro h
        simp [isNl] at h
        exact this h
  | word t rest hne ht hr =>
    cases t with
    | nil => contradiction
    | cons c t =>
      have hc := ht c (by simp)
      have hnl : isNl c = false := by
        rw [← Bool.not_eq_true, isNl_iff]
        rintro (rfl | rfl) <;> simp [isWs] at hc
      rw [List.cons_append]
      unfold Mitex.lexOne
      simp only [hc.1, hnl, (isWordChar_iff c).mpr hc, Bool.false_eq_true, if_false, if_true]
      rw [lexRun_cut _ _ _ _ _ (fun d hd => (isWordChar_iff d).mpr (ht d (by simp [hd])))]
      intro d hd
      rw [← Bool.not_eq_true, isWordChar_iff]
      exact hr d hd
  | comment t rest ht hr =>
    rw [List.cons_append]
    unfold Mitex.lexOne
    simp only
    rw [if_neg (by decide), if_neg (by decide), if_neg (by decide), if_pos (by decide)]
    rw [lexRun_cut]
    · intro d hd
      have := ht d hd
      simp [isNl, this]
    · intro d hd
      have := hr d hd
      rw [← Bool.not_eq_true]
      intro h
      simp [isNl] at h
      exact this h
  | punct c k rest hm =>
    simp only [punctuation, List.mem_cons, List.not_mem_nil, or_false, Prod.mk.injEq] at hm
    rcases hm with h|h|h|h|h|h|h|h|h|h|h|h|h|h|h|h|h|h <;> (obtain ⟨rfl, rfl⟩ := h; rfl)
  | dollars rest => rfl
  | dollar rest hr =>
    unfold Mitex.lexOne
    simp only
    rw [if_neg (by decide), if_neg (by decide), if_neg (by decide), if_neg (by decide), if_pos (by decide)]
    split
    · exact absurd rfl (hr '$' rfl)
    · rfl
  | newLine rest => rfl
  | backslash rest hr =>
    cases rest with
    | nil => rfl
    | cons c r =>
      have hw : isWs c = true := by simpa using hr c rfl
      rw [lexOne_back _ _ (by intro h; simp at h; subst h; exact absurd hw (by decide))]
      simp [lexCommandName, hw]
  | beginMath c rest hc => rcases hc with rfl | rfl <;> rfl
  | endMath c rest hc => rcases hc with rfl | rfl <;> rfl
  | symbol c rest hw hn hc =>
    simp only [List.mem_cons, List.not_mem_nil, or_false, not_or] at hc
    rw [lexOne_back _ _ (by simpa using hc.1)]
    simp only [NameChar, not_or] at hn
    simp [lexCommandName, hw, hc, hn]
  | starred name rest hne hn hs =>
    have hr : NoMore NameChar ('*' :: rest) := by
      intro c hc hcn
      simp at hc
      exact (nameChar_plain hcn).2.1 hc.symm
    rw [lexOne_name spec name _ hne hn hr, if_pos ⟨rfl, hs⟩]
    rfl
  | command name rest k hne hn hr hst hb he hk =>
    rw [lexOne_name spec name _ hne hn hr, if_neg hst, if_neg hb, if_neg he, builtinName_kindOf hk]
  | beginEnv after _ _ hc =>
    obtain ⟨h1, h2⟩ := clause_blank hc
    rw [lexOne_begin h1 (fun h => h2 h.1), lexBeginEnd_clause hc]
  | endEnv after _ _ hc =>
    obtain ⟨h1, h2⟩ := clause_blank hc
    rw [lexOne_end h1 (fun h => h2 h.1), lexBeginEnd_clause hc]
  | badBegin rest hp hr hst hc => rw [lexOne_begin hr hst, lexBeginEnd_bad hp hc]
  | badEnd rest hp hr hst hc => rw [lexOne_end hr hst, lexBeginEnd_bad hp hc]

theorem NoToken.lexOne {s : Text} (h : NoToken s) (spec : CommandSpec) : Mitex.lexOne spec s = some (.error .panic) := by
  obtain ⟨after, hs, ht⟩ := h
  obtain ⟨h1, h2⟩ := torn_blank ht
  rcases hs with rfl | rfl
  · rw [lexOne_begin h1 (fun h => h2 h.1), lexBeginEnd_torn ht]
  · rw [lexOne_end h1 (fun h => h2 h.1), lexBeginEnd_torn ht]


theorem span_exists (p : Char → Prop) [DecidablePred p] (s : Text) :
    ∃ t rest, s = t ++ rest ∧ (∀ c ∈ t, p c) ∧ NoMore p rest := by
  refine ⟨s.takeWhile (fun c => decide (p c)), s.dropWhile (fun c => decide (p c)), by simp, ?_, ?_⟩
  · intro c hc
    simpa using takeWhile_all _ s c hc
  · intro c hc
    cases hd : s.dropWhile (fun c => decide (p c)) with
    | nil => rw [hd] at hc; simp at hc
    | cons d r =>
      rw [hd] at hc; simp at hc; subst hc
      simpa using dropWhile_head _ s _ _ hd

theorem kindOf_exists (name : Text) : ∃ k, KindOf name k := by
  by_cases h : ∃ b, (name, b) ∈ builtinCommands
  · obtain ⟨b, hb⟩ := h; exact ⟨b, .inl hb⟩
  · exact ⟨.generic, .inr ⟨rfl, fun b hb => h ⟨b, hb⟩⟩⟩

/-- Some rule applies to every text, unless it starts with a torn clause. -/
theorem tokenAt_exists (spec : CommandSpec) (s : Text) (hne : s ≠ []) (hp : ¬ NoToken s) :
    ∃ k t rest, TokenAt spec s k t rest := by
  cases s with
  | nil => contradiction
  | cons c cs =>
    by_cases hnl : c = '\n' ∨ c = '\r'
    · obtain ⟨t, rest, he, ht, hr⟩ := span_exists (fun c => c = '\n' ∨ c = '\r') cs
      rw [he]
      refine ⟨_, c :: t, rest, .lineBreak (c :: t) rest (by simp) ?_ hr⟩
      intro d hd
      rcases List.mem_cons.mp hd with rfl | hd
      · exact hnl
      · exact ht d hd
    by_cases hws : isWs c = true
    · obtain ⟨t, rest, he, ht, hr⟩ := span_exists (fun c => isWs c = true ∧ c ≠ '\n' ∧ c ≠ '\r') cs
      rw [he]
      refine ⟨_, c :: t, rest, .whitespace (c :: t) rest (by simp) ?_ hr⟩
      intro d hd
      rcases List.mem_cons.mp hd with rfl | hd
      · exact ⟨hws, by simpa using hnl⟩
      · exact ht d hd
    have hws' : isWs c = false := by simpa using hws
    by_cases hsp : c ∉ specials
    · obtain ⟨t, rest, he, ht, hr⟩ := span_exists (fun c => isWs c = false ∧ c ∉ specials) cs
      rw [he]
      refine ⟨_, c :: t, rest, .word (c :: t) rest (by simp) ?_ hr⟩
      intro d hd
      rcases List.mem_cons.mp hd with rfl | hd
      · exact ⟨hws', hsp⟩
      · exact ht d hd
    by_cases hpc : c = '%'
    · subst hpc
      obtain ⟨t, rest, he, ht, hr⟩ := span_exists (fun c => c ≠ '\n' ∧ c ≠ '\r') cs
      exact ⟨_, '%' :: t, rest, by rw [he]; exact .comment t rest ht hr⟩
    by_cases hd : c = '$'
    · subst hd
      by_cases h : cs.head? = some '$'
      · cases cs with
        | nil => cases h
        | cons d r => simp at h; subst h; exact ⟨_, _, _, .dollars r⟩
      · refine ⟨_, _, _, .dollar cs ?_⟩
        rintro d hd rfl
        exact h hd
    by_cases hb : c = '\\'
    · subst hb
      cases cs with
      | nil => exact ⟨_, _, _, .backslash [] (by intro c h; cases h)⟩
      | cons d r =>
        by_cases hw : isWs d = true
        · refine ⟨_, _, _, .backslash (d :: r) ?_⟩
          intro e he
          simp at he
          subst he
          simp [hw]
        by_cases hn : NameChar d
        · obtain ⟨t, rest, he, ht, hr⟩ := span_exists NameChar r
          have hall : ∀ e ∈ d :: t, NameChar e := by
            intro e h
            rcases List.mem_cons.mp h with rfl | h
            · exact hn
            · exact ht e h
          have hs : '\\' :: d :: r = '\\' :: (d :: t) ++ rest := by simp [he]
          rw [hs] at hp ⊢
          by_cases hst : rest.head? = some '*' ∧ (spec ((d :: t) ++ ['*'])).isSome
          · cases rest with
            | nil => exact absurd hst.1 (by simp)
            | cons x y =>
              have hx : x = '*' := by simpa using hst.1
              subst hx
              exact ⟨_, _, _, .starred (d :: t) y (by simp) hall hst.2⟩
          by_cases hbg : d :: t = t!"begin"
          · rw [hbg] at hp hst ⊢
            have hp' : ¬ TornClause rest := fun hm => hp ⟨rest, .inl rfl, hm⟩
            by_cases hc : ∃ name r, Clause rest name r
            · obtain ⟨n, r, hc⟩ := hc
              exact ⟨_, _, _, .beginEnv rest n r hc⟩
            · exact ⟨_, _, _, .badBegin rest hp' hr hst fun n r h => hc ⟨n, r, h⟩⟩
          by_cases hen : d :: t = t!"end"
          · rw [hen] at hp hst ⊢
            have hp' : ¬ TornClause rest := fun hm => hp ⟨rest, .inr rfl, hm⟩
            by_cases hc : ∃ name r, Clause rest name r
            · obtain ⟨n, r, hc⟩ := hc
              exact ⟨_, _, _, .endEnv rest n r hc⟩
            · exact ⟨_, _, _, .badEnd rest hp' hr hst fun n r h => hc ⟨n, r, h⟩⟩
          obtain ⟨k, hk⟩ := kindOf_exists (d :: t)
          exact ⟨_, _, _, .command (d :: t) rest k (by simp) hall hr hst hbg hen hk⟩
        by_cases h1 : d = '('
        · exact ⟨_, _, _, .beginMath d r (.inl h1)⟩
        by_cases h2 : d = '['
        · exact ⟨_, _, _, .beginMath d r (.inr h2)⟩
        by_cases h3 : d = ')'
        · exact ⟨_, _, _, .endMath d r (.inl h3)⟩
        by_cases h4 : d = ']'
        · exact ⟨_, _, _, .endMath d r (.inr h4)⟩
        by_cases h5 : d = '\\'
        · subst h5; exact ⟨_, _, _, .newLine r⟩
        exact ⟨_, _, _, .symbol d r (by simpa using hw) hn (by simp [h1, h2, h3, h4, h5])⟩
    have hsp' : c ∈ specials := Decidable.not_not.mp hsp
    have : ∃ k, (c, k) ∈ punctuation := by
      have hk : ∀ c ∈ specials, c ≠ '%' → c ≠ '$' → c ≠ '\\' → ∃ e ∈ punctuation, e.1 = c := by decide
      obtain ⟨e, he, rfl⟩ := hk c hsp' hpc hd hb
      exact ⟨e.2, he⟩
    obtain ⟨k, hk⟩ := this
    exact ⟨_, _, _, .punct c k cs hk⟩

/-! ### C59 -/

/-- C59, one token: the lexer finds the token `k` with text `t` and stops before `rest` exactly if the lexical
grammar says so. -/
theorem C59_token (spec : CommandSpec) (s : Text) (k : Token) (t rest : Text) :
    lexOne spec s = some (.ok ⟨k, t, rest⟩) ↔ TokenAt spec s k t rest := by
  constructor
  · intro h
    cases s with
    | nil => cases h
    | cons c cs =>
      have hn : ¬ NoToken (c :: cs) := fun hn => by rw [hn.lexOne spec] at h; cases h
      obtain ⟨k', t', r', h'⟩ := tokenAt_exists spec (c :: cs) (by simp) hn
      have := h'.lexOne
      rw [h] at this
      cases this
      exact h'
  · exact TokenAt.lexOne

/-- C59: at the start of a text the lexer panics exactly if there is a torn clause. -/
theorem C59_no_token (spec : CommandSpec) (s : Text) (x : Stop) :
    lexOne spec s = some (.error x) ↔ x = .panic ∧ NoToken s := by
  constructor
  · intro h
    cases s with
    | nil => cases h
    | cons c cs =>
      by_cases hn : NoToken (c :: cs)
      · rw [hn.lexOne spec] at h
        cases h
        exact ⟨rfl, hn⟩
      · obtain ⟨k', t', r', h'⟩ := tokenAt_exists spec (c :: cs) (by simp) hn
        rw [h'.lexOne] at h
        cases h
  · rintro ⟨rfl, h⟩
    exact h.lexOne spec

/-- C59, the grammar is unambiguous: two rules never disagree about the token at the start of a text. -/
theorem C59_unambiguous (spec : CommandSpec) (s : Text) (k k' : Token) (t t' rest rest' : Text)
    (h : TokenAt spec s k t rest) (h' : TokenAt spec s k' t' rest') : k = k' ∧ t = t' ∧ rest = rest' := by
  have h1 := h.lexOne
  rw [h'.lexOne] at h1
  cases h1
  exact ⟨rfl, rfl, rfl⟩

theorem lexFuel_cons {spec : CommandSpec} {n : Nat} {s : Text} {k : Token} {t rest : Text}
    (h : lexOne spec s = some (.ok ⟨k, t, rest⟩)) :
    lexFuel spec (n + 1) s = match lexFuel spec n rest with
      | .error e => .error e
      | .ok ls => .ok (⟨k, t, rest⟩ :: ls) := by
  simp only [lexFuel, h]
  cases lexFuel spec n rest <;> rfl

theorem tokenAt_shorter {spec : CommandSpec} {s : Text} {k : Token} {t rest : Text} (h : TokenAt spec s k t rest) :
    rest.length < s.length := by
  obtain ⟨span, hne, hs, -⟩ := (lexOne_good h.lexOne).span
  simp only at hs
  have hpos : 0 < span.length := List.length_pos_iff.mpr hne
  rw [hs]
  simp
  omega

theorem tokenized_lexFuel {spec : CommandSpec} {s : Text} {toks : List Tok} (h : Tokenized spec s toks) :
    ∀ n, s.length ≤ n → ∃ ls, lexFuel spec n s = .ok ls ∧ ls.map Lexed.toTok = toks := by
  induction h with
  | nil => intro n _; cases n <;> exact ⟨[], rfl, rfl⟩
  | cons s k t rest toks h1 _ ih =>
    intro n hn
    have hl := h1.lexOne
    have := tokenAt_shorter h1
    cases n with
    | zero => omega
    | succ n =>
      obtain ⟨ls, h2, h3⟩ := ih n (by omega)
      exact ⟨⟨k, t, rest⟩ :: ls, by rw [lexFuel_cons hl, h2], by simp [Lexed.toTok, h3]⟩

theorem lexFuel_tokenized {spec : CommandSpec} {n : Nat} : ∀ {s : Text} {ls : List Lexed},
    lexFuel spec n s = .ok ls → Tokenized spec s (ls.map Lexed.toTok) := by
  induction n with
  | zero =>
    intro s ls h
    rw [lexFuel] at h
    split at h
    · cases h; rename_i hs; subst hs; exact .nil
    · cases h
  | succ n ih =>
    intro s ls h
    rw [lexFuel] at h
    cases ho : lexOne spec s with
    | none =>
      rw [ho] at h
      cases h
      have : s = [] := by
        cases s with
        | nil => rfl
        | cons c cs =>
          by_cases hn : NoToken (c :: cs)
          · rw [hn.lexOne spec] at ho; cases ho
          · obtain ⟨k, t, r, h'⟩ := tokenAt_exists spec (c :: cs) (by simp) hn
            rw [h'.lexOne] at ho
            cases ho
      subst this
      exact .nil
    | some r =>
      rw [ho] at h
      cases r with
      | error e => cases h
      | ok l =>
        simp only at h
        split at h
        · cases h
        · rename_i ls' hl
          cases h
          exact .cons s l.tok l.text l.rest _ ((C59_token spec s _ _ _).mp ho) (ih hl)

/-- C59, whole texts: the tokens of a text are the ones the lexical grammar cuts it into. -/
theorem C59_tokens (spec : CommandSpec) (s : Text) (toks : List Tok) :
    tokensOf spec s = .ok toks ↔ Tokenized spec s toks := by
  constructor
  · intro h
    unfold tokensOf lexAll at h
    split at h
    · cases h
    · rename_i ls hl
      cases h
      exact lexFuel_tokenized hl
  · intro h
    obtain ⟨ls, h1, h2⟩ := tokenized_lexFuel h s.length (Nat.le_refl _)
    unfold tokensOf lexAll
    rw [h1]
    simp [h2]

theorem stuck_lexFuel {spec : CommandSpec} {s : Text} (h : Stuck spec s) :
    ∀ n, s.length ≤ n → lexFuel spec n s = .error .panic := by
  induction h with
  | here s h =>
    intro n hn
    have hl := h.lexOne spec
    cases n with
    | zero =>
      cases s with
      | nil => cases hl
      | cons c s => simp at hn
    | succ n => simp only [lexFuel, hl]
  | later s k t rest h1 _ ih =>
    intro n hn
    have := tokenAt_shorter h1
    cases n with
    | zero => omega
    | succ n => rw [lexFuel_cons h1.lexOne, ih n (by omega)]

theorem lexFuel_stuck {spec : CommandSpec} {n : Nat} : ∀ {s : Text}, lexFuel spec n s = .error .panic → Stuck spec s := by
  induction n with
  | zero =>
    intro s h
    rw [lexFuel] at h
    split at h <;> cases h
  | succ n ih =>
    intro s h
    rw [lexFuel] at h
    cases ho : lexOne spec s with
    | none => rw [ho] at h; cases h
    | some r =>
      rw [ho] at h
      cases r with
      | error e => exact .here s ((C59_no_token spec s e).mp ho).2
      | ok l =>
        simp only at h
        split at h
        · rename_i e he
          cases h
          exact .later s l.tok l.text l.rest ((C59_token spec s _ _ _).mp ho) (ih he)
        · cases h

/-- C02, exactly: lexing a text panics iff cutting it into tokens gets to a torn clause; every other text is
cut into tokens. -/
theorem C02_panics_exactly (spec : CommandSpec) (s : Text) :
    (tokensOf spec s = .error .panic ↔ Stuck spec s) ∧ ((∃ toks, tokensOf spec s = .ok toks) ↔ ¬ Stuck spec s) := by
  have h1 : tokensOf spec s = .error .panic ↔ Stuck spec s := by
    constructor
    · intro h
      unfold tokensOf lexAll at h
      split at h
      · rename_i e he
        cases h
        exact lexFuel_stuck he
      · cases h
    · intro h
      unfold tokensOf lexAll
      rw [stuck_lexFuel h _ (Nat.le_refl _)]
  refine ⟨h1, ?_⟩
  rw [← h1]
  rcases C02_terminates spec s with ⟨toks, h⟩ | h
  · simp [h]
  · simp [h]

/-- C59: every text is cut in exactly one way, or gets stuck. -/
theorem C59_outcome (spec : CommandSpec) (s : Text) :
    (∃ toks, Tokenized spec s toks ∧ (∀ toks', Tokenized spec s toks' → toks' = toks) ∧ ¬ Stuck spec s) ∨
    (Stuck spec s ∧ ∀ toks, ¬ Tokenized spec s toks) := by
  rcases C02_terminates spec s with ⟨toks, h⟩ | h
  · refine .inl ⟨toks, (C59_tokens spec s toks).mp h, fun toks' h' => ?_, ((C02_panics_exactly spec s).2).mp ⟨toks, h⟩⟩
    have := (C59_tokens spec s toks').mpr h'
    rw [h] at this
    cases this
    rfl
  · refine .inr ⟨((C02_panics_exactly spec s).1).mp h, fun toks h' => ?_⟩
    rw [(C59_tokens spec s toks).mpr h'] at h
    cases h

/-- C06, exactly: `\begin` is read as the beginning of the environment `name`, with `rest` to follow, iff a
clause of that name follows in the sense of Spec/Clause; likewise `\end`. -/
theorem C06_exact (spec : CommandSpec) (after name rest : Text) :
    (lexOne spec (t!"\\begin" ++ after) = some (.ok ⟨.cmd .beginEnv, name, rest⟩) ↔ Clause after name rest) ∧
    (lexOne spec (t!"\\end" ++ after) = some (.ok ⟨.cmd .endEnv, name, rest⟩) ↔ Clause after name rest) := by
  constructor
  · rw [C59_token]
    constructor
    · intro h
      have := h.lexOne
      by_cases hc : Clause after name rest
      · exact hc
      · exfalso
        generalize hs : t!"\\begin" ++ after = s at h
        cases h with
        | punct c k rest hm => simp [punctuation] at hm
        | beginEnv after' n r hc' => exact hc ((List.append_cancel_left hs) ▸ hc')
        | command n r k h1 h2 h3 h4 h5 h6 h7 =>
          have := builtinName_kindOf h7
          rcases h7 with h7 | ⟨h7, -⟩
          · simp [builtinCommands] at h7
          · cases h7
    · exact .beginEnv after name rest
  · rw [C59_token]
    constructor
    · intro h
      have := h.lexOne
      by_cases hc : Clause after name rest
      · exact hc
      · exfalso
        generalize hs : t!"\\end" ++ after = s at h
        cases h with
        | punct c k rest hm => simp [punctuation] at hm
        | endEnv after' n r hc' => exact hc ((List.append_cancel_left hs) ▸ hc')
        | command n r k h1 h2 h3 h4 h5 h6 h7 =>
          have := builtinName_kindOf h7
          rcases h7 with h7 | ⟨h7, -⟩
          · simp [builtinCommands] at h7
          · cases h7
    · exact .endEnv after name rest

/-- Without comments a clause is what it looks like: blanks, `{`, the name, blanks, `}`. -/
theorem C06_plain_clause (after name rest : Text) (hp : '%' ∉ after) :
    Clause after name rest ↔ ∃ ws1 ws2 : Text, (∀ c ∈ ws1, isWs c = true) ∧ EnvName name ∧ (∀ c ∈ ws2, isWs c = true) ∧
      after = ws1 ++ ['{'] ++ name ++ ws2 ++ ['}'] ++ rest := by
  constructor
  · intro h
    have h' := ((beginEndWork_exact after).1 name rest).mpr h
    obtain ⟨w1, w2, a1, a2, a3⟩ := beginEndWork_shape hp h'
    exact ⟨w1, w2, a1, (beginEndWork_span h').1, a2, a3⟩
  · rintro ⟨ws1, ws2, h1, h2, h3, rfl⟩
    refine ((beginEndWork_exact _).1 name rest).mp ?_
    have := beginEndWork_ws ws1 name ws2 rest h1 h2 h3
    simpa using this

/-- Three comments before the brace, the last one holding a `}`: the lexer slips back three bytes to that `}` and
reads a clause with an empty name. -/
example : Clause t!"%\n%\n%}\n{x}" [] t!"\n{x}" :=
  ⟨t!"}\n{x}", ⟨t!"%\n%\n%}\n", 3, t!"x}",
    .comment (body := []) (by simp) (.inl rfl) (.comment (body := []) (by simp) (.inl rfl)
      (.comment (body := ['}']) (by decide) (.inl rfl) .nil)), rfl, t!"%\n%\n%", t!"}\n{", rfl, by decide, rfl⟩,
    ⟨⟨[], by simp, .inl rfl⟩, fun _ c hc => by cases hc; decide⟩,
    ⟨[], 0, t!"\n{x}", .nil, rfl, ['}'], [], rfl, rfl, rfl⟩⟩

/-- A torn clause: two comments before an ideographic space. -/
example (spec : CommandSpec) : Stuck spec t!"\\begin{x%c\n%d\n\u3000}" :=
  ((C02_panics_exactly spec _).1).mp (C02_not_total spec)

/-- A text cut into tokens by the grammar, with a command, a starred command and display dollars. -/
example : Tokenized (fun n => if n = t!"op*" then some (.env ⟨.none, .none, none⟩) else none)
    t!"\\op*x\\left$$" [(.cmd .generic, t!"\\op*"), (.word, t!"x"), (.cmd .left, t!"\\left"), (.dollar, t!"$$")] :=
  .cons _ _ _ _ _ (.starred t!"op" t!"x\\left$$" (by decide) (by decide) (by decide))
    (.cons _ _ _ _ _ (.word t!"x" t!"\\left$$" (by decide) (by decide) (by intro c h; cases h; decide))
      (.cons _ _ _ _ _ (.command t!"left" t!"$$" .left (by decide) (by decide) (by intro c h; cases h; decide) (by decide)
        (by decide) (by decide) (.inl (by decide)))
        (.cons _ _ _ _ _ (.dollars []) .nil)))

end Mitex
