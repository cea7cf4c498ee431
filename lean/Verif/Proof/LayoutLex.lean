/-
The tokens of a text with another layout (for C86).
-/
import Verif.Proof.Layout

namespace Mitex
namespace Layout

theorem sameChar_symm {c d : Char} (h : SameChar c d) : SameChar d c := by
  cases h with
  | char h => exact .char h
  | blank h h' => exact .blank h' h
  | nl h h' => exact .nl h' h

theorem of_black {p : Char → Prop} (h : ∀ c, p c → isWs c = false) : ∀ c d, SameChar c d → p c → p d := by
  intro c d hs hp
  have := h c hp
  cases hs with
  | char => exact hp
  | blank h1 => rw [blank_ws h1] at this; cases this
  | nl h1 => rw [nl_ws h1] at this; cases this

theorem nl_iff (c : Char) : isNl c = true ↔ c = '\n' ∨ c = '\r' := by
  simp only [isNl, Bool.or_eq_true, beq_iff_eq]

theorem blank_iff (c : Char) : isBlankChar c = true ↔ isWs c = true ∧ c ≠ '\n' ∧ c ≠ '\r' := by
  unfold isBlankChar
  rw [Bool.and_eq_true, Bool.not_eq_true', ← Bool.not_eq_true, nl_iff, not_or]

theorem of_nl : ∀ c d, SameChar c d → (c = '\n' ∨ c = '\r') → (d = '\n' ∨ d = '\r') := by
  intro c d hs hp
  cases hs with
  | char => exact hp
  | blank h1 => have := blank_nl h1; rw [(nl_iff c).2 hp] at this; cases this
  | nl _ h => exact (nl_iff d).1 h

theorem of_notNl : ∀ c d, SameChar c d → (c ≠ '\n' ∧ c ≠ '\r') → (d ≠ '\n' ∧ d ≠ '\r') := by
  intro c d hs hp
  refine not_or.1 fun h => not_or.2 hp ?_
  exact of_nl d c (sameChar_symm hs) h

theorem of_blank : ∀ c d, SameChar c d → (isWs c = true ∧ c ≠ '\n' ∧ c ≠ '\r') → (isWs d = true ∧ d ≠ '\n' ∧ d ≠ '\r') := by
  intro c d hs hp
  cases hs with
  | char => exact hp
  | blank _ h => exact (blank_iff d).1 h
  | nl h => rcases (nl_iff c).1 h with h | h <;> simp [h] at hp

theorem cut_left {a b : Text} (h : ∀ c, a.getLast? = some c → isWs c = false) : Cut a b := by
  intro c d h1 _
  have := h c h1
  exact ⟨fun k => (by rw [blank_ws k.1] at this; cases this), fun k => (by rw [nl_ws k.1] at this; cases this)⟩

theorem cut_right {a b : Text} (h : ∀ c, b.head? = some c → isWs c = false) : Cut a b := by
  intro c d _ h1
  have := h d h1
  exact ⟨fun k => (by rw [blank_ws k.2] at this; cases this), fun k => (by rw [nl_ws k.2] at this; cases this)⟩

/-- A text without white space in front. -/
theorem prefixed {a b s' : Text} (h : SameLines (a ++ b) s') (ha : ∀ c ∈ a, isWs c = false) : ∃ b', s' = a ++ b' ∧ SameLines b b' := by
  obtain ⟨a', b', rfl, h1, h2⟩ := split h a b rfl (cut_left fun c hc => ha c (List.mem_of_getLast? hc))
  exact ⟨b', by rw [black h1 ha], h2⟩

/-- White space in front of other characters. -/
theorem spaced {a b s' : Text} {c : Char} (h : SameLines (a ++ c :: b) s') (ha : ∀ c ∈ a, isWs c = true) (hc : isWs c = false) :
    ∃ a' b', s' = a' ++ c :: b' ∧ (∀ c ∈ a', isWs c = true) ∧ SameLines b b' := by
  obtain ⟨a', b', rfl, h1, h2⟩ := split h a (c :: b) rfl (cut_right fun d hd => by cases hd; exact hc)
  obtain ⟨b'', rfl, h3⟩ := prefixed (a := [c]) h2 (by simp [hc])
  refine ⟨a', b'', rfl, ?_, h3⟩
  refine all (p := fun c => isWs c = true) (fun c d hs hp => ?_) h1 ha
  cases hs with
  | char => exact hp
  | blank h => exact blank_ws h
  | nl h => exact nl_ws h

/-! ### Clauses -/

theorem spaces_zero {sp : Text} {k : Nat} (h : Spaces sp k) (hk : k = 0) : ∀ c ∈ sp, isWs c = true := by
  induction h with
  | nil => intro c h; cases h
  | blank hc _ ih =>
    intro d hd
    rcases List.mem_cons.1 hd with rfl | hd
    · exact hc
    · exact ih hk d hd
  | comment => cases hk

theorem zero_spaces {sp : Text} (h : ∀ c ∈ sp, isWs c = true) : Spaces sp 0 := by
  induction sp with
  | nil => exact .nil
  | cons c sp ih => exact .blank (h c (List.mem_cons_self ..)) (ih fun d hd => h d (List.mem_cons_of_mem _ hd))

theorem slips_zero {read rest r : Text} (h : SlipsBack 0 read rest r) : r = rest := by
  obtain ⟨p, x, _, hx, rfl⟩ := h
  cases x with
  | nil => rfl
  | cons c x =>
    have h1 : utf8Len c + byteLen x = 0 := hx
    have h2 : 0 < utf8Len c := by unfold utf8Len; repeat' split
                                  all_goals omega
    omega

theorem slips_refl (read rest : Text) : SlipsBack 0 read rest rest := ⟨read, [], (List.append_nil _).symm, rfl, rfl⟩

/-- What the plain clauses of a text say about the text after one `\begin` or `\end`. -/
def Plain (after : Text) : Prop :=
  (∀ sp k r, Spaces sp k → after = sp ++ '{' :: r → k = 0) ∧
  (∀ sp name sp' k r, Spaces sp 0 → EnvName name → Spaces sp' k → after = sp ++ '{' :: name ++ sp' ++ '}' :: r → k = 0)

theorem plain_clause {after name rest : Text} (hp : Plain after) (h : Clause after name rest) :
    ∃ sp sp', (∀ c ∈ sp, isWs c = true) ∧ (∀ c ∈ sp', isWs c = true) ∧ WholeName name (sp' ++ '}' :: rest) ∧
      after = sp ++ '{' :: (name ++ (sp' ++ '}' :: rest)) := by
  obtain ⟨t, ⟨sp, k, r, h1, rfl, h2⟩, hw, ⟨sp', k', r', h3, rfl, h4⟩⟩ := h
  have hk := hp.1 sp k r h1 rfl
  subst hk
  have h2 := slips_zero h2
  subst h2
  have hk := hp.2 sp name sp' k' r' h1 hw.1 h3 (by simp)
  subst hk
  have h4 := slips_zero h4
  subst h4
  exact ⟨sp, sp', spaces_zero h1 rfl, spaces_zero h3 rfl, hw, rfl⟩

theorem clause_of {sp sp' name rest : Text} (h : ∀ c ∈ sp, isWs c = true) (h' : ∀ c ∈ sp', isWs c = true) (hw : WholeName name (sp' ++ '}' :: rest)) :
    Clause (sp ++ '{' :: (name ++ (sp' ++ '}' :: rest))) name rest :=
  ⟨sp' ++ '}' :: rest, ⟨sp, 0, _, zero_spaces h, rfl, slips_refl ..⟩, hw, ⟨sp', 0, rest, zero_spaces h', rfl, slips_refl ..⟩⟩

theorem not_torn {after : Text} (hp : Plain after) : ¬ TornClause after := by
  rintro (⟨sp, k, r, h1, rfl, h2⟩ | ⟨name, t, ⟨sp, k, r, h1, rfl, h2⟩, hw, ⟨sp', k', r', h3, rfl, h4⟩⟩)
  · have hk := hp.1 sp k r h1 rfl
    subst hk
    exact h2 _ (slips_refl ..)
  · have hk := hp.1 sp k r h1 rfl
    subst hk
    have h2 := slips_zero h2
    subst h2
    have hk := hp.2 sp name sp' k' r' h1 hw.1 h3 (by simp)
    subst hk
    exact h4 _ (slips_refl ..)

theorem envName_black {name : Text} (h : EnvName name) : ∀ c ∈ name, isWs c = false := by
  obtain ⟨l, hl, rfl | rfl⟩ := h
  · exact fun c hc => (Agree.nameChar_facts (hl c hc)).2
  · intro c hc
    rcases List.mem_append.1 hc with hc | hc
    · exact (Agree.nameChar_facts (hl c hc)).2
    · cases List.mem_singleton.1 hc; decide

theorem nameStar_black (c : Char) (h : NameChar c ∨ c = '*') : isWs c = false := by
  rcases h with h | rfl
  · exact (Agree.nameChar_facts h).2
  · decide

theorem clause_same {after after' name rest : Text} (hs : SameLines after after') (hp : Plain after) (h : Clause after name rest) :
    ∃ rest', Clause after' name rest' ∧ SameLines rest rest' ∧ (∃ p, after = p ++ rest) ∧ ∃ p, after' = p ++ rest' := by
  obtain ⟨sp, sp', h1, h2, hw, rfl⟩ := plain_clause hp h
  obtain ⟨a, b, rfl, h3, h4⟩ := spaced hs h1 (by decide)
  obtain ⟨b, rfl, h5⟩ := prefixed h4 (envName_black hw.1)
  have hn : '*' ∉ name → NoMore (fun c => NameChar c ∨ c = '*') b := fun hq => noMore (of_black nameStar_black) h5 (hw.2 hq)
  obtain ⟨a2, b2, rfl, h6, h7⟩ := spaced h5 h2 (by decide)
  exact ⟨b2, clause_of h3 h6 ⟨hw.1, hn⟩, h7, ⟨sp ++ '{' :: (name ++ (sp' ++ ['}'])), by simp⟩, ⟨a ++ '{' :: (name ++ (a2 ++ ['}'])), by simp⟩⟩

/-! ### Tokens -/

theorem punct_black : ∀ p ∈ punctuation, isWs p.1 = false := by decide

theorem plain_at {s : Text} (h : PlainClauses s) {p b after : Text} (hb : b = t!"\\begin" ∨ b = t!"\\end") (hs : s = p ++ b ++ after) : Plain after :=
  h p b after hb hs

theorem plain_rest {s p r : Text} (h : PlainClauses s) (hs : s = p ++ r) : PlainClauses r := by
  intro q b after hb hr
  refine h (p ++ q) b after hb ?_
  rw [hs, hr]
  simp

theorem bad {spec : CommandSpec} {rest rest' : Text} (n : Text) (hs : SameLines rest rest') (hp : Plain rest')
    (h2 : NoMore NameChar rest) (h3 : ¬ (rest.head? = some '*' ∧ (spec n).isSome)) (h4 : ∀ name r, ¬ Clause rest name r) :
    ¬ TornClause rest' ∧ NoMore NameChar rest' ∧ ¬ (rest'.head? = some '*' ∧ (spec n).isSome) ∧ ∀ name r, ¬ Clause rest' name r := by
  refine ⟨not_torn hp, noMore (of_black fun c h => (Agree.nameChar_facts h).2) hs h2, fun h => ?_, fun name r h => ?_⟩
  · obtain ⟨d, hd, hc⟩ := head hs _ h.1
    have := of_black (p := (· = '*')) (fun c h => by subst h; decide) _ _ hc rfl
    exact h3 ⟨by rw [hd, this], h.2⟩
  · obtain ⟨r', h5, _⟩ := clause_same (symm hs) hp h
    exact h4 name r' h5

theorem step {spec : CommandSpec} {s t rest s' : Text} {k : Token} (h : TokenAt spec s k t rest) (hs : SameLines s s') (hp : PlainClauses s)
    (hp' : PlainClauses s') :
    ∃ t' rest', TokenAt spec s' k t' rest' ∧ SameLines rest rest' ∧ AlikeTok SpaceOrComment (k, t) (k, t') ∧
      (∃ p, s = p ++ rest) ∧ ∃ p, s' = p ++ rest' := by
  have same : ∀ {k : Token} {t : Text}, AlikeTok SpaceOrComment (k, t) (k, t) := ⟨rfl, .inl rfl⟩
  have nameB : ∀ {name : Text}, (∀ c ∈ name, NameChar c) → ∀ c ∈ '\\' :: name, isWs c = false := by
    intro name h c hc
    rcases List.mem_cons.1 hc with rfl | hc
    · decide
    · exact (Agree.nameChar_facts (h c hc)).2
  cases h with
  | lineBreak t rest hne ht hm =>
    obtain ⟨a, b, rfl, h1, h2⟩ := split hs t rest rfl fun c d hc hd =>
      ⟨fun k => (by have := blank_nl k.1; rw [(nl_iff c).2 (ht c (List.mem_of_getLast? hc))] at this; cases this), fun k => hm d hd ((nl_iff d).1 k.2)⟩
    have ha := all (p := fun c => c = '\n' ∨ c = '\r') (fun c d h => of_nl d c (sameChar_symm h)) h1 ht
    have hne' : a ≠ [] := fun h => hne ((empty h1).2 h)
    refine ⟨a, b, .lineBreak a b hne' ha (noMore (fun c d h => of_nl c d h) h2 hm), h2, ⟨rfl, .inr ⟨(by decide : Token.lineBreak ∈ blankTokens), .inr ⟨⟨hne, fun c hc => nl_ws ((nl_iff c).2 (ht c hc))⟩,
      hne', fun c hc => nl_ws ((nl_iff c).2 (ha c hc))⟩⟩⟩, ⟨_, rfl⟩, ⟨_, rfl⟩⟩
  | whitespace t rest hne ht hm =>
    obtain ⟨a, b, rfl, h1, h2⟩ := split hs t rest rfl fun c d hc hd =>
      ⟨fun k => hm d hd ((blank_iff d).1 k.2), fun k => (by have := blank_nl ((blank_iff c).2 (ht c (List.mem_of_getLast? hc))); rw [k.1] at this; cases this)⟩
    have ha := all (p := fun c => isWs c = true ∧ c ≠ '\n' ∧ c ≠ '\r') (fun c d h => of_blank d c (sameChar_symm h)) h1 ht
    have hne' : a ≠ [] := fun h => hne ((empty h1).2 h)
    exact ⟨a, b, .whitespace a b hne' ha (noMore (fun c d h => of_blank c d h) h2 hm), h2, ⟨rfl, .inr ⟨(by decide : Token.whitespace ∈ blankTokens), .inr ⟨⟨hne, fun c hc => (ht c hc).1⟩,
      hne', fun c hc => (ha c hc).1⟩⟩⟩, ⟨_, rfl⟩, ⟨_, rfl⟩⟩
  | word t rest hne ht hm =>
    obtain ⟨b, rfl, h2⟩ := prefixed hs fun c hc => (ht c hc).1
    exact ⟨t, b, .word t b hne ht (noMore (of_black fun c h => h.1) h2 hm), h2, same, ⟨_, rfl⟩, ⟨_, rfl⟩⟩
  | comment t rest ht hm =>
    obtain ⟨b, rfl, h2⟩ := prefixed (a := ['%']) hs (by decide)
    obtain ⟨a, b, rfl, h1, h2⟩ := split h2 t rest rfl fun c d hc hd =>
      ⟨fun k => hm d hd ((blank_iff d).1 k.2).2, fun k => by
        have := ht c (List.mem_of_getLast? hc)
        exact not_or.2 this ((nl_iff c).1 k.1)⟩
    have ha := all (p := fun c => c ≠ '\n' ∧ c ≠ '\r') (fun c d h => of_notNl d c (sameChar_symm h)) h1 ht
    exact ⟨'%' :: a, b, .comment a b ha (noMore (fun c d h => of_notNl c d h) h2 hm), h2, ⟨rfl, .inr ⟨(by decide : Token.lineComment ∈ blankTokens), .inl rfl⟩⟩, ⟨'%' :: t, rfl⟩, ⟨'%' :: a, rfl⟩⟩
  | punct c k rest hk =>
    obtain ⟨b, rfl, h2⟩ := prefixed (a := [c]) hs (by simp [punct_black _ hk])
    exact ⟨[c], b, .punct c k b hk, h2, same, ⟨[c], rfl⟩, ⟨[c], rfl⟩⟩
  | dollars rest =>
    obtain ⟨b, rfl, h2⟩ := prefixed (a := ['$', '$']) hs (by decide)
    exact ⟨_, b, .dollars b, h2, same, ⟨['$', '$'], rfl⟩, ⟨['$', '$'], rfl⟩⟩
  | dollar rest hm =>
    obtain ⟨b, rfl, h2⟩ := prefixed (a := ['$']) hs (by decide)
    exact ⟨_, b, .dollar b (noMore (of_black fun c h => by subst h; decide) h2 hm), h2, same, ⟨['$'], rfl⟩, ⟨['$'], rfl⟩⟩
  | newLine rest =>
    obtain ⟨b, rfl, h2⟩ := prefixed (a := ['\\', '\\']) hs (by decide)
    exact ⟨_, b, .newLine b, h2, same, ⟨['\\', '\\'], rfl⟩, ⟨['\\', '\\'], rfl⟩⟩
  | backslash rest hm =>
    obtain ⟨b, rfl, h2⟩ := prefixed (a := ['\\']) hs (by decide)
    exact ⟨_, b, .backslash b (noMore (of_black fun c h => h) h2 hm), h2, same, ⟨['\\'], rfl⟩, ⟨['\\'], rfl⟩⟩
  | beginMath c rest hc =>
    obtain ⟨b, rfl, h2⟩ := prefixed (a := ['\\', c]) hs (by rcases hc with rfl | rfl <;> decide)
    exact ⟨_, b, .beginMath c b hc, h2, same, ⟨['\\', c], rfl⟩, ⟨['\\', c], rfl⟩⟩
  | endMath c rest hc =>
    obtain ⟨b, rfl, h2⟩ := prefixed (a := ['\\', c]) hs (by rcases hc with rfl | rfl <;> decide)
    exact ⟨_, b, .endMath c b hc, h2, same, ⟨['\\', c], rfl⟩, ⟨['\\', c], rfl⟩⟩
  | symbol c rest hw hn hc =>
    obtain ⟨b, rfl, h2⟩ := prefixed (a := ['\\', c]) hs (by simp [hw, show isWs '\\' = false by decide])
    exact ⟨_, b, .symbol c b hw hn hc, h2, same, ⟨['\\', c], rfl⟩, ⟨['\\', c], rfl⟩⟩
  | starred name rest hne hn hsp =>
    have hs : SameLines (('\\' :: name ++ ['*']) ++ rest) s' := by simpa using hs
    obtain ⟨b, rfl, h2⟩ := prefixed hs fun c hc => by
      rcases List.mem_append.1 hc with hc | hc
      · exact nameB hn c hc
      · cases List.mem_singleton.1 hc; decide
    refine ⟨'\\' :: name ++ ['*'], b, ?_, h2, same, ⟨'\\' :: name ++ ['*'], by simp⟩, ⟨_, rfl⟩⟩
    have := TokenAt.starred (spec := spec) name b hne hn hsp
    simpa using this
  | command name rest k hne hn hm hst h1 h2 hk =>
    obtain ⟨b, rfl, h3⟩ := prefixed hs (nameB hn)
    refine ⟨'\\' :: name, b, .command name b k hne hn (noMore (of_black fun c h => (Agree.nameChar_facts h).2) h3 hm) (fun h => ?_) h1 h2 hk, h3, same,
      ⟨_, rfl⟩, ⟨_, rfl⟩⟩
    obtain ⟨d, hd, hc⟩ := head h3 _ h.1
    have := of_black (p := (· = '*')) (fun c h => by subst h; decide) _ _ hc rfl
    exact hst ⟨by rw [hd, this], h.2⟩
  | beginEnv after name rest hc =>
    obtain ⟨b, rfl, h2⟩ := prefixed (a := t!"\\begin") hs (by decide)
    obtain ⟨r, h3, h4, ⟨p, h5⟩, ⟨p', h6⟩⟩ := clause_same h2 (plain_at hp (p := []) (.inl rfl) rfl) hc
    exact ⟨_, r, .beginEnv b _ r h3, h4, same, ⟨t!"\\begin" ++ p, by rw [h5, List.append_assoc]⟩, ⟨t!"\\begin" ++ p', by rw [h6, List.append_assoc]⟩⟩
  | endEnv after name rest hc =>
    obtain ⟨b, rfl, h2⟩ := prefixed (a := t!"\\end") hs (by decide)
    obtain ⟨r, h3, h4, ⟨p, h5⟩, ⟨p', h6⟩⟩ := clause_same h2 (plain_at hp (p := []) (.inr rfl) rfl) hc
    exact ⟨_, r, .endEnv b _ r h3, h4, same, ⟨t!"\\end" ++ p, by rw [h5, List.append_assoc]⟩, ⟨t!"\\end" ++ p', by rw [h6, List.append_assoc]⟩⟩
  | badBegin rest h1 hm hst hc =>
    obtain ⟨b, rfl, h2⟩ := prefixed (a := t!"\\begin") hs (by decide)
    obtain ⟨q1, q2, q3, q4⟩ := bad t!"begin*" h2 (plain_at hp' (p := []) (.inl rfl) rfl) hm hst hc
    exact ⟨_, b, .badBegin b q1 q2 q3 q4, h2, same, ⟨_, rfl⟩, ⟨_, rfl⟩⟩
  | badEnd rest h1 hm hst hc =>
    obtain ⟨b, rfl, h2⟩ := prefixed (a := t!"\\end") hs (by decide)
    obtain ⟨q1, q2, q3, q4⟩ := bad t!"end*" h2 (plain_at hp' (p := []) (.inr rfl) rfl) hm hst hc
    exact ⟨_, b, .badEnd b q1 q2 q3 q4, h2, same, ⟨_, rfl⟩, ⟨_, rfl⟩⟩

/-- The tokens of the text with the other layout. -/
theorem tokenized {spec : CommandSpec} {s : Text} {ts : List Tok} (h : Tokenized spec s ts) :
    ∀ {s'}, SameLines s s' → PlainClauses s → PlainClauses s' → ∃ ts', Tokenized spec s' ts' ∧ SameButSpace ts ts' := by
  induction h with
  | nil =>
    intro s' hs _ _
    rw [(empty hs).1 rfl]
    exact ⟨[], .nil, .nil⟩
  | cons s k t rest toks h _ ih =>
    intro s' hs hp hp'
    obtain ⟨t', r, h1, h2, h3, ⟨p, h4⟩, ⟨p', h5⟩⟩ := step h hs hp hp'
    obtain ⟨ts', h6, h7⟩ := ih h2 (plain_rest hp h4) (plain_rest hp' h5)
    exact ⟨_, .cons _ _ _ _ _ h1 h6, .cons h3 h7⟩

theorem not_stuck {spec : CommandSpec} {s : Text} (h : Stuck spec s) : PlainClauses s → False := by
  induction h with
  | here s h =>
    intro hp
    obtain ⟨after, hs, ht⟩ := h
    rcases hs with hs | hs
    · exact not_torn (plain_at hp (p := []) (.inl rfl) hs) ht
    · exact not_torn (plain_at hp (p := []) (.inr rfl) hs) ht
  | later s k t rest h _ ih =>
    intro hp
    obtain ⟨_, _, _, _, _, ⟨p, h4⟩, _⟩ := step h (refl s) hp hp
    exact ih (plain_rest hp h4)

end Layout
end Mitex
