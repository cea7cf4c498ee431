/-
The reader of `\begin`/`\end` clauses against the rules of Spec/Clause.
-/
import Verif.Spec.Clause
import Verif.Proof.Lex

namespace Mitex

theorem Spaces.len {s : Text} {k : Nat} (h : Spaces s k) : k ≤ byteLen s := by
  induction h with
  | nil => simp
  | blank _ _ ih => simp [byteLen]; omega
  | comment _ _ _ ih =>
    rw [byteLen_append]
    simp only [byteLen]
    have := utf8Len_pos '%'
    omega

theorem nl_len {c : Char} (h : c = '\n' ∨ c = '\r') : utf8Len c = 1 := by rcases h with rfl | rfl <;> decide

theorem Spaces.reads {s : Text} {k : Nat} (h : Spaces s k) {c : Char} (hc : isWs c = false) (hp : c ≠ '%') (r : Text) :
    ∀ n, ∃ m, nextNonTrivia false (s ++ c :: r) n = some (c, r, m) ∧ m + k = n + byteLen (s ++ [c]) := by
  induction h with
  | nil =>
    intro n
    refine ⟨n + utf8Len c, ?_, by simp [byteLen]⟩
    simp [nextNonTrivia, hc, hp]
  | @blank d t k hd h ih =>
    intro n
    obtain ⟨m, h1, h2⟩ := ih (n + utf8Len d)
    refine ⟨m, ?_, by simp [byteLen] at h2 ⊢; omega⟩
    simp only [List.cons_append, nextNonTrivia, hd, Bool.false_eq_true, if_false, if_true]
    exact h1
  | @comment body nl t k hb hn h ih =>
    intro n
    have key : ∀ (body : Text), (∀ c ∈ body, c ≠ '\n' ∧ c ≠ '\r') → ∀ n, ∃ m,
        nextNonTrivia true (body ++ nl :: (t ++ c :: r)) n = some (c, r, m) ∧ m + k = n + byteLen body + byteLen (t ++ [c]) := by
      intro body
      induction body with
      | nil =>
        intro _ n
        obtain ⟨m, h1, h2⟩ := ih n
        refine ⟨m, ?_, by simpa [byteLen] using h2⟩
        simp only [List.nil_append, nextNonTrivia, if_true, (isNl_iff nl).mpr hn]
        exact h1
      | cons d body ih2 =>
        intro hb n
        obtain ⟨m, h1, h2⟩ := ih2 (fun c hc => hb c (by simp [hc])) (n + utf8Len d)
        refine ⟨m, ?_, by simp [byteLen]; omega⟩
        have hd : isNl d = false := by
          rw [← Bool.not_eq_true, isNl_iff]
          have := hb d (by simp)
          simp [this]
        simp only [List.cons_append, nextNonTrivia, if_true, hd, Bool.false_eq_true, if_false]
        exact h1
    obtain ⟨m, h1, h2⟩ := key body hb (n + utf8Len '%')
    refine ⟨m, ?_, ?_⟩
    · have hw : isWs '%' = false := by decide
      simp only [List.cons_append, List.append_assoc, nextNonTrivia, hw, Bool.false_eq_true, if_false]
      simpa using h1
    · simp only [List.cons_append, List.append_assoc, byteLen, byteLen_append] at h2 ⊢
      rw [nl_len hn]
      omega

theorem reads_spaces {s : Text} : ∀ {n : Nat} {c : Char} {r : Text} {m : Nat},
    (nextNonTrivia false s n = some (c, r, m) →
      ∃ sp k, Spaces sp k ∧ s = sp ++ c :: r ∧ isWs c = false ∧ c ≠ '%' ∧ m + k = n + byteLen (sp ++ [c])) ∧
    (nextNonTrivia true s n = some (c, r, m) →
      ∃ body nl sp k, (∀ c ∈ body, c ≠ '\n' ∧ c ≠ '\r') ∧ (nl = '\n' ∨ nl = '\r') ∧ Spaces sp k ∧
        s = body ++ nl :: (sp ++ c :: r) ∧ isWs c = false ∧ c ≠ '%' ∧ m + k = n + byteLen body + byteLen (sp ++ [c])) := by
  induction s with
  | nil => intro n c r m; constructor <;> intro h <;> simp [nextNonTrivia] at h
  | cons d s ih =>
    intro n c r m
    constructor
    · intro h
      rw [nextNonTrivia] at h
      simp only [Bool.false_eq_true, if_false] at h
      split at h
      · rename_i hd
        obtain ⟨sp, k, h1, h2, h3, h4, h5⟩ := ih.1 h
        exact ⟨d :: sp, k, .blank hd h1, by simp [h2], h3, h4, by simp [byteLen] at h5 ⊢; omega⟩
      · rename_i hd
        split at h
        · rename_i hp
          obtain ⟨body, nl, sp, k, h1, h2, h3, h4, h5, h6, h7⟩ := ih.2 h
          simp only [beq_iff_eq] at hp
          subst hp
          refine ⟨'%' :: body ++ nl :: sp, k + 1, .comment h1 h2 h3, by simp [h4], h5, h6, ?_⟩
          simp only [List.cons_append, List.append_assoc, byteLen, byteLen_append] at h7 ⊢
          rw [nl_len h2]
          omega
        · rename_i hp
          cases h
          exact ⟨[], 0, .nil, rfl, by simpa using hd, by simpa using hp, by simp [byteLen]⟩
    · intro h
      rw [nextNonTrivia] at h
      simp only [if_true] at h
      split at h
      · rename_i hd
        obtain ⟨sp, k, h1, h2, h3, h4, h5⟩ := ih.1 h
        exact ⟨[], d, sp, k, by simp, (isNl_iff d).mp hd, h1, by simp [h2], h3, h4, by simpa [byteLen] using h5⟩
      · rename_i hd
        obtain ⟨body, nl, sp, k, h1, h2, h3, h4, h5, h6, h7⟩ := ih.2 h
        refine ⟨d :: body, nl, sp, k, ?_, h2, h3, by simp [h4], h5, h6, by simp [byteLen] at h7 ⊢; omega⟩
        intro c hc
        rcases List.mem_cons.mp hc with rfl | hc
        · rw [isNl_iff] at hd; simpa [not_or] using hd
        · exact h1 c hc

theorem byteLen_cut {a b p r : Text} (h : a ++ b = p ++ r) (hl : byteLen p ≤ byteLen a) : ∃ x, a = p ++ x ∧ r = x ++ b := by
  rcases List.append_eq_append_iff.mp h with ⟨x, h1, h2⟩ | ⟨x, h1, h2⟩
  · cases x with
    | nil => exact ⟨[], by simp [h1], by simpa using h2.symm⟩
    | cons c x =>
      have := utf8Len_pos c
      rw [h1, byteLen_append, byteLen] at hl
      omega
  · exact ⟨x, h1, h2⟩

/-- The counter against the position. -/
theorem drop_slips {read rest r : Text} {k m : Nat} (h : m + k = byteLen read) :
    dropBytes m (read ++ rest) = some r ↔ SlipsBack k read rest r := by
  constructor
  · intro hd
    obtain ⟨p, h1, h2⟩ := dropBytes_some hd
    obtain ⟨x, hx, hr⟩ := byteLen_cut h1 (by omega)
    refine ⟨p, x, hx, ?_, hr⟩
    rw [hx, byteLen_append] at h
    omega
  · rintro ⟨p, x, rfl, hx, rfl⟩
    rw [byteLen_append] at h
    rw [show m = byteLen p by omega, List.append_assoc, dropBytes_append]

theorem slips_local {u v rest r : Text} {k : Nat} (hk : k ≤ byteLen v) :
    SlipsBack k (u ++ v) rest r ↔ SlipsBack k v rest r := by
  constructor
  · rintro ⟨p, x, h1, h2, h3⟩
    rcases List.append_eq_append_iff.mp h1 with ⟨y, h4, h5⟩ | ⟨y, h4, h5⟩
    · exact ⟨y, x, h5, h2, h3⟩
    · subst h5
      rw [byteLen_append] at h2
      have : byteLen y = 0 := by omega
      have : y = [] := by
        cases y with
        | nil => rfl
        | cons c y => have := utf8Len_pos c; simp [byteLen] at *; omega
      subst this
      exact ⟨[], v, rfl, by simpa [byteLen] using h2, by simpa using h3⟩
  · rintro ⟨p, x, rfl, h2, h3⟩
    exact ⟨u ++ p, x, by simp, h2, h3⟩

theorem SlipsBack.unique {k : Nat} {read rest r r' : Text} (h : SlipsBack k read rest r) (h' : SlipsBack k read rest r') : r = r' := by
  have hk : k ≤ byteLen read := by
    obtain ⟨p, x, rfl, rfl, _⟩ := h
    rw [byteLen_append]; omega
  have e : (byteLen read - k) + k = byteLen read := by omega
  have h1 := (drop_slips (rest := rest) e).mpr h
  rw [(drop_slips e).mpr h'] at h1
  cases h1
  rfl

/-- The name read is the whole name. -/
theorem advance_whole (s : Text) : WholeName (advanceName (fun _ => true) [] s).1 (advanceName (fun _ => true) [] s).2 := by
  refine ⟨advanceName_name _ _ _, ?_⟩
  have key : ∀ pre, '*' ∉ (advanceName (fun _ => true) pre s).1 →
      NoMore (fun c => NameChar c ∨ c = '*') (advanceName (fun _ => true) pre s).2 := by
    induction s with
    | nil => intro pre _ c hc; simp [advanceName] at hc
    | cons d s ih =>
      intro pre
      rw [advanceName]
      split
      · simp
      · rename_i hd
        split
        · intro hn
          exact ih _ (fun hm => hn (by simp [hm]))
        · rename_i ha
          intro _ c hc
          simp at hc
          subst hc
          simp only [Bool.or_eq_true, beq_iff_eq] at ha hd
          rintro (h | h)
          · exact ha h
          · exact hd h
  exact key []

theorem whole_advance {name t : Text} (h : WholeName name t) : advanceName (fun _ => true) [] (name ++ t) = (name, t) := by
  obtain ⟨⟨l, hl, rfl | rfl⟩, h2⟩ := h
  · have hs : '*' ∉ name := fun hm => by
      have := hl _ hm
      simp [NameChar, isAsciiAlpha] at this
    have hn := h2 hs
    rw [advanceName_run _ name t hl (fun c hc hcn => hn c hc (.inl hcn)), if_neg]
    rintro ⟨h, _⟩
    exact hn _ h (.inr rfl)
  · rw [List.append_assoc, advanceName_run _ l _ hl (by intro c hc; simp at hc; subst hc; simp [NameChar, isAsciiAlpha])]
    simp

/-- What the reader of clauses does, in terms of the rules. -/
theorem brace_some {b : Char} (hb : isWs b = false) (hp : b ≠ '%') {s : Text} {n m : Nat} {r : Text}
    (h : nextNonTrivia false s n = some (b, r, m)) (pre : Text) (hn : n = byteLen pre) :
    (∀ x, dropBytes m (pre ++ s) = some x ↔ Brace b s x) ∧ (dropBytes m (pre ++ s) = none ↔ TornBrace b s) := by
  obtain ⟨sp, k, h1, h2, -, -, h5⟩ := reads_spaces.1 h
  have hk : k ≤ byteLen (sp ++ [b]) := by have := h1.len; rw [byteLen_append]; omega
  have hd : ∀ x, dropBytes m (pre ++ s) = some x ↔ SlipsBack k (sp ++ [b]) r x := by
    intro x
    rw [← slips_local (u := pre) hk, ← drop_slips (rest := r) (m := m) (by rw [byteLen_append]; omega), h2]
    simp
  have huniq : ∀ sp' k' r', Spaces sp' k' → s = sp' ++ b :: r' → sp' = sp ∧ k' = k ∧ r' = r := by
    intro sp' k' r' h1' h2'
    obtain ⟨m', e1, e2⟩ := h1'.reads hb hp r' n
    rw [← h2', h] at e1
    cases e1
    have : sp' = sp := by
      have : sp' ++ b :: r = sp ++ b :: r := h2'.symm.trans h2
      exact List.append_cancel_right this
    subst this
    exact ⟨rfl, by omega, rfl⟩
  have hbr : ∀ x, dropBytes m (pre ++ s) = some x ↔ Brace b s x := by
    intro x
    rw [hd]
    constructor
    · intro hx; exact ⟨sp, k, r, h1, h2, hx⟩
    · rintro ⟨sp', k', r', h1', h2', hx⟩
      obtain ⟨rfl, rfl, rfl⟩ := huniq _ _ _ h1' h2'
      exact hx
  refine ⟨hbr, ?_⟩
  constructor
  · intro hnone
    refine ⟨sp, k, r, h1, h2, fun x hx => ?_⟩
    rw [(hd x).mpr hx] at hnone
    cases hnone
  · rintro ⟨sp', k', r', h1', h2', hx⟩
    obtain ⟨rfl, rfl, rfl⟩ := huniq _ _ _ h1' h2'
    cases hn : dropBytes m (pre ++ s) with
    | none => rfl
    | some x => exact absurd ((hd x).mp hn) (hx x)

theorem brace_none {b : Char} (hb : isWs b = false) (hp : b ≠ '%') {s : Text} {n : Nat}
    (h : ∀ r m, nextNonTrivia false s n ≠ some (b, r, m)) : (∀ x, ¬ Brace b s x) ∧ ¬ TornBrace b s := by
  constructor
  · rintro x ⟨sp, k, r, h1, h2, -⟩
    obtain ⟨m, e1, -⟩ := h1.reads hb hp r n
    rw [← h2] at e1
    exact h _ _ e1
  · rintro ⟨sp, k, r, h1, h2, -⟩
    obtain ⟨m, e1, -⟩ := h1.reads hb hp r n
    rw [← h2] at e1
    exact h _ _ e1

/-- The reader of clauses implements the rules. -/
theorem beginEndWork_exact (after : Text) :
    (∀ name rest, beginEndWork after = .ok (some (name, rest)) ↔ Clause after name rest) ∧
    (∀ x, beginEndWork after = .error x ↔ x = .panic ∧ TornClause after) := by
  unfold beginEndWork
  cases h1 : nextNonTrivia false after 0 with
  | none =>
    obtain ⟨hb, ht⟩ := brace_none (b := '{') (by decide) (by decide) (s := after) (n := 0) (by simp [h1])
    simp only
    constructor
    · intro name rest
      exact ⟨fun h => (by cases h), fun ⟨t, h, _⟩ => absurd h (hb _)⟩
    · intro x
      constructor
      · intro h; cases h
      · rintro ⟨-, h | ⟨_, _, h, _⟩⟩
        · exact absurd h ht
        · exact absurd h (hb _)
  | some q =>
    obtain ⟨c, r1, n1⟩ := q
    simp only
    split
    · rename_i hc
      obtain ⟨hb, ht⟩ := brace_none (b := '{') (by decide) (by decide) (s := after) (n := 0)
        (by intro r m; rw [h1]; simp; intro h; exact absurd h hc)
      constructor
      · intro name rest
        exact ⟨fun h => (by cases h), fun ⟨t, h, _⟩ => absurd h (hb _)⟩
      · intro x
        constructor
        · intro h; cases h
        · rintro ⟨-, h | ⟨_, _, h, _⟩⟩
          · exact absurd h ht
          · exact absurd h (hb _)
    · rename_i hc
      have hc : c = '{' := Decidable.not_not.mp hc
      subst hc
      obtain ⟨hb, ht⟩ := brace_some (by decide) (by decide) h1 [] rfl
      simp only [List.nil_append] at hb ht
      cases hd : dropBytes n1 after with
      | none =>
        have htorn := ht.mp hd
        simp only
        constructor
        · intro name rest
          refine ⟨fun h => (by cases h), fun ⟨t, h, _⟩ => ?_⟩
          rw [(hb _).mpr h] at hd
          cases hd
        · intro x
          exact ⟨fun h => (by cases h; exact ⟨rfl, .inl htorn⟩), fun ⟨h, _⟩ => (by rw [h])⟩
      | some s1 =>
        have hbr := (hb s1).mp hd
        have hno : ¬ TornBrace '{' after := fun h => by rw [ht.mpr h] at hd; cases hd
        have honly : ∀ y, Brace '{' after y → y = s1 := by
          intro y hy
          rw [(hb y).mpr hy] at hd
          cases hd
          rfl
        simp only
        have hw := advance_whole s1
        have happ := advanceName_append (fun _ => true) s1 []
        have huniq : ∀ name t, Brace '{' after (name ++ t) → WholeName name t →
            name = (advanceName (fun _ => true) [] s1).1 ∧ t = (advanceName (fun _ => true) [] s1).2 := by
          intro name t h1 h2
          have := whole_advance h2
          rw [honly _ h1] at this
          rw [this]
          exact ⟨rfl, rfl⟩
        generalize advanceName (fun _ => true) [] s1 = A at *
        obtain ⟨name, t⟩ := A
        simp only at *
        subst happ
        obtain ⟨p, hp1, hp2⟩ := dropBytes_some hd
        cases h2 : nextNonTrivia false t (n1 + byteLen name) with
        | none =>
          obtain ⟨hb2, ht2⟩ := brace_none (b := '}') (by decide) (by decide) (s := t) (n := n1 + byteLen name) (by simp [h2])
          simp only
          constructor
          · intro nm rest
            refine ⟨fun h => (by cases h), fun ⟨t', h, hw', h3⟩ => ?_⟩
            obtain ⟨rfl, rfl⟩ := huniq _ _ h hw'
            exact absurd h3 (hb2 _)
          · intro x
            constructor
            · intro h; cases h
            · rintro ⟨-, h | ⟨_, _, h, hw', h3⟩⟩
              · exact absurd h hno
              · obtain ⟨rfl, rfl⟩ := huniq _ _ h hw'
                exact absurd h3 ht2
        | some q =>
          obtain ⟨c2, r2, n2⟩ := q
          simp only
          split
          · rename_i hc2
            obtain ⟨hb2, ht2⟩ := brace_none (b := '}') (by decide) (by decide) (s := t) (n := n1 + byteLen name)
              (by intro r m; rw [h2]; simp; intro h; exact absurd h hc2)
            constructor
            · intro nm rest
              refine ⟨fun h => (by cases h), fun ⟨t', h, hw', h3⟩ => ?_⟩
              obtain ⟨rfl, rfl⟩ := huniq _ _ h hw'
              exact absurd h3 (hb2 _)
            · intro x
              constructor
              · intro h; cases h
              · rintro ⟨-, h | ⟨_, _, h, hw', h3⟩⟩
                · exact absurd h hno
                · obtain ⟨rfl, rfl⟩ := huniq _ _ h hw'
                  exact absurd h3 ht2
          · rename_i hc2
            have hc2 : c2 = '}' := Decidable.not_not.mp hc2
            subst hc2
            obtain ⟨hb2, ht2⟩ := brace_some (by decide) (by decide) h2 (p ++ name) (by rw [byteLen_append, hp2])
            rw [List.append_assoc, ← hp1] at hb2 ht2
            cases hd2 : dropBytes n2 after with
            | none =>
              have htorn := ht2.mp hd2
              simp only
              constructor
              · intro nm rest
                refine ⟨fun h => (by cases h), fun ⟨t', h, hw', h3⟩ => ?_⟩
                obtain ⟨rfl, rfl⟩ := huniq _ _ h hw'
                rw [(hb2 _).mpr h3] at hd2
                cases hd2
              · intro x
                exact ⟨fun h => (by cases h; exact ⟨rfl, .inr ⟨_, _, hbr, hw, htorn⟩⟩), fun ⟨h, _⟩ => (by rw [h])⟩
            | some rest =>
              have hbr2 := (hb2 rest).mp hd2
              simp only
              constructor
              · intro nm rest'
                constructor
                · intro h
                  cases h
                  exact ⟨_, hbr, hw, hbr2⟩
                · rintro ⟨t', h, hw', h3⟩
                  obtain ⟨rfl, rfl⟩ := huniq _ _ h hw'
                  rw [(hb2 _).mpr h3] at hd2
                  cases hd2
                  rfl
              · intro x
                constructor
                · intro h; cases h
                · rintro ⟨-, h | ⟨_, _, h, hw', h3⟩⟩
                  · exact absurd h hno
                  · obtain ⟨rfl, rfl⟩ := huniq _ _ h hw'
                    rw [ht2.mpr h3] at hd2
                    cases hd2

end Mitex
