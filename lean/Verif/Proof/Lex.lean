/-
Lemmas about the lexer (crates/mitex-lexer/src/token.rs).
-/
import Verif.Spec.Lexical

namespace Mitex

theorem utf8Len_pos (c : Char) : 0 < utf8Len c := by
  unfold utf8Len; split
  · simp
  · split
    · simp
    · split <;> simp

theorem byteLen_append (a b : Text) : byteLen (a ++ b) = byteLen a + byteLen b := by
  induction a with
  | nil => simp [byteLen]
  | cons c a ih => simp [byteLen, ih]; omega

theorem dropBytes_append (a b : Text) : dropBytes (byteLen a) (a ++ b) = some b := by
  induction a with
  | nil => simp [byteLen, dropBytes]
  | cons c a ih =>
    have := utf8Len_pos c
    rw [byteLen, List.cons_append]
    obtain ⟨k, hk⟩ : ∃ k, utf8Len c + byteLen a = k + 1 := ⟨utf8Len c + byteLen a - 1, by omega⟩
    rw [hk, dropBytes, if_pos (by omega), ← hk, Nat.add_sub_cancel_left]
    exact ih

theorem dropBytes_some {n : Nat} {s r : Text} (h : dropBytes n s = some r) :
    ∃ p, s = p ++ r ∧ byteLen p = n := by
  induction s generalizing n with
  | nil =>
    cases n with
    | zero => simp [dropBytes] at h; exact ⟨[], by simp [h, byteLen]⟩
    | succ n => simp [dropBytes] at h
  | cons c s ih =>
    cases n with
    | zero => simp [dropBytes] at h; exact ⟨[], by simp [h, byteLen]⟩
    | succ n =>
      rw [dropBytes] at h
      split at h
      · obtain ⟨p, hp, hn⟩ := ih h
        exact ⟨c :: p, by simp [hp], by simp [byteLen]; omega⟩
      · cases h

/-- All characters are ASCII. -/
def Ascii (s : Text) : Prop := ∀ c ∈ s, c.toNat < 128

theorem dropBytes_ascii {s : Text} (h : Ascii s) : ∀ n, n ≤ byteLen s → ∃ r, dropBytes n s = some r := by
  induction s with
  | nil => intro n hn; simp [byteLen] at hn; subst hn; exact ⟨[], rfl⟩
  | cons c s ih =>
    intro n hn
    cases n with
    | zero => exact ⟨_, rfl⟩
    | succ n =>
      have hc : utf8Len c = 1 := by
        have := h c (by simp); simp [utf8Len, this]
      rw [dropBytes, hc, if_pos (by omega)]
      exact ih (fun d hd => h d (by simp [hd])) _ (by simp [byteLen, hc] at hn; omega)

theorem advanceName_append (star : Text → Bool) (s : Text) : ∀ pre,
    (advanceName star pre s).1 ++ (advanceName star pre s).2 = s := by
  induction s with
  | nil => intro pre; simp [advanceName]
  | cons c s ih =>
    intro pre
    rw [advanceName]
    split
    · rename_i hc
      simp at hc
      split <;> simp [hc]
    · split
      · simp [ih]
      · simp

theorem advanceName_name (star : Text → Bool) (s : Text) : ∀ pre, EnvName (advanceName star pre s).1 := by
  induction s with
  | nil => intro pre; exact ⟨[], by simp, by simp [advanceName]⟩
  | cons c s ih =>
    intro pre
    rw [advanceName]
    split
    · split
      · exact ⟨[], by simp, by simp⟩
      · exact ⟨[], by simp, by simp⟩
    · split
      · rename_i hc
        obtain ⟨l, hl, h⟩ := ih (pre ++ [c])
        refine ⟨c :: l, ?_, ?_⟩
        · intro d hd
          rcases List.mem_cons.mp hd with rfl | hd
          · simp only [Bool.or_eq_true, beq_iff_eq] at hc; exact hc
          · exact hl d hd
        · rcases h with h | h <;> simp [h]
      · exact ⟨[], by simp, by simp⟩

/-- `advanceName` on a run of name characters followed by something else. -/
theorem advanceName_run (star : Text → Bool) (name rest : Text) (hn : ∀ c ∈ name, NameChar c)
    (hr : ∀ c, rest.head? = some c → ¬ NameChar c) : ∀ pre,
    advanceName star pre (name ++ rest) =
      if rest.head? = some '*' ∧ star (pre ++ name ++ ['*']) = true then (name ++ ['*'], rest.tail)
      else (name, rest) := by
  induction name with
  | nil =>
    intro pre
    cases rest with
    | nil => simp [advanceName]
    | cons c r =>
      have := hr c (by simp)
      simp only [NameChar, not_or] at this
      rw [List.nil_append, advanceName]
      by_cases hc : c = '*'
      · subst hc; simp
      · simp [hc, this]
  | cons c name ih =>
    intro pre
    have hc := hn c (by simp)
    have hne : c ≠ '*' := by
      rintro rfl
      rcases hc with hc | hc <;> simp [isAsciiAlpha] at hc
    have hcc : (isAsciiAlpha c || c == '@') = true := by
      simp only [Bool.or_eq_true, beq_iff_eq]; exact hc
    rw [List.cons_append, advanceName]
    simp only [beq_iff_eq, hne, if_false, hcc, if_true]
    rw [ih (fun d hd => hn d (by simp [hd]))]
    have he : pre ++ [c] ++ name ++ ['*'] = pre ++ c :: name ++ ['*'] := by simp
    rw [he]
    split <;> rfl

theorem nextNonTrivia_le {b : Bool} {s : Text} : ∀ {n : Nat} {c : Char} {r : Text} {m : Nat},
    nextNonTrivia b s n = some (c, r, m) →
    n < m ∧ m + byteLen r ≤ n + byteLen s ∧ ∃ p, s = p ++ c :: r := by
  induction s generalizing b with
  | nil => intro n c r m h; simp [nextNonTrivia] at h
  | cons d s ih =>
    intro n c r m h
    have hp := utf8Len_pos d
    rw [nextNonTrivia] at h
    split at h
    · split at h
      · obtain ⟨h1, h2, p, h3⟩ := ih h
        simp only [byteLen]; exact ⟨by omega, by omega, d :: p, by simp [h3]⟩
      · obtain ⟨h1, h2, p, h3⟩ := ih h
        simp only [byteLen]; exact ⟨by omega, by omega, d :: p, by simp [h3]⟩
    · split at h
      · obtain ⟨h1, h2, p, h3⟩ := ih h
        simp only [byteLen]; exact ⟨by omega, by omega, d :: p, by simp [h3]⟩
      · split at h
        · obtain ⟨h1, h2, p, h3⟩ := ih h
          simp only [byteLen]; exact ⟨by omega, by omega, d :: p, by simp [h3]⟩
        · simp at h
          obtain ⟨rfl, rfl, rfl⟩ := h
          simp only [byteLen]; exact ⟨by omega, by omega, [], by simp⟩

/-- Without comments the byte counter is exact. -/
theorem nextNonTrivia_exact {s : Text} (hs : '%' ∉ s) : ∀ {n : Nat} {c : Char} {r : Text} {m : Nat},
    nextNonTrivia false s n = some (c, r, m) →
    ∃ p, s = p ++ c :: r ∧ (∀ d ∈ p, isWs d = true) ∧ m = n + byteLen (p ++ [c]) := by
  induction s with
  | nil => intro n c r m h; simp [nextNonTrivia] at h
  | cons d s ih =>
    intro n c r m h
    have hd : d ≠ '%' := by rintro rfl; simp at hs
    have hs' : '%' ∉ s := fun h => hs (by simp [h])
    rw [nextNonTrivia] at h
    simp only [Bool.false_eq_true, if_false] at h
    split at h
    · rename_i hw
      obtain ⟨p, h1, h2, h3⟩ := ih hs' h
      refine ⟨d :: p, by simp [h1], ?_, ?_⟩
      · intro e he
        rcases List.mem_cons.mp he with rfl | he
        · exact hw
        · exact h2 e he
      · simp [byteLen, h3]; omega
    · simp [hd] at h
      obtain ⟨rfl, rfl, rfl⟩ := h
      exact ⟨[], by simp, by simp, by simp [byteLen]⟩

theorem nextNonTrivia_ws (ws : Text) (hw : ∀ d ∈ ws, isWs d = true) (c : Char) (hc : isWs c = false)
    (hc2 : c ≠ '%') (r : Text) : ∀ n,
    nextNonTrivia false (ws ++ c :: r) n = some (c, r, n + byteLen (ws ++ [c])) := by
  induction ws with
  | nil => intro n; simp [nextNonTrivia, hc, hc2, byteLen]
  | cons d ws ih =>
    intro n
    have := hw d (by simp)
    simp only [List.cons_append, nextNonTrivia, Bool.false_eq_true, if_false, this, if_true]
    rw [ih (fun e he => hw e (by simp [he]))]
    simp [byteLen]; omega

/-- The clause after `\begin`: the name is found inside of the consumed text. -/
theorem beginEndWork_span {after name rest : Text} (h : beginEndWork after = .ok (some (name, rest))) :
    EnvName name ∧ ∃ a b, after = a ++ name ++ b ++ rest := by
  unfold beginEndWork at h
  split at h
  · cases h
  · rename_i c r1 n1 h1
    split at h
    · cases h
    · split at h
      · cases h
      · rename_i rest1 hd1
        simp only at h
        split at h
        · cases h
        · rename_i c2 r2 n2 h2
          split at h
          · cases h
          · split at h
            · cases h
            · rename_i rest' hd2
              simp only [Except.ok.injEq, Option.some.injEq, Prod.mk.injEq] at h
              obtain ⟨rfl, rfl⟩ := h
              refine ⟨advanceName_name _ _ _, ?_⟩
              obtain ⟨p1, e1, l1⟩ := dropBytes_some hd1
              obtain ⟨p2, e2, l2⟩ := dropBytes_some hd2
              have ha := advanceName_append (fun _ => true) rest1 []
              generalize advanceName (fun _ => true) [] rest1 = A at *
              have hle := (nextNonTrivia_le h2).1
              have he : (p1 ++ A.1) ++ A.2 = p2 ++ rest' := by
                rw [List.append_assoc, ha, ← e1, e2]
              rcases List.append_eq_append_iff.mp he with ⟨q, hq, hq2⟩ | ⟨q, hq, hq2⟩
              · exact ⟨p1, q, by rw [e2, hq]⟩
              · have : byteLen (p1 ++ A.1) = byteLen p2 + byteLen q := by rw [hq, byteLen_append]
                rw [byteLen_append] at this
                omega

theorem takeWhile_all (p : Char → Bool) (s : Text) : ∀ c ∈ s.takeWhile p, p c = true := by
  intro c hc
  induction s with
  | nil => simp at hc
  | cons d s ih =>
    rw [List.takeWhile_cons] at hc
    split at hc
    · rename_i h
      rcases List.mem_cons.mp hc with rfl | hc
      · exact h
      · exact ih hc
    · simp at hc

theorem dropWhile_head (p : Char → Bool) (s : Text) (c : Char) (r : Text) (h : s.dropWhile p = c :: r) :
    p c = false := by
  induction s with
  | nil => simp at h
  | cons d s ih =>
    rw [List.dropWhile_cons] at h
    split at h
    · exact ih h
    · rename_i hd
      simp at h
      rw [← h.1]; simpa using hd

theorem isWordChar_iff (c : Char) : isWordChar c = true ↔ isWs c = false ∧ c ∉ specials := by
  unfold isWordChar isWordStop specials
  simp only [Bool.and_eq_true, Bool.not_eq_true']
  constructor
  · rintro ⟨h1, h2⟩
    refine ⟨h1, ?_⟩
    intro hm
    rw [List.contains_iff_mem.mpr (by simpa using hm)] at h2
    cases h2
  · rintro ⟨h1, h2⟩
    refine ⟨h1, ?_⟩
    rw [← Bool.not_eq_true, List.contains_iff_mem]
    intro hm
    exact h2 (by simpa using hm)

theorem isNl_iff (c : Char) : isNl c = true ↔ c = '\n' ∨ c = '\r' := by
  simp [isNl]

/-- Everything `lexOne` promises about one token. -/
structure GoodTok (s : Text) (l : Lexed) : Prop where
  shape : TokShape l.tok l.text
  maximal : Maximal l.tok l.rest
  span : ∃ span, span ≠ [] ∧ s = span ++ l.rest ∧ SpanOf l.tok l.text span

theorem lexRun_good_span (t : Token) (p : Char → Bool) (c : Char) (cs : Text) (hb : t ≠ .cmd .beginEnv)
    (he : t ≠ .cmd .endEnv) : 
    ∃ span, span ≠ [] ∧ c :: cs = span ++ (lexRun t p c cs).rest ∧ SpanOf t (lexRun t p c cs).text span := by
  refine ⟨c :: cs.takeWhile p, by simp, by simp [lexRun], ?_⟩
  unfold SpanOf
  split
  · contradiction
  · contradiction
  · rfl

theorem singleTok_good {c : Char} {t : Token} (h : singleTok c = some t) (cs : Text) :
    GoodTok (c :: cs) ⟨t, [c], cs⟩ := by
  unfold singleTok at h
  split at h <;> first
    | (cases h; exact ⟨rfl, by simp [Maximal], [_], by simp, by simp, rfl⟩)
    | cases h

theorem ite_pred {α : Type} {P : α → Prop} {c : Prop} [Decidable c] {a b : α} (h1 : c → P a) (h2 : P b) :
    P (if c then a else b) := by
  split
  · exact h1 ‹_›
  · exact h2

theorem builtinName_shape (name : Text) (hn : name ≠ ['\\']) :
    TokShape (.cmd (builtinName name)) ('\\' :: name) := by
  unfold builtinName
  iterate 22
    refine ite_pred (P := fun k => TokShape (.cmd k) ('\\' :: name)) (fun h => by subst h; rfl) ?_
  exact ⟨rfl, by simpa using hn⟩

theorem lexBeginEnd_good {full after : Text} {ok err : CommandName} {l : Lexed}
    (h : lexBeginEnd full after ok err = .ok l)
    (hk : (full = "\\begin".toList ∧ ok = .beginEnv ∧ err = .errorBeginEnv) ∨
          (full = "\\end".toList ∧ ok = .endEnv ∧ err = .errorEndEnv)) : GoodTok (full ++ after) l := by
  unfold lexBeginEnd at h
  split at h
  · cases h
  · cases h
    rcases hk with ⟨rfl, rfl, rfl⟩ | ⟨rfl, rfl, rfl⟩
    · exact ⟨rfl, trivial, _, by simp, rfl, rfl⟩
    · exact ⟨rfl, trivial, _, by simp, rfl, rfl⟩
  · rename_i name rest hw
    cases h
    obtain ⟨hn, a, b, hab⟩ := beginEndWork_span hw
    rcases hk with ⟨rfl, rfl, rfl⟩ | ⟨rfl, rfl, rfl⟩
    · exact ⟨hn, trivial, "\\begin".toList ++ a ++ name ++ b, by simp, by simp [hab], a, b, rfl⟩
    · exact ⟨hn, trivial, "\\end".toList ++ a ++ name ++ b, by simp, by simp [hab], a, b, rfl⟩

theorem lexCommandName_good {spec : CommandSpec} {cs : Text} {l : Lexed} (hcs : cs.head? ≠ some '\\')
    (h : lexCommandName spec cs = .ok l) : GoodTok ('\\' :: cs) l := by
  unfold lexCommandName at h
  split at h
  · cases h
    exact ⟨⟨rfl, by simp⟩, trivial, ['\\'], by simp, rfl, rfl⟩
  · rename_i c cs'
    split at h
    · cases h
      exact ⟨⟨rfl, by simp⟩, trivial, ['\\'], by simp, rfl, rfl⟩
    · split at h
      · rename_i hc
        cases h
        simp at hc
        exact ⟨by rcases hc with rfl | rfl <;> simp [TokShape], trivial, ['\\', c], by simp, rfl, rfl⟩
      · split at h
        · rename_i hc
          cases h
          simp at hc
          exact ⟨by rcases hc with rfl | rfl <;> simp [TokShape], trivial, ['\\', c], by simp, rfl, rfl⟩
        · split at h
          · cases h
            exact ⟨⟨rfl, by simpa using hcs⟩, trivial, ['\\', c], by simp, rfl, rfl⟩
          · simp only at h
            have ha := advanceName_append (fun n => (spec n).isSome) cs' [c]
            generalize advanceName (fun n => (spec n).isSome) [c] cs' = A at *
            have hcc : ('\\' :: c :: cs') = ('\\' :: c :: A.1) ++ A.2 := by simp [ha]
            rw [hcc]
            split at h
            · rename_i hb
              rw [hb] at h ⊢
              exact lexBeginEnd_good h (.inl ⟨rfl, rfl, rfl⟩)
            · split at h
              · rename_i hb
                rw [hb] at h ⊢
                exact lexBeginEnd_good h (.inr ⟨rfl, rfl, rfl⟩)
              · cases h
                have hs := builtinName_shape (c :: A.1) (by
                  intro he
                  simp at he hcs
                  exact hcs he.1)
                refine ⟨hs, ?_, '\\' :: c :: A.1, by simp, rfl, ?_⟩
                · simp [Maximal]
                · unfold SpanOf
                  split
                  · rename_i he
                    simp only at he
                    rw [he] at hs
                    exfalso
                    simp only [TokShape, EnvName] at hs
                    obtain ⟨l, hl, he | he⟩ := hs
                    · have := hl '\\' (by rw [← he]; simp)
                      simp [NameChar, isAsciiAlpha] at this
                    · have : l.head? = some '\\' ∨ l = [] := by
                        cases l with
                        | nil => simp
                        | cons x y => simp at he; simp [← he.1]
                      rcases this with h | h
                      · have := hl '\\' (List.mem_of_mem_head? h)
                        simp [NameChar, isAsciiAlpha] at this
                      · rw [h] at he; simp at he
                  · rename_i he
                    simp only at he
                    rw [he] at hs
                    exfalso
                    simp only [TokShape, EnvName] at hs
                    obtain ⟨l, hl, he | he⟩ := hs
                    · have := hl '\\' (by rw [← he]; simp)
                      simp [NameChar, isAsciiAlpha] at this
                    · have : l.head? = some '\\' ∨ l = [] := by
                        cases l with
                        | nil => simp
                        | cons x y => simp at he; simp [← he.1]
                      rcases this with h | h
                      · have := hl '\\' (List.mem_of_mem_head? h)
                        simp [NameChar, isAsciiAlpha] at this
                      · rw [h] at he; simp at he
                  · rfl

theorem mem_cons_takeWhile {p q : Char → Bool} {c d : Char} {cs : Text} (hc : q c = true)
    (hpq : ∀ d, p d = true → q d = true) (hd : d ∈ c :: cs.takeWhile p) : q d = true := by
  rcases List.mem_cons.mp hd with rfl | hd
  · exact hc
  · exact hpq _ (takeWhile_all p cs d hd)

theorem lexOne_good {spec : CommandSpec} {s : Text} {l : Lexed} (h : lexOne spec s = some (.ok l)) :
    GoodTok s l := by
  unfold lexOne at h
  split at h
  · cases h
  · rename_i c cs
    split at h
    · rename_i hc
      cases h
      refine ⟨⟨by simp [lexRun], ?_⟩, ?_, lexRun_good_span _ _ _ _ (by simp) (by simp)⟩
      · intro d hd
        exact (isNl_iff d).mp (mem_cons_takeWhile (p := isNl) (q := isNl) hc (fun _ h => h) hd)
      · cases hdw : cs.dropWhile (isNl) with
        | nil => simp [lexRun, Maximal, hdw]
        | cons e r =>
          have := dropWhile_head _ cs _ _ hdw
          simp only [lexRun, Maximal, hdw]
          rw [← Bool.not_eq_true, isNl_iff] at this
          simpa using this
    · rename_i hnl
      split at h
      · rename_i hc
        cases h
        refine ⟨⟨by simp [lexRun], ?_⟩, ?_, lexRun_good_span _ _ _ _ (by simp) (by simp)⟩
        · intro d hd
          have := mem_cons_takeWhile (p := fun c => isWs c && !isNl c) (q := fun c => isWs c && !isNl c)
            (by simp [hc, hnl]) (fun _ h => h) hd
          simp [isNl] at this
          exact ⟨this.1, this.2⟩
        · cases hdw : cs.dropWhile (fun c => isWs c && !isNl c) with
          | nil => simp [lexRun, Maximal, hdw]
          | cons e r =>
            have := dropWhile_head _ cs _ _ hdw
            simp only [lexRun, Maximal, hdw]
            simp [isNl] at this
            by_cases hw : isWs e = true
            · right
              have := this hw
              by_cases e = '\n' <;> simp_all
            · left; simpa using hw
      · split at h
        · rename_i hc
          cases h
          refine ⟨⟨by simp [lexRun], ?_⟩, ?_, lexRun_good_span _ _ _ _ (by simp) (by simp)⟩
          · intro d hd
            exact (isWordChar_iff d).mp (mem_cons_takeWhile (p := isWordChar) (q := isWordChar) hc (fun _ h => h) hd)
          · cases hdw : cs.dropWhile (isWordChar) with
            | nil => simp [lexRun, Maximal, hdw]
            | cons e r =>
              have := dropWhile_head _ cs _ _ hdw
              simp only [lexRun, Maximal, hdw]
              rw [← Bool.not_eq_true, isWordChar_iff] at this
              by_cases hw : isWs e = true
              · exact .inl hw
              · right
                refine Decidable.byContradiction fun hn => this ⟨by simpa using hw, hn⟩
        · split at h
          · rename_i hc
            cases h
            simp at hc
            subst hc
            refine ⟨⟨by simp [lexRun], ?_⟩, ?_, lexRun_good_span _ _ _ _ (by simp) (by simp)⟩
            · intro d hd
              have := mem_cons_takeWhile (p := fun c => !isNl c) (q := fun c => !isNl c)
                (by simp [hnl]) (fun _ h => h) hd
              simpa [isNl] using this
            · cases hdw : cs.dropWhile (fun c => !isNl c) with
              | nil => simp [lexRun, Maximal, hdw]
              | cons e r =>
                have := dropWhile_head _ cs _ _ hdw
                simp only [lexRun, Maximal, hdw]
                simp [isNl] at this
                by_cases e = '\n' <;> simp_all
          · split at h
            · rename_i hc
              simp at hc
              subst hc
              split at h
              · cases h
                exact ⟨by simp [TokShape], trivial, ['$', '$'], by simp, rfl, rfl⟩
              · cases h
                exact ⟨by simp [TokShape], trivial, ['$'], by simp, rfl, rfl⟩
            · split at h
              · rename_i hc
                simp at hc
                subst hc
                split at h
                · cases h
                  exact ⟨rfl, trivial, ['\\', '\\'], by simp, rfl, rfl⟩
                · rename_i hne
                  simp at h
                  refine lexCommandName_good ?_ h
                  intro hh
                  cases cs with
                  | nil => simp at hh
                  | cons x y => simp at hh; exact hne y (by rw [hh])
              · split at h
                · rename_i hs
                  cases h
                  exact singleTok_good hs cs
                · cases h

end Mitex
