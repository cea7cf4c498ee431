/-
C60: taking characters off the peeked token (crates/mitex-lexer/src/lib.rs:131-140 `consume_utf8_bytes`).
-/
import Verif.Props.Stream
import Verif.Proof.Lex

namespace Mitex

theorem plain_consume {N : Nat} (hN : 0 < N) {l : PlainLexer} {k : Token} {p q : Text} {rest : List Tok}
    (h : PlainRel l ((k, p ++ q) :: rest)) :
    ∃ l', l.consumeBytes N (byteLen p) = .ok l' ∧ PlainRel l' ((if q = [] then [] else [(k, q)]) ++ rest) := by
  obtain ⟨pk, buf, tail⟩ := l
  obtain ⟨h1, h2⟩ := h
  cases pk with
  | none =>
    obtain ⟨hb, hr⟩ := h2 rfl
    simp at hb hr
    subst hb; subst hr
    simp at h1
  | some t =>
    simp at h1
    obtain ⟨rfl, rfl⟩ := h1
    simp only [PlainLexer.consumeBytes]
    cases q with
    | nil =>
      rw [if_pos (by simp)]
      obtain ⟨l', h3, h4⟩ := plain_next hN (some (k, p ++ [])) buf tail
      exact ⟨l', h3, by simpa using h4⟩
    | cons c q =>
      have := utf8Len_pos c
      rw [if_neg (by rw [byteLen_append]; simp only [byteLen]; omega), dropBytes_append]
      exact ⟨_, rfl, by simp [PlainRel]⟩

/-- C60: after any number of eaten tokens, consuming the bytes of the first characters `p` of the next token
leaves exactly the rest `q` of this token (nothing, if it was consumed entirely) and the following tokens to
be delivered, for every page size. -/
theorem C60_consume (N : Nat) (hN : 0 < N) (pre : List Tok) (k : Token) (p q : Text) (rest : List Tok) (m : Nat) :
    ∃ l₀ l₁ l₂ l₃, PlainLexer.new N (pre ++ (k, p ++ q) :: rest) = .ok l₀ ∧
      l₀.eatMany N pre.length = .ok (pre.map some, l₁) ∧
      l₁.consumeBytes N (byteLen p) = .ok l₂ ∧
      l₂.eatMany N m = .ok ((List.range m).map fun i => ((if q = [] then [] else [(k, q)]) ++ rest)[i]?, l₃) := by
  obtain ⟨l0, h1, h2⟩ := plain_next hN none [] (pre ++ (k, p ++ q) :: rest)
  obtain ⟨l1, h3, h4⟩ := plain_eatMany hN pre.length h2
  simp at h4
  obtain ⟨l2, h5, h6⟩ := plain_consume hN h4
  obtain ⟨l3, h7, _⟩ := plain_eatMany hN m h6
  refine ⟨l0, l1, l2, l3, h1, ?_, h5, h7⟩
  rw [h3]
  congr 2
  apply List.ext_getElem?
  intro i
  rw [List.getElem?_map]
  by_cases hi : i < pre.length
  · simp [hi, List.getElem?_append_left hi]
  · rw [List.getElem?_eq_none (by simp; omega), List.getElem?_eq_none (by simp; omega)]
    rfl

/-- C60: consuming a number of bytes that ends inside of a character of the peeked token panics. -/
theorem C60_off_boundary (N : Nat) (l : PlainLexer) (k : Token) (t : Text) (n : Nat) (hp : l.peek = some (k, t))
    (hn : n < byteLen t) (hb : ∀ p q, t = p ++ q → byteLen p ≠ n) : l.consumeBytes N n = .error .panic := by
  obtain ⟨pk, buf, tail⟩ := l
  simp only [PlainLexer.peek] at hp
  subst hp
  simp only [PlainLexer.consumeBytes]
  rw [if_neg (by omega)]
  cases h : dropBytes n t with
  | none => rfl
  | some q =>
    obtain ⟨p, h1, h2⟩ := dropBytes_some h
    exact absurd h2 (hb p q h1)

example : (do let l ← PlainLexer.new 1 [(.comma, t!","), (.word, t!"éab"), (.word, t!"c")]
              let r ← l.eatMany 1 1
              let l ← r.2.consumeBytes 1 2
              let r ← l.eatMany 1 3
              pure r.1)
    = (.ok [some (.word, t!"ab"), some (.word, t!"c"), none] : Res _) := by decide

example : (PlainLexer.new 1 [(.word, t!"éab")]).bind (·.consumeBytes 1 1) = .error .panic := by decide

end Mitex
