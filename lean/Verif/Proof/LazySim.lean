/-
The parser that pulls its tokens from a lexer (Model/Lazy) does the same as the parser on the list of tokens
(Model/Parser), as long as the lexer follows the list.
-/
import Verif.Model.Lazy

namespace Mitex
namespace Lazy

variable {σ : Type} {L : LexerFns σ} {bad : Stop → Prop} {K : Nat}

/-- What the parser may assume of a lexer. -/
structure Lawful (L : LexerFns σ) : Prop where
  eat_none : ∀ {s}, L.peek s = none → L.eat s = .ok (none, s)
  eat_some : ∀ {s t}, L.peek s = some t → (∃ e, L.eat s = .error e) ∨ ∃ s', L.eat s = .ok (some t, s')
  consume_none : ∀ {s} cnt, L.peek s = none → L.consumeBytes cnt s = .ok s
  consume_all : ∀ {s k t} cnt, L.peek s = some (k, t) → byteLen t ≤ cnt → L.consumeBytes cnt s = (L.eat s).map Prod.snd
  consume_bad : ∀ {s k t} cnt, L.peek s = some (k, t) → cnt < byteLen t → dropBytes cnt t = none → L.consumeBytes cnt s = .error .panic
  consume_part : ∀ {s k t t'} cnt, L.peek s = some (k, t) → cnt < byteLen t → dropBytes cnt t = some t' →
    ∃ s', L.consumeBytes cnt s = .ok s' ∧ L.peek s' = some (k, t') ∧ (L.eat s').map Prod.snd = (L.eat s).map Prod.snd

/-- The lexer delivers these tokens and then `None`, or fails on the way in one of the ways `bad`. -/
def Follows (L : LexerFns σ) (bad : Stop → Prop) : List Tok → σ → Prop
  | [], s => L.peek s = none
  | t :: ts, s => L.peek s = some t ∧ ((∃ e, bad e ∧ L.eat s = .error e) ∨ ∃ s', L.eat s = .ok (some t, s') ∧ Follows L bad ts s')

theorem Follows.peek {ts : List Tok} {s : σ} (h : Follows L bad ts s) : L.peek s = ts.head? := by
  cases ts with
  | nil => exact h
  | cons t ts => exact h.1

/-- Put a token list into a state of the parser. -/
def put (ts : List Tok) (st : PState) : PState := { st with toks := ts }

/-- A state on a lexer and a state on a list that are alike. -/
structure Sim (L : LexerFns σ) (bad : Stop → Prop) (K : Nat) (t : PState) (s : LState σ) : Prop where
  st : t = put t.toks s.st
  follows : Follows L bad t.toks s.lex
  room : bad .fuel ∨ t.toks.length < K

/-- Results that are alike: unless the bound on the recursion was reached on the left, or the lexer failed on the right. -/
def LRel (bad : Stop → Prop) {α β : Type} (P : α → β → Prop) (x : Res α) (y : Res β) : Prop :=
  x = .error .fuel ∨ (∃ e, bad e ∧ y = .error e) ∨ (∃ e, x = .error e ∧ y = .error e) ∨ ∃ a b, x = .ok a ∧ y = .ok b ∧ P a b

/-- Alike, with the same flag. -/
def FSim (L : LexerFns σ) (bad : Stop → Prop) (K : Nat) (a : Bool × PState) (b : Bool × LState σ) : Prop :=
  a.1 = b.1 ∧ Sim L bad K a.2 b.2

section rel
variable {α β γ δ : Type} {P : α → β → Prop} {Q : γ → δ → Prop}

theorem LRel.ok {a : α} {b : β} (h : P a b) : LRel bad P (.ok a) (.ok b) := .inr (.inr (.inr ⟨a, b, rfl, rfl, h⟩))
theorem LRel.error (e : Stop) : LRel bad P (.error e : Res α) (.error e : Res β) := .inr (.inr (.inl ⟨e, rfl, rfl⟩))
theorem LRel.fuel (y : Res β) : LRel bad P (.error .fuel : Res α) y := .inl rfl
theorem LRel.fail {x : Res α} {e : Stop} (h : bad e) : LRel bad P x (.error e : Res β) := .inr (.inl ⟨e, h, rfl⟩)

theorem LRel.bind {x : Res α} {y : Res β} {f : α → Res γ} {g : β → Res δ} (h : LRel bad P x y)
    (hf : ∀ a b, P a b → LRel bad Q (f a) (g b)) : LRel bad Q (x >>= f) (y >>= g) := by
  rcases h with rfl | ⟨e, he, rfl⟩ | ⟨e, rfl, rfl⟩ | ⟨a, b, rfl, rfl, hp⟩
  · exact .fuel _
  · exact .fail he
  · exact .error e
  · exact hf a b hp

theorem LRel.mono {P' : α → β → Prop} {x : Res α} {y : Res β} (h : LRel bad P x y) (hf : ∀ a b, P a b → P' a b) : LRel bad P' x y := by
  rcases h with h | h | h | ⟨a, b, h1, h2, h3⟩
  · exact .inl h
  · exact .inr (.inl h)
  · exact .inr (.inr (.inl h))
  · exact .inr (.inr (.inr ⟨a, b, h1, h2, hf a b h3⟩))
end rel

theorem Sim.peek {t : PState} {s : LState σ} (h : Sim L bad K t s) : L.peek s.lex = t.toks.head? := h.follows.peek
theorem Sim.peekKind {t : PState} {s : LState σ} (h : Sim L bad K t s) : Lazy.peek L s = t.peek := by
  unfold Lazy.peek PState.peek; rw [h.peek]

theorem Sim.scope {t : PState} {s : LState σ} (h : Sim L bad K t s) : t.scope = s.st.scope := by rw [h.st]; rfl
theorem Sim.last {t : PState} {s : LState σ} (h : Sim L bad K t s) : t.last = s.st.last := by rw [h.st]; rfl
theorem Sim.start {t : PState} {s : LState σ} (h : Sim L bad K t s) : t.start = s.st.start := by rw [h.st]; rfl
theorem Sim.checkpoint {t : PState} {s : LState σ} (h : Sim L bad K t s) : t.checkpoint = s.st.checkpoint := by rw [h.st]; rfl

theorem Sim.map {t : PState} {s : LState σ} {f : PState → PState} (h : Sim L bad K t s) (hf : ∀ ts st, f (put ts st) = put ts (f st)) :
    Sim L bad K (f t) (s.map f) := by
  have e : f t = put t.toks (f s.st) := by rw [h.st, hf]; rfl
  exact ⟨by rw [e]; rfl, by rw [e]; exact h.follows, by rw [e]; exact h.room⟩

theorem Sim.try {t : PState} {s : LState σ} {f : PState → Res PState} (h : Sim L bad K t s)
    (hf : ∀ ts st, f (put ts st) = (f st).map (put ts)) : LRel bad (Sim L bad K) (f t) (s.try f) := by
  have e : f t = (f s.st).map (put t.toks) := by rw [h.st, hf]; rfl
  rw [e]; unfold LState.try
  cases f s.st with
  | error x => exact .error x
  | ok st => exact .ok ⟨rfl, h.follows, h.room⟩

/-! ### Single tokens -/

theorem eat_gen {t : PState} {s : LState σ} (h : Sim L bad K t s) (hL : Lawful L) :
    (t.toks = [] ∧ L.eat s.lex = .ok (none, s.lex)) ∨
    (∃ e, bad e ∧ L.eat s.lex = .error e) ∨
    ∃ tk ts lex, t.toks = tk :: ts ∧ L.eat s.lex = .ok (some tk, lex) ∧ Follows L bad ts lex ∧ (bad .fuel ∨ ts.length < K) := by
  have hf := h.follows
  have hr := h.room
  cases ht : t.toks with
  | nil => rw [ht] at hf; exact .inl ⟨rfl, hL.eat_none hf⟩
  | cons tk ts =>
    rw [ht] at hf hr
    rcases hf.2 with ⟨e, he, h1⟩ | ⟨lex, h1, h2⟩
    · exact .inr (.inl ⟨e, he, h1⟩)
    · exact .inr (.inr ⟨tk, ts, lex, rfl, h1, h2, hr.imp_right fun h => by simp only [List.length_cons] at h; omega⟩)

theorem eat_sim {t : PState} {s : LState σ} (h : Sim L bad K t s) (hL : Lawful L) : LRel bad (Sim L bad K) t.eat (eat L s) := by
  unfold PState.eat eat
  rcases eat_gen h hL with ⟨h1, h2⟩ | ⟨e, he, h2⟩ | ⟨tk, ts, lex, h1, h2, h3, h4⟩
  · rw [h1, h2]; exact .error _
  · rw [h2]; exact .fail he
  · rw [h1, h2]
    refine .ok ⟨?_, h3, h4⟩
    rw [h.st]; rfl

theorem eatAs_sim {t : PState} {s : LState σ} (k : Kind) (h : Sim L bad K t s) (hL : Lawful L) : LRel bad (Sim L bad K) (t.eatAs k) (eatAs L k s) := by
  unfold PState.eatAs eatAs
  rcases eat_gen h hL with ⟨h1, h2⟩ | ⟨e, he, h2⟩ | ⟨tk, ts, lex, h1, h2, h3, h4⟩
  · rw [h1, h2]; exact .error _
  · rw [h2]; exact .fail he
  · rw [h1, h2]
    refine .ok ⟨?_, h3, h4⟩
    rw [h.st]; rfl

theorem drop_sim {t : PState} {s : LState σ} (h : Sim L bad K t s) (hL : Lawful L) : LRel bad (Sim L bad K) (.ok t.drop) (drop L s) := by
  unfold PState.drop drop
  rcases eat_gen h hL with ⟨h1, h2⟩ | ⟨e, he, h2⟩ | ⟨tk, ts, lex, h1, h2, h3, h4⟩
  · rw [h1, h2]
    refine .ok ⟨?_, ?_, ?_⟩
    · rw [h.st]; rfl
    · have := h.follows; rw [h1] at this; exact this
    · have := h.room; rw [h1] at this; exact this
  · rw [h2]; exact .fail he
  · rw [h1, h2]
    refine .ok ⟨?_, h3, h4⟩
    rw [h.st]; rfl

theorem holdTrivia_sim {t : PState} {s : LState σ} (h : Sim L bad K t s) (hL : Lawful L) : LRel bad (Sim L bad K) t.holdTrivia (holdTrivia L s) := by
  unfold PState.holdTrivia holdTrivia
  rcases eat_gen h hL with ⟨h1, h2⟩ | ⟨e, he, h2⟩ | ⟨tk, ts, lex, h1, h2, h3, h4⟩
  · rw [h1, h2]; exact .error _
  · rw [h2]; exact .fail he
  · rw [h1, h2]
    refine .ok ⟨?_, h3, h4⟩
    rw [h.st]; rfl

theorem eatIf_sim {t : PState} {s : LState σ} (k : Token) (h : Sim L bad K t s) (hL : Lawful L) : LRel bad (Sim L bad K) (t.eatIf k) (eatIf L k s) := by
  unfold PState.eatIf eatIf
  rw [h.peekKind]
  split
  · exact eat_sim h hL
  · exact .ok h

theorem consumeBytes_sim {t : PState} {s : LState σ} (cnt : Nat) (h : Sim L bad K t s) (hL : Lawful L) :
    LRel bad (Sim L bad K) (t.consumeBytes cnt) (consumeBytes L cnt s) := by
  have hf := h.follows
  have hr := h.room
  unfold PState.consumeBytes consumeBytes
  cases ht : t.toks with
  | nil =>
    rw [ht] at hf
    rw [hL.consume_none cnt hf]
    exact .ok h
  | cons tk ts =>
    obtain ⟨k, x⟩ := tk
    rw [ht] at hf hr
    have hr' : bad .fuel ∨ ts.length < K := hr.imp_right fun h => by simp only [List.length_cons] at h; omega
    simp only
    split
    · rename_i hb
      rw [hL.consume_all cnt hf.1 hb]
      rcases hf.2 with ⟨e, he, h1⟩ | ⟨lex, h1, h2⟩
      · rw [h1]; exact .fail he
      · rw [h1]
        refine .ok ⟨?_, h2, hr'⟩
        rw [h.st]; rfl
    · rename_i hb
      split
      · rename_i hd
        rw [hL.consume_bad cnt hf.1 (by omega) hd]
        exact .error _
      · rename_i x' hd
        obtain ⟨lex, h1, h2, h3⟩ := hL.consume_part cnt hf.1 (by omega) hd
        rw [h1]
        refine .ok ⟨?_, ⟨h2, ?_⟩, hr⟩
        · rw [h.st]; rfl
        · rcases hf.2 with ⟨e, he, h4⟩ | ⟨lex', h4, h5⟩
          · rw [h4] at h3
            rcases hL.eat_some h2 with ⟨e', h6⟩ | ⟨s', h6⟩
            · rw [h6] at h3
              have : e' = e := by simpa [Except.map] using h3
              exact .inl ⟨e, he, by rw [h6, this]⟩
            · rw [h6] at h3; simp [Except.map] at h3
          · rw [h4] at h3
            rcases hL.eat_some h2 with ⟨e', h6⟩ | ⟨s', h6⟩
            · rw [h6] at h3; simp [Except.map] at h3
            · rw [h6] at h3
              have : s' = lex' := by simpa [Except.map] using h3
              exact .inr ⟨lex', by rw [h6, this], h5⟩

theorem singleChar_sim {t : PState} {s : LState σ} (h : Sim L bad K t s) (hL : Lawful L) : LRel bad (Sim L bad K) t.singleChar (singleChar L s) := by
  unfold PState.singleChar singleChar
  rw [h.peek]
  cases ht : t.toks with
  | nil => exact .ok h
  | cons tk ts =>
    obtain ⟨k, x⟩ := tk
    cases x with
    | nil => exact .ok h
    | cons c cs => exact consumeBytes_sim _ (h.map (f := PState.token .tokenWord [c]) fun _ _ => rfl) hL

/-! ### Loops over tokens -/

theorem eatWhile_sim (hL : Lawful L) (p : Token → Bool) : ∀ (n : Nat) {t : PState} {s : LState σ}, Sim L bad K t s → (bad .fuel ∨ t.toks.length < n) →
    LRel bad (Sim L bad K) (.ok (t.eatWhile p)) (eatWhile L p n s) := by
  intro n
  induction n with
  | zero =>
    intro t s h hn
    rw [eatWhile]
    exact .fail (hn.resolve_right (by omega))
  | succ n ih =>
    intro t s h hn
    rw [eatWhile, h.peekKind]
    unfold PState.peek
    cases ht : t.toks with
    | nil =>
      have e : t.eatWhile p = t := by unfold PState.eatWhile; rw [ht]; cases t; simp at ht; subst ht; simp
      rw [e]; exact .ok h
    | cons tk ts =>
      obtain ⟨k, x⟩ := tk
      simp only [List.head?_cons, Option.map_some]
      split
      · rename_i hp
        rcases eat_gen h hL with ⟨h1, h2⟩ | ⟨e, he, h2⟩ | ⟨tk, ts', lex, h1, h2, h3, h4⟩
        · rw [ht] at h1; cases h1
        · unfold eat; rw [h2]; exact .fail he
        · rw [ht] at h1; cases h1
          unfold eat; rw [h2]
          have hs : Sim L bad K { t with toks := ts, children := t.children ++ [.token k.kind x] } ⟨lex, s.st.token k.kind x⟩ := by
            refine ⟨?_, h3, h4⟩
            rw [h.st]; rfl
          have := ih hs (by rw [ht] at hn; exact hn.imp_right fun h => by simp only [List.length_cons] at h; exact Nat.lt_of_succ_lt_succ h)
          have e : t.eatWhile p = PState.eatWhile p { t with toks := ts, children := t.children ++ [.token k.kind x] } := by
            unfold PState.eatWhile; rw [ht]; simp [hp, leafOf]
          rw [e]; exact this
      · rename_i hp
        have e : t.eatWhile p = t := by
          have hp' : p k = false := by simpa using hp
          unfold PState.eatWhile; rw [ht]; cases t; simp at ht; subst ht; simp [hp']
        rw [e]; exact .ok h

theorem ifs_cons (k : Token) (x : Text) (rest : List Tok) (nested : Nat) (s : PState) : Mitex.eatBodyOfIfs ((k, x) :: rest) nested s =
    match k with
    | .cmd (.cif _) => Mitex.eatBodyOfIfs rest (nested + 1) (s.token k.kind x)
    | .cmd .endIf => if nested = 0 then { s with toks := rest } else Mitex.eatBodyOfIfs rest (nested - 1) (s.token k.kind x)
    | _ => Mitex.eatBodyOfIfs rest nested (s.token k.kind x) := by
  conv => lhs; rw [Mitex.eatBodyOfIfs.eq_def]
  dsimp only
  split
  · rfl
  · rfl
  · rename_i h1 h2
    split
    · rename_i i; exact (h1 i rfl).elim
    · exact (h2 rfl).elim
    · rfl

theorem ifs_sim (hL : Lawful L) : ∀ (n nested : Nat) {t : PState} {s : LState σ}, Sim L bad K t s → (bad .fuel ∨ t.toks.length < n) →
    LRel bad (Sim L bad K) (.ok (Mitex.eatBodyOfIfs t.toks nested t)) (eatBodyOfIfs L n nested s) := by
  intro n
  induction n with
  | zero =>
    intro nested t s h hn
    rw [eatBodyOfIfs]
    exact .fail (hn.resolve_right (by omega))
  | succ n ih =>
    intro nested t s h hn
    rw [eatBodyOfIfs, h.peekKind]
    unfold PState.peek
    cases ht : t.toks with
    | nil =>
      have e : Mitex.eatBodyOfIfs [] nested t = t := by rw [Mitex.eatBodyOfIfs]; cases t; simp at ht; subst ht; rfl
      rw [e]; exact .ok h
    | cons tk ts =>
      obtain ⟨k, x⟩ := tk
      have hn' : bad .fuel ∨ ts.length < n := by
        rw [ht] at hn; exact hn.imp_right fun h => by simp only [List.length_cons] at h; exact Nat.lt_of_succ_lt_succ h
      have hk : ∀ ts' (st : PState) m, Mitex.eatBodyOfIfs ts' m st = Mitex.eatBodyOfIfs ts' m { st with toks := ts' } := by
        intro ts'
        induction ts' with
        | nil => intro st m; rfl
        | cons a b ih =>
          intro st m
          obtain ⟨k', x'⟩ := a
          rw [ifs_cons, ifs_cons]
          have hh : ∀ m, Mitex.eatBodyOfIfs b m (st.token k'.kind x') = Mitex.eatBodyOfIfs b m (({ st with toks := (k', x') :: b } : PState).token k'.kind x') := by
            intro m; rw [ih (st.token k'.kind x'), ih (({ st with toks := (k', x') :: b } : PState).token k'.kind x')]; rfl
          split
          · exact hh _
          · split
            · rfl
            · exact hh _
          · exact hh _
      have step : ∀ m, LRel bad (Sim L bad K) (.ok (Mitex.eatBodyOfIfs ts m (t.token k.kind x))) (do eatBodyOfIfs L n m (← eat L s)) := by
        intro m
        rcases eat_gen h hL with ⟨h1, h2⟩ | ⟨e, he, h2⟩ | ⟨tk, ts', lex, h1, h2, h3, h4⟩
        · rw [ht] at h1; cases h1
        · unfold eat; rw [h2]; exact .fail he
        · rw [ht] at h1; cases h1
          unfold eat; rw [h2]
          have hs : Sim L bad K { t with toks := ts, children := t.children ++ [.token k.kind x] } ⟨lex, s.st.token k.kind x⟩ := by
            refine ⟨?_, h3, h4⟩
            rw [h.st]; rfl
          have := ih m hs hn'
          rw [hk]
          exact this
      simp only [List.head?_cons, Option.map_some]
      rw [ifs_cons]
      split
      · exact step _
      · simp only
        split
        · have := drop_sim h hL
          have e : t.drop = { t with toks := ts } := by unfold PState.drop; rw [ht]; rfl
          rw [e] at this; exact this
        · exact step _
      · rename_i h1 h2
        split
        · rename_i hk'; cases hk'
        · rename_i i hk'; cases hk'; exact (h1 i rfl).elim
        · rename_i hk'; cases hk'; exact (h2 rfl).elim
        · exact step _

/-! ### Operations on the tree -/

theorem finishNode_put (ts : List Tok) (st : PState) : (put ts st).finishNode = (st.finishNode).map (put ts) := by
  unfold PState.finishNode put
  cases st with
  | mk a b c d e f g =>
    cases b with
    | nil => rfl
    | cons x y => rfl

theorem startNodeAt_put (cp : Nat) (k : Kind) (ts : List Tok) (st : PState) :
    (put ts st).startNodeAt cp k = (st.startNodeAt cp k).map (put ts) := by
  unfold PState.startNodeAt
  show (if cp ≤ st.children.length ∧ st.top ≤ cp then _ else _) = _
  split <;> rfl

theorem startCommandAt_put (pos : Option Nat) (ts : List Tok) (st : PState) :
    startCommandAt pos (put ts st) = (startCommandAt pos st).map (put ts) := by
  cases pos with
  | none => rfl
  | some p =>
    unfold startCommandAt
    simp only [startNodeAt_put]
    cases st.startNodeAt p .itemCmd with
    | error e => rfl
    | ok st1 =>
      show ((put ts st1).startNodeAt p .clauseArgument >>= _) = ((st1.startNodeAt p .clauseArgument >>= _) : Res PState).map _
      rw [startNodeAt_put]
      cases st1.startNodeAt p .clauseArgument with
      | error e => rfl
      | ok st2 => exact finishNode_put ts st2

theorem argOpen_put (g : Bool) (ts : List Tok) (st : PState) : argOpen g (put ts st) = put ts (argOpen g st) := by cases g <;> rfl

theorem argClose_put (g : Bool) (ts : List Tok) (st : PState) : argClose g (put ts st) = (argClose g st).map (put ts) := by
  cases g with
  | true => rfl
  | false => exact finishNode_put ts st

theorem robChars_sim (g : GlobFn) : ∀ (cs : Text) (m : ArgMatcher) (cnt : Nat) {t : PState} {s : LState σ}, Sim L bad K t s →
    LRel bad (fun a b => a.1 = b.1 ∧ a.2.1 = b.2.1 ∧ a.2.2.1 = b.2.2.1 ∧ Sim L bad K a.2.2.2 b.2.2.2)
      (Mitex.robChars g cs m cnt t) (robChars g cs m cnt s)
  | [], m, cnt, t, s, h => by rw [Mitex.robChars, robChars]; exact .ok ⟨rfl, rfl, rfl, h⟩
  | c :: cs, m, cnt, t, s, h => by
    rw [Mitex.robChars, robChars]
    obtain ⟨ok, m'⟩ := m.tryMatch g .term
    cases ok with
    | false => exact .ok ⟨rfl, rfl, rfl, h⟩
    | true =>
      refine LRel.bind (h.try (f := fun st => argClose false ((argOpen false st).token .tokenWord [c])) ?_) fun t' s' h' => robChars_sim g cs _ _ h'
      intro ts st
      rw [argOpen_put]
      exact argClose_put false ts ((argOpen false st).token .tokenWord [c])

theorem consumeIf_sim {t : PState} {s : LState σ} (cnt : Nat) (h : Sim L bad K t s) (hL : Lawful L) :
    LRel bad (Sim L bad K) (Mitex.consumeIf cnt t) (consumeIf L cnt s) := by
  unfold Mitex.consumeIf consumeIf
  split
  · exact consumeBytes_sim cnt h hL
  · exact .ok h

theorem textItem_sim {t : PState} {s : LState σ} (h : Sim L bad K t s) (hL : Lawful L) :
    LRel bad (Sim L bad K) (Mitex.textItem t) (textItem L K s) := by
  unfold Mitex.textItem textItem
  refine LRel.bind (eat_sim (h.map (f := (·.startNode .itemText)) fun _ _ => rfl) hL) fun t1 s1 h1 => ?_
  have := LRel.bind (f := fun t => PState.finishNode t) (g := fun s => s.try PState.finishNode) (eatWhile_sim hL isTextComponent K h1 h1.room)
    fun t2 s2 h2 => h2.try finishNode_put
  exact this

theorem finish_sim {t : PState} {s : LState σ} (h : Sim L bad K t s) : LRel bad (Sim L bad K) t.finishNode (s.try PState.finishNode) :=
  h.try finishNode_put

theorem errorItem_sim {t : PState} {s : LState σ} (h : Sim L bad K t s) (hL : Lawful L) :
    LRel bad (Sim L bad K) (Mitex.errorItem t) (errorItem L s) := by
  unfold Mitex.errorItem errorItem
  exact LRel.bind (eat_sim (h.map (f := (·.startNode .tokenError)) fun _ _ => rfl) hL) fun t1 s1 h1 => finish_sim h1

theorem trivia_sim {t : PState} {s : LState σ} (h : Sim L bad K t s) (hL : Lawful L) :
    LRel bad (Sim L bad K) (.ok t.trivia) (eatWhile L Token.isTrivia K s) := eatWhile_sim hL Token.isTrivia K h h.room

theorem clauseLR_sim {t : PState} {s : LState σ} (h : Sim L bad K t s) (hL : Lawful L) :
    LRel bad (Sim L bad K) (Mitex.clauseLR t) (clauseLR L K s) := by
  unfold Mitex.clauseLR clauseLR
  refine LRel.bind (eat_sim (h.map (f := (·.startNode .clauseLR)) fun _ _ => rfl) hL) fun t1 s1 h1 => ?_
  have := LRel.bind (Q := Sim L bad K) (f := fun t => (do
      let s ← match t.peek with
        | some (.cmd .generic) => t.eatAs .tokenCommandSym
        | some (.cmd _) | some .dollar | none => .ok t
        | some .word => t.singleChar
        | _ => t.eat
      s.finishNode : Res PState)) (g := fun s => (do
      let s ← match peek L s with
        | some (.cmd .generic) => eatAs L .tokenCommandSym s
        | some (.cmd _) | some .dollar | none => .ok s
        | some .word => singleChar L s
        | _ => eat L s
      s.try PState.finishNode : Res (LState σ))) (trivia_sim h1 hL) (fun t2 s2 h2 => by
    rw [h2.peekKind]
    have fin : ∀ {x : Res PState} {y : Res (LState σ)}, LRel bad (Sim L bad K) x y →
        LRel bad (Sim L bad K) (x >>= fun t => t.finishNode) (y >>= fun s => s.try PState.finishNode) := fun h => h.bind fun t3 s3 h3 => finish_sim h3
    cases t2.peek with
    | none => exact fin (.ok h2)
    | some k =>
      cases k with
      | cmd c => cases c with
        | generic => exact fin (eatAs_sim _ h2 hL)
        | _ => exact fin (.ok h2)
      | dollar => exact fin (.ok h2)
      | word => exact fin (singleChar_sim h2 hL)
      | _ => exact fin (eat_sim h2 hL))
  exact this

theorem ifBlock_sim {t : PState} {s : LState σ} (kind : Kind) (h : Sim L bad K t s) (hL : Lawful L) :
    LRel bad (Sim L bad K) (Mitex.ifBlock kind t) (ifBlock L K kind s) := by
  unfold Mitex.ifBlock ifBlock
  have := LRel.bind (Q := Sim L bad K) (f := fun t : PState => (Mitex.eatBodyOfIfs t.toks 0 t).finishNode)
    (g := fun s => (do
      let s ← eatBodyOfIfs L K 0 s
      s.try PState.finishNode : Res (LState σ))) (drop_sim (h.map (f := (·.startNode kind)) fun _ _ => rfl) hL) (fun t1 s1 h1 => by
    have := LRel.bind (Q := Sim L bad K) (f := fun t : PState => t.finishNode) (g := fun s : LState σ => s.try PState.finishNode)
      (ifs_sim hL K 0 h1 h1.room) fun t2 s2 h2 => finish_sim h2
    exact this)
  exact this

/-! ### With the item parser -/

/-- The item parsers are alike. -/
def CSim (L : LexerFns σ) (bad : Stop → Prop) (K : Nat) (C : ContentFn) (D : Content σ) : Prop :=
  ∀ b t s, Sim L bad K t s → LRel bad (FSim L bad K) (C b t) (D b s)

variable {C : ContentFn} {D : Content σ}

theorem setLast_sim {t : PState} {s : LState σ} (h : Sim L bad K t s) (o : Option Nat) :
    Sim L bad K { t with last := o } (s.map fun st => { st with last := o }) :=
  h.map (f := fun st => { st with last := o }) fun _ _ => rfl

theorem itemListLoop_sim (hC : CSim L bad K C D) : ∀ (n m : Nat) (cur : Nat) {t : PState} {s : LState σ}, (bad .fuel ∨ n ≤ m) → Sim L bad K t s →
    LRel bad (Sim L bad K) (Mitex.itemListLoop C n cur t) (itemListLoop L D m cur s)
  | 0, m, cur, t, s, hn, h => by rw [Mitex.itemListLoop]; exact .fuel _
  | n + 1, 0, cur, t, s, hn, h => by rw [itemListLoop]; exact .fail (hn.resolve_right (by omega))
  | n + 1, m + 1, cur, t, s, hn, h => by
    rw [Mitex.itemListLoop, itemListLoop, h.peekKind]
    cases t.peek with
    | none => exact .ok h
    | some k =>
      simp only
      rw [h.scope]
      cases stopByScope s.st.scope k with
      | true => exact .ok h
      | false =>
        simp only [Bool.false_eq_true, if_false]
        refine LRel.bind (hC true t s h) fun a b hab => ?_
        obtain ⟨f, t1⟩ := a
        obtain ⟨f', s1⟩ := b
        obtain ⟨hf, h1⟩ := hab
        simp only at hf h1
        subst hf
        have h2 : Sim L bad K (if f then { t1 with last := some cur } else t1) (if f then s1.map (fun st => { st with last := some cur }) else s1) := by
          cases f with
          | true => exact setLast_sim h1 _
          | false => exact h1
        show LRel bad _ (Mitex.itemListLoop C n _ _) (itemListLoop L D m _ _)
        rw [h2.checkpoint]
        exact itemListLoop_sim hC n m _ (hn.imp_right fun h => by omega) h2

theorem itemList_sim (hC : CSim L bad K C D) {n m : Nat} (hn : bad .fuel ∨ n ≤ m) (scope : Scope) {t : PState} {s : LState σ} (h : Sim L bad K t s) :
    LRel bad (Sim L bad K) (Mitex.itemList C n scope t) (itemList L D m scope s) := by
  unfold Mitex.itemList itemList
  have h1 : Sim L bad K { t with start := some t.checkpoint, last := none, scope := scope }
      (s.map fun st => { st with start := some st.checkpoint, last := none, scope := scope }) :=
    h.map (f := fun st => { st with start := some st.checkpoint, last := none, scope := scope }) fun _ _ => rfl
  rw [h.checkpoint] at h1
  rw [h.checkpoint]
  refine LRel.bind (itemListLoop_sim hC n m _ hn h1) fun t2 s2 h2 => ?_
  rw [h.start, h.last, h.scope]
  exact .ok (h2.map (f := fun st => { st with start := s.st.start, last := s.st.last, scope := s.st.scope }) fun _ _ => rfl)

theorem itemGroup_sim (hL : Lawful L) (hC : CSim L bad K C D) {n m : Nat} (hn : bad .fuel ∨ n ≤ m) (scope : Scope) {t : PState} {s : LState σ}
    (h : Sim L bad K t s) : LRel bad (Sim L bad K) (Mitex.itemGroup C n scope t) (itemGroup L D m scope s) := by
  unfold Mitex.itemGroup itemGroup
  cases groupInfo scope with
  | none => exact .error _
  | some p =>
    obtain ⟨endTok, kind⟩ := p
    refine LRel.bind (eat_sim (h.map (f := (·.startNode kind)) fun _ _ => rfl) hL) fun t1 s1 h1 => ?_
    refine LRel.bind (itemList_sim hC hn scope h1) fun t2 s2 h2 => ?_
    exact LRel.bind (eatIf_sim _ h2 hL) fun t3 s3 h3 => finish_sim h3

theorem attach_finish_sim (hL : Lawful L) (hC : CSim L bad K C D) (hasScript : Bool) {t : PState} {s : LState σ} (h : Sim L bad K t s) :
    LRel bad (Sim L bad K) (Mitex.attachComponent.finish C hasScript t) (attachFinish L K D hasScript s) := by
  unfold Mitex.attachComponent.finish attachFinish
  refine LRel.bind (eat_sim h hL) fun t1 s1 h1 => ?_
  cases hasScript with
  | true =>
    have := LRel.bind (Q := Sim L bad K) (f := fun t => (do
        let (_, s) ← C false t
        s.finishNode : Res PState)) (g := fun s => (do
        let (_, s) ← D false s
        s.try PState.finishNode : Res (LState σ))) (trivia_sim h1 hL) (fun t2 s2 h2 => LRel.bind (hC false t2 s2 h2) fun a b hab => finish_sim hab.2)
    exact this
  | false => exact finish_sim h1

theorem attachComponent_sim (hL : Lawful L) (hC : CSim L bad K C D) (hasScript : Bool) {t : PState} {s : LState σ} (h : Sim L bad K t s) :
    LRel bad (Sim L bad K) (Mitex.attachComponent C hasScript t) (attachComponent L K D hasScript s) := by
  unfold Mitex.attachComponent attachComponent
  rw [h.last]
  cases s.st.last with
  | some l =>
    refine LRel.bind (h.try (startNodeAt_put l .itemAttachComponent)) fun t1 s1 h1 => ?_
    refine LRel.bind (h1.try (startNodeAt_put l .clauseArgument)) fun t2 s2 h2 => ?_
    exact LRel.bind (finish_sim h2) fun t3 s3 h3 => attach_finish_sim hL hC hasScript h3
  | none =>
    cases hasScript with
    | false => exact eat_sim h hL
    | true => exact attach_finish_sim hL hC true (h.map (f := (·.startNode .itemAttachComponent)) fun _ _ => rfl)

theorem itemLR_sim (hL : Lawful L) (hC : CSim L bad K C D) {n m : Nat} (hn : bad .fuel ∨ n ≤ m) {t : PState} {s : LState σ} (h : Sim L bad K t s) :
    LRel bad (Sim L bad K) (Mitex.itemLR C n t) (itemLR L K D m s) := by
  unfold Mitex.itemLR itemLR
  refine LRel.bind (clauseLR_sim (h.map (f := (·.startNode .itemLR)) fun _ _ => rfl) hL) fun t1 s1 h1 => ?_
  refine LRel.bind (itemList_sim hC hn .lr h1) fun t2 s2 h2 => ?_
  rw [h2.peekKind]
  by_cases hp : t2.peek = some (.cmd .right)
  · simp only [hp, if_true]
    exact LRel.bind (clauseLR_sim h2 hL) fun t3 s3 h3 => finish_sim h3
  · simp only [hp, if_false]
    exact finish_sim h2

theorem matchLoop_sim (hL : Lawful L) (hC : CSim L bad K C D) (g : GlobFn) {lim lim' : Nat} (hl : bad .fuel ∨ lim ≤ lim') (greedy : Bool) :
    ∀ (n m : Nat) (am : ArgMatcher) {t : PState} {s : LState σ}, (bad .fuel ∨ n ≤ m) → Sim L bad K t s →
    LRel bad (Sim L bad K) (Mitex.matchLoop g C lim greedy n am t) (matchLoop L g D lim' greedy m am s)
  | 0, m, am, t, s, hn, h => by rw [Mitex.matchLoop]; exact .fuel _
  | n + 1, 0, am, t, s, hn, h => by rw [matchLoop]; exact .fail (hn.resolve_right (by omega))
  | n + 1, m + 1, am, t, s, hn, h => by
    have hn' : bad .fuel ∨ n ≤ m := hn.imp_right fun h => by omega
    rw [Mitex.matchLoop, matchLoop, h.peek]
    cases ht : t.toks with
    | nil => exact .ok h
    | cons tk ts =>
      obtain ⟨k, text⟩ := tk
      simp only [List.head?_cons]
      by_cases hk : k.isTrivia
      · simp only [hk, if_true]
        cases greedy with
        | true => exact LRel.bind (eat_sim h hL) fun t1 s1 h1 => matchLoop_sim hL hC g hl true n m am hn' h1
        | false => exact LRel.bind (holdTrivia_sim h hL) fun t1 s1 h1 => matchLoop_sim hL hC g hl false n m am hn' h1
      simp only [hk, if_false, Bool.false_eq_true]
      rw [h.scope]
      by_cases h1 : k = .newLine ∧ greedy = true ∧ s.st.scope = .environment
      · rw [if_pos h1, if_pos h1]; exact .ok h
      rw [if_neg h1, if_neg h1]
      by_cases h2 : k = .ampersand
      · rw [if_pos h2, if_pos h2]; exact .ok h
      rw [if_neg h2, if_neg h2]
      by_cases h3 : (k = .caret ∨ k = .underscore) ∧ (!greedy) = true
      · rw [if_pos h3, if_pos h3]; exact .ok h
      rw [if_neg h3, if_neg h3]
      by_cases h4 : k = .word ∧ (!greedy) = true
      · rw [if_pos h4, if_pos h4]
        refine LRel.bind (robChars_sim g text am 0 h) fun a b hab => ?_
        obtain ⟨st1, m1, c1, t1⟩ := a
        obtain ⟨st2, m2, c2, s1⟩ := b
        obtain ⟨e1, e2, e3, h1⟩ := hab
        simp only at e1 e2 e3 h1
        subst e1; subst e2; subst e3
        refine LRel.bind (consumeIf_sim c1 h1 hL) fun t2 s2 h2 => ?_
        cases st1 with
        | true => exact .ok h2
        | false => exact matchLoop_sim hL hC g hl greedy n m m1 hn' h2
      rw [if_neg h4, if_neg h4]
      have last : ∀ (b : Bool) (m1 : ArgMatcher) {t1 : PState} {s1 : LState σ}, Sim L bad K t1 s1 →
          LRel bad (Sim L bad K) (Mitex.matchLoop g C lim greedy n m1 (if b then { t1 with last := some t.checkpoint } else t1))
            (matchLoop L g D lim' greedy m m1 (if b then s1.map (fun st => { st with last := some s.st.checkpoint }) else s1)) := by
        intro b m1 t1 s1 hs
        rw [h.checkpoint]
        refine matchLoop_sim hL hC g hl greedy n m m1 hn' ?_
        cases b with
        | true => exact setLast_sim hs _
        | false => exact hs
      have close : ∀ (b : Bool) (m1 : ArgMatcher) {t1 : PState} {s1 : LState σ}, Sim L bad K t1 s1 →
          LRel bad (Sim L bad K) (argClose greedy t1 >>= fun t1 => Mitex.matchLoop g C lim greedy n m1 (if b then { t1 with last := some t.checkpoint } else t1))
            (s1.try (argClose greedy) >>= fun s1 => matchLoop L g D lim' greedy m m1 (if b then s1.map (fun st => { st with last := some s.st.checkpoint }) else s1)) :=
        fun b m1 t1 s1 hs => LRel.bind (hs.try (argClose_put greedy)) fun _ _ h3 => last b m1 h3
      have other : LRel bad (Sim L bad K)
          (if stopByScope s.st.scope k then .ok t
          else
            let (ok, m) := am.tryMatch g .term
            if !ok then .ok t
            else do
              let cur := t.checkpoint
              let (attachable, s) ← C true (argOpen greedy t)
              let s ← argClose greedy s
              let s := if greedy ∧ attachable then { s with last := some cur } else s
              Mitex.matchLoop g C lim greedy n m s : Res PState)
          (if stopByScope s.st.scope k then .ok s
          else
            let (ok, am) := am.tryMatch g .term
            if !ok then .ok s
            else do
              let cur := s.st.checkpoint
              let (attachable, s) ← D true (s.map (argOpen greedy))
              let s ← s.try (argClose greedy)
              let s := if greedy ∧ attachable then s.map (fun st => { st with last := some cur }) else s
              matchLoop L g D lim' greedy m am s) := by
        cases stopByScope s.st.scope k with
        | true => exact .ok h
        | false =>
          simp only [Bool.false_eq_true, if_false]
          obtain ⟨ok, m1⟩ := am.tryMatch g .term
          cases ok with
          | false => exact .ok h
          | true =>
            refine LRel.bind (hC true _ _ (h.map (argOpen_put greedy))) fun a b hab => ?_
            obtain ⟨f, t1⟩ := a
            obtain ⟨f', s1⟩ := b
            obtain ⟨hf, h1⟩ := hab
            simp only at hf h1
            subst hf
            have := close (greedy && f) m1 h1
            simp only [Bool.and_eq_true] at this
            exact this
      cases k with
      | left bk =>
        simp only
        obtain ⟨o, m1⟩ := am.matchAsTerm g (braceKind bk).1
        cases o with
        | none => exact .ok h
        | some asTerm =>
          cases asTerm with
          | true => exact LRel.bind (eat_sim (h.map (argOpen_put greedy)) hL) fun t2 s2 h2 => close greedy m1 h2
          | false => exact LRel.bind (itemGroup_sim hL hC hl _ (h.map (argOpen_put greedy))) fun t2 s2 h2 => close greedy m1 h2
      | _ => exact other

theorem matchArguments_sim (hL : Lawful L) (hC : CSim L bad K C D) (g : GlobFn) {n m : Nat} (hn : bad .fuel ∨ n ≤ m) (greedy : Bool)
    (am : ArgMatcher) {t : PState} {s : LState σ} (h : Sim L bad K t s) :
    LRel bad (Sim L bad K) (Mitex.matchArguments g C n greedy am t) (matchArguments L g D m greedy am s) := by
  unfold Mitex.matchArguments matchArguments
  split
  · exact .error _
  · refine LRel.bind (matchLoop_sim hL hC g hn greedy n m am hn (h.map (f := fun st => { st with last := none, start := if greedy then some st.checkpoint else none }) fun _ _ => rfl)) fun t1 s1 h1 => ?_
    rw [h.start]
    exact .ok (h1.map (f := fun st => { st with start := s.st.start, last := none }) fun _ _ => rfl)

theorem commandTail_sim (hL : Lawful L) (hC : CSim L bad K C D) (g : GlobFn) {n m : Nat} (hn : bad .fuel ∨ n ≤ m) (am : ArgMatcher)
    {t : PState} {s : LState σ} (h : Sim L bad K t s) :
    LRel bad (FSim L bad K) (Mitex.commandTail g C n am t) (commandTail L g D m am s) := by
  unfold Mitex.commandTail commandTail
  refine LRel.bind (eat_sim h hL) fun t1 s1 h1 => ?_
  have fin : ∀ (t2 : PState) (s2 : LState σ), Sim L bad K t2 s2 → LRel bad (FSim L bad K) (t2.finishNode >>= fun t => .ok (!am.isGreedy, t.extractHold))
      (s2.try PState.finishNode >>= fun s => .ok (!am.isGreedy, s.map PState.extractHold)) := fun t2 s2 h2 =>
    LRel.bind (finish_sim h2) fun t3 s3 h3 => .ok ⟨rfl, h3.map (f := PState.extractHold) fun _ _ => rfl⟩
  by_cases hg : am.isGreedy = true
  · simp only [hg, if_true] at fin ⊢
    exact LRel.bind (matchArguments_sim hL hC g hn true am (h1.map (f := (·.startNode .clauseArgument)) fun _ _ => rfl)) fun t2 s2 h2 =>
      LRel.bind (finish_sim h2) fin
  · simp only [hg, if_false, Bool.false_eq_true] at fin ⊢
    exact LRel.bind (matchArguments_sim hL hC g hn false am h1) fin

theorem command_sim (env : PEnv) (hL : Lawful L) (hC : CSim L bad K C D) {n m : Nat} (hn : bad .fuel ∨ n ≤ m)
    {t : PState} {s : LState σ} (h : Sim L bad K t s) :
    LRel bad (FSim L bad K) (Mitex.command env C n t) (command L env D m s) := by
  unfold Mitex.command command
  rw [h.peek]
  cases ht : t.toks with
  | nil => exact .error _
  | cons tk ts =>
    obtain ⟨k, text⟩ := tk
    simp only [List.head?_cons]
    cases stripBackslash text with
    | error e => exact .error e
    | ok name =>
      have simple : LRel bad (FSim L bad K) (do
            let s ← (t.startNode .itemCmd).eat
            let s ← s.finishNode
            .ok (true, s) : Res (Bool × PState)) (do
            let s ← eat L (s.map (·.startNode .itemCmd))
            let s ← s.try PState.finishNode
            .ok (true, s)) :=
        LRel.bind (eat_sim (h.map (f := (·.startNode .itemCmd)) fun _ _ => rfl) hL) fun t1 s1 h1 =>
          LRel.bind (finish_sim h1) fun t2 s2 h2 => .ok ⟨rfl, h2⟩
      have tail : ∀ p, LRel bad (FSim L bad K) (Mitex.commandTail env.glob C n (startMatch p) (t.startNode .itemCmd))
          (commandTail L env.glob D m (startMatch p) (s.map (·.startNode .itemCmd))) := fun p =>
        commandTail_sim hL hC _ hn _ (h.map (f := (·.startNode .itemCmd)) fun _ _ => rfl)
      have e1 : ∀ {α : Type} (f : Text → Res α), ((Except.ok name : Res Text) >>= f) = f name := fun f => rfl
      rw [e1, e1]
      cases (getCmd env.spec name).map CmdShape.args with
      | none => exact simple
      | some a =>
        cases a with
        | right p =>
          cases p with
          | none => exact simple
          | fixedLen l => cases l with
            | zero => exact simple
            | succ l => exact tail _
          | _ => exact tail _
        | left1 =>
          simp only
          rw [h.last, h.start]
          refine LRel.bind (h.try (startCommandAt_put _)) fun t1 s1 h1 => ?_
          exact LRel.bind (eat_sim h1 hL) fun t1 s1 h1 => LRel.bind (finish_sim h1) fun t2 s2 h2 => .ok ⟨rfl, h2⟩
        | infixGreedy =>
          simp only
          rw [h.start, ← ht]
          refine LRel.bind ((h.map (f := fun st => { st with start := none }) fun _ _ => rfl).try (startCommandAt_put _)) fun t1 s1 h1 => ?_
          exact commandTail_sim hL hC _ hn _ h1

theorem environment_sim (env : PEnv) (hL : Lawful L) (hC : CSim L bad K C D) {n m : Nat} (hn : bad .fuel ∨ n ≤ m)
    {t : PState} {s : LState σ} (h : Sim L bad K t s) :
    LRel bad (Sim L bad K) (Mitex.environment env C n t) (environment L env D m s) := by
  unfold Mitex.environment environment
  rw [h.peek]
  cases ht : t.toks with
  | nil => exact .error _
  | cons tk ts =>
    obtain ⟨k, name⟩ := tk
    simp only [List.head?_cons]
    refine LRel.bind (eat_sim (h.map (f := fun st => (st.startNode .itemEnv).startNode .itemBegin) fun _ _ => rfl) hL) fun t1 s1 h1 => ?_
    have rest : ∀ (t2 : PState) (s2 : LState σ), Sim L bad K t2 s2 → LRel bad (Sim L bad K) (do
          let s ← t2.finishNode
          let s ← Mitex.itemList C n .environment s.extractHold
          let s ← if s.peek = some (.cmd .endEnv) then do
              let s ← (s.startNode .itemEnd).eat
              s.finishNode
            else .ok s
          s.finishNode : Res PState) (do
          let s ← s2.try PState.finishNode
          let s ← itemList L D m .environment (s.map PState.extractHold)
          let s ← if peek L s = some (.cmd .endEnv) then do
              let s ← eat L (s.map (·.startNode .itemEnd))
              s.try PState.finishNode
            else .ok s
          s.try PState.finishNode : Res (LState σ)) := by
      intro t2 s2 h2
      refine LRel.bind (finish_sim h2) fun t3 s3 h3 => ?_
      refine LRel.bind (itemList_sim hC hn .environment (h3.map (f := PState.extractHold) fun _ _ => rfl)) fun t4 s4 h4 => ?_
      rw [h4.peekKind]
      by_cases hp : t4.peek = some (.cmd .endEnv)
      · simp only [hp, if_true]
        exact LRel.bind (eat_sim (h4.map (f := (·.startNode .itemEnd)) fun _ _ => rfl) hL) fun t5 s5 h5 =>
          LRel.bind (finish_sim h5) fun t5 s5 h5 => finish_sim h5
      · simp only [hp, if_false]
        exact finish_sim h4
    cases envPattern env.spec name with
    | none => exact rest _ _ h1
    | some p => exact LRel.bind (matchArguments_sim hL hC _ hn false _ h1) rest

theorem withFlag_sim {b : Bool} {x : Res PState} {y : Res (LState σ)} (h : LRel bad (Sim L bad K) x y) :
    LRel bad (FSim L bad K) (Mitex.withFlag b x) (withFlag b y) := by
  rcases h with rfl | ⟨e, he, rfl⟩ | ⟨e, rfl, rfl⟩ | ⟨a, c, rfl, rfl, hp⟩
  · exact .fuel _
  · exact .fail he
  · exact .error e
  · exact .ok ⟨rfl, hp⟩

theorem contentBody_sim (env : PEnv) (hL : Lawful L) (hC : CSim L bad K C D) {n m : Nat} (hn : bad .fuel ∨ n ≤ m) (notSingle : Bool)
    {t : PState} {s : LState σ} (h : Sim L bad K t s) :
    LRel bad (FSim L bad K) (Mitex.contentBody env C n notSingle t) (contentBody L env K D m notSingle s) := by
  unfold Mitex.contentBody contentBody
  rw [h.peekKind]
  cases t.peek with
  | none => exact .ok ⟨rfl, h⟩
  | some c =>
    cases c with
    | left b => cases b with
      | curly => exact withFlag_sim (itemGroup_sim hL hC hn _ h)
      | _ => exact withFlag_sim (eat_sim h hL)
    | right b => cases b with
      | curly => exact withFlag_sim (errorItem_sim h hL)
      | _ => exact withFlag_sim (eat_sim h hL)
    | macroArg d => exact withFlag_sim (errorItem_sim h hL)
    | apostrophe => exact withFlag_sim (attachComponent_sim hL hC false h)
    | underscore => exact withFlag_sim (attachComponent_sim hL hC true h)
    | caret => exact withFlag_sim (attachComponent_sim hL hC true h)
    | word =>
      refine withFlag_sim ?_
      split
      · exact textItem_sim h hL
      · exact singleChar_sim h hL
    | comma => exact withFlag_sim (textItem_sim h hL)
    | dollar => exact withFlag_sim (itemGroup_sim hL hC hn _ h)
    | cmd name =>
      cases name with
      | generic => exact command_sim env hL hC hn h
      | beginEnv => exact withFlag_sim (environment_sim env hL hC hn h)
      | beginMath => exact withFlag_sim (itemGroup_sim hL hC hn _ h)
      | cif i => cases i with
        | ifFalse => exact withFlag_sim (ifBlock_sim _ h hL)
        | ifTypst => exact withFlag_sim (ifBlock_sim _ h hL)
        | _ => exact command_sim env hL hC hn h
      | celse => exact command_sim env hL hC hn h
      | endIf => exact command_sim env hL hC hn h
      | left => exact withFlag_sim (itemLR_sim hL hC hn h)
      | right => exact command_sim env hL hC hn h
      | endEnv => exact withFlag_sim (errorItem_sim h hL)
      | endMath => exact withFlag_sim (errorItem_sim h hL)
      | errorBeginEnv => exact withFlag_sim (eat_sim h hL)
      | errorEndEnv => exact withFlag_sim (eat_sim h hL)
    | _ => exact withFlag_sim (eat_sim h hL)

theorem content_sim (env : PEnv) (hL : Lawful L) : ∀ (n m : Nat), (bad .fuel ∨ n ≤ m) →
    CSim L bad K (Mitex.content env n) (content L env K m)
  | 0, m, _ => fun b t s h => .fuel _
  | n + 1, 0, hn => fun b t s h => .fail (hn.resolve_right (by omega))
  | n + 1, m + 1, hn => fun b t s h =>
    contentBody_sim env hL (content_sim env hL n m (hn.imp_right fun h => by omega)) (hn.imp_right fun h => by omega) b h

/-- The whole parser: on a lexer that follows a token list it gives the tree of the list, or the failure of the lexer. -/
theorem parseFrom_sim (env : PEnv) (hL : Lawful L) {lex : σ} {toks : List Tok} (hf : Follows L bad toks lex) {fuel : Nat}
    (hn : bad .fuel ∨ tokSize toks + 1 ≤ fuel) : LRel bad Eq (parseToks env toks) (parseFrom L env fuel lex) := by
  have hlen : ∀ ts : List Tok, ts.length ≤ tokSize ts := by
    intro ts
    induction ts with
    | nil => exact Nat.le_refl _
    | cons t ts ih => simp only [List.length_cons, tokSize]; omega
  have h : Sim L bad fuel ((PState.init toks).startNode .scopeRoot) ⟨lex, (PState.init []).startNode .scopeRoot⟩ :=
    ⟨rfl, hf, hn.imp_right fun h => by have := hlen toks; show toks.length < fuel; omega⟩
  unfold parseToks parseFrom
  refine LRel.bind (itemList_sim (content_sim env hL _ _ hn) hn .root h) fun t1 s1 h1 => ?_
  refine LRel.bind (finish_sim h1) fun t2 s2 h2 => ?_
  have e : finishTree t2 = finishTree s2.st := by rw [h2.st]; rfl
  rw [e]
  cases finishTree s2.st with
  | error x => exact .error x
  | ok x => exact .ok rfl

end Lazy
end Mitex
