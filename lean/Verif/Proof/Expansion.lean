/-
The functions of the engine model follow the rules of Spec/Expansion: each reader yields what its rule says, and
each rule set covers every text.
-/
import Verif.Spec.Expansion
import Verif.Proof.EngineInv
import Verif.Props.Calls

namespace Mitex
open TokStream

/-! ### Blanks -/

theorem blanks_exists (s : List Tok) : ∃ rest, Blanks s rest ∧ rest.length ≤ s.length := by
  induction s with
  | nil => exact ⟨[], ⟨[], by simp [Trivia], rfl, by simp⟩, Nat.le_refl _⟩
  | cons t ts ih =>
    by_cases ht : t.1.isTrivia = true
    · obtain ⟨rest, ⟨ws, h1, h2, h3⟩, h4⟩ := ih
      refine ⟨rest, ⟨t :: ws, ?_, by simp [h2], h3⟩, by simp; omega⟩
      intro x hx
      rcases List.mem_cons.mp hx with rfl | hx
      · exact ht
      · exact h1 x hx
    · exact ⟨t :: ts, ⟨[], by simp [Trivia], rfl, by simp at ht ⊢; exact ht⟩, Nat.le_refl _⟩

theorem Blanks.len {s rest : List Tok} (h : Blanks s rest) : rest.length ≤ s.length := by
  obtain ⟨ws, _, rfl, _⟩ := h; simp

theorem Blanks.mem {s rest : List Tok} (h : Blanks s rest) : ∀ t ∈ rest, t ∈ s := by
  obtain ⟨ws, _, rfl, _⟩ := h; intro t ht; simp [ht]

theorem Blanks.cons_inv {t : Tok} {ts rest : List Tok} (h : Blanks (t :: ts) rest) :
    (t.1.isTrivia = true ∧ Blanks ts rest) ∨ (t.1.isTrivia = false ∧ rest = t :: ts) := by
  obtain ⟨ws, h1, h2, h3⟩ := h
  cases ws with
  | nil =>
    simp only [List.nil_append] at h2
    subst h2
    exact Or.inr ⟨h3 t rfl, rfl⟩
  | cons w ws =>
    simp only [List.cons_append, List.cons.injEq] at h2
    obtain ⟨rfl, h2⟩ := h2
    exact Or.inl ⟨h1 t (by simp), ws, fun x hx => h1 x (by simp [hx]), h2, h3⟩

theorem Blanks.nil_inv {rest : List Tok} (h : Blanks [] rest) : rest = [] := by
  obtain ⟨ws, _, h2, _⟩ := h
  simp at h2
  exact h2.2

theorem Blanks.head {s : List Tok} {t : Tok} {rest : List Tok} (h : Blanks s (t :: rest)) : t.1.isTrivia = false := by
  obtain ⟨_, _, _, h⟩ := h
  exact h t rfl

theorem nextNotTriviaN_blanks {rest : List Tok} (out : List Tok) (s : List Tok) : ∀ (x : Tok) (n : Nat), Blanks s rest → s.length < n →
    nextNotTriviaN n (⟨x :: s, out⟩ : LCtx) = (rest.head?.map (·.1), ⟨rest, out⟩) := by
  induction s with
  | nil =>
    intro x n h hn
    obtain ⟨n, rfl⟩ : ∃ k, n = k + 1 := ⟨n - 1, by omega⟩
    rw [h.nil_inv]
    simp [nextNotTriviaN]
  | cons t ts ih =>
    intro x n h hn
    obtain ⟨n, rfl⟩ : ∃ k, n = k + 1 := ⟨n - 1, by omega⟩
    simp only [nextNotTriviaN, lctx_next, List.tail_cons, lctx_peek, List.head?_cons]
    rcases h.cons_inv with ⟨h1, h2⟩ | ⟨h1, h2⟩
    · rw [if_pos h1]
      exact ih t n h2 (by simp at hn; omega)
    · subst h2
      simp [h1]

theorem nextNotTrivia_blanks {s rest : List Tok} (h : Blanks s rest) (x : Tok) (out : List Tok) :
    nextNotTrivia (⟨x :: s, out⟩ : LCtx) = (rest.head?.map (·.1), ⟨rest, out⟩) :=
  nextNotTriviaN_blanks out s x _ h (by simp; omega)

theorem nextNotTrivia_nil (out : List Tok) : nextNotTrivia (⟨[], out⟩ : LCtx) = (none, ⟨[], out⟩) := by
  simp [nextNotTrivia, nextNotTriviaN]

theorem peekNotTrivia_blanks {s rest : List Tok} (h : Blanks s rest) (out : List Tok) :
    peekNotTrivia (⟨s, out⟩ : LCtx) = (rest.head?.map (·.1), ⟨rest, out⟩) := by
  unfold peekNotTrivia
  cases s with
  | nil => rw [h.nil_inv]; simp [nextNotTrivia_nil]
  | cons t ts =>
    simp only [lctx_peek, List.head?_cons]
    rcases h.cons_inv with ⟨h1, h2⟩ | ⟨h1, h2⟩
    · rw [if_pos h1]
      exact nextNotTrivia_blanks h2 t out
    · subst h2
      simp [h1]

/-! ### Nested texts -/

/-- The scan common to groups, skipped branches and environment bodies. -/
def scan (op cl stop : Tok → Bool) : Int → List Tok → List Tok × List Tok
  | _, [] => ([], [])
  | l, t :: ts =>
    if l = 0 ∧ stop t = true then ([], t :: ts)
    else
      let r := scan op cl stop (l + (if op t then 1 else if cl t then -1 else 0)) ts
      (t :: r.1, r.2)

theorem level_append (op cl : Tok → Bool) (a b : List Tok) : level op cl (a ++ b) = level op cl a + level op cl b := by
  induction a with
  | nil => simp [level]
  | cons t ts ih => simp only [List.cons_append, level, ih]; omega

theorem scan_spec (op cl stop : Tok → Bool) (s : List Tok) : ∀ l : Int,
    s = (scan op cl stop l s).1 ++ (scan op cl stop l s).2 ∧
    ((scan op cl stop l s).2 = [] ∨ ∃ t r, (scan op cl stop l s).2 = t :: r ∧ stop t = true ∧
      l + level op cl (scan op cl stop l s).1 = 0) ∧
    ∀ p t q, (scan op cl stop l s).1 = p ++ t :: q → stop t = true → l + level op cl p ≠ 0 := by
  induction s with
  | nil => intro l; simp [scan]
  | cons t ts ih =>
    intro l
    rw [scan]
    split
    · rename_i h
      refine ⟨rfl, Or.inr ⟨t, ts, rfl, h.2, by simp [level, h.1]⟩, fun p t q h => by simp at h⟩
    · rename_i h
      obtain ⟨h1, h2, h3⟩ := ih (l + (if op t then 1 else if cl t then -1 else 0))
      refine ⟨by simp only [List.cons_append]; rw [← h1], ?_, ?_⟩
      · rcases h2 with h2 | ⟨u, r, h2, h4, h5⟩
        · exact Or.inl h2
        · refine Or.inr ⟨u, r, h2, h4, ?_⟩
          simp only [level]
          omega
      · intro p u q hp hu
        cases p with
        | nil =>
          simp only [List.nil_append, List.cons.injEq] at hp
          obtain ⟨rfl, _⟩ := hp
          simp only [level]
          intro hl
          exact h ⟨by omega, hu⟩
        | cons p0 p =>
          simp only [List.cons_append, List.cons.injEq] at hp
          obtain ⟨rfl, hp⟩ := hp
          have := h3 p u q hp hu
          simp only [level]
          omega

theorem scan_upto (op cl stop : Tok → Bool) (s : List Tok) :
    Upto op cl stop s (scan op cl stop 0 s).1 (scan op cl stop 0 s).2 := by
  obtain ⟨h1, h2, h3⟩ := scan_spec op cl stop s 0
  refine ⟨h1, ?_, fun p t q h ht => by have := h3 p t q h ht; omega⟩
  rcases h2 with h2 | ⟨t, r, a, b, c⟩
  · exact Or.inl h2
  · exact Or.inr ⟨t, r, a, b, by omega⟩

theorem upto_le {op cl stop : Tok → Bool} {s b rest b' rest' a : List Tok} (h : Upto op cl stop s b rest)
    (h' : Upto op cl stop s b' rest') (e : b' = b ++ a) (e' : rest = a ++ rest') : a = [] := by
  cases a with
  | nil => rfl
  | cons t q =>
    exfalso
    rcases h.ends with h1 | ⟨u, r, h1, h2, h3⟩
    · rw [h1] at e'; simp at e'
    · rw [h1] at e'
      simp only [List.cons_append, List.cons.injEq] at e'
      obtain ⟨rfl, _⟩ := e'
      exact h'.first b u q e h2 h3

theorem Upto.unique {op cl stop : Tok → Bool} {s b rest b' rest' : List Tok} (h : Upto op cl stop s b rest)
    (h' : Upto op cl stop s b' rest') : b = b' ∧ rest = rest' := by
  have e := h.split.symm.trans h'.split
  rcases List.append_eq_append_iff.mp e with ⟨a, h1, h2⟩ | ⟨a, h1, h2⟩
  · have := upto_le h h' h1 h2
    subst this
    simp at h1 h2
    exact ⟨h1.symm, h2⟩
  · have := upto_le h' h h1 h2
    subst this
    simp at h1 h2
    exact ⟨h1, h2.symm⟩

theorem Upto.scan {op cl stop : Tok → Bool} {s b rest : List Tok} (h : Upto op cl stop s b rest) :
    scan op cl stop 0 s = (b, rest) := by
  have := (scan_upto op cl stop s).unique h
  exact Prod.ext this.1 this.2

theorem bumpLevel_scan (l : Int) (t : Tok) :
    bumpLevel l t.1 = l + (if opensBrace t then 1 else if closesBrace t then -1 else 0) := by
  rw [bumpLevel_depth]
  simp only [curlyDepth, opensBrace, closesBrace, beq_iff_eq]
  omega

theorem takeBalanced_scan (bk : BraceKind) (s : List Tok) (out : List Tok) : ∀ (n : Nat) (l : Int), s.length < n →
    takeBalanced bk n l (⟨s, out⟩ : LCtx) = ((scan opensBrace closesBrace (closes bk) l s).1,
      ⟨(scan opensBrace closesBrace (closes bk) l s).2, out⟩) := by
  induction s with
  | nil =>
    intro n l hn
    obtain ⟨n, rfl⟩ : ∃ k, n = k + 1 := ⟨n - 1, by omega⟩
    simp [takeBalanced, scan]
  | cons t ts ih =>
    intro n l hn
    obtain ⟨n, rfl⟩ : ∃ k, n = k + 1 := ⟨n - 1, by omega⟩
    simp only [takeBalanced, lctx_peek, List.head?_cons, lctx_next, List.tail_cons]
    rw [scan]
    have e : (l = 0 ∧ closes bk t = true) ↔ (l = 0 ∧ t.1 = .right bk) := by simp [closes]
    by_cases h : l = 0 ∧ t.1 = .right bk
    · rw [if_pos h, if_pos (e.mpr h)]
    · rw [if_neg h, if_neg (fun x => h (e.mp x)), ih n _ (by simp at hn; omega), bumpLevel_scan]

theorem readUntilBalanced_group {bk : BraceKind} {s b rest : List Tok} (h : Group bk s b rest) (out : List Tok) :
    readUntilBalanced bk (⟨s, out⟩ : LCtx) = (b, ⟨rest, out⟩) := by
  obtain ⟨mid, h, rfl⟩ := h
  unfold readUntilBalanced
  rw [takeBalanced_scan bk s out _ 0 (by simp), h.scan]
  rcases h.ends with h1 | ⟨t, r, h1, h2, _⟩
  · subst h1; simp [eatIf]
  · subst h1
    simp only [closes, beq_iff_eq] at h2
    simp [eatIf, h2]

theorem group_exists (bk : BraceKind) (s : List Tok) : ∃ b rest, Group bk s b rest :=
  ⟨_, _, _, scan_upto _ _ _ s, rfl⟩

theorem Group.len {bk : BraceKind} {s b rest : List Tok} (h : Group bk s b rest) : rest.length ≤ s.length := by
  obtain ⟨mid, h, rfl⟩ := h
  have := congrArg List.length h.split
  simp at this ⊢; omega

theorem Group.mem {bk : BraceKind} {s b rest : List Tok} (h : Group bk s b rest) :
    (∀ t ∈ b, t ∈ s) ∧ ∀ t ∈ rest, t ∈ s := by
  obtain ⟨mid, h, rfl⟩ := h
  refine ⟨fun t ht => by rw [h.split]; simp [ht], fun t ht => ?_⟩
  rw [h.split]
  exact List.mem_append.mpr (Or.inr (List.mem_of_mem_tail ht))

theorem skipFalse_scan (s : List Tok) (out : List Tok) : ∀ (n k : Nat), s.length < n →
    skipFalse n k (⟨s, out⟩ : LCtx) = ⟨(scan opensIf closesIf closesIf k s).2, out⟩ := by
  induction s with
  | nil =>
    intro n k hn
    obtain ⟨n, rfl⟩ : ∃ k, n = k + 1 := ⟨n - 1, by omega⟩
    simp [skipFalse, scan]
  | cons t ts ih =>
    intro n k hn
    obtain ⟨n, rfl⟩ : ∃ k, n = k + 1 := ⟨n - 1, by omega⟩
    obtain ⟨tk, tx⟩ := t
    have hn' : ts.length < n := by simp at hn; omega
    simp only [skipFalse, lctx_peek, List.head?_cons, lctx_next, List.tail_cons]
    rw [scan]
    split
    · rename_i i
      rw [ih n _ hn']
      simp [opensIf, closesIf]
    · rename_i i
      by_cases hk : k = 0
      · subst hk; simp [closesIf]
      · rw [if_neg hk, if_neg (by simp; omega), ih n _ hn']
        have : ((k - 1 : Nat) : Int) = (k : Int) + -1 := by omega
        simp [opensIf, closesIf, this]
    · rename_i i
      by_cases hk : k = 0
      · subst hk; simp [closesIf]
      · rw [if_neg hk, if_neg (by simp; omega), ih n _ hn']
        have : ((k - 1 : Nat) : Int) = (k : Int) + -1 := by omega
        simp [opensIf, closesIf, this]
    · rename_i h1 h2 h3
      rw [ih n _ hn']
      have e1 : opensIf (tk, tx) = false := by
        unfold opensIf
        split
        · rename_i i hi; exact absurd hi (h1 i)
        · rfl
      have e2 : closesIf (tk, tx) = false := by
        simp only [closesIf, Bool.or_eq_false_iff, beq_eq_false_iff_ne]
        exact ⟨h2, h3⟩
      simp [e1, e2]

theorem skipFalse_skipped {s rest : List Tok} (h : Skipped s rest) (out : List Tok) :
    skipFalse (bound (⟨s, out⟩ : LCtx)) 0 (⟨s, out⟩ : LCtx) = ⟨rest, out⟩ := by
  obtain ⟨b, h⟩ := h
  rw [skipFalse_scan s out _ 0 (by simp)]
  have := h.scan
  simp only [Int.natCast_zero] at *
  rw [this]

theorem skipped_exists (s : List Tok) : ∃ rest, Skipped s rest := ⟨_, _, scan_upto _ _ _ s⟩

theorem readEnvBody_scan (nm : Text) (s : List Tok) (out : List Tok) : ∀ (n k : Nat), s.length < n →
    readEnvBody n nm k (⟨s, out⟩ : LCtx) =
      match scan opensEnv closesEnv closesEnv k s with
      | (_, []) => (none, ⟨[], out⟩)
      | (b, t :: r) => if t.2 = nm then (some b, ⟨r, out⟩) else (none, ⟨t :: r, out ++ [envErrTok]⟩) := by
  induction s with
  | nil =>
    intro n k hn
    obtain ⟨n, rfl⟩ : ∃ k, n = k + 1 := ⟨n - 1, by omega⟩
    simp [readEnvBody, scan]
  | cons t ts ih =>
    intro n k hn
    obtain ⟨n, rfl⟩ : ∃ k, n = k + 1 := ⟨n - 1, by omega⟩
    obtain ⟨tk, tx⟩ := t
    have hn' : ts.length < n := by simp at hn; omega
    rw [readEnvBody, scan]
    simp only [lctx_peek, List.head?_cons, lctx_next, List.tail_cons]
    by_cases hE : tk = .cmd .endEnv
    · subst hE
      by_cases hk : k = 0
      · subst hk
        simp only [closesEnv, beq_self_eq_true, and_self, if_true, Int.natCast_zero]
        by_cases hx : tx = nm <;> simp [hx]
      · rw [if_pos rfl, if_neg hk, if_neg (by simp; omega), ih n _ hn']
        have : ((k - 1 : Nat) : Int) = (k : Int) + (if opensEnv (.cmd .endEnv, tx) then 1 else if closesEnv (.cmd .endEnv, tx) then -1 else 0) := by
          simp [opensEnv, closesEnv]; omega
        rw [this]
        generalize scan opensEnv closesEnv closesEnv _ ts = r
        obtain ⟨b, r⟩ := r
        cases r with
        | nil => rfl
        | cons u r =>
          simp only
          by_cases hx : u.2 = nm <;> simp [hx]
    · rw [if_neg hE]
      have hs : closesEnv (tk, tx) = false := by simp [closesEnv, hE]
      rw [if_neg (show ¬ ((k : Int) = 0 ∧ closesEnv (tk, tx) = true) by rw [hs]; simp)]
      have : (((if tk = .cmd .beginEnv then k + 1 else k) : Nat) : Int) =
          (k : Int) + (if opensEnv (tk, tx) then 1 else if closesEnv (tk, tx) then -1 else 0) := by
        by_cases hb : tk = .cmd .beginEnv <;> simp [opensEnv, hs, hb]
      rw [ih n _ hn', this]
      generalize scan opensEnv closesEnv closesEnv _ ts = r
      obtain ⟨b, r⟩ := r
      cases r with
      | nil => rfl
      | cons u r =>
        simp only
        by_cases hx : u.2 = nm <;> simp [hx]

theorem readEnvBody_body {s b rest : List Tok} (h : Body s b rest) (nm : Text) (out : List Tok) :
    readEnvBody (bound (⟨s, out⟩ : LCtx)) nm 0 (⟨s, out⟩ : LCtx) =
      match rest with
      | [] => (none, ⟨[], out⟩)
      | t :: r => if t.2 = nm then (some b, ⟨r, out⟩) else (none, ⟨t :: r, out ++ [envErrTok]⟩) := by
  rw [readEnvBody_scan nm s out _ 0 (by simp)]
  have := Upto.scan h
  simp only [Int.natCast_zero]
  rw [this]
  cases rest <;> rfl

/-! ### Arguments -/

theorem Args.zero_inv {s : List Tok} {as : List (List Tok)} {m : Nat} {rest : List Tok} (h : Args 0 s as m rest) :
    as = [] ∧ m = 0 ∧ rest = s := by
  cases h; exact ⟨rfl, rfl, rfl⟩

theorem Args.le {k : Nat} {s : List Tok} {as : List (List Tok)} {m : Nat} {rest : List Tok} (h : Args k s as m rest) :
    m ≤ k := by
  induction h <;> omega

theorem readArgsLoop_args {k : Nat} {s : List Tok} {as : List (List Tok)} {m : Nat} {rest : List Tok}
    (h : Args k s as m rest) : ∀ (read fuel : Nat) (out : List Tok), s.length < fuel → 0 < k →
    readArgsLoop fuel (read + k) read (⟨s, out⟩ : LCtx) = (as, read + k - m, ⟨rest, out⟩) := by
  induction h with
  | done => intro _ _ _ _ h; omega
  | @over k s hs =>
    intro read fuel out hf _
    obtain ⟨fuel, rfl⟩ : ∃ k, fuel = k + 1 := ⟨fuel - 1, by omega⟩
    rw [readArgsLoop, peekNotTrivia_blanks hs]
    simp
  | @group k s l s1 b s2 as m rest hs hl hg h ih =>
    intro read fuel out hf _
    obtain ⟨fuel, rfl⟩ : ∃ k, fuel = k + 1 := ⟨fuel - 1, by omega⟩
    rw [readArgsLoop, peekNotTrivia_blanks hs]
    simp only [List.head?_cons, Option.map_some, hl, lctx_next, List.tail_cons]
    rw [readUntilBalanced_group hg]
    by_cases hk : k = 0
    · subst hk
      obtain ⟨rfl, rfl, rfl⟩ := h.zero_inv
      simp
    · rw [if_neg (by omega)]
      have h1 := hs.len
      have h2 := hg.len
      simp only [List.length_cons] at h1
      have := ih (read + 1) fuel out (by omega) (by omega)
      have e2 : read + (k + 1) = read + 1 + k := by omega
      rw [e2]
      simp only [this]
  | @single k s t s1 as m rest hs h1 h2 h ih =>
    intro read fuel out hf _
    obtain ⟨fuel, rfl⟩ : ∃ k, fuel = k + 1 := ⟨fuel - 1, by omega⟩
    rw [readArgsLoop, peekNotTrivia_blanks hs]
    obtain ⟨tk, x⟩ := t
    simp only at h1 h2
    simp only [List.head?_cons, Option.map_some]
    simp only [lctx_peek, List.head?_cons, lctx_next, List.tail_cons]
    by_cases hk : k = 0
    · subst hk
      rw [if_pos (by omega)]
      obtain ⟨rfl, rfl, rfl⟩ := h.zero_inv
      simp
    · rw [if_neg (by omega)]
      have h3 := hs.len
      simp only [List.length_cons] at h3
      have := ih (read + 1) fuel out (by omega) (by omega)
      have e2 : read + (k + 1) = read + 1 + k := by omega
      rw [e2]
      simp only [this]
  | @word k s s1 w extra hs hlen =>
    intro read fuel out hf _
    obtain ⟨fuel, rfl⟩ : ∃ k, fuel = k + 1 := ⟨fuel - 1, by omega⟩
    rw [readArgsLoop, peekNotTrivia_blanks hs]
    simp only [List.head?_cons, Option.map_some, lctx_peek]
    have := splitWord_exact w extra read (by intro h; simp [h] at hlen)
    rw [hlen] at this
    rw [this]
    simp only [if_true]
    by_cases he : extra = []
    · simp [he]
    · simp [he]
  | @shortWord k s s1 as m rest w hs hlen h ih =>
    intro read fuel out hf _
    obtain ⟨fuel, rfl⟩ : ∃ k, fuel = k + 1 := ⟨fuel - 1, by omega⟩
    rw [readArgsLoop, peekNotTrivia_blanks hs]
    simp only [List.head?_cons, Option.map_some, lctx_peek]
    have hsp : splitWord w read (read + (k + 1)) = (w.map (fun c => [(Token.word, [c])]), [], read + w.length) :=
      splitWord_all w read (read + (k + 1)) (by omega)
    rw [hsp]
    simp only [ne_eq, not_true_eq_false, if_false, lctx_next, List.tail_cons]
    rw [if_neg (by omega)]
    by_cases hk : w.length = k
    · rw [if_pos (by omega)]
      have h0 : k - w.length = 0 := by omega
      rw [h0] at h
      obtain ⟨rfl, rfl, rfl⟩ := h.zero_inv
      have : read + w.length + 1 = read + (k + 1) - 0 := by omega
      simp [this]
    · rw [if_neg (by omega)]
      have h3 := hs.len
      simp only [List.length_cons] at h3
      have := ih (read + w.length + 1) fuel out (by omega) (by omega)
      have e2 : read + (k + 1) = read + w.length + 1 + (k - w.length) := by omega
      rw [e2]
      simp only [this]

theorem args_exists (n : Nat) : ∀ (k : Nat) (s : List Tok), s.length ≤ n → ∃ as m rest, Args k s as m rest := by
  induction n with
  | zero =>
    intro k s hs
    cases k with
    | zero => exact ⟨_, _, _, .done⟩
    | succ k =>
      have : s = [] := List.length_eq_zero_iff.mp (by omega)
      subst this
      exact ⟨_, _, _, .over ⟨[], by simp [Trivia], rfl, by simp⟩⟩
  | succ n ih =>
    intro k s hs
    cases k with
    | zero => exact ⟨_, _, _, .done⟩
    | succ k =>
      obtain ⟨r, hr, hl⟩ := blanks_exists s
      cases r with
      | nil => exact ⟨_, _, _, .over hr⟩
      | cons t s1 =>
        simp only [List.length_cons] at hl
        by_cases h1 : t.1 = .left .curly
        · obtain ⟨b, s2, hg⟩ := group_exists .curly s1
          obtain ⟨as, m, rest, h⟩ := ih k s2 (by have := hg.len; omega)
          exact ⟨_, _, _, .group hr h1 hg h⟩
        · by_cases h2 : t.1 = .word
          · obtain ⟨tk, w⟩ := t
            simp only at h2
            subst h2
            by_cases hw : w.length ≤ k
            · obtain ⟨as, m, rest, h⟩ := ih (k - w.length) s1 (by omega)
              exact ⟨_, _, _, .shortWord hr hw h⟩
            · have e : w = w.take (k + 1) ++ w.drop (k + 1) := (List.take_append_drop _ _).symm
              rw [e] at hr
              exact ⟨_, _, _, .word hr (by simp; omega)⟩
          · obtain ⟨as, m, rest, h⟩ := ih k s1 (by omega)
            exact ⟨_, _, _, .single hr h1 h2 h⟩

theorem readMacroArgs_args {n : Nat} {opt : Option (List Tok)} {s : List Tok} {as : List (List Tok)} {m : Nat}
    {rest : List Tok} (h : Args n s as m rest) (out : List Tok) :
    readMacroArgs n opt (⟨s, out⟩ : LCtx) =
      if m = 0 then (some as, ⟨rest, out⟩)
      else match opt with
        | some o => if m = 1 then (some (as ++ [o]), ⟨rest, out⟩) else (none, ⟨rest, out ++ [argErrTok]⟩)
        | none => (none, ⟨rest, out ++ [argErrTok]⟩) := by
  unfold readMacroArgs
  by_cases hn : n = 0
  · subst hn
    obtain ⟨rfl, rfl, rfl⟩ := h.zero_inv
    simp
  · rw [if_neg hn]
    have := readArgsLoop_args h 0 (bound (⟨s, out⟩ : LCtx)) out (by simp) (by omega)
    have hle := h.le
    simp only [Nat.zero_add] at this
    simp only [this]
    by_cases hm : m = 0
    · rw [if_pos (by omega), if_pos hm]
    · rw [if_neg (by omega), if_neg hm]
      cases opt with
      | none => simp
      | some o =>
        simp only
        by_cases h1 : m = 1
        · rw [if_pos (by omega), if_pos h1]
        · rw [if_neg (by omega), if_neg h1]
          simp

theorem readMacroArgs_some {n : Nat} {opt : Option (List Tok)} {s : List Tok} {as : List (List Tok)}
    {rest : List Tok} (h : Called n opt s (some as) rest) (out : List Tok) :
    readMacroArgs n opt (⟨s, out⟩ : LCtx) = (some as, ⟨rest, out⟩) := by
  cases h with
  | all h => rw [readMacroArgs_args h]; simp
  | default h ho => rw [readMacroArgs_args h, ho]; simp

theorem readMacroArgs_none {n : Nat} {opt : Option (List Tok)} {s : List Tok}
    {rest : List Tok} (h : Called n opt s none rest) (out : List Tok) :
    readMacroArgs n opt (⟨s, out⟩ : LCtx) = (none, ⟨rest, out ++ [argErrTok]⟩) := by
  cases h with
  | missing h h0 h1 =>
    rw [readMacroArgs_args h, if_neg h0]
    cases opt with
    | none => rfl
    | some o => simp only; rw [if_neg (fun e => by have := h1 e; cases this)]

theorem called_exists (n : Nat) (opt : Option (List Tok)) (s : List Tok) : ∃ r rest, Called n opt s r rest := by
  obtain ⟨as, m, rest, h⟩ := args_exists _ n s (Nat.le_refl _)
  by_cases h0 : m = 0
  · subst h0; exact ⟨_, _, .all h⟩
  · by_cases h1 : m = 1
    · subst h1
      cases opt with
      | none => exact ⟨_, _, .missing h h0 (fun _ => rfl)⟩
      | some o => exact ⟨_, _, .default h rfl⟩
    · exact ⟨_, _, .missing h h0 (fun e => absurd e h1)⟩

/-! ### Substitution -/

theorem expandTokens_raw {lvl : Int} {b c p : List Tok} (h : Raw lvl b c p) (args : List (List Tok)) {o : List Tok}
    (hp : expandTokens args false 0 p = .ok o) : expandTokens args true lvl b = .ok (c ++ o) := by
  induction h with
  | over => rw [expandTokens] at hp ⊢; simpa using hp
  | @opening lvl t ts o' r ht h ih =>
    rw [expandTokens, if_pos ht, ih hp]
    by_cases hl : 0 < lvl <;> simp [hl]
  | @closing t ts ht =>
    rw [expandTokens, if_neg (by rw [ht]; decide), if_pos ht, if_pos (by omega), hp]
    simp
  | @inner lvl t ts o' r ht hl h ih =>
    rw [expandTokens, if_neg (by rw [ht]; decide), if_pos ht, if_neg (by omega), ih hp]
    simp
  | @inside lvl t ts o' r h1 h2 hl h ih =>
    rw [expandTokens, if_neg h1, if_neg h2, if_pos hl, ih hp]
    simp
  | @single t ts h1 h2 ht =>
    rw [expandTokens, if_neg h1, if_neg h2, if_neg (by simp), if_pos (by simp [ht]), hp]
    simp
  | @blank t ts o' r ht h ih =>
    have h1 : t.1 ≠ .left .curly := by intro e; rw [e] at ht; exact absurd ht (by decide)
    have h2 : t.1 ≠ .right .curly := by intro e; rw [e] at ht; exact absurd ht (by decide)
    rw [expandTokens, if_neg h1, if_neg h2, if_neg (by simp), if_neg (by simp [ht]), ih hp]

theorem raw_exists (b : List Tok) : ∀ lvl : Int, ∃ c p, Raw lvl b c p ∧ p.length ≤ b.length ∧ ∀ t ∈ p, t ∈ b := by
  induction b with
  | nil => intro lvl; exact ⟨_, _, .over, Nat.le_refl _, by simp⟩
  | cons t ts ih =>
    intro lvl
    by_cases h1 : t.1 = .left .curly
    · obtain ⟨c, p, h, hl, hm⟩ := ih (lvl + 1)
      exact ⟨_, _, .opening h1 h, by simp; omega, fun x hx => by simp [hm x hx]⟩
    · by_cases h2 : t.1 = .right .curly
      · by_cases hl : lvl = 1
        · subst hl; exact ⟨_, _, .closing h2, by simp, fun x hx => by simp [hx]⟩
        · obtain ⟨c, p, h, hl', hm⟩ := ih (lvl - 1)
          exact ⟨_, _, .inner h2 hl h, by simp; omega, fun x hx => by simp [hm x hx]⟩
      · by_cases hl : lvl = 0
        · subst hl
          by_cases ht : t.1.isTrivia = true
          · obtain ⟨c, p, h, hl', hm⟩ := ih 0
            exact ⟨_, _, .blank ht h, by simp; omega, fun x hx => by simp [hm x hx]⟩
          · exact ⟨_, _, .single h1 h2 (by simpa using ht), by simp, fun x hx => by simp [hx]⟩
        · obtain ⟨c, p, h, hl', hm⟩ := ih lvl
          exact ⟨_, _, .inside h1 h2 hl h, by simp; omega, fun x hx => by simp [hm x hx]⟩

/-- Tokens that can occur: words have characters, commands a backslash, parameters a number. -/
def StreamTokOk (t : Tok) : Prop :=
  (t.1 = .word → t.2 ≠ []) ∧ (t.1 = .cmd .generic → ∃ n, t.2 = '\\' :: n) ∧ t.1 ≠ .macroArg 0

theorem Raw.mem {lvl : Int} {b c p : List Tok} (h : Raw lvl b c p) : ∀ t ∈ p, t ∈ b := by
  induction h with
  | over => simp
  | opening _ _ ih => intro t ht; simp [ih t ht]
  | closing _ => intro t ht; simp [ht]
  | inner _ _ _ ih => intro t ht; simp [ih t ht]
  | inside _ _ _ _ ih => intro t ht; simp [ih t ht]
  | single _ _ _ => intro t ht; simp [ht]
  | blank _ _ ih => intro t ht; simp [ih t ht]

theorem expandTokens_filled {args : List (List Tok)} {b o : List Tok} (h : Filled args b o) :
    (∀ t ∈ b, StreamTokOk t) → expandTokens args false 0 b = .ok o := by
  induction h with
  | nil => intro _; rfl
  | @param d h b o hd hb ih =>
    intro hok
    obtain ⟨n, rfl⟩ : ∃ k, d = k + 1 := ⟨d - 1, by omega⟩
    rw [expandTokens]
    simp only [ih (fun t ht => hok t (by simp [ht])), Nat.add_sub_cancel]
  | @tok t b o h1 h2 hb ih =>
    intro hok
    have ih := ih (fun t ht => hok t (by simp [ht]))
    have ht := hok t (by simp)
    obtain ⟨k, x⟩ := t
    rw [expandTokens]
    simp only [ih]
    split
    · exact absurd rfl (h1 _)
    · exact absurd rfl (h1 _)
    · obtain ⟨n, hn⟩ := ht.2.1 rfl
      simp only at hn
      subst hn
      simp only [stripBackslash]
      rw [if_neg]
      intro hn
      subst hn
      exact h2 rfl
    · rfl
  | @recurse b c o p hr hb ih =>
    intro hok
    have ih := ih (fun t ht => hok t (by simp [hr.mem t ht]))
    rw [expandTokens]
    simp only [cmdTok, stripBackslash]
    exact expandTokens_raw hr args ih

theorem filled_exists (args : List (List Tok)) (n : Nat) : ∀ b : List Tok, b.length ≤ n → (∀ t ∈ b, StreamTokOk t) →
    ∃ o, Filled args b o := by
  induction n with
  | zero =>
    intro b hb _
    have : b = [] := List.length_eq_zero_iff.mp (by omega)
    subst this
    exact ⟨_, .nil⟩
  | succ n ih =>
    intro b hb hok
    cases b with
    | nil => exact ⟨_, .nil⟩
    | cons t b =>
      simp only [List.length_cons] at hb
      have hok' : ∀ t ∈ b, StreamTokOk t := fun t ht => hok t (by simp [ht])
      have ht := hok t (by simp)
      by_cases h2 : t = cmdTok t!"mitexrecurse"
      · subst h2
        obtain ⟨c, p, hr, hl, hm⟩ := raw_exists b 0
        obtain ⟨o, ho⟩ := ih p (by omega) (fun t ht => hok' t (hm t ht))
        exact ⟨_, .recurse hr ho⟩
      · obtain ⟨o, ho⟩ := ih b (by omega) hok'
        by_cases h1 : ∃ d, t.1 = .macroArg d
        · obtain ⟨d, hd⟩ := h1
          obtain ⟨k, x⟩ := t
          simp only at hd
          subst hd
          have : d ≠ 0 := by intro e; subst e; exact ht.2.2 rfl
          exact ⟨_, .param (by omega) ho⟩
        · exact ⟨_, .tok (fun d hd => h1 ⟨d, hd⟩) h2 ho⟩

/-! ### Definitions -/

theorem eatIf_ite (tk : Token) (r : Tok) (s out : List Tok) :
    eatIf tk (⟨r :: s, out⟩ : LCtx) = ⟨if r.1 = tk then s else r :: s, out⟩ := by
  by_cases h : r.1 = tk <;> simp [eatIf, h]

theorem peekWordOpt_blanks (bk : BraceKind) (t : Tok) {s2 r : List Tok} (h : Blanks s2 r) (out : List Tok) :
    peekWordOpt bk (⟨t :: s2, out⟩ : LCtx) = match r with
      | [] => (none, ⟨[], out⟩)
      | u :: s3 => (if t.1 = .word then some t else none, ⟨if u.1 = .right bk then s3 else u :: s3, out⟩) := by
  unfold peekWordOpt
  simp only [nextNotTrivia_blanks h]
  cases r with
  | nil => rfl
  | cons u s3 =>
    simp only [List.head?_cons, Option.map_some, eatIf_ite, lctx_peek]
    obtain ⟨k, x⟩ := t
    by_cases hk : k = .word
    · subst hk; rfl
    · simp only [if_neg hk]
      cases k <;> first | rfl | exact absurd rfl hk

theorem peekCmdNameOpt_blanks (bk : BraceKind) (t : Tok) {s2 r : List Tok} (h : Blanks s2 r) (out : List Tok) :
    peekCmdNameOpt bk (⟨t :: s2, out⟩ : LCtx) = match r with
      | [] => (none, ⟨[], out⟩)
      | u :: s3 => ((match t.1 with | .cmd _ => some t | _ => none),
          ⟨if u.1 = .right bk then s3 else u :: s3, out⟩) := by
  unfold peekCmdNameOpt
  simp only [nextNotTrivia_blanks h]
  cases r with
  | nil => rfl
  | cons u s3 =>
    simp only [List.head?_cons, Option.map_some, eatIf_ite, lctx_peek]
    obtain ⟨k, x⟩ := t
    cases k <;> rfl

theorem peekU8Opt_blanks (bk : BraceKind) (t : Tok) {s2 r : List Tok} (h : Blanks s2 r) (out : List Tok) :
    peekU8Opt bk (⟨t :: s2, out⟩ : LCtx) = match r with
      | [] => (none, ⟨[], out⟩)
      | u :: s3 => (if t.1 = .word then parseU8 t.2 else none, ⟨if u.1 = .right bk then s3 else u :: s3, out⟩) := by
  unfold peekU8Opt
  simp only [nextNotTrivia_blanks h]
  cases r with
  | nil => rfl
  | cons u s3 =>
    simp only [List.head?_cons, Option.map_some, eatIf_ite, lctx_peek]
    obtain ⟨k, x⟩ := t
    by_cases hk : k = .word
    · subst hk; rfl
    · simp only [if_neg hk]
      cases k <;> first | rfl | exact absurd rfl hk

theorem peek_empty (bk : BraceKind) (out : List Tok) :
    peekWordOpt bk (⟨[], out⟩ : LCtx) = (none, ⟨[], out⟩) ∧ peekCmdNameOpt bk (⟨[], out⟩ : LCtx) = (none, ⟨[], out⟩) ∧
    peekU8Opt bk (⟨[], out⟩ : LCtx) = (none, ⟨[], out⟩) := by
  simp [peekWordOpt, peekCmdNameOpt, peekU8Opt, nextNotTrivia_nil]

/-- Does the defining command define environments? -/
def envDef : DeclareCmdOrEnv → Bool
  | .newEnvironment _ => true
  | _ => false

theorem envDef_true {d : DeclareCmdOrEnv} (h : envDef d = true) : ∃ b, d = .newEnvironment b := by
  cases d with
  | newEnvironment b => exact ⟨b, rfl⟩
  | _ => cases h

theorem readDeclName_env_named {b : Bool} {s : List Tok} {r : Option Tok} {rest : List Tok} (h : Named true s r rest)
    (x : Tok) (out : List Tok) :
    readDeclName (.newEnvironment b) (⟨x :: s, out⟩ : LCtx) = .ok (r.map (·.2), ⟨rest, out⟩) := by
  unfold readDeclName
  cases h with
  | noBrace hs hh =>
    rw [nextNotTrivia_blanks hs]
    cases rest with
    | nil => rfl
    | cons l rest =>
      have := hh l rfl
      simp only [List.head?_cons, Option.map_some]
      split
      · rename_i he; simp at he; exact absurd he.1 this
      · rename_i he; simp at he; cases he.2; rfl
  | @empty l s1 hs hl h1 =>
    rw [nextNotTrivia_blanks hs]
    simp only [List.head?_cons, Option.map_some, hl, nextNotTrivia_blanks h1, (peek_empty _ out).1, Option.map_none]
  | @over l s1 t s2 hs hl h1 h2 =>
    rw [nextNotTrivia_blanks hs]
    simp only [List.head?_cons, Option.map_some, hl, nextNotTrivia_blanks h1, peekWordOpt_blanks _ _ h2, Option.map_none]
  | @wrong l s1 t s2 r s3 hs hl h1 h2 ht =>
    rw [nextNotTrivia_blanks hs]
    simp only [NameTok, if_true] at ht
    simp only [List.head?_cons, Option.map_some, hl, nextNotTrivia_blanks h1, peekWordOpt_blanks _ _ h2, if_neg ht,
      Option.map_none]
  | @name l s1 t s2 r s3 hs hl h1 h2 ht =>
    rw [nextNotTrivia_blanks hs]
    simp only [NameTok, if_true] at ht
    simp only [List.head?_cons, Option.map_some, hl, nextNotTrivia_blanks h1, peekWordOpt_blanks _ _ h2, if_pos ht]

theorem readDeclName_cmd_named {d : DeclareCmdOrEnv} (hd : envDef d = false) {s : List Tok} {r : Option Tok} {rest : List Tok}
    (h : Named false s r rest) (x : Tok) (out : List Tok) :
    readDeclName d (⟨x :: s, out⟩ : LCtx) = match r with
      | none => .ok (none, ⟨rest, out⟩)
      | some t => match stripBackslash t.2 with
        | .error e => .error e
        | .ok n => .ok (some n, ⟨rest, out⟩) := by
  have hb : ∀ b, d ≠ .newEnvironment b := by rintro b rfl; cases hd
  unfold readDeclName
  cases h with
  | noBrace hs hh =>
    rw [nextNotTrivia_blanks hs]
    cases rest with
    | nil => rfl
    | cons l rest =>
      have := hh l rfl
      simp only [List.head?_cons, Option.map_some]
      split
      · rename_i he; simp at he; exact absurd he.1 this
      · rename_i he; simp at he; cases he.2; rfl
  | @empty l s1 hs hl h1 =>
    rw [nextNotTrivia_blanks hs]
    simp only [List.head?_cons, Option.map_some, hl, nextNotTrivia_blanks h1, (peek_empty _ out).2.1]
  | @over l s1 t s2 hs hl h1 h2 =>
    rw [nextNotTrivia_blanks hs]
    simp only [List.head?_cons, Option.map_some, hl, nextNotTrivia_blanks h1, peekCmdNameOpt_blanks _ _ h2]
  | @wrong l s1 t s2 r s3 hs hl h1 h2 ht =>
    rw [nextNotTrivia_blanks hs]
    simp only [List.head?_cons, Option.map_some, hl, nextNotTrivia_blanks h1, peekCmdNameOpt_blanks _ _ h2]
    have : (match t.1 with | .cmd _ => some t | _ => none) = none := by
      split
      · rename_i k hk; exact absurd hk ((by simpa [NameTok] using ht : ∀ k, ¬ t.1 = .cmd k) k)
      · rfl
    rw [this]
  | @name l s1 t s2 r s3 hs hl h1 h2 ht =>
    rw [nextNotTrivia_blanks hs]
    simp only [List.head?_cons, Option.map_some, hl, nextNotTrivia_blanks h1, peekCmdNameOpt_blanks _ _ h2]
    have : (match t.1 with | .cmd _ => some t | _ => none) = some t := by
      obtain ⟨k, hk⟩ : ∃ k, t.1 = .cmd k := by simpa [NameTok] using ht
      rw [hk]
    rw [this]
    cases d <;> first | rfl | cases hd

theorem named_exists (isEnv : Bool) (s : List Tok) : ∃ r rest, Named isEnv s r rest := by
  obtain ⟨r, hr, _⟩ := blanks_exists s
  by_cases h : ∀ l, r.head? = some l → l.1 ≠ .left .curly
  · exact ⟨_, _, .noBrace hr h⟩
  · cases r with
    | nil => exact absurd (by simp) h
    | cons l s1 =>
      have hl : l.1 = .left .curly := by
        by_cases e : l.1 = .left .curly
        · exact e
        · exact absurd (by simpa using e) h
      obtain ⟨r1, hr1, _⟩ := blanks_exists s1
      cases r1 with
      | nil => exact ⟨_, _, .empty hr hl hr1⟩
      | cons t s2 =>
        obtain ⟨r2, hr2, _⟩ := blanks_exists s2
        cases r2 with
        | nil => exact ⟨_, _, .over hr hl hr1 hr2⟩
        | cons u s3 =>
          by_cases ht : NameTok isEnv t
          · exact ⟨_, _, .name hr hl hr1 hr2 ht⟩
          · exact ⟨_, _, .wrong hr hl hr1 hr2 ht⟩

theorem readDefn_defn {s : List Tok} {d : Option (List Tok)} {rest : List Tok} (h : Defn s d rest) (out : List Tok) :
    readDefn (⟨s, out⟩ : LCtx) = (d, ⟨rest, out⟩) := by
  unfold readDefn
  cases h with
  | over => rfl
  | @group l s b rest hl h =>
    simp only [lctx_peek, List.head?_cons, if_pos hl, lctx_next, List.tail_cons, readUntilBalanced_group h]
  | @single t s ht =>
    simp only [lctx_peek, List.head?_cons, if_neg ht, lctx_next, List.tail_cons]

theorem defn_exists (s : List Tok) : ∃ d rest, Defn s d rest := by
  cases s with
  | nil => exact ⟨_, _, .over⟩
  | cons t s =>
    by_cases ht : t.1 = .left .curly
    · obtain ⟨b, rest, h⟩ := group_exists .curly s
      exact ⟨_, _, .group ht h⟩
    · exact ⟨_, _, .single ht⟩

theorem readOptDefn_dflt {s s2 : List Tok} {o : Option (List Tok)} {d : Option (List Tok)} {rest : List Tok}
    (ho : Dflt s o s2) (hd : Defn s2 d rest) (out : List Tok) :
    readOptDefn (⟨s, out⟩ : LCtx) = (d.map fun b => (o, b), ⟨rest, out⟩) := by
  unfold readOptDefn
  cases ho with
  | absent h =>
    cases s with
    | nil => cases hd; rfl
    | cons t s =>
      simp only [lctx_peek, List.head?_cons, if_neg (h t rfl), readDefn_defn hd]
      cases d <;> rfl
  | @group l s b _ hl h =>
    simp only [lctx_peek, List.head?_cons, if_pos hl, lctx_next, List.tail_cons, readUntilBalanced_group h,
      readDefn_defn hd]
    cases d <;> rfl

theorem dflt_exists (s : List Tok) : ∃ o rest, Dflt s o rest := by
  by_cases h : ∀ t, s.head? = some t → t.1 ≠ .left .bracket
  · exact ⟨_, _, .absent h⟩
  · cases s with
    | nil => exact absurd (by simp) h
    | cons l s =>
      have hl : l.1 = .left .bracket := by
        by_cases e : l.1 = .left .bracket
        · exact e
        · exact absurd (by simpa using e) h
      obtain ⟨b, rest, hg⟩ := group_exists .bracket s
      exact ⟨_, _, .group hl hg⟩

theorem digit_iff (c : Char) : isAsciiDigit c = true ↔ '0' ≤ c ∧ c ≤ '9' := by
  simp only [isAsciiDigit, Bool.and_eq_true, decide_eq_true_eq, Char.le_def, UInt32.le_iff_toNat_le]
  exact Iff.rfl

theorem decValue_fold (ds : Text) : ∀ n, decValue ds n = ds.foldl (fun a c => 10 * a + (c.toNat - '0'.toNat)) n := by
  induction ds with
  | nil => intro n; rfl
  | cons c ds ih =>
    intro n
    rw [decValue, ih, List.foldl_cons]
    have : n * 10 + (c.toNat - 48) = 10 * n + (c.toNat - '0'.toNat) := by
      have : '0'.toNat = 48 := rfl
      omega
    rw [this]

/-- A number without its sign. -/
def unsigned : Text → Text
  | '+' :: d => d
  | d => d

theorem unsigned_other {w : Text} (h : ¬ ∃ d, w = '+' :: d) : unsigned w = w := by
  unfold unsigned
  split
  · exact absurd ⟨_, rfl⟩ h
  · rfl

theorem parseU8_decimal {w : Text} {n : Nat} (h : n ≤ 9) : parseU8 w = some n ↔ Decimal w n := by
  have key : ∀ d : Text, (if d ≠ [] ∧ d.all isAsciiDigit ∧ decValue d 0 ≤ 255 then some (decValue d 0) else none) = some n ↔
      (d ≠ [] ∧ (∀ c ∈ d, '0' ≤ c ∧ c ≤ '9') ∧ n = d.foldl (fun a c => 10 * a + (c.toNat - '0'.toNat)) 0) := by
    intro d
    have e : d.all isAsciiDigit = true ↔ ∀ c ∈ d, '0' ≤ c ∧ c ≤ '9' := by
      rw [List.all_eq_true]
      exact ⟨fun h c hc => (digit_iff c).mp (h c hc), fun h c hc => (digit_iff c).mpr (h c hc)⟩
    rw [← decValue_fold, ← e]
    constructor
    · intro hh
      split at hh
      · rename_i g; cases hh; exact ⟨g.1, g.2.1, rfl⟩
      · cases hh
    · rintro ⟨h1, h2, h3⟩
      rw [if_pos ⟨h1, h2, by omega⟩, h3]
  have e : parseU8 w = (if unsigned w ≠ [] ∧ (unsigned w).all isAsciiDigit ∧ decValue (unsigned w) 0 ≤ 255
      then some (decValue (unsigned w) 0) else none) := rfl
  rw [e, key]
  by_cases hp : ∃ d, w = '+' :: d
  · obtain ⟨d, rfl⟩ := hp
    simp only [unsigned]
    constructor
    · exact fun h => ⟨d, Or.inr rfl, h⟩
    · rintro ⟨ds, hw, h1, h2, h3⟩
      rcases hw with rfl | hw
      · exact absurd (h2 '+' (by simp)).1 (by decide)
      · cases hw; exact ⟨h1, h2, h3⟩
  · have e2 := unsigned_other hp
    rw [e2]
    constructor
    · exact fun h => ⟨w, Or.inl rfl, h⟩
    · rintro ⟨ds, hw, h1, h2, h3⟩
      rcases hw with rfl | hw
      · exact ⟨h1, h2, h3⟩
      · exact absurd ⟨_, hw⟩ hp

theorem readNArgs_header {s : List Tok} {r : Option (Nat × Option (List Tok) × List Tok)} {rest : List Tok}
    (h : Header s r rest) (out : List Tok) : readNArgsOptDefn (⟨s, out⟩ : LCtx) = (r, ⟨rest, out⟩) := by
  unfold readNArgsOptDefn
  cases h with
  | @plain d _ hh hd =>
    cases s with
    | nil => cases hd; rfl
    | cons t s =>
      simp only [lctx_peek, List.head?_cons, if_neg (hh t rfl), readDefn_defn hd]
      cases d <;> rfl
  | broken hc =>
    cases hc with
    | @over l s t s1 hl h1 h2 =>
      simp only [lctx_peek, List.head?_cons, if_pos hl, nextNotTrivia_blanks h1, peekU8Opt_blanks _ _ h2]
    | @empty l s hl h1 =>
      simp only [lctx_peek, List.head?_cons, if_pos hl, nextNotTrivia_blanks h1, (peek_empty _ out).2.2]
    | @wrong l s t s1 r s2 hl h1 h2 hn =>
      simp only [lctx_peek, List.head?_cons, if_pos hl, nextNotTrivia_blanks h1, peekU8Opt_blanks _ _ h2]
      by_cases ht : t.1 = .word
      · rw [if_pos ht]
        cases hp : parseU8 t.2 with
        | none => rfl
        | some n =>
          simp only
          rw [if_neg]
          intro h9
          exact hn ⟨n, h9, ht, (parseU8_decimal h9).mp hp⟩
      · rw [if_neg ht]
  | @counted n s1 o s2 d _ hc ho hd =>
    cases hc with
    | @number l s w s1' r s2' _ hl h1 h2 hn h9 =>
      simp only [lctx_peek, List.head?_cons, if_pos hl, nextNotTrivia_blanks h1, peekU8Opt_blanks _ _ h2,
        if_true, (parseU8_decimal h9).mpr hn, if_pos h9, readOptDefn_dflt ho hd]
      cases d <;> rfl

theorem header_exists (s : List Tok) : ∃ r rest, Header s r rest := by
  by_cases h : ∀ t, s.head? = some t → t.1 ≠ .left .bracket
  · obtain ⟨d, rest, hd⟩ := defn_exists s
    exact ⟨_, _, .plain h hd⟩
  · cases s with
    | nil => exact absurd (by simp) h
    | cons l s =>
      have hl : l.1 = .left .bracket := by
        by_cases e : l.1 = .left .bracket
        · exact e
        · exact absurd (by simpa using e) h
      obtain ⟨r1, hr1, _⟩ := blanks_exists s
      cases r1 with
      | nil => exact ⟨_, _, .broken (.empty hl hr1)⟩
      | cons t s2 =>
        obtain ⟨r2, hr2, _⟩ := blanks_exists s2
        cases r2 with
        | nil => exact ⟨_, _, .broken (.over hl hr1 hr2)⟩
        | cons u s3 =>
          by_cases hn : ∃ n, n ≤ 9 ∧ t.1 = .word ∧ Decimal t.2 n
          · obtain ⟨n, h9, ht, hn⟩ := hn
            obtain ⟨tk, w⟩ := t
            simp only at ht hn
            subst ht
            obtain ⟨o, s4, ho⟩ := dflt_exists (if u.1 = .right .bracket then s3 else u :: s3)
            obtain ⟨d, rest, hd⟩ := defn_exists s4
            exact ⟨_, _, .counted (.number hl hr1 hr2 hn h9) ho hd⟩
          · exact ⟨_, _, .broken (.wrong hl hr1 hr2 hn)⟩

theorem processMacroDef_mark {b : List Tok} (h : EndsInMark b) : processMacroDef b = .error .panic := by
  obtain ⟨src, h, rfl⟩ := h
  exact C10_trailing_mark_panics src h

theorem marked_or_mark (b : List Tok) (hb : ∀ t ∈ b, StreamTokOk t) : (∃ st, Marked b st) ∨ EndsInMark b := by
  by_cases h : ∃ h, b.getLast? = some (.hash, h)
  · obtain ⟨h, hh⟩ := h
    obtain ⟨src, rfl⟩ := List.getLast?_eq_some_iff.mp hh
    exact Or.inr ⟨src, h, rfl⟩
  · exact Or.inl (marked_exists b.length b (Nat.le_refl _) (fun t ht => (hb t ht).1) (fun x hx => h ⟨x, hx⟩))

theorem Blanks.ok {s r : List Tok} (h : Blanks s r) (hs : ∀ t ∈ s, StreamTokOk t) : ∀ t ∈ r, StreamTokOk t :=
  fun t ht => hs t (h.mem t ht)

theorem ite_mem {p : Prop} [Decidable p] {r : Tok} {s : List Tok} : ∀ t ∈ (if p then s else r :: s), t ∈ r :: s := by
  intro t ht
  split at ht
  · simp [ht]
  · exact ht

theorem Named.mem {isEnv : Bool} {s : List Tok} {r : Option Tok} {rest : List Tok} (h : Named isEnv s r rest) :
    (∀ t ∈ rest, t ∈ s) ∧ ∀ t, r = some t → t ∈ s ∧ NameTok isEnv t := by
  cases h with
  | noBrace hs _ => exact ⟨hs.mem, fun t h => (by cases h)⟩
  | empty _ _ _ => exact ⟨by simp, fun t h => (by cases h)⟩
  | over _ _ _ _ => exact ⟨by simp, fun t h => (by cases h)⟩
  | wrong hs hl h1 h2 ht =>
    exact ⟨fun t ht => hs.mem t (by simp [h1.mem t (by simp [h2.mem t (ite_mem t ht)])]), fun t h => (by cases h)⟩
  | name hs hl h1 h2 ht =>
    refine ⟨fun t ht => hs.mem t (by simp [h1.mem t (by simp [h2.mem t (ite_mem t ht)])]), fun t h => ?_⟩
    cases h
    exact ⟨hs.mem _ (by simp [h1.mem _ (List.mem_cons_self ..)]), ht⟩

theorem Defn.mem {s : List Tok} {d : Option (List Tok)} {rest : List Tok} (h : Defn s d rest) :
    (∀ t ∈ rest, t ∈ s) ∧ ∀ b, d = some b → ∀ t ∈ b, t ∈ s := by
  cases h with
  | over => exact ⟨by simp, fun b h => (by cases h)⟩
  | group hl h =>
    refine ⟨fun t ht => by simp [h.mem.2 t ht], fun b e t ht => ?_⟩
    cases e; simp [h.mem.1 t ht]
  | single ht =>
    refine ⟨fun t ht => by simp [ht], fun b e t ht => ?_⟩
    cases e; simp at ht; simp [ht]

theorem Dflt.mem {s : List Tok} {d : Option (List Tok)} {rest : List Tok} (h : Dflt s d rest) :
    ∀ t ∈ rest, t ∈ s := by
  cases h with
  | absent h => exact fun t ht => ht
  | group hl h => exact fun t ht => by simp [h.mem.2 t ht]

theorem Count.mem {s : List Tok} {n : Option Nat} {rest : List Tok} (h : Count s n rest) : ∀ t ∈ rest, t ∈ s := by
  cases h with
  | over _ _ _ => simp
  | empty _ _ => simp
  | number hl h1 h2 _ _ => exact fun t ht => by simp [h1.mem t (by simp [h2.mem t (ite_mem t ht)])]
  | wrong hl h1 h2 _ => exact fun t ht => by simp [h1.mem t (by simp [h2.mem t (ite_mem t ht)])]

theorem Header.mem {s : List Tok} {r : Option (Nat × Option (List Tok) × List Tok)} {rest : List Tok}
    (h : Header s r rest) : (∀ t ∈ rest, t ∈ s) ∧ ∀ n o b, r = some (n, o, b) → ∀ t ∈ b, t ∈ s := by
  cases h with
  | @plain d _ hh hd =>
    refine ⟨hd.mem.1, fun n o b e t ht => ?_⟩
    cases d with
    | none => cases e
    | some d => cases e; exact hd.mem.2 _ rfl t ht
  | broken hc => exact ⟨hc.mem, fun n o b e => (by cases e)⟩
  | @counted n s1 o s2 d _ hc ho hd =>
    refine ⟨fun t ht => hc.mem t (ho.mem t (hd.mem.1 t ht)), fun n o b e t ht => ?_⟩
    cases d with
    | none => cases e
    | some d => cases e; exact hc.mem t (ho.mem t (hd.mem.2 _ rfl t ht))

end Mitex
