/-
Computation lemmas for the macro engine on token lists.
-/
import Verif.Spec.Macro
import Verif.Props.Stream

namespace Mitex
open TokStream

@[simp] theorem lctx_peek (inp out : List Tok) : peek (⟨inp, out⟩ : LCtx) = inp.head? := rfl
@[simp] theorem lctx_next (inp out : List Tok) : next (⟨inp, out⟩ : LCtx) = ⟨inp.tail, out⟩ := rfl
@[simp] theorem lctx_push (l inp out : List Tok) : pushFront l (⟨inp, out⟩ : LCtx) = ⟨l ++ inp, out⟩ := rfl
@[simp] theorem lctx_set (t : Tok) (inp out : List Tok) :
    setPeek t (⟨inp, out⟩ : LCtx) = ⟨t :: inp.tail, out⟩ := rfl
@[simp] theorem lctx_emit (t : Tok) (inp out : List Tok) :
    emit t (⟨inp, out⟩ : LCtx) = ⟨inp, out ++ [t]⟩ := rfl
@[simp] theorem lctx_bound (inp out : List Tok) : bound (⟨inp, out⟩ : LCtx) = inp.length + 1 := rfl

theorem nextNotTriviaN_list (ws : List Tok) (hw : Trivia ws) (t : Tok) (ht : t.1.isTrivia = false)
    (x : Tok) (rest out : List Tok) : ∀ n, ws.length < n →
    nextNotTriviaN n (⟨x :: (ws ++ t :: rest), out⟩ : LCtx) = (some t.1, ⟨t :: rest, out⟩) := by
  induction ws generalizing x with
  | nil =>
    intro n hn
    obtain ⟨n, rfl⟩ : ∃ k, n = k + 1 := ⟨n - 1, by simp at hn; omega⟩
    simp [nextNotTriviaN, ht]
  | cons w ws ih =>
    intro n hn
    obtain ⟨n, rfl⟩ : ∃ k, n = k + 1 := ⟨n - 1, by simp at hn; omega⟩
    have h1 : w.1.isTrivia = true := hw w (by simp)
    simp only [List.cons_append, nextNotTriviaN, lctx_next, List.tail_cons, lctx_peek, List.head?_cons, h1, if_true]
    exact ih (fun y hy => hw y (by simp [hy])) w n (by simp at hn; omega)

theorem nextNotTrivia_list (ws : List Tok) (hw : Trivia ws) (t : Tok) (ht : t.1.isTrivia = false)
    (x : Tok) (rest out : List Tok) :
    nextNotTrivia (⟨x :: (ws ++ t :: rest), out⟩ : LCtx) = (some t.1, ⟨t :: rest, out⟩) := by
  unfold nextNotTrivia
  apply nextNotTriviaN_list ws hw t ht
  simp; omega

theorem peekNotTrivia_list (ws : List Tok) (hw : Trivia ws) (t : Tok) (ht : t.1.isTrivia = false)
    (rest out : List Tok) :
    peekNotTrivia (⟨ws ++ t :: rest, out⟩ : LCtx) = (some t.1, ⟨t :: rest, out⟩) := by
  unfold peekNotTrivia
  cases ws with
  | nil => simp [ht]
  | cons w ws =>
    have h1 : w.1.isTrivia = true := hw w (by simp)
    simp only [List.cons_append, lctx_peek, List.head?_cons, h1, if_true]
    exact nextNotTrivia_list ws (fun y hy => hw y (by simp [hy])) t ht w rest out

theorem eatIf_list (tk : Token) (t : Tok) (h : t.1 = tk) (rest out : List Tok) :
    eatIf tk (⟨t :: rest, out⟩ : LCtx) = ⟨rest, out⟩ := by simp [eatIf, h]

theorem takeBalanced_list {bk : BraceKind} {b : List Tok} (hb : Balanced bk b) :
    ∀ (bk' : BraceKind) (lvl : Int) (n : Nat) (rest out : List Tok), (lvl = 0 ∧ bk' = bk ∨ 0 < lvl) →
    takeBalanced bk' (n + b.length) lvl (⟨b ++ rest, out⟩ : LCtx) =
      (b ++ (takeBalanced bk' n lvl (⟨rest, out⟩ : LCtx)).1, (takeBalanced bk' n lvl (⟨rest, out⟩ : LCtx)).2) := by
  induction hb with
  | nil bk => intro bk' lvl n rest out h; simp
  | @tok bk t ts h1 h2 h3 h ih =>
    intro bk' lvl n rest out hl
    have hst : ¬ (lvl = 0 ∧ t.1 = .right bk') := by
      rintro ⟨ha, hb⟩
      rcases hl with ⟨_, rfl⟩ | hl
      · exact h3 hb
      · omega
    have hbl : bumpLevel lvl t.1 = lvl := by
      unfold bumpLevel
      split
      · rename_i he; exact absurd he h1
      · rename_i he; exact absurd he h2
      · rfl
    simp only [List.length_cons, List.cons_append, ← Nat.add_assoc, takeBalanced, lctx_peek, List.head?_cons,
      if_neg hst, hbl, lctx_next, List.tail_cons]
    rw [ih bk' lvl n rest out hl]
  | @group bk l b r ts hl hr hb h ihb ih =>
    intro bk' lvl n rest out hv
    have hst : ¬ (lvl = 0 ∧ l.1 = .right bk') := by
      rintro ⟨_, hb⟩; rw [hl] at hb; cases hb
    have e1 : bumpLevel lvl l.1 = lvl + 1 := by rw [hl]; rfl
    have e2 : bumpLevel (lvl + 1) r.1 = lvl := by rw [hr]; simp [bumpLevel]
    have hpos : 0 ≤ lvl := by omega
    have e3 : n + (l :: (b ++ r :: ts)).length = (n + ts.length + 1 + b.length) + 1 := by simp; omega
    rw [e3]
    simp only [List.cons_append, List.append_assoc, takeBalanced, lctx_peek, List.head?_cons,
      if_neg hst, e1, lctx_next, List.tail_cons]
    rw [ihb bk' (lvl + 1) (n + ts.length + 1) (r :: (ts ++ rest)) out (Or.inr (by omega))]
    have hst2 : ¬ (lvl + 1 = 0 ∧ r.1 = .right bk') := by omega
    simp only [takeBalanced, lctx_peek, List.head?_cons, if_neg hst2, e2, lctx_next, List.tail_cons]
    rw [ih bk' lvl n rest out hv]

theorem readUntilBalanced_list {bk : BraceKind} {b : List Tok} (hb : Balanced bk b) (r : Tok) (hr : r.1 = .right bk)
    (rest out : List Tok) :
    readUntilBalanced bk (⟨b ++ r :: rest, out⟩ : LCtx) = (b, ⟨rest, out⟩) := by
  unfold readUntilBalanced
  have h := takeBalanced_list hb bk 0 (rest.length + 2) (r :: rest) out (Or.inl ⟨rfl, rfl⟩)
  have e : bound (⟨b ++ r :: rest, out⟩ : LCtx) = rest.length + 2 + b.length := by simp; omega
  rw [e, h]
  simp [takeBalanced, hr, eatIf]

/-! ### Definitions -/

theorem paramDigit_some {c : Char} (h : c ∈ "123456789".toList) : paramDigit c = some (c.toNat - '0'.toNat) := by
  have e : "123456789".toList = ['1', '2', '3', '4', '5', '6', '7', '8', '9'] := rfl
  rw [e] at h
  simp only [List.mem_cons, List.not_mem_nil, or_false] at h
  revert h
  rintro (rfl | rfl | rfl | rfl | rfl | rfl | rfl | rfl | rfl) <;> decide

theorem paramDigit_none {c : Char} (h : c ∉ "123456789".toList) : paramDigit c = none := by
  unfold paramDigit
  split
  · rename_i hc
    exfalso
    apply h
    obtain ⟨h1, h2⟩ := hc
    simp only [isAsciiDigit, Bool.and_eq_true, decide_eq_true_eq] at h1
    have h3 : c.toNat = 49 ∨ c.toNat = 50 ∨ c.toNat = 51 ∨ c.toNat = 52 ∨ c.toNat = 53 ∨ c.toNat = 54 ∨
      c.toNat = 55 ∨ c.toNat = 56 ∨ c.toNat = 57 := by omega
    have h4 : c = Char.ofNat c.toNat := (Char.ofNat_toNat c).symm
    rw [h4]
    rcases h3 with h3 | h3 | h3 | h3 | h3 | h3 | h3 | h3 | h3 <;> rw [h3] <;> decide
  · rfl

/-- What the loop yields before the emptied words are dropped. -/
theorem processDefLoop_marked {src st : List Tok} (h : Marked src st) :
    ∃ r b, processDefLoop src = .ok (r, b) ∧
      (r.filter fun t => t.1 ≠ .word || !t.2.isEmpty) = st ∧ (b = false → r = st) := by
  induction h with
  | nil => exact ⟨[], false, rfl, rfl, fun _ => rfl⟩
  | @param h d ds cs src st hd hn hr ih =>
    obtain ⟨r, b, h1, h2, h3⟩ := ih
    refine ⟨(.macroArg (d.toNat - '0'.toNat), h) :: (.word, cs) :: r, b || cs.isEmpty,
      by rw [processDefLoop, h1]; simp only [paramDigit_some hd], ?_, ?_⟩
    · rw [List.filter_cons, List.filter_cons]
      simp only [hn]
      cases cs <;> simp_all
    · intro hb
      cases cs <;> simp_all
  | @hashWord h c cs src st hd hr ih =>
    obtain ⟨r, b, h1, h2, h3⟩ := ih
    refine ⟨(.hash, h) :: (.word, c :: cs) :: r, b,
      by rw [processDefLoop, h1]; simp only [paramDigit_none hd], ?_, ?_⟩
    · simp_all
    · intro hb; simp_all
  | @hashOther h t src st ht hr ih =>
    obtain ⟨r, b, h1, h2, h3⟩ := ih
    obtain ⟨k, x⟩ := t
    refine ⟨(.hash, h) :: r, b, ?_, ?_, ?_⟩
    · rw [processDefLoop]
      · rw [h1]
      · simp
      · intro _ _ _ _ _ h; simp at h; exact absurd h.1.1 ht
    · simp_all
    · intro hb; simp_all
  | @tok t src st h1 h2 hr ih =>
    obtain ⟨r, b, h1', h2', h3⟩ := ih
    obtain ⟨k, x⟩ := t
    refine ⟨(k, x) :: r, b, ?_, ?_, ?_⟩
    · rw [processDefLoop]
      · rw [h1']
      · intro _ h; simp at h; exact absurd h.1 h1
      · intro _ _ _ _ h; simp at h; exact absurd h.1 h1
    · rw [List.filter_cons]
      simp only [h2']
      have : (decide (k ≠ .word) || !x.isEmpty) = true := by
        by_cases hk : k = .word
        · have := h2 hk
          cases x <;> simp_all
        · simp [hk]
      rw [if_pos this]
    · intro hb; simp_all

theorem processMacroDef_marked {src st : List Tok} (h : Marked src st) : processMacroDef src = .ok st := by
  obtain ⟨r, b, h1, h2, h3⟩ := processDefLoop_marked h
  unfold processMacroDef
  rw [h1]
  cases b with
  | false => simp [h3 rfl]
  | true => simp only [if_true]; rw [h2]

theorem digitChar_parse (n : Nat) (h : n ≤ 9) : parseU8 [Nat.digitChar n] = some n := by
  have : n = 0 ∨ n = 1 ∨ n = 2 ∨ n = 3 ∨ n = 4 ∨ n = 5 ∨ n = 6 ∨ n = 7 ∨ n = 8 ∨ n = 9 := by omega
  rcases this with rfl | rfl | rfl | rfl | rfl | rfl | rfl | rfl | rfl | rfl <;> decide

theorem readDefn_list {b txt : List Tok} (h : DefBody b txt) (rest out : List Tok) :
    readDefn (⟨txt ++ rest, out⟩ : LCtx) = (some b, ⟨rest, out⟩) ∧ ∃ t r, txt = t :: r ∧ t.1 ≠ .left .bracket := by
  cases h with
  | braced hb =>
    constructor
    · simp only [readDefn, List.cons_append, lctx_peek, List.head?_cons, lBrace, if_true, lctx_next, List.tail_cons,
        List.append_assoc, List.nil_append]
      rw [readUntilBalanced_list hb rBrace rfl]
    · exact ⟨_, _, rfl, by simp [lBrace]⟩
  | @single t h1 h2 =>
    exact ⟨by simp [readDefn, h1], _, _, rfl, h2⟩

theorem readNArgs_list {n : Nat} {opt : Option (List Tok)} {hdr : List Tok} (hh : DefHeader n opt hdr) {b txt : List Tok}
    (hb : DefBody b txt) (rest out : List Tok) :
    readNArgsOptDefn (⟨hdr ++ (txt ++ rest), out⟩ : LCtx) = (some (n, opt, b), ⟨rest, out⟩) := by
  obtain ⟨h1, t, r, ht, htb⟩ := readDefn_list hb rest out
  cases hh with
  | none =>
    rw [List.nil_append]
    unfold readNArgsOptDefn
    rw [ht] at h1 ⊢
    simp only [List.cons_append, lctx_peek, List.head?_cons, htb, if_false] at h1 ⊢
    rw [h1]
  | @args n ws ws' hn hw hw' =>
    unfold readNArgsOptDefn
    have e1 : (lBracket :: (ws ++ (Token.word, [n.digitChar]) :: (ws' ++ [rBracket]))) ++ (txt ++ rest) =
      lBracket :: (ws ++ (Token.word, [n.digitChar]) :: (ws' ++ rBracket :: (txt ++ rest))) := by simp
    rw [e1]
    rw [nextNotTrivia_list ws hw _ (by rfl)]
    simp only [lctx_peek, List.head?_cons, lBracket, if_true]
    unfold peekU8Opt
    rw [nextNotTrivia_list ws' hw' _ (by rfl)]
    simp only [lctx_peek, List.head?_cons, digitChar_parse n hn]
    rw [eatIf_list (.right .bracket) rBracket rfl]
    simp only [hn, if_true]
    unfold readOptDefn
    rw [ht] at h1 ⊢
    simp only [List.cons_append, lctx_peek, List.head?_cons, htb, if_false] at h1 ⊢
    rw [h1]
  | @opt n ws ws' dflt hn hw hw' hd =>
    unfold readNArgsOptDefn
    have e1 : (lBracket :: (ws ++ (Token.word, [n.digitChar]) :: (ws' ++ rBracket :: lBracket :: (dflt ++ [rBracket])))) ++ (txt ++ rest) =
      lBracket :: (ws ++ (Token.word, [n.digitChar]) :: (ws' ++ rBracket :: (lBracket :: (dflt ++ rBracket :: (txt ++ rest))))) := by simp
    rw [e1]
    rw [nextNotTrivia_list ws hw _ (by rfl)]
    simp only [lctx_peek, List.head?_cons, lBracket, if_true]
    unfold peekU8Opt
    rw [nextNotTrivia_list ws' hw' _ (by rfl)]
    simp only [lctx_peek, List.head?_cons, digitChar_parse n hn]
    rw [eatIf_list (.right .bracket) rBracket rfl]
    simp only [hn, if_true]
    unfold readOptDefn
    simp only [lctx_peek, List.head?_cons, if_true, lctx_next, List.tail_cons]
    rw [readUntilBalanced_list hd rBracket rfl]
    simp only
    rw [h1]

theorem readDeclName_cmd {d : DeclareCmdOrEnv} (hd : ∀ b, d ≠ .newEnvironment b) {name : Text} {txt : List Tok}
    (h : DefName (cmdTok name) txt) (x : Tok) (rest out : List Tok) :
    readDeclName d (⟨x :: (txt ++ rest), out⟩ : LCtx) = .ok (some name, ⟨rest, out⟩) := by
  obtain ⟨h1, h2, h3⟩ := h
  rename_i ws ws' ws''
  unfold readDeclName
  have e1 : x :: ((ws ++ lBrace :: (ws' ++ cmdTok name :: (ws'' ++ [rBrace]))) ++ rest) =
    x :: (ws ++ lBrace :: (ws' ++ cmdTok name :: (ws'' ++ rBrace :: rest))) := by simp
  rw [e1, nextNotTrivia_list ws h1 _ (by rfl)]
  have e2 : (lBrace.1) = .left .curly := rfl
  simp only [e2]
  rw [nextNotTrivia_list ws' h2 _ (by rfl)]
  unfold peekCmdNameOpt
  rw [nextNotTrivia_list ws'' h3 _ (by rfl)]
  simp only [lctx_peek, List.head?_cons, cmdTok]
  rw [eatIf_list (.right .curly) rBrace rfl]
  cases d with
  | newEnvironment b => exact absurd rfl (hd b)
  | _ => rfl

theorem readDeclName_env {renew : Bool} {name : Text} {txt : List Tok}
    (h : DefName (.word, name) txt) (x : Tok) (rest out : List Tok) :
    readDeclName (.newEnvironment renew) (⟨x :: (txt ++ rest), out⟩ : LCtx) = .ok (some name, ⟨rest, out⟩) := by
  obtain ⟨h1, h2, h3⟩ := h
  rename_i ws ws' ws''
  unfold readDeclName
  have e1 : x :: ((ws ++ lBrace :: (ws' ++ (Token.word, name) :: (ws'' ++ [rBrace]))) ++ rest) =
    x :: (ws ++ lBrace :: (ws' ++ (Token.word, name) :: (ws'' ++ rBrace :: rest))) := by simp
  rw [e1, nextNotTrivia_list ws h1 _ (by rfl)]
  have e2 : (lBrace.1) = .left .curly := rfl
  simp only [e2]
  rw [nextNotTrivia_list ws' h2 _ (by rfl)]
  unfold peekWordOpt
  rw [nextNotTrivia_list ws'' h3 _ (by rfl)]
  simp only [lctx_peek, List.head?_cons]
  rw [eatIf_list (.right .curly) rBrace rfl]

/-! ### Arguments -/

theorem splitWord_exact (w extra : Text) : ∀ (read : Nat), w ≠ [] → 
    splitWord (w ++ extra) read (read + w.length) = (w.map (fun c => [(Token.word, [c])]), extra, read + w.length) := by
  induction w with
  | nil => intro _ h; exact absurd rfl h
  | cons c cs ih =>
    intro read _
    simp only [List.cons_append, splitWord]
    cases cs with
    | nil => simp
    | cons d ds =>
      have := ih (read + 1) (by simp)
      have e : read + (c :: d :: ds).length = read + 1 + (d :: ds).length := by simp; omega
      rw [if_neg (by simp), e, this]
      simp

theorem readArgsLoop_list {n : Nat} {s : List Tok} {as : List (List Tok)} {left : List Tok}
    (h : CallArgs n s as left) : ∀ (read : Nat) (rest out : List Tok) (fuel : Nat), s.length < fuel → 0 < n →
    readArgsLoop fuel (read + n) read (⟨s ++ rest, out⟩ : LCtx) = (as, read + n, ⟨left ++ rest, out⟩) := by
  induction h with
  | done => intro _ _ _ _ _ h; omega
  | @braced n ws l b r s as left hw hl hr hb h ih =>
    intro read rest out fuel hf _
    obtain ⟨fuel, rfl⟩ : ∃ k, fuel = k + 1 := ⟨fuel - 1, by omega⟩
    have e1 : (ws ++ l :: (b ++ r :: s)) ++ rest = ws ++ l :: (b ++ r :: (s ++ rest)) := by simp
    rw [readArgsLoop, e1, peekNotTrivia_list ws hw l (by rw [hl]; rfl)]
    simp only [hl, lctx_next, List.tail_cons]
    rw [readUntilBalanced_list hb r hr]
    by_cases hn : n = 0
    · subst hn
      cases h
      simp
    · rw [if_neg (by omega)]
      have := ih (read + 1) rest out fuel (by simp at hf; omega) (by omega)
      have e2 : read + (n + 1) = read + 1 + n := by omega
      rw [e2]
      simp only [this]
  | @single n ws t s as left hw ht h1 h2 h ih =>
    intro read rest out fuel hf _
    obtain ⟨fuel, rfl⟩ : ∃ k, fuel = k + 1 := ⟨fuel - 1, by omega⟩
    have e1 : (ws ++ t :: s) ++ rest = ws ++ t :: (s ++ rest) := by simp
    rw [readArgsLoop, e1, peekNotTrivia_list ws hw t ht]
    obtain ⟨k, x⟩ := t
    simp only at h1 h2
    split
    · rename_i h; simp at h
    · rename_i h; simp at h; exact absurd h.1 h1
    · rename_i h; simp at h; exact absurd h.1 h2
    · rename_i h
      simp at h
      obtain ⟨h', rfl⟩ := h
      simp only [lctx_peek, List.head?_cons, lctx_next, List.tail_cons]
      by_cases hn : n = 0
      · subst hn
        rw [if_pos (by omega)]
        have hc : CallArgs 0 s as left := by assumption
        cases hc
        simp
      · rw [if_neg (by omega)]
        have := ih (read + 1) rest out fuel (by simp at hf; omega) (by omega)
        have e2 : read + (n + 1) = read + 1 + n := by omega
        rw [e2]
        simp only [this]
  | @chars n ws w extra hw hlen =>
    intro read rest out fuel hf _
    obtain ⟨fuel, rfl⟩ : ∃ k, fuel = k + 1 := ⟨fuel - 1, by omega⟩
    have e1 : (ws ++ [(Token.word, w ++ extra)]) ++ rest = ws ++ (Token.word, w ++ extra) :: rest := by simp
    rw [readArgsLoop, e1, peekNotTrivia_list ws hw _ (by rfl)]
    simp only [lctx_peek, List.head?_cons]
    have := splitWord_exact w extra read (by intro h; simp [h] at hlen)
    rw [hlen] at this
    rw [this]
    simp only [if_true]
    by_cases he : extra = []
    · simp [he]
    · simp [he]

theorem readMacroArgs_list {n : Nat} {s : List Tok} {as : List (List Tok)} {left : List Tok}
    (h : CallArgs n s as left) (opt : Option (List Tok)) (rest out : List Tok) :
    readMacroArgs n opt (⟨s ++ rest, out⟩ : LCtx) = (some as, ⟨left ++ rest, out⟩) := by
  unfold readMacroArgs
  by_cases hn : n = 0
  · subst hn
    cases h
    simp
  · rw [if_neg hn]
    have := readArgsLoop_list h 0 rest out (bound (⟨s ++ rest, out⟩ : LCtx)) (by simp; omega) (by omega)
    simp only [Nat.zero_add] at this
    simp only [this, if_true]

/-! ### Substitution -/

theorem expandTokens_subst (args : List (List Tok)) (bc : Int) (body : List Tok) (h : NoRecurse body) :
    expandTokens args false bc body = .ok (substitute args body) := by
  induction body with
  | nil => rfl
  | cons e es ih =>
    obtain ⟨h1, h2⟩ := h e (by simp)
    have ih := ih (fun t ht => h t (by simp [ht]))
    obtain ⟨k, x⟩ := e
    simp only at h1 h2
    unfold expandTokens
    rw [ih]
    split
    · rename_i hk; exact absurd hk h2
    · rename_i n hk
      simp only at hk
      subst hk
      simp [substitute]
    · rename_i hk
      simp only at hk
      subst hk
      obtain ⟨n, hx, hn⟩ := h1 rfl
      simp only [hx, stripBackslash, if_neg hn]
      simp [substitute]
    · rename_i g1 g2 g3
      simp only [substitute, List.flatMap_cons]
      cases k with
      | macroArg n =>
        cases n with
        | zero => exact absurd rfl h2
        | succ n => exact absurd rfl (g2 n)
      | _ => rfl

end Mitex
