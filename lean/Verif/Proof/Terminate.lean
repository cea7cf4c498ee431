/-
A weight that every step of the engine decreases when the macro table is acyclic and linear.
-/
import Verif.Proof.EngineInv

namespace Mitex
open TokStream

/-! ### Sums -/

def wsum (W : Tok → Nat) (l : List Tok) : Nat := (l.map W).sum

@[simp] theorem wsum_nil (W : Tok → Nat) : wsum W [] = 0 := rfl
@[simp] theorem wsum_cons (W : Tok → Nat) (t : Tok) (l : List Tok) : wsum W (t :: l) = W t + wsum W l := by simp [wsum]
@[simp] theorem wsum_append (W : Tok → Nat) (a b : List Tok) : wsum W (a ++ b) = wsum W a + wsum W b := by simp [wsum]

theorem wsum_suf {W : Tok → Nat} {a b : List Tok} (h : a <:+ b) : wsum W a ≤ wsum W b := by
  obtain ⟨p, rfl⟩ := h; simp

theorem wsum_mono {W V : Tok → Nat} {l : List Tok} (h : ∀ t ∈ l, W t ≤ V t) : wsum W l ≤ wsum V l := by
  induction l with
  | nil => simp
  | cons t l ih =>
    have h1 := h t (by simp)
    have h2 := ih fun t ht => h t (by simp [ht])
    simp; omega

theorem wsum_len {W : Tok → Nat} (h : ∀ t, 1 ≤ W t) (l : List Tok) : l.length ≤ wsum W l := by
  induction l with
  | nil => simp
  | cons t l ih => have := h t; simp; omega

def rsum (f : Nat → Nat) : Nat → Nat
  | 0 => 0
  | n + 1 => rsum f n + f n

theorem rsum_congr {f g : Nat → Nat} (n : Nat) (h : ∀ k, k < n → f k = g k) : rsum f n = rsum g n := by
  induction n with
  | zero => rfl
  | succ n ih => rw [rsum, rsum, ih fun k hk => h k (by omega), h n (by omega)]

theorem rsum_split (f : Nat → Nat) (n k : Nat) (h : k < n) :
    rsum f n = rsum (fun i => if i = k then 0 else f i) n + f k := by
  induction n with
  | zero => omega
  | succ n ih =>
    rw [rsum, rsum]
    by_cases hk : k = n
    · subst hk
      rw [rsum_congr k (f := fun i => if i = k then 0 else f i) (g := f) fun i hi => if_neg (by omega)]
      simp
    · rw [ih (by omega), if_neg (by omega : ¬ n = k)]; omega

/-- The weight of the arguments a body asks for. -/
def pw (f : Nat → Nat) (l : List Tok) : Nat :=
  (l.map fun t => match t.1 with | .macroArg (n + 1) => f n | _ => 0).sum

theorem pw_append (f : Nat → Nat) (a b : List Tok) : pw f (a ++ b) = pw f a + pw f b := by simp [pw]

theorem pw_cons (f : Nat → Nat) (t : Tok) (b : List Tok) : pw f (t :: b) =
    (match t.1 with | .macroArg (n + 1) => f n | _ => 0) + pw f b := by simp [pw]

theorem pw_congr {f g : Nat → Nat} (l : List Tok) (h : ∀ n, .macroArg (n + 1) ∈ l.map (·.1) → f n = g n) :
    pw f l = pw g l := by
  induction l with
  | nil => rfl
  | cons t l ih =>
    rw [pw_cons, pw_cons, ih fun n hn => h n (by simp only [List.map_cons, List.mem_cons]; exact Or.inr hn)]
    split
    · rename_i n hn
      rw [h n (by simp [hn])]
    · rfl

theorem pw_linear (l : List Tok) : ∀ (f : Nat → Nat) (N : Nat), (∀ n, N ≤ n → f n = 0) →
    (∀ d, (l.map (·.1)).count (.macroArg d) ≤ 1) → pw f l ≤ rsum f N := by
  induction l with
  | nil => intro f N _ _; simp [pw]
  | cons t l ih =>
    intro f N hf hl
    rw [pw_cons]
    have hl' : ∀ d, (l.map (·.1)).count (.macroArg d) ≤ 1 := by
      intro d
      have := hl d
      rw [List.map_cons, List.count_cons] at this
      omega
    split
    · rename_i n hn
      by_cases hN : n < N
      · have h1 := ih (fun i => if i = n then 0 else f i) N (fun i hi => by
          split
          · rfl
          · exact hf i hi) hl'
        have h2 : pw f l = pw (fun i => if i = n then 0 else f i) l := by
          refine pw_congr l fun k hk => ?_
          have hkn : k ≠ n := by
            rintro rfl
            have := hl (k + 1)
            rw [List.map_cons, List.count_cons] at this
            have h3 := List.count_pos_iff.mpr hk
            rw [hn, if_pos (by simp)] at this
            omega
          simp [hkn]
        rw [rsum_split f N n hN, h2]; omega
      · rw [hf n (by omega)]
        have := ih f N hf hl'
        omega
    · have := ih f N hf hl'
      omega

theorem rsum_args (W : Tok → Nat) (args : List (List Tok)) : ∀ k,
    rsum (fun n => wsum W ((args[n]?).getD [])) k ≤ wsum W args.flatten := by
  intro k
  have key : ∀ (args : List (List Tok)), rsum (fun n => wsum W ((args[n]?).getD [])) args.length = wsum W args.flatten := by
    intro args
    have gen : ∀ (k : Nat), k ≤ args.length → rsum (fun n => wsum W ((args[n]?).getD [])) k = wsum W (args.take k).flatten := by
      intro k
      induction k with
      | zero => intro _; rfl
      | succ k ih =>
        intro hk
        rw [rsum, ih (by omega), List.take_succ_eq_append_getElem (by omega)]
        simp only [List.getElem?_eq_getElem (by omega : k < args.length), List.flatten_append, wsum_append, Option.getD_some,
          List.flatten_cons, List.flatten_nil, List.append_nil]
    have := gen args.length (Nat.le_refl _)
    simpa using this
  by_cases hk : k ≤ args.length
  · rw [← key args]
    have mono : ∀ (f : Nat → Nat) (a b : Nat), a ≤ b → rsum f a ≤ rsum f b := by
      intro f a b hab
      induction hab with
      | refl => exact Nat.le_refl _
      | step _ ih => rw [rsum]; omega
    exact mono _ _ _ hk
  · rw [← key args]
    have : ∀ j, rsum (fun n => wsum W ((args[n]?).getD [])) (args.length + j) =
        rsum (fun n => wsum W ((args[n]?).getD [])) args.length := by
      intro j
      induction j with
      | zero => rfl
      | succ j ih =>
        rw [← Nat.add_assoc, rsum, ih]
        simp
    obtain ⟨j, hj⟩ := Nat.exists_eq_add_of_le (by omega : args.length ≤ k)
    rw [hj, this]
    exact Nat.le_refl _

/-! ### The weight of what the engine builds -/

/-- A weight that respects the splitting of words. -/
structure WordWeight (W : Tok → Nat) : Prop where
  pos : ∀ t, 1 ≤ W t
  word : ∀ w, W (.word, w) = max 1 w.length

theorem expandTokens_weight {W : Tok → Nat} {args : List (List Tok)} (body : List Tok) : ∀ (b : Bool) (bc : Int) r,
    expandTokens args b bc body = .ok r → wsum W r ≤ wsum W body + pw (fun n => wsum W ((args[n]?).getD [])) body := by
  induction body with
  | nil => intro b bc r h; cases b <;> (cases h; simp)
  | cons e es ih =>
    intro b bc r h
    rw [pw_cons, wsum_cons]
    cases b with
    | false =>
      rw [expandTokens] at h
      have copy : ∀ {res : Res (List Tok)}, (∀ x, expandTokens args false bc es = .error x → res = .error x) →
          (∀ r, expandTokens args false bc es = .ok r → res = .ok (e :: r)) → res = .ok r →
          wsum W r ≤ W e + wsum W es + pw (fun n => wsum W ((args[n]?).getD [])) es := by
        intro res h1 h2 h
        cases hr : expandTokens args false bc es with
        | error x => rw [h1 x hr] at h; cases h
        | ok r' =>
          rw [h2 r' hr] at h
          cases h
          have := ih _ _ _ hr
          simp; omega
      split at h
      · cases h
      · rename_i n hn
        cases hr : expandTokens args false bc es with
        | error x => rw [hr] at h; cases h
        | ok r' =>
          rw [hr] at h
          cases h
          have := ih _ _ _ hr
          simp only [hn, wsum_append]
          omega
      · split at h
        · cases h
        · split at h
          · have := ih _ _ _ h
            omega
          · have := copy (fun x hx => by rw [hx]) (fun r hr => by rw [hr]) h
            omega
      · have := copy (fun x hx => by rw [hx]) (fun r hr => by rw [hr]) h
        omega
    | true =>
      rw [expandTokens] at h
      have copy : ∀ {res : Res (List Tok)} {bc'}, (∀ x, expandTokens args true bc' es = .error x → res = .error x) →
          (∀ r', expandTokens args true bc' es = .ok r' → res = .ok (e :: r') ∨ res = .ok r') → res = .ok r →
          wsum W r ≤ W e + wsum W es + pw (fun n => wsum W ((args[n]?).getD [])) es := by
        intro res bc' h1 h2 h
        cases hr : expandTokens args true bc' es with
        | error x => rw [h1 x hr] at h; cases h
        | ok r' =>
          have := ih _ _ _ hr
          rcases h2 r' hr with h3 | h3
          · rw [h3] at h; cases h; simp; omega
          · rw [h3] at h; cases h; omega
      split at h
      · have := copy (bc' := bc + 1) (fun x hx => by rw [hx]) (fun r' hr => by
          rw [hr]; simp only; split
          · exact Or.inl rfl
          · exact Or.inr rfl) h
        omega
      · split at h
        · split at h
          · have := ih _ _ _ h; omega
          · have := copy (bc' := bc - 1) (fun x hx => by rw [hx]) (fun r' hr => by rw [hr]; exact Or.inl rfl) h
            omega
        · split at h
          · have := copy (bc' := bc) (fun x hx => by rw [hx]) (fun r' hr => by rw [hr]; exact Or.inl rfl) h
            omega
          · split at h
            · cases hr : expandTokens args false bc es with
              | error x => rw [hr] at h; cases h
              | ok r' =>
                rw [hr] at h
                cases h
                have := ih _ _ _ hr
                simp; omega
            · have := ih _ _ _ h; omega

theorem nextNotTriviaN_peek (n : Nat) : ∀ (c : LCtx) k c1, nextNotTriviaN n c = (some k, c1) →
    ∃ t, peek c1 = some t ∧ t.1 = k := by
  induction n with
  | zero => intro c k c1 h; cases h
  | succ n ih =>
    intro c k c1 h
    rw [nextNotTriviaN] at h
    split at h
    · cases h
    · rename_i t ht
      split at h
      · exact ih _ _ _ h
      · cases h; exact ⟨t, ht, rfl⟩

theorem peekNotTrivia_peek {c : LCtx} {k : Token} {c1 : LCtx} (h : peekNotTrivia c = (some k, c1)) :
    ∃ t, peek c1 = some t ∧ t.1 = k := by
  unfold peekNotTrivia at h
  split at h
  · exact nextNotTriviaN_peek _ _ _ _ h
  · rename_i t ht
    split at h
    · exact nextNotTriviaN_peek _ _ _ _ h
    · cases h; exact ⟨t, ht, rfl⟩

theorem wsum_chars {W : Tok → Nat} (hW : WordWeight W) (a : Text) :
    wsum W (a.map fun c => [((Token.word, [c]) : Tok)]).flatten = a.length := by
  induction a with
  | nil => rfl
  | cons c a ih =>
    simp only [List.map_cons, List.flatten_cons, wsum_append, wsum_cons, wsum_nil, ih, hW.word, List.length_cons, List.length_nil]
    omega

theorem readArgsLoop_weight {W : Tok → Nat} (hW : WordWeight W) (fuel : Nat) : ∀ (num read : Nat) (c : LCtx),
    wsum W (readArgsLoop fuel num read c).1.flatten + wsum W (readArgsLoop fuel num read c).2.2.inp ≤ wsum W c.inp := by
  induction fuel with
  | zero => intro num read c; simp [readArgsLoop]
  | succ fuel ih =>
    intro num read c
    rw [readArgsLoop]
    have hs := peekNotTrivia_suf c
    cases hp : peekNotTrivia c with
    | mk o c1 =>
      rw [hp] at hs
      simp only at hs
      have hw := wsum_suf (W := W) hs.1
      split
      · rename_i he; cases he; simpa using hw
      · rename_i he
        cases he
        obtain ⟨mid, h1, _⟩ := readUntilBalanced_split .curly (TokStream.next c1)
        have h2 := congrArg (wsum W) h1
        simp only [wsum_append] at h2
        have h3 := wsum_suf (W := W) (Suf.next c1).1
        simp only
        split
        · simp; omega
        · have := ih num (read + 1) (readUntilBalanced .curly (TokStream.next c1)).2
          simp; omega
      · rename_i he
        cases he
        obtain ⟨t, ht, hk⟩ := peekNotTrivia_peek hp
        rw [ht]
        simp only
        obtain ⟨a, e1, e2⟩ := splitWord_split t.2 read num
        have hcons := congrArg (wsum W) (peek_cons ht)
        have hwt : W t = max 1 t.2.length := by rw [← hW.word, ← hk]
        have hlen : t.2.length = a.length + (splitWord t.2 read num).2.1.length := by
          have := congrArg List.length e1; simpa using this
        have hc2 : wsum W (splitWord t.2 read num).1.flatten + wsum W (if (splitWord t.2 read num).2.1 ≠ [] then
            setPeek (.word, (splitWord t.2 read num).2.1) c1 else TokStream.next c1).inp ≤ wsum W c1.inp := by
          rw [e2, wsum_chars hW, hcons, wsum_cons, hwt]
          split
          · rename_i hne
            have e3 : (setPeek (Token.word, (splitWord t.2 read num).2.1) c1).inp =
              (.word, (splitWord t.2 read num).2.1) :: (TokStream.next c1).inp := rfl
            rw [e3, wsum_cons, hW.word]
            have := List.length_pos_iff.mpr hne
            omega
          · omega
        split
        · simp only; omega
        · split
          · simp only; omega
          · have := ih num ((splitWord t.2 read num).2.2 + 1) (if (splitWord t.2 read num).2.1 ≠ [] then
              setPeek (.word, (splitWord t.2 read num).2.1) c1 else TokStream.next c1)
            simp only [List.flatten_append, wsum_append]
            omega
      · rename_i he
        cases he
        cases hpk : peek c1 with
        | none => simpa using hw
        | some t =>
          simp only
          have hcons := congrArg (wsum W) (peek_cons hpk)
          rw [wsum_cons] at hcons
          split
          · simp; omega
          · have := ih num (read + 1) (TokStream.next c1)
            simp; omega

theorem readMacroArgs_weight {W : Tok → Nat} (hW : WordWeight W) (num : Nat) (opt : Option (List Tok)) (c : LCtx) :
    wsum W (readMacroArgs num opt c).2.inp ≤ wsum W c.inp ∧
    ∀ as, (readMacroArgs num opt c).1 = some as →
      wsum W as.flatten + wsum W (readMacroArgs num opt c).2.inp ≤ wsum W c.inp + wsum W (opt.getD []) := by
  have h := readArgsLoop_weight hW (bound c) num 0 c
  unfold readMacroArgs
  split
  · exact ⟨Nat.le_refl _, fun as h => by cases h; simp⟩
  · simp only
    split
    · exact ⟨by simp only; omega, fun as h => by cases h; simp only; omega⟩
    · split
      · split
        · refine ⟨by simp only; omega, fun as h => ?_⟩
          cases h
          simp only [List.flatten_append, wsum_append, Option.getD_some, List.flatten_cons, List.flatten_nil, List.append_nil]
          omega
        · refine ⟨?_, fun as h => (by cases h)⟩
          show wsum W (readArgsLoop (bound c) num 0 c).2.2.inp ≤ _
          omega
      · refine ⟨?_, fun as h => (by cases h)⟩
        show wsum W (readArgsLoop (bound c) num 0 c).2.2.inp ≤ _
        omega

theorem readEnvBody_weight {W : Tok → Nat} (fuel : Nat) : ∀ (name : Text) (bc : Nat) (c : LCtx),
    wsum W (readEnvBody fuel name bc c).2.inp ≤ wsum W c.inp ∧ ∀ b, (readEnvBody fuel name bc c).1 = some b →
      wsum W b + wsum W (readEnvBody fuel name bc c).2.inp ≤ wsum W c.inp := by
  induction fuel with
  | zero => intro name bc c; exact ⟨Nat.le_refl _, fun b h => (by cases h)⟩
  | succ fuel ih =>
    intro name bc c
    rw [readEnvBody]
    cases hp : peek c with
    | none => exact ⟨Nat.le_refl _, fun b h => (by cases h)⟩
    | some t =>
      have hcons := congrArg (wsum W) (peek_cons hp)
      rw [wsum_cons] at hcons
      have cont : ∀ bc (r : Option (List Tok) × LCtx),
          (∀ c2, readEnvBody fuel name bc (TokStream.next c) = (none, c2) → r = (none, c2)) →
          (∀ b c2, readEnvBody fuel name bc (TokStream.next c) = (some b, c2) → r = (some (t :: b), c2)) →
          wsum W r.2.inp ≤ wsum W c.inp ∧ ∀ b, r.1 = some b → wsum W b + wsum W r.2.inp ≤ wsum W c.inp := by
        intro bc r g1 g2
        have := ih name bc (TokStream.next c)
        cases hr : readEnvBody fuel name bc (TokStream.next c) with
        | mk o c2 =>
          rw [hr] at this
          cases o with
          | none =>
            rw [g1 c2 hr]
            refine ⟨?_, fun b h => (by cases h)⟩
            have := this.1
            simp only at this ⊢; omega
          | some b =>
            rw [g2 b c2 hr]
            have h1 := this.1
            have h2 := this.2 b rfl
            simp only at h1 h2
            refine ⟨by simp only; omega, fun b' h => ?_⟩
            cases h
            simp only [wsum_cons]
            omega
      simp only
      split
      · split
        · split
          · exact ⟨Nat.le_refl _, fun b h => (by cases h)⟩
          · refine ⟨by simp only; omega, fun b h => ?_⟩
            cases h
            simp only [wsum_nil]; omega
        · exact cont _ _ (fun c2 h => by rw [h]) (fun b c2 h => by rw [h])
      · exact cont _ _ (fun c2 h => by rw [h]) (fun b c2 h => by rw [h])

/-- A weight for the calls of a table. -/
structure CallWeight (W : Tok → Nat) (m : MacroTable) : Prop extends WordWeight W where
  call : ∀ t body, Stored m t body → wsum W body < W t

theorem trappedByMacro_weight {W : Tok → Nat} {m : MacroTable} (hW : CallWeight W m) (hlin : Linear m) {e : Eng} (he : e.macros = m)
    {c : LCtx} {t : Tok} (hp : peek c = some t) (name : Text) (isEnv : Bool)
    (ht : if isEnv then t = (.cmd .beginEnv, name) else t = cmdTok name ∧ ∀ d, m name ≠ some (.declare (.cmdOrEnv d)))
    {e' : Eng} {c' : LCtx} (h : trappedByMacro e c t name isEnv = .ok (e', c')) :
    e'.macros = m ∧ wsum W c'.inp < wsum W c.inp := by
  have hcons := congrArg (wsum W) (peek_cons hp)
  rw [wsum_cons] at hcons
  have hpos := hW.pos t
  have skip : ∀ {e' : Eng} {c' : LCtx}, e' = e → c' = TokStream.next (emit t c) → e'.macros = m ∧ wsum W c'.inp < wsum W c.inp := by
    rintro _ _ rfl rfl
    refine ⟨he, ?_⟩
    show wsum W (TokStream.next c).inp < _
    omega
  unfold trappedByMacro at h
  rw [he] at h
  split at h
  · cases h; exact skip rfl rfl
  · rename_i d hd
    split at h
    · cases h; exact skip rfl rfl
    · rename_i hne
      rw [if_neg hne] at ht
      exact absurd hd (ht.2 d)
  · cases h; exact skip rfl rfl
  · rename_i nm num opt body hd
    split at h
    · cases h; exact skip rfl rfl
    · rename_i hne
      rw [if_neg hne] at ht
      have hcall := hW.call _ _ (ht.1 ▸ Stored.cmd hd)
      rw [wsum_append] at hcall
      have ha := readMacroArgs_weight hW.toWordWeight num opt (TokStream.next c)
      split at h
      · rename_i c1 hr
        rw [hr] at ha
        cases h
        have := ha.1
        exact ⟨he, by simp only at this; omega⟩
      · rename_i args c1 hr
        rw [hr] at ha
        have h2 := ha.2 args rfl
        simp only at h2
        split at h
        · cases h
        · rename_i ex hex
          cases h
          refine ⟨he, ?_⟩
          show wsum W (ex ++ c1.inp) < _
          have h3 := expandTokens_weight (W := W) body _ _ _ hex
          have h4 := pw_linear body (fun n => wsum W ((args[n]?).getD [])) args.length (fun n hn => by simp [hn])
            (hlin.1 _ _ _ _ _ hd)
          have h5 := rsum_args W args args.length
          rw [wsum_append]
          omega
  · rename_i nm num opt bdef edef hd
    split at h
    · cases h; exact skip rfl rfl
    · rename_i hne
      have : isEnv = true := by simpa using hne
      subst this
      simp only [if_true] at ht
      have hcall := hW.call _ _ (ht ▸ Stored.env hd)
      rw [wsum_append, wsum_append] at hcall
      have ha := readMacroArgs_weight hW.toWordWeight num opt (TokStream.next c)
      split at h
      · rename_i c1 hr
        rw [hr] at ha
        cases h
        have := ha.1
        exact ⟨he, by simp only at this; omega⟩
      · rename_i args c1 hr
        rw [hr] at ha
        have h2 := ha.2 args rfl
        simp only at h2
        have hb := readEnvBody_weight (W := W) (bound c1) nm 0 c1
        split at h
        · rename_i c2 hr2
          rw [hr2] at hb
          cases h
          have := hb.1
          exact ⟨he, by simp only at this; omega⟩
        · rename_i b c2 hr2
          rw [hr2] at hb
          have hb2 := hb.2 b rfl
          simp only at hb2
          split at h
          · cases h
          · rename_i eb heb
            split at h
            · cases h
            · rename_i ee hee
              cases h
              refine ⟨he, ?_⟩
              show wsum W (eb ++ b ++ ee ++ c2.inp) < _
              have h3 := expandTokens_weight (W := W) bdef _ _ _ heb
              have h3' := expandTokens_weight (W := W) edef _ _ _ hee
              have h4 := pw_linear (bdef ++ edef) (fun n => wsum W ((args[n]?).getD [])) args.length (fun n hn => by simp [hn])
                (hlin.2 _ _ _ _ _ _ hd)
              rw [pw_append] at h4
              have h5 := rsum_args W args args.length
              simp only [wsum_append]
              omega

theorem engStep_weight {W : Tok → Nat} {m : MacroTable} (hW : CallWeight W m) (hlin : Linear m) {e : Eng} (he : e.macros = m)
    {c : LCtx} {t : Tok} (hp : peek c = some t) (ht : Quiet m t) {e' : Eng} {c' : LCtx} (h : engStep e c t = .ok (e', c')) :
    e'.macros = m ∧ wsum W c'.inp < wsum W c.inp := by
  have hcons := congrArg (wsum W) (peek_cons hp)
  rw [wsum_cons] at hcons
  have hpos := hW.pos t
  have suf : ∀ {c' : LCtx}, Suf (TokStream.next c) c' → wsum W c'.inp < wsum W c.inp := by
    intro c' h
    have := wsum_suf (W := W) h.1
    omega
  unfold engStep at h
  split at h
  · rename_i i _
    have h : trappedByIf e c t i = (e', c') := by injection h
    unfold trappedByIf at h
    split at h <;> cases h <;> refine ⟨he, ?_⟩
    all_goals first
      | exact suf (.refl _)
      | (show wsum W (TokStream.next c).inp < _; omega)
  · have h : trappedByElse e c t = (e', c') := by injection h
    unfold trappedByElse at h
    split at h <;> cases h <;> refine ⟨he, ?_⟩
    all_goals first
      | exact suf (.refl _)
      | exact suf (skipFalse_suf _ _ _)
      | (show wsum W (TokStream.next c).inp < _; omega)
  · have h : trappedByEndif e c t = (e', c') := by injection h
    unfold trappedByEndif at h
    split at h <;> cases h <;> refine ⟨he, ?_⟩
    all_goals first
      | exact suf (.refl _)
      | (show wsum W (TokStream.next c).inp < _; omega)
  · rename_i hk
    obtain ⟨name, hn, hd⟩ := ht hk
    split at h
    · cases h
    · rename_i nm hnm
      refine trappedByMacro_weight hW hlin he hp nm false ?_ h
      simp only [Bool.false_eq_true, if_false]
      rw [hn] at hnm
      simp only [cmdTok, dropBytes_backslash] at hnm
      cases hnm
      exact ⟨hn, hd⟩
  · rename_i hk
    exact trappedByMacro_weight hW hlin he hp t.2 true (by simp only [if_true]; rw [← hk]) h
  · cases h
    refine ⟨he, ?_⟩
    show wsum W (TokStream.next c).inp < _
    omega

/-! ### The weight of an acyclic table -/

/-- The own size of a token. -/
def ownSize (t : Tok) : Nat := if t.1 = .word then max 1 t.2.length else 1

/-- The tokens stored for a call, as a function. -/
def storedOf (m : MacroTable) (t : Tok) : List Tok :=
  match t.1 with
  | .cmd .generic =>
    match m t.2.tail with
    | some (.cmd _ _ opt body) => body ++ opt.getD []
    | _ => []
  | .cmd .beginEnv =>
    match m t.2 with
    | some (.env _ _ opt b d) => b ++ d ++ opt.getD []
    | _ => []
  | _ => []

theorem stored_storedOf {m : MacroTable} {t : Tok} {body : List Tok} (h : Stored m t body) : storedOf m t = body := by
  cases h with
  | cmd h => simp [storedOf, cmdTok, h]
  | env h => simp [storedOf, h]

def weightN (m : MacroTable) : Nat → Tok → Nat
  | 0, t => ownSize t
  | k + 1, t => ownSize t + wsum (weightN m k) (storedOf m t)

theorem weightN_mono (m : MacroTable) (k : Nat) : ∀ t, weightN m k t ≤ weightN m (k + 1) t := by
  induction k with
  | zero => intro t; simp only [weightN]; omega
  | succ k ih =>
    intro t
    rw [weightN, weightN]
    have := wsum_mono (l := storedOf m t) fun u _ => ih u
    omega

theorem weightN_le (m : MacroTable) {j k : Nat} (h : j ≤ k) (t : Tok) : weightN m j t ≤ weightN m k t := by
  induction h with
  | refl => exact Nat.le_refl _
  | step _ ih => exact Nat.le_trans ih (weightN_mono m _ t)

theorem weightN_own (m : MacroTable) (k : Nat) (t : Tok) : ownSize t ≤ weightN m k t := by
  cases k <;> simp [weightN]

theorem acyclic_weight {m : MacroTable} (h : Acyclic m) : ∃ W, CallWeight W m := by
  obtain ⟨rank, hr⟩ := h
  refine ⟨fun t => weightN m (rank t) t, ⟨fun t => ?_, fun w => ?_⟩, fun t body hs => ?_⟩
  · refine Nat.le_trans ?_ (weightN_own m _ t)
    unfold ownSize; split <;> omega
  · have : ∀ k, weightN m k (.word, w) = max 1 w.length := by
      intro k
      cases k <;> simp [weightN, ownSize, storedOf]
    exact this _
  · have hown : 1 ≤ ownSize t := by unfold ownSize; split <;> omega
    cases hb : body with
    | nil => have := weightN_own m (rank t) t; simp; omega
    | cons u us =>
      rw [← hb]
      have hpos : rank u < rank t := hr t body hs u (by simp [hb])
      obtain ⟨k, hk⟩ : ∃ k, rank t = k + 1 := ⟨rank t - 1, by omega⟩
      rw [hk, weightN, stored_storedOf hs]
      have : wsum (fun t => weightN m (rank t) t) body ≤ wsum (weightN m k) body :=
        wsum_mono fun v hv => weightN_le m (by have := hr t body hs v hv; omega) v
      omega

end Mitex
