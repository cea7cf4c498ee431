/-
The captures of patterns without braces (C73).
-/
import Verif.Spec.GlobCapture
import Verif.Proof.GlobCapture
import Verif.Proof.GlobStars

namespace Mitex.Glob
open GlobSpec

section
variable {glob path : List Nat} {pre neg : Bool}

theorem mismatchC_nil {s : CState} {b : CBraces} {caps : List Capture} (hb : b.stack = []) :
    (∃ r, afterMismatchC glob path pre neg s b caps = .ret r caps ∧ (pre = false → r = neg)) ∨
    (0 < s.wild.p ∧ s.wild.p ≤ path.length ∧ afterMismatchC glob path pre neg s b caps = .cont (backtrackC s) b caps) := by
  unfold afterMismatchC
  dsimp only
  split
  · rename_i h
    exact .inr ⟨h.1, h.2, rfl⟩
  · rw [hb]
    refine .inl ⟨_, rfl, fun h => ?_⟩
    rw [h]; simp

/-- A round without braces at something else than a star. -/
theorem stepC_shape {s : CState} {b : CBraces} {caps : List Capture} (hb : b.stack = []) {g : Nat} (hg : glob[s.glob]? = some g)
    (h42 : g ≠ 42) (h123 : g ≠ 123) :
    (∃ i, stepC glob path pre neg s b caps = afterMismatchC glob path pre neg { s with glob := i } b caps) ∨
    stepC glob path pre neg s b caps = .ret false caps ∨
    (∃ i w, s.glob < i ∧ s.path < path.length ∧ w.g = s.star.g ∧ w.cap = s.star.cap ∧ (w.p = 0 ∨ w.p = s.star.p) ∧
      stepC glob path pre neg s b caps =
        if g = 63 ∨ g = 91 then .cont ⟨s.path + 1, i, endCapture s.cap caps + 1, s.wild, w⟩ b (beginCapture (endCapture s.cap caps) (s.path, s.path + 1) caps)
        else .cont ⟨s.path + 1, i, endCapture s.cap caps, s.wild, w⟩ b caps) := by
  unfold stepC
  rw [hg]
  dsimp only
  rw [if_neg h42]
  cases hp : path[s.path]? with
  | none =>
    dsimp only
    rw [if_neg (fun h => h.2 hb), if_neg (fun h => h.2 hb)]
    exact .inl ⟨s.glob, rfl⟩
  | some pc =>
    have hlt := lt_of_get hp
    dsimp only
    by_cases h1 : g = bQuest
    · rw [if_pos h1]
      split
      · exact .inr (.inr ⟨s.glob + 1, s.star, by omega, hlt, rfl, rfl, .inr rfl, by rw [if_pos (.inl h1)]; rfl⟩)
      · exact .inl ⟨s.glob, rfl⟩
    rw [if_neg h1]
    by_cases h2 : g = bLBrack
    · rw [if_pos h2]
      generalize hi : (if decide (glob[s.glob + 1]? = some bCaret ∨ glob[s.glob + 1]? = some bBang) = true then s.glob + 1 + 1 else s.glob + 1) = i0
      have hi0 : s.glob < i0 := by
        rw [← hi]; split <;> omega
      cases hcl : classLoop glob pc (glob.length + 1) i0 true false with
      | none => exact .inr (.inl rfl)
      | some r =>
        obtain ⟨m, i⟩ := r
        have hmono := classLoop_le _ _ _ _ _ _ _ _ hcl
        dsimp only
        split
        · exact .inr (.inl rfl)
        · split
          · exact .inr (.inr ⟨i + 1, s.star, by omega, hlt, rfl, rfl, .inr rfl, by rw [if_pos (.inr h2)]; rfl⟩)
          · exact .inl ⟨i + 1, rfl⟩
    rw [if_neg h2, if_neg h123, if_neg (fun h => h.2 hb), if_neg (fun h => h.2 hb)]
    cases hu : unescape g glob s.glob with
    | none => exact .inr (.inl rfl)
    | some r =>
      obtain ⟨c, i⟩ := r
      have hui : s.glob ≤ i := by
        unfold unescape at hu
        split at hu
        · split at hu
          · cases hu
          · cases hu; omega
        · cases hu; omega
      dsimp only
      by_cases h5 : (if c = bSlash then pc = bSlash else pc = c)
      · rw [if_pos h5, if_neg (fun h => h.1 hb)]
        dsimp only
        refine .inr (.inr ⟨i + 1, if c ≠ bSlash then { s.star with p := 0 } else s.star, by omega, hlt, ?_, ?_, ?_, ?_⟩)
        · split <;> rfl
        · split <;> rfl
        · split
          · exact .inl rfl
          · exact .inr rfl
        · rw [if_neg (show ¬ (g = 63 ∨ g = 91) from fun h => h.elim h1 h2)]
      · rw [if_neg h5]
        exact .inl ⟨i, rfl⟩

/-- A round at a star; `47` is the separator. -/
theorem star_stepC {s : CState} {b : CBraces} {caps : List Capture} {d : Bool} {tl : List Nat} (hb : b.stack = [])
    (hd : glob.drop s.glob = (Bit.star d).bytes ++ tl) (hn : d = false → tl.head? ≠ some 42)
    (hD : (47 ∉ glob ∧ 47 ∉ path) ∨ (d = false ∧ s.star.p = 0)) :
    ∃ w, (d = false → s.star.p = 0 → w.p = 0) ∧ stepC glob path pre neg s b caps =
      .cont ⟨s.path, s.glob + (Bit.star d).bytes.length, s.cap,
        ⟨s.glob, if path[s.path]? = some 47 then 0 else s.path + 1, if caps = [] ∨ s.glob ≠ s.wild.g then s.cap else s.wild.cap⟩, w⟩ b
        (if caps = [] ∨ s.glob ≠ s.wild.g then beginCapture s.cap (s.path, s.path) caps else extendCapture s.cap s.path caps) := by
  cases d with
  | false =>
    have hg : glob[s.glob]? = some 42 := by simpa [Bit.bytes] using get_drop0 hd
    have hg1 : ¬ glob[s.glob + 1]? = some 42 := by
      have := get_drop hd 1
      simp only [Bit.bytes, Bool.false_eq_true, if_false, Char.reduceToNat, List.singleton_append, List.getElem?_cons_succ] at this
      rw [this, ← List.head?_eq_getElem?]
      exact hn rfl
    unfold stepC
    simp only [hg, bStar, if_true, starArmC, hg1, decide_false, Bool.false_eq_true, if_false, Bit.bytes, List.length_singleton, ne_eq, hb,
      not_true_eq_false, false_and, decide_eq_true_eq]
    by_cases hp : path[s.path]? = some 47
    · have h0 : s.star.p = 0 := by
        rcases hD with ⟨-, h⟩ | ⟨-, h⟩
        · exact absurd (List.mem_of_getElem? hp) h
        · exact h
      rw [if_pos (show ¬ s.star.p = s.path + 1 ∧ path[s.path]? = some bSlash from ⟨by omega, hp⟩),
        if_neg (show ¬ (0 < s.star.p ∧ s.path + 1 < path.length) by omega), if_pos hp]
      exact ⟨_, fun _ _ => h0, rfl⟩
    · rw [if_neg (show ¬ (¬ s.star.p = s.path + 1 ∧ path[s.path]? = some bSlash) from fun h => hp h.2), if_neg hp]
      exact ⟨_, fun _ h => h, rfl⟩
  | true =>
    obtain ⟨hg47, hp47⟩ : 47 ∉ glob ∧ 47 ∉ path := by
      rcases hD with h | ⟨h, -⟩
      · exact h
      · cases h
    have hg : glob[s.glob]? = some 42 := by simpa [Bit.bytes] using get_drop0 hd
    have hg1 : glob[s.glob + 1]? = some 42 := by simpa [Bit.bytes] using get_drop hd 1
    have hsk : skipGlobstars glob glob.length (s.glob + 2) = s.glob + 2 := by
      have hlt := lt_of_get hg
      cases hl : glob.length with
      | zero => omega
      | succ m =>
        rw [skipGlobstars, if_neg]
        rintro ⟨h, -⟩
        exact hg47 (List.mem_of_getElem? h)
    have hp : ¬ path[s.path]? = some 47 := fun h => hp47 (List.mem_of_getElem? h)
    have hs : ¬ glob[s.glob + 2]? = some 47 := fun h => hg47 (List.mem_of_getElem? h)
    unfold stepC
    simp only [hg, bStar, if_true, starArmC, hg1, decide_true, hsk, Nat.add_sub_cancel, Bit.bytes, List.length_cons, List.length_nil, bSlash, hs, hb,
      and_false, if_false, ne_eq, not_true_eq_false, false_and, hp, decide_eq_true_eq]
    by_cases hl : glob.length = s.glob + 2
    · simp only [if_pos hl]
      exact ⟨_, fun h => (by cases h), rfl⟩
    · simp only [if_neg hl]
      rw [if_neg (show ¬ (¬ s.star.p = s.path + 1 ∧ path[s.path]? = some 47) from fun h => hp h.2)]
      exact ⟨_, fun h => (by cases h), rfl⟩

theorem atom_first {a : Atom} (ha : a.ok) (tl : List Nat) : ∃ g, (a.bytes ++ tl)[0]? = some g ∧ g ≠ 42 ∧ g ≠ 123 ∧ ((g = 63 ∨ g = 91) ↔ a.wild = true) := by
  cases a with
  | any => exact ⟨63, rfl, by decide, by decide, by decide⟩
  | cls neg items => exact ⟨91, rfl, by decide, by decide, by simp [Atom.wild]⟩
  | lit sy =>
    obtain ⟨g, e1, e2⟩ := sym_first sy tl
    refine ⟨g, e1, ?_, ?_, ?_⟩
    · intro e
      have := (e2 _ (by omega)).1 e
      subst this
      simp [Atom.ok] at ha
    · intro e
      have := (e2 _ (by omega)).1 e
      subst this
      simp [Atom.ok] at ha
    · simp only [Atom.wild, Bool.false_eq_true, iff_false]
      rintro (e | e)
      · have := (e2 _ (by omega)).1 e
        subst this
        simp [Atom.ok] at ha
      · have := (e2 _ (by omega)).1 e
        subst this
        simp [Atom.ok] at ha

/-- No braces are open. -/
abbrev noBraces : CBraces := ⟨[], -1⟩

theorem atom_stepC {s : CState} {caps : List Capture} {a : Atom} {tl : List Nat} {c : Nat} (ha : a.ok)
    (hd : glob.drop s.glob = a.bytes ++ tl) (hp : path[s.path]? = some c) (hw : 0 < s.wild.p → s.wild.g ≤ s.glob) :
    if a.has c then
      ∃ w, (s.star.p = 0 → w.p = 0) ∧ stepC glob path pre neg s noBraces caps =
        if a.wild then .cont ⟨s.path + 1, s.glob + a.bytes.length, endCapture s.cap caps + 1, s.wild, w⟩ noBraces
          (beginCapture (endCapture s.cap caps) (s.path, s.path + 1) caps)
        else .cont ⟨s.path + 1, s.glob + a.bytes.length, endCapture s.cap caps, s.wild, w⟩ noBraces caps
    else (∃ i, stepC glob path pre neg s noBraces caps = afterMismatchC glob path pre neg { s with glob := i } noBraces caps) ∨
      stepC glob path pre neg s noBraces caps = .ret false caps := by
  have hplain := stepC_plain glob path pre neg s noBraces caps
  have hst := atom_step (s := s.plain) (b := noBraces.plain) (isPrefix := pre) (negated := neg) ha hd hp (.inl rfl)
  obtain ⟨g, hg, h42, h123, hwild⟩ := atom_first ha tl
  rw [← get_drop0 hd] at hg
  have hshape := stepC_shape (path := path) (pre := pre) (neg := neg) (b := noBraces) (caps := caps) rfl hg h42 h123
  have hlen := atom_length a
  split
  · rename_i hh
    rw [if_pos hh] at hst
    obtain ⟨w, hw1, hst⟩ := hst
    rw [hst] at hplain
    rcases hshape with ⟨i, h⟩ | h | ⟨i, w', h1, h2, h3, h4, h5, h⟩
    · exfalso
      rw [h] at hplain
      rcases mismatchC_nil (glob := glob) (path := path) (pre := pre) (neg := neg) (s := { s with glob := i }) (b := noBraces) (caps := caps) rfl with
        ⟨r, h6, -⟩ | ⟨h6, -, h7⟩
      · rw [h6] at hplain; cases hplain
      · rw [h7] at hplain
        injection hplain with h8
        have := congrArg State.glob h8
        simp only [CState.plain, backtrackC] at this h6
        have := hw h6
        omega
    · exfalso
      rw [h] at hplain; cases hplain
    · rw [h] at hplain ⊢
      have key : i = s.glob + a.bytes.length ∧ w'.p = w.p := by
        split at hplain
        · injection hplain with h8
          exact ⟨congrArg State.glob h8, congrArg (fun s => s.star.p) h8⟩
        · injection hplain with h8
          exact ⟨congrArg State.glob h8, congrArg (fun s => s.star.p) h8⟩
      refine ⟨w', fun h0 => by rw [key.2]; exact hw1 h0, ?_⟩
      rw [key.1]
      simp only [hwild]
  · rename_i hh
    rw [if_neg hh] at hst
    obtain ⟨j, x, -, -, -, hst⟩ := hst
    rw [hst] at hplain
    rcases hshape with ⟨i, h⟩ | h | ⟨i, w', h1, h2, h3, h4, h5, h⟩
    · exact .inl ⟨i, h⟩
    · exact .inr h
    · exfalso
      rw [h] at hplain
      have hc := afterMismatchC_plain glob path pre neg { s with glob := j } noBraces caps
      have hx : afterMismatch glob path pre neg { s.plain with glob := j } noBraces.plain = (afterMismatchC glob path pre neg { s with glob := j } noBraces caps).plain := hc.symm
      rw [hx] at hplain
      rcases mismatchC_nil (glob := glob) (path := path) (pre := pre) (neg := neg) (s := { s with glob := j }) (b := noBraces) (caps := caps) rfl with
        ⟨r, h6, -⟩ | ⟨h6, -, h7⟩
      · rw [h6] at hplain
        split at hplain <;> cases hplain
      · rw [h7] at hplain
        have h9 : i = s.wild.g := by
          split at hplain
          · injection hplain with h8
            exact congrArg State.glob h8
          · injection hplain with h8
            exact congrArg State.glob h8
        simp only at h6
        have := hw h6
        omega


/-! ### What the captures are worth -/

theorem later_more {cs cs' : List Capture} (h : Later cs cs') (x : List Capture) : Later (cs ++ x) cs' := by
  obtain ⟨pre, p, e, e', t, t', rfl, h2, h3⟩ := h
  exact ⟨pre, p, e, e', t ++ x, t', by simp, h2, h3⟩

theorem later_at {base cs : List Capture} {q e e' : Nat} (h : Later (base ++ [(q, e)]) (base ++ (q, e') :: cs)) : e < e' := by
  obtain ⟨pre, p, a, b, t, t', h1, h2, h3⟩ := h
  have hl := congrArg List.length h1
  simp only [List.length_append, List.length_cons, List.length_nil] at hl
  have g1 : (base ++ [(q, e)])[pre.length]? = some (p, a) := by rw [h1]; simp
  have g2 : (base ++ (q, e') :: cs)[pre.length]? = some (p, b) := by rw [h2]; simp
  by_cases hlt : pre.length < base.length
  · rw [List.getElem?_append_left hlt] at g1 g2
    rw [g1] at g2
    injection g2 with g2
    injection g2 with g3 g4
    omega
  · have : pre.length = base.length := by omega
    rw [this, List.getElem?_append_right (Nat.le_refl _)] at g1 g2
    simp only [Nat.sub_self, List.getElem?_cons_zero, Option.some.injEq, Prod.mk.injEq] at g1 g2
    omega

theorem captures_atom_inv {a : Atom} {rest : List Bit} {p : Nat} {r : List Nat} {cs : List Capture} (h : Captures (.atom a :: rest) p r cs) :
    ∃ c r' cs', r = c :: r' ∧ a.has c = true ∧ cs = (if a.wild then (p, p + 1) :: cs' else cs') ∧ Captures rest (p + 1) r' cs' := by
  cases h with
  | lit h => exact ⟨_, _, _, rfl, by simp [Atom.has], rfl, h⟩
  | any hc h => exact ⟨_, _, _, rfl, by simpa [Atom.has] using hc, rfl, h⟩
  | cls hc h => exact ⟨_, _, _, rfl, hc, rfl, h⟩

theorem captures_star_inv {d : Bool} {ps : List Bit} {q : Nat} {cs : List Capture} (h : Captures (.star d :: ps) q (path.drop q) cs) :
    ∃ p cs', q ≤ p ∧ cs = (q, p) :: cs' ∧ Captures ps p (path.drop p) cs' := by
  generalize hr : path.drop q = r at h
  cases h with
  | @star _ x _ _ r cs hx h =>
    refine ⟨q + x.length, cs, by omega, rfl, ?_⟩
    rw [← List.drop_drop, hr]
    simpa using h

/-- With these captures so far, captures for the rest of the pattern complete the captures of the whole, and there are no others that
differ earlier. -/
def Leads (path : List Nat) (ps0 rest : List Bit) (p : Nat) (cur : List Capture) : Prop :=
  (∀ cs, Captures rest p (path.drop p) cs → Captures ps0 0 path (cur ++ cs)) ∧
  ∀ cs', Captures ps0 0 path cs' → (∃ cs, cs' = cur ++ cs ∧ Captures rest p (path.drop p) cs) ∨ Later cur cs'

/-- The current attempt: all captures closed, or that of the star just behind open, perhaps with one capture of an earlier attempt after it. -/
inductive At (path : List Nat) (ps0 rest : List Bit) (p cap : Nat) (caps : List Capture) : Since → Prop
  | closed {w : Since} (hw : w ≠ .star) (hc : cap = caps.length) (h : Leads path ps0 rest p caps) : At path ps0 rest p cap caps w
  | opened {base stale : List Capture} {q : Nat} (hcaps : caps = base ++ (q, p) :: stale) (hc : cap = base.length)
      (h : Leads path ps0 rest p (base ++ [(q, p)])) (h1 : stale.length ≤ 1)
      (h2 : stale ≠ [] → ∃ a ps, rest = .atom a :: ps ∧ a.wild = true) : At path ps0 rest p cap caps .star

/-- The attempt the matcher goes back to. -/
structure Retry (glob path : List Nat) (ps0 : List Bit) (s : CState) (rest : List Bit) (caps : List Capture) (w : Since) where
  d : Bool
  seg : List Bit
  base : List Capture
  extra : List Capture
  q : Nat
  e : Nat
  hcaps : caps = base ++ (q, e) :: extra
  hcap : s.wild.cap = base.length
  hd : glob.drop s.wild.g = (Bit.star d :: (seg ++ rest)).flatMap Bit.bytes
  hok : bitsOk (.star d :: (seg ++ rest))
  hsteady : steady .star (seg ++ rest) = true
  hD : (47 ∉ glob ∧ 47 ∉ path) ∨ (Bit.star true ∉ Bit.star d :: (seg ++ rest))
  hlead : Leads path ps0 (.star d :: (seg ++ rest)) q base
  hback : ∀ cs', Captures ps0 0 path cs' → (∃ cs, Captures rest s.path (path.drop s.path) cs) ∨ Later (base ++ [(q, e)]) cs'
  hq : q < s.wild.p
  he : s.wild.p = e + 1
  hno : ∀ k, q ≤ k → k < s.wild.p → path[k]? ≠ some 47
  h1 : extra.length ≤ 1
  h2 : extra ≠ [] → ∃ a ps, seg ++ rest = .atom a :: ps ∧ a.wild = true
  hseg : w = .star → seg = []
  hstart : w ≠ .start
  hlt : s.wild.g < s.glob
  hsame : w = .star → s.wild.cap = s.cap

theorem captures_star {d : Bool} {ps : List Bit} {q p : Nat} {cs : List Capture} (hqp : q ≤ p) (hp : p ≤ path.length)
    (hno : ∀ k, q ≤ k → k < p → path[k]? ≠ some 47) (h : Captures ps p (path.drop p) cs) :
    Captures (.star d :: ps) q (path.drop q) ((q, p) :: cs) := by
  have hx : path.drop q = (path.drop q).take (p - q) ++ path.drop p := by
    conv => lhs; rw [← List.take_append_drop (p - q) (path.drop q)]
    rw [List.drop_drop, show q + (p - q) = p by omega]
  have hl : ((path.drop q).take (p - q)).length = p - q := by
    rw [List.length_take, List.length_drop]; omega
  have := Captures.star (d := d) (x := (path.drop q).take (p - q)) (ps := ps) (p := q) (r := path.drop p) (cs := cs) ?_ ?_
  · rw [hl, show q + (p - q) = p by omega, ← hx] at this
    exact this
  · intro hm
    obtain ⟨k, hk⟩ := List.mem_iff_getElem?.1 hm
    have hkl := (List.getElem?_eq_some_iff.1 hk).1
    rw [hl] at hkl
    rw [List.getElem?_take, if_pos hkl, List.getElem?_drop] at hk
    exact hno (q + k) (by omega) (by omega) hk
  · rw [hl, show q + (p - q) = p by omega]; exact h

theorem begin_end {c : Capture} (caps : List Capture) : beginCapture caps.length c caps = caps ++ [c] := by
  unfold beginCapture
  rw [if_neg (Nat.lt_irrefl _)]

theorem extend_mid {base extra : List Capture} {q e p : Nat} : extendCapture base.length p (base ++ (q, e) :: extra) = base ++ (q, p) :: extra := by
  unfold extendCapture
  rw [if_pos (by simp)]
  induction base with
  | nil => rfl
  | cons b base ih => simpa using ih

/-- The matcher only reports captures that are right, with the earlier stars as short as possible. -/
theorem runC_captures {ps0 : List Bit} : ∀ (n : Nat) (s : CState) (rest : List Bit) (caps : List Capture) (w : Since) (out : List Capture),
    bitsOk rest → steady w rest = true → glob.drop s.glob = rest.flatMap Bit.bytes → s.path ≤ path.length →
    ((47 ∉ glob ∧ 47 ∉ path) ∨ (Bit.star true ∉ rest ∧ s.star.p = 0)) →
    At path ps0 rest s.path s.cap caps w → ((caps = [] ∧ s.wild.g ≤ s.glob) ∨ s.wild.g < s.glob) → (0 < s.wild.p → Nonempty (Retry glob path ps0 s rest caps w)) →
    runC glob path false false n s noBraces caps = .ok (true, out) →
    Captures ps0 0 path out ∧ ∀ cs', Captures ps0 0 path cs' → cs' = out ∨ Later out cs' := by
  intro n
  induction n using Nat.strongRecOn with
  | ind n ih =>
    intro s rest caps w out hok hst hd hp hD hat hfresh hB hrun
    obtain ⟨n, rfl⟩ : ∃ k, n = k + 1 := by
      cases n with
      | zero => cases hrun
      | succ n => exact ⟨n, rfl⟩
    have hwg : 0 < s.wild.p → s.wild.g ≤ s.glob := fun h => (hB h).elim fun r => Nat.le_of_lt r.hlt
    -- going back to the last star
    have miss : ∀ i, (s.glob < glob.length ∨ s.path < path.length) → (∀ cs, ¬ Captures rest s.path (path.drop s.path) cs) →
        stepC glob path false false s noBraces caps = afterMismatchC glob path false false { s with glob := i } noBraces caps →
        Captures ps0 0 path out ∧ ∀ cs', Captures ps0 0 path cs' → cs' = out ∨ Later out cs' := by
      intro i hc hfail hstep
      rw [runC, if_pos hc, hstep] at hrun
      rcases mismatchC_nil (glob := glob) (path := path) (pre := false) (neg := false) (s := { s with glob := i }) (b := noBraces) (caps := caps) rfl with
        ⟨r, h1, h2⟩ | ⟨h1, h2, h3⟩
      · rw [h1, h2 rfl] at hrun; cases hrun
      · rw [h3] at hrun
        dsimp only at hrun h1 h2
        obtain ⟨d, seg, base, extra, q, e, Rcaps, Rcap, Rd, Rok, Rsteady, RD, Rlead, Rback, Rq, Re, Rno, R1, R2, Rseg, Rstart, Rlt, Rsame⟩ := hB h1
        obtain ⟨n, rfl⟩ : ∃ k, n = k + 1 := by
          cases n with
          | zero => cases hrun
          | succ n => exact ⟨n, rfl⟩
        obtain ⟨w', hw1, hstar⟩ := star_stepC (path := path) (pre := false) (neg := false) (b := noBraces) (caps := caps)
          (s := backtrackC { s with glob := i }) (d := d) (tl := (seg ++ rest).flatMap Bit.bytes) rfl Rd (fun e => star_next Rok.2 (Rok.1 e)) (by
            by_cases h47 : 47 ∉ glob ∧ 47 ∉ path
            · exact .inl h47
            · have h4 := RD.resolve_left h47
              refine .inr ⟨?_, (hD.resolve_left h47).2⟩
              cases d with
              | false => rfl
              | true => exact absurd List.mem_cons_self h4)
        have hne : ¬ (caps = [] ∨ (backtrackC { s with glob := i }).glob ≠ (backtrackC { s with glob := i }).wild.g) := by
          rintro (h | h)
          · rw [Rcaps] at h; simp at h
          · exact h rfl
        rw [if_neg hne, if_neg hne] at hstar
        have hlen : 0 < (Bit.star d).bytes.length := by cases d <;> simp [Bit.bytes]
        have hgl : s.wild.g < glob.length := by
          have := congrArg List.length Rd
          simp only [List.length_drop, List.flatMap_cons, List.length_append] at this
          omega
        obtain ⟨wp, hwp0, hwp1, hstar⟩ : ∃ wp, (path[s.wild.p]? = some 47 → wp = 0) ∧ (path[s.wild.p]? ≠ some 47 → wp = s.wild.p + 1) ∧
            stepC glob path false false (backtrackC { s with glob := i }) noBraces caps =
              .cont ⟨s.wild.p, s.wild.g + (Bit.star d).bytes.length, s.wild.cap, ⟨s.wild.g, wp, s.wild.cap⟩, w'⟩ noBraces
                (extendCapture s.wild.cap s.wild.p caps) :=
          ⟨_, fun h => if_pos h, fun h => if_neg h, hstar⟩
        rw [runC, if_pos (.inl hgl), hstar] at hrun
        dsimp only at hrun
        rw [Rcap, Rcaps, extend_mid] at hrun
        have hlead : Leads path ps0 (seg ++ rest) s.wild.p (base ++ [(q, s.wild.p)]) := by
          constructor
          · intro cs hcs
            have := Rlead.1 _ (captures_star (d := d) (Nat.le_of_lt Rq) h2 Rno hcs)
            simpa using this
          · intro cs' hcs'
            have hL := (Rback cs' hcs').resolve_left (fun ⟨cs, h⟩ => hfail cs h)
            rcases Rlead.2 cs' hcs' with ⟨cs, rfl, h⟩ | h
            · obtain ⟨p', cs2, h4, rfl, h5⟩ := captures_star_inv h
              have h6 := later_at hL
              by_cases h7 : p' = s.wild.p
              · exact .inl ⟨cs2, by rw [h7]; simp, by rw [← h7]; exact h5⟩
              · exact .inr ⟨base, q, s.wild.p, p', [], cs2, rfl, rfl, by omega⟩
            · exact .inr (later_more h _)
        refine ih n (by omega) _ (seg ++ rest) _ .star out Rok.2 Rsteady (drop_add Rd) h2 ?_ (.opened rfl rfl hlead R1 R2)
          (.inr (by dsimp only; omega)) ?_ hrun
        · by_cases h47 : 47 ∉ glob ∧ 47 ∉ path
          · exact .inl h47
          · have h4 := RD.resolve_left h47
            refine .inr ⟨fun h => h4 (List.mem_cons_of_mem _ h), hw1 ?_ (hD.resolve_left h47).2⟩
            cases d with
            | false => rfl
            | true => exact absurd List.mem_cons_self h4
        · intro hpos
          dsimp only at hpos
          have h47 : path[s.wild.p]? ≠ some 47 := by
            intro h; rw [hwp0 h] at hpos; omega
          refine ⟨⟨d, [], base, extra, q, s.wild.p, rfl, rfl, Rd, Rok, Rsteady, RD, Rlead,
            fun cs' h => (hlead.2 cs' h).imp (fun ⟨cs, _, h⟩ => ⟨cs, h⟩) id, ?_, hwp1 h47, ?_, R1, R2, fun _ => rfl, fun h => (by cases h), ?_, fun _ => rfl⟩⟩
          · dsimp only; rw [hwp1 h47]; have := Rq; omega
          · dsimp only; rw [hwp1 h47]
            intro k hk1 hk2
            by_cases hk : k = s.wild.p
            · rw [hk]; exact h47
            · exact Rno k hk1 (by omega)
          · dsimp only; omega
    cases rest with
    | nil =>
      have hgl : glob.length ≤ s.glob := List.drop_eq_nil_iff.1 hd
      have hgi : glob[s.glob]? = none := List.getElem?_eq_none_iff.2 hgl
      by_cases hpl : s.path < path.length
      · refine miss s.glob (.inr hpl) (fun cs h => ?_) (by simp only [stepC, hgi])
        have : path.drop s.path = [] := by
          generalize path.drop s.path = r at h
          cases h; rfl
        have := List.drop_eq_nil_iff.1 this
        omega
      · rw [runC, if_neg (by omega)] at hrun
        cases hrun
        have he : path.drop s.path = [] := List.drop_eq_nil_of_le (by omega)
        cases hat with
        | closed _ _ h =>
          refine ⟨by simpa using h.1 [] (by rw [he]; exact .nil), fun cs' hcs' => (h.2 cs' hcs').imp (fun ⟨cs, h1, h2⟩ => ?_) id⟩
          rw [he] at h2
          cases h2
          simpa using h1
        | @opened base stale q hcaps _ h h1 h2 =>
          have : stale = [] := by
            by_cases hs : stale = []
            · exact hs
            · obtain ⟨a, ps, h3, -⟩ := h2 hs; cases h3
          subst this
          rw [hcaps]
          refine ⟨by simpa using h.1 [] (by rw [he]; exact .nil), fun cs' hcs' => (h.2 cs' hcs').imp (fun ⟨cs, h1, h2⟩ => ?_) id⟩
          rw [he] at h2
          cases h2
          simpa using h1
    | cons b rest =>
      have hlt : s.glob < glob.length := bits_length (s := s.plain) hd
      cases b with
      | star d =>
        have hws : w ≠ .star ∧ steady .star rest = true := by simpa [steady] using hst
        obtain ⟨hws, hst'⟩ := hws
        cases hat with
        | opened => exact absurd rfl hws
        | closed _ hc hlead =>
          obtain ⟨w', hw1, hstar⟩ := star_stepC (path := path) (pre := false) (neg := false) (b := noBraces) (caps := caps)
            (s := s) (d := d) (tl := rest.flatMap Bit.bytes) rfl hd (fun e => star_next hok.2 (hok.1 e)) (hD.imp id fun ⟨h1, h2⟩ => ⟨by
              cases d with
              | false => rfl
              | true => exact absurd List.mem_cons_self h1, h2⟩)
          have hne : caps = [] ∨ s.glob ≠ s.wild.g := hfresh.imp And.left fun h => by omega
          rw [if_pos hne, if_pos hne] at hstar
          have hlen : 0 < (Bit.star d).bytes.length := by cases d <;> simp [Bit.bytes]
          obtain ⟨wp, hwp0, hwp1, hstar⟩ : ∃ wp, (path[s.path]? = some 47 → wp = 0) ∧ (path[s.path]? ≠ some 47 → wp = s.path + 1) ∧
              stepC glob path false false s noBraces caps =
                .cont ⟨s.path, s.glob + (Bit.star d).bytes.length, s.cap, ⟨s.glob, wp, s.cap⟩, w'⟩ noBraces
                  (beginCapture s.cap (s.path, s.path) caps) :=
            ⟨_, fun h => if_pos h, fun h => if_neg h, hstar⟩
          rw [runC, if_pos (.inl hlt), hstar] at hrun
          dsimp only at hrun
          rw [hc, begin_end] at hrun
          have hlead' : Leads path ps0 rest s.path (caps ++ [(s.path, s.path)]) := by
            constructor
            · intro cs hcs
              have := hlead.1 _ (captures_star (d := d) (Nat.le_refl _) hp (fun k h1 h2 => by omega) hcs)
              simpa using this
            · intro cs' hcs'
              rcases hlead.2 cs' hcs' with ⟨cs, rfl, h⟩ | h
              · obtain ⟨p', cs2, h4, rfl, h5⟩ := captures_star_inv h
                by_cases h7 : p' = s.path
                · exact .inl ⟨cs2, by rw [h7]; simp, by rw [← h7]; exact h5⟩
                · exact .inr ⟨caps, s.path, s.path, p', [], cs2, rfl, rfl, by omega⟩
              · exact .inr (later_more h _)
          refine ih n (by omega) ⟨s.path, s.glob + (Bit.star d).bytes.length, caps.length, ⟨s.glob, wp, caps.length⟩, w'⟩ rest _ .star out hok.2 hst'
            (drop_add hd) hp ?_ (.opened rfl rfl hlead' (by simp) (fun h => absurd rfl h)) (.inr (by dsimp only; omega)) ?_ hrun
          · exact hD.imp id fun ⟨h1, h2⟩ => ⟨fun h => h1 (List.mem_cons_of_mem _ h), hw1 (by
              cases d with
              | false => rfl
              | true => exact absurd List.mem_cons_self h1) h2⟩
          · intro hpos
            dsimp only at hpos
            have h47 : path[s.path]? ≠ some 47 := by
              intro h; rw [hwp0 h] at hpos; omega
            refine ⟨⟨d, [], caps, [], s.path, s.path, rfl, rfl, hd, hok, hst', ?_, hlead,
              fun cs' h => (hlead'.2 cs' h).imp (fun ⟨cs, _, h⟩ => ⟨cs, h⟩) id, ?_, hwp1 h47, ?_, by simp, fun h => absurd rfl h, fun _ => rfl, fun h => (by cases h), ?_, fun _ => rfl⟩⟩
            · exact hD.imp id And.left
            · dsimp only; rw [hwp1 h47]; omega
            · dsimp only; rw [hwp1 h47]
              intro k hk1 hk2
              rw [show k = s.path by omega]; exact h47
            · dsimp only; omega
      | atom a =>
        obtain ⟨hoka, hsharp, hokps⟩ := hok
        have hd' : glob.drop s.glob = a.bytes ++ rest.flatMap Bit.bytes := by rw [hd]; simp [Bit.bytes]
        cases hpi : path[s.path]? with
        | none =>
          obtain ⟨g, hg, h42, h123, hwild⟩ := atom_first hoka (rest.flatMap Bit.bytes)
          rw [← get_drop0 hd'] at hg
          rcases stepC_shape (path := path) (pre := false) (neg := false) (b := noBraces) (caps := caps) rfl hg h42 h123 with ⟨i, h⟩ | h | ⟨i, w', _, h2, _⟩
          · refine miss i (.inl hlt) (fun cs h => ?_) h
            obtain ⟨c, r', cs', h1, -⟩ := captures_atom_inv h
            have := List.drop_eq_nil_iff.2 (List.getElem?_eq_none_iff.1 hpi)
            rw [this] at h1; cases h1
          · rw [runC, if_pos (.inl hlt), h] at hrun; cases hrun
          · exact absurd hpi (by rw [List.getElem?_eq_none_iff]; omega)
        | some c =>
          have hpl := lt_of_get hpi
          have hst1 := atom_stepC (pre := false) (neg := false) (caps := caps) hoka hd' hpi hwg
          by_cases hh : a.has c = true
          · rw [if_pos hh] at hst1
            obtain ⟨w', hw1, hst1⟩ := hst1
            rw [runC, if_pos (.inl hlt), hst1] at hrun
            have hlen := atom_length a
            have hdrop : path.drop s.path = c :: path.drop (s.path + 1) := drop_eq_cons hpi
            have hsteady : (a.wild = false ∨ w ≠ .later) ∧ steady (if w = .start then .start else .later) rest = true := by
              simpa [steady] using hst
            have hD' : (47 ∉ glob ∧ 47 ∉ path) ∨ (Bit.star true ∉ rest ∧ w'.p = 0) :=
              hD.imp id fun ⟨h1, h2⟩ => ⟨fun h => h1 (List.mem_cons_of_mem _ h), hw1 h2⟩
            have hcapt : ∀ cs, Captures rest (s.path + 1) (path.drop (s.path + 1)) cs →
                Captures (.atom a :: rest) s.path (path.drop s.path) (if a.wild then (s.path, s.path + 1) :: cs else cs) := by
              intro cs hcs
              rw [hdrop]
              cases a with
              | lit sy =>
                have : c = sy.val := by simpa [Atom.has] using hh
                rw [this]
                exact .lit hcs
              | any => exact .any (by simpa [Atom.has] using hh) hcs
              | cls neg items => exact .cls hh hcs
            have hinv : ∀ cs, Captures (.atom a :: rest) s.path (path.drop s.path) cs →
                ∃ cs', cs = (if a.wild then (s.path, s.path + 1) :: cs' else cs') ∧ Captures rest (s.path + 1) (path.drop (s.path + 1)) cs' := by
              intro cs h
              obtain ⟨c', r', cs', h1, -, h3, h4⟩ := captures_atom_inv h
              rw [hdrop] at h1
              cases h1
              exact ⟨cs', h3, h4⟩
            have hnext : ∀ {cur : List Capture}, Leads path ps0 (.atom a :: rest) s.path cur →
                Leads path ps0 rest (s.path + 1) (cur ++ if a.wild then [(s.path, s.path + 1)] else []) := by
              intro cur h
              constructor
              · intro cs hcs
                have := h.1 _ (hcapt cs hcs)
                split at this <;> simp_all
              · intro cs' hcs'
                rcases h.2 cs' hcs' with ⟨cs, rfl, h1⟩ | h1
                · obtain ⟨cs2, rfl, h2⟩ := hinv cs h1
                  exact .inl ⟨cs2, by split <;> simp, h2⟩
                · exact .inr (later_more h1 _)
            cases hwild : a.wild with
            | false =>
              rw [hwild] at hrun hnext
              simp only [Bool.false_eq_true, if_false, List.append_nil] at hrun hnext
              -- the attempt
              have hat' : At path ps0 rest (s.path + 1) (endCapture s.cap caps) caps (if w = .start then .start else .later) := by
                cases hat with
                | closed hw hc hlead =>
                  refine .closed (by split <;> simp) ?_ (hnext hlead)
                  unfold endCapture
                  rw [if_neg (by omega)]; exact hc
                | @opened base stale q hcaps hc hlead h1 h2 =>
                  have : stale = [] := by
                    by_cases hs : stale = []
                    · exact hs
                    · obtain ⟨a', ps', h3, h4⟩ := h2 hs
                      cases h3
                      rw [hwild] at h4; cases h4
                  subst this
                  refine .closed (by simp) ?_ (by rw [hcaps]; exact hnext hlead)
                  unfold endCapture
                  rw [if_pos (by rw [hcaps, hc]; simp), hcaps, hc]; simp
              refine ih n (by omega) _ rest caps _ out hokps hsteady.2 (drop_add hd') (by dsimp only; omega) hD' hat' ?_ ?_ hrun
              · exact .inr (by rcases hfresh with h | h <;> (dsimp only; omega))
              · intro hpos
                obtain ⟨R⟩ := hB hpos
                have e : R.seg ++ .atom a :: rest = (R.seg ++ [.atom a]) ++ rest := by simp
                refine ⟨⟨R.d, R.seg ++ [.atom a], R.base, R.extra, R.q, R.e, R.hcaps, R.hcap, e ▸ R.hd, e ▸ R.hok, e ▸ R.hsteady, e ▸ R.hD, e ▸ R.hlead,
                  fun cs' h => (R.hback cs' h).imp (fun ⟨cs, h⟩ => (hinv cs h).elim fun cs2 h2 => ⟨cs2, h2.2⟩) id, R.hq, R.he, R.hno, R.h1,
                  e ▸ R.h2, ?_, ?_, ?_, ?_⟩⟩
                · rw [if_neg R.hstart]; intro h; cases h
                · rw [if_neg R.hstart]; intro h; cases h
                · have := R.hlt; dsimp only; omega
                · rw [if_neg R.hstart]; intro h; cases h
            | true =>
              rw [hwild] at hrun hnext
              simp only [if_true] at hrun hnext
              have hwl : w ≠ .later := hsteady.1.resolve_left (by rw [hwild]; decide)
              cases hat with
              | closed hw hc hlead =>
                have hw0 : w = .start := by cases w <;> simp_all
                subst hw0
                have he : endCapture s.cap caps = caps.length := by
                  unfold endCapture
                  rw [if_neg (by omega)]; exact hc
                rw [he, begin_end] at hrun
                refine ih n (by omega) _ rest _ .start out hokps (by simpa using hsteady.2) (drop_add hd') (by dsimp only; omega) hD' (.closed (by simp) (by simp)
                  (by simpa using hnext hlead)) ?_ ?_ hrun
                · exact .inr (by rcases hfresh with h | h <;> (dsimp only; omega))
                · intro hpos
                  obtain ⟨R⟩ := hB hpos
                  exact absurd rfl R.hstart
              | @opened base stale q hcaps hc hlead h1 h2 =>
                have he : endCapture s.cap caps = base.length + 1 := by
                  unfold endCapture
                  rw [if_pos (by rw [hcaps, hc]; simp), hc]
                have hbeg : beginCapture (base.length + 1) (s.path, s.path + 1) caps = base ++ [(q, s.path), (s.path, s.path + 1)] := by
                  rw [hcaps]
                  unfold beginCapture
                  cases stale with
                  | nil => rw [if_neg (by simp)]; simp
                  | cons x stale =>
                    have : stale = [] := by
                      simp only [List.length_cons] at h1
                      exact List.eq_nil_of_length_eq_zero (by omega)
                    subst this
                    rw [if_pos (by simp), List.set_append_right _ _ (by omega)]
                    simp
                rw [he, hbeg] at hrun
                refine ih n (by omega) _ rest _ .later out hokps (by simpa using hsteady.2) (drop_add hd') (by dsimp only; omega) hD' (.closed (by simp) (by simp)
                  (by simpa using hnext hlead)) ?_ ?_ hrun
                · exact .inr (by rcases hfresh with h | h <;> (dsimp only; omega))
                · intro hpos
                  obtain ⟨d, seg, base', extra, q', e, Rcaps, Rcap, Rd, Rok, Rsteady, RD, Rlead, Rback, Rq, Re, Rno, R1, R2, Rseg, Rstart, Rlt, Rsame⟩ := hB hpos
                  have hseg := Rseg rfl
                  subst hseg
                  have hbl : base'.length = base.length := by rw [← Rcap, Rsame rfl, hc]
                  rw [hcaps] at Rcaps
                  obtain ⟨e1, e2⟩ := List.append_inj Rcaps hbl.symm
                  injection e2 with e2 e3
                  injection e2 with e2 e4
                  subst e1 e2 e4
                  exact ⟨⟨d, [.atom a], base, [(s.path, s.path + 1)], q, s.path, rfl, Rcap, Rd, Rok, Rsteady, RD, Rlead,
                    fun cs' h => (Rback cs' h).imp (fun ⟨cs, h⟩ => (hinv cs h).elim fun cs2 h2 => ⟨cs2, h2.2⟩) id, Rq, Re, Rno, by simp, fun _ => ⟨a, rest, rfl, hwild⟩,
                    fun h => (by cases h), fun h => (by cases h), (by dsimp only; omega), fun h => (by cases h)⟩⟩
          · rw [if_neg hh] at hst1
            rcases hst1 with ⟨i, h⟩ | h
            · refine miss i (.inl hlt) (fun cs h => ?_) h
              obtain ⟨c', r', cs', h1, h2, -⟩ := captures_atom_inv h
              rw [drop_eq_cons hpi] at h1
              cases h1
              exact hh h2
            · rw [runC, if_pos (.inl hlt), h] at hrun; cases hrun

end
end Mitex.Glob
