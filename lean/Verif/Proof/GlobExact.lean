/-
The glob matcher computes what Spec/Glob.lean says.
-/
import Verif.Spec.Glob
import Verif.Proof.GlobSafe

namespace Mitex.Glob
open GlobSpec

/-! ### Reading the pattern -/

theorem get_drop {l : List Nat} {i : Nat} {x : List Nat} (h : l.drop i = x) (k : Nat) : l[i + k]? = x[k]? := by
  rw [← h, List.getElem?_drop]

theorem get_drop0 {l : List Nat} {i : Nat} {x : List Nat} (h : l.drop i = x) : l[i]? = x[0]? := get_drop h 0

theorem drop_add {l : List Nat} {i : Nat} {x y : List Nat} (h : l.drop i = x ++ y) : l.drop (i + x.length) = y := by
  rw [← List.drop_drop, h, List.drop_append_of_le_length (Nat.le_refl _), List.drop_length, List.nil_append]

theorem length_of_drop {l : List Nat} {i : Nat} {x : List Nat} (h : l.drop i = x) (hi : i ≤ l.length) : l.length = i + x.length := by
  have := congrArg List.length h
  rw [List.length_drop] at this
  omega

theorem sym_length (s : Sym) : 0 < s.bytes.length := by cases s <;> simp [Sym.bytes]

theorem sym_read {glob : List Nat} {i : Nat} {s : Sym} {tl : List Nat} (h : glob.drop i = s.bytes ++ tl) (hs : s ≠ .plain 92) :
    ∃ g, glob[i]? = some g ∧ unescape g glob i = some (s.val, i + s.bytes.length - 1) := by
  cases s with
  | plain b =>
    refine ⟨b, by simpa [Sym.bytes] using get_drop0 h, ?_⟩
    have : b ≠ 92 := fun e => hs (by rw [e])
    simp [unescape, bBack, this, Sym.val, Sym.bytes]
  | esc b =>
    have h1 := get_drop h 1
    refine ⟨92, by simpa [Sym.bytes] using get_drop0 h, ?_⟩
    simp [Sym.bytes] at h1
    simp only [unescape, bBack, if_true, h1, Sym.val, Sym.bytes]
    congr 2
    by_cases e : b = 97
    · subst e; decide
    · rw [if_neg e]; rfl

theorem sym_first (s : Sym) (x : List Nat) : ∃ g, (s.bytes ++ x)[0]? = some g ∧ ∀ b, b ≠ 92 → (g = b ↔ s = .plain b) := by
  cases s with
  | plain a => exact ⟨a, rfl, fun b _ => ⟨fun e => by rw [e], fun e => by injection e⟩⟩
  | esc a => exact ⟨92, rfl, fun b hb => ⟨fun e => absurd e.symm hb, fun e => (by cases e)⟩⟩

theorem item_first (it : Item) (x : List Nat) :
    ∃ g, (it.bytes ++ x)[0]? = some g ∧ ∀ b, b ≠ 92 → (g = b ↔ it.start = .plain b) := by
  cases it with
  | one s => exact sym_first s x
  | range lo hi =>
    have := sym_first lo ('-'.toNat :: hi.bytes ++ x)
    simpa [Item.bytes, Item.start] using this

/-- Reading a class. -/
theorem class_read (glob : List Nat) (c : Nat) : ∀ (items : List Item) (n i : Nat) (first m : Bool) (tl : List Nat), itemsOk first items →
    (items = [] → first = false) → glob.drop i = items.flatMap Item.bytes ++ 93 :: tl → items.length < n →
    classLoop glob c n i first m = some (m || items.any (Item.has c), i + (items.flatMap Item.bytes).length) := by
  intro items
  induction items with
  | nil =>
    intro n i first m tl _ hf h hn
    obtain ⟨n, rfl⟩ : ∃ k, n = k + 1 := ⟨n - 1, by simp at hn; omega⟩
    have h0 := get_drop0 h
    simp at h0
    unfold classLoop
    simp [h0, hf rfl]
  | cons it rest ih =>
    intro n i first m tl hok hf h hn
    obtain ⟨n, rfl⟩ : ∃ k, n = k + 1 := ⟨n - 1, by simp at hn; omega⟩
    have hn' : rest.length < n := by simpa using hn
    cases it with
    | one s =>
      obtain ⟨hs, hd, hrest⟩ := hok
      have hb : glob.drop i = s.bytes ++ (rest.flatMap Item.bytes ++ 93 :: tl) := by rw [h]; simp [Item.bytes]
      obtain ⟨g, hg, hu⟩ := sym_read hb hs.1
      have hg' : ¬ (!first ∧ g = 93) := by
        rintro ⟨h1, h2⟩
        obtain ⟨g', e1, e2⟩ := sym_first s (rest.flatMap Item.bytes ++ 93 :: tl)
        rw [get_drop0 hb, e1] at hg
        injection hg with hg
        subst hg
        exact hs.2 (by simpa using h1) ((e2 93 (by decide)).1 h2)
      have hnext := drop_add hb
      rw [classLoop.eq_def]
      simp only [hg, bRBrack, hg', if_false, hu]
      have hlen := sym_length s
      have hi : i + s.bytes.length - 1 + 1 = i + s.bytes.length := by omega
      rw [hi]
      have hno : ¬ (glob[i + s.bytes.length]? = some bDash ∧ (glob[i + s.bytes.length + 1]?).isSome ∧ glob[i + s.bytes.length + 1]? ≠ some 93) := by
        rintro ⟨h1, -, h3⟩
        cases rest with
        | nil =>
          rw [get_drop0 hnext] at h1
          simp at h1
          exact absurd h1 (by decide)
        | cons r rs =>
          obtain ⟨g', e1, e2⟩ := item_first r (rs.flatMap Item.bytes ++ 93 :: tl)
          rw [get_drop0 hnext] at h1
          simp only [List.flatMap_cons, List.append_assoc] at h1
          rw [e1] at h1
          injection h1 with h1
          obtain ⟨e3, e4⟩ := hd ((e2 45 (by decide)).1 h1)
          subst e3 e4
          rw [get_drop hnext 1] at h3
          simp [Item.bytes, Sym.bytes] at h3
      simp only [hno, if_false]
      rw [ih n _ false _ tl hrest (fun _ => rfl) hnext hn']
      have : (decide (s.val ≤ c) && decide (c ≤ s.val)) = Item.has c (.one s) := by
        simp only [Item.has, ← Bool.decide_and, decide_eq_decide]
        omega
      simp only [this, List.any_cons, Bool.or_assoc, List.flatMap_cons, List.length_append, Nat.add_assoc]
      rfl
    | range lo hi =>
      obtain ⟨hlo, hhi, hrest⟩ := hok
      have hb : glob.drop i = lo.bytes ++ (45 :: (hi.bytes ++ (rest.flatMap Item.bytes ++ 93 :: tl))) := by rw [h]; simp [Item.bytes]
      obtain ⟨g, hg, hu⟩ := sym_read hb hlo.1
      have hg' : ¬ (!first ∧ g = 93) := by
        rintro ⟨h1, h2⟩
        obtain ⟨g', e1, e2⟩ := sym_first lo (45 :: (hi.bytes ++ (rest.flatMap Item.bytes ++ 93 :: tl)))
        rw [get_drop0 hb, e1] at hg
        injection hg with hg
        subst hg
        exact hlo.2 (by simpa using h1) ((e2 93 (by decide)).1 h2)
      have hnext := drop_add hb
      have hnext2 : glob.drop (i + lo.bytes.length + 1) = hi.bytes ++ (rest.flatMap Item.bytes ++ 93 :: tl) := by
        have := drop_add (x := [45]) hnext
        simpa using this
      rw [classLoop.eq_def]
      simp only [hg, bRBrack, hg', if_false, hu]
      have hlen := sym_length lo
      have hlen' := sym_length hi
      have hii : i + lo.bytes.length - 1 + 1 = i + lo.bytes.length := by omega
      rw [hii]
      obtain ⟨g', e1, e2⟩ := sym_first hi (rest.flatMap Item.bytes ++ 93 :: tl)
      have hgh : glob[i + lo.bytes.length + 1]? = some g' := by rw [get_drop0 hnext2, e1]
      obtain ⟨g'', hg2, hu2⟩ := sym_read hnext2 hhi.1
      rw [hgh] at hg2
      injection hg2 with hg2
      subst hg2
      have hyes : glob[i + lo.bytes.length]? = some bDash ∧ (glob[i + lo.bytes.length + 1]?).isSome ∧ glob[i + lo.bytes.length + 1]? ≠ some 93 := by
        refine ⟨by rw [get_drop0 hnext]; rfl, by rw [hgh]; rfl, ?_⟩
        rw [hgh]
        intro e
        injection e with e
        exact hhi.2 rfl ((e2 93 (by decide)).1 e)
      simp only [hyes, hgh, Option.getD_some, hu2, ne_eq, if_true, true_and]
      have hgn : ¬ (some g' = some 93) := by rw [← hgh]; exact hyes.2.2
      simp only [hgn, Option.isSome_some, not_false_eq_true, and_self, if_true]
      have hi2 : i + lo.bytes.length + 1 + hi.bytes.length - 1 + 1 = i + lo.bytes.length + 1 + hi.bytes.length := by omega
      rw [hi2, ih n _ false _ tl hrest (fun _ => rfl) (drop_add hnext2) hn']
      have : (decide (lo.val ≤ c) && decide (c ≤ hi.val)) = Item.has c (.range lo hi) := by
        simp only [Item.has, ← Bool.decide_and]
      simp only [this, List.any_cons, Bool.or_assoc, List.flatMap_cons, List.length_append, Item.bytes, List.length_cons]
      congr 2
      omega

/-! ### Skipping alternatives -/

/-- The bytes are skipped within `d + 1` braces, from brackets `b` to brackets `b'`. -/
def Skips (d : Nat) (b b' : Bool) (x : List Nat) : Prop := ∀ (glob : List Nat) (i : Nat) (tl : List Nat) (n : Nat), glob.drop i = x ++ tl →
  glob.length - i + 1 ≤ n → ∃ n', glob.length - (i + x.length) + 1 ≤ n' ∧
    skipBraces glob true n i (d + 1) b = skipBraces glob true n' (i + x.length) (d + 1) b'

variable {d : Nat}

theorem Skips.nil (b : Bool) : Skips d b b [] := fun _ _ _ n _ hn => ⟨n, by simpa using hn, rfl⟩

theorem Skips.append {a b c : Bool} {x y : List Nat} (h1 : Skips d a b x) (h2 : Skips d b c y) : Skips d a c (x ++ y) := by
  intro glob i tl n h hn
  rw [List.append_assoc] at h
  obtain ⟨n1, e1, e2⟩ := h1 glob i _ n h hn
  obtain ⟨n2, e3, e4⟩ := h2 glob _ tl n1 (drop_add h) e1
  refine ⟨n2, ?_, ?_⟩
  · rw [List.length_append]; omega
  · rw [e2, e4, List.length_append, Nat.add_assoc]

theorem Skips.flatMap {α : Type} (f : α → List Nat) (b : Bool) : ∀ l : List α, (∀ a ∈ l, Skips d b b (f a)) → Skips d b b (l.flatMap f)
  | [], _ => Skips.nil b
  | a :: l, h => by
    rw [List.flatMap_cons]
    exact (h a (by simp)).append (Skips.flatMap f b l fun x hx => h x (by simp [hx]))

/-- One byte. -/
theorem Skips.byte {a : Nat} {b : Bool} (h : a ≠ 92) (h2 : b = true → a ≠ 93)
    (h1 : b = false → a ≠ 123 ∧ a ≠ 125 ∧ (d = 0 → a ≠ 44) ∧ a ≠ 91 ∧ a ≠ 42) : Skips d b b [a] := by
  intro glob i tl n hd hn
  obtain ⟨n, rfl⟩ : ∃ k, n = k + 1 := ⟨n - 1, by omega⟩
  have hi : glob[i]? = some a := by simpa using get_drop0 hd
  have hlt := lt_of_get hi
  refine ⟨n, by simp; omega, ?_⟩
  rw [skipBraces]
  simp only [hi, Nat.add_eq_zero_iff, Nat.one_ne_zero, and_false, if_false, bLBrace, bRBrace, bComma, bStar, bQuest, bLBrack, bRBrack, bBack, h, List.length_singleton]
  cases b with
  | true => simp [h2 rfl]
  | false =>
    obtain ⟨e1, e2, e3, e4, e5⟩ := h1 rfl
    have e3 : ¬ (a = 44 ∧ True ∧ d + 1 = 1 ∧ (!false) = true) := fun h => e3 (by omega) h.1
    rw [if_neg (by simp [e1]), if_neg (by simp [e2]), if_neg e3]
    simp only [e4, e5, false_and, if_false, false_or, or_false, Bool.not_false, and_true, Bool.false_or]
    by_cases e : a = 63
    · simp [e]
    · simp only [e, if_false]
      by_cases e : a = 93 <;> simp [e]

/-- An escaped byte. -/
theorem Skips.esc {a : Nat} {b : Bool} : Skips d b b [92, a] := by
  intro glob i tl n hd hn
  obtain ⟨n, rfl⟩ : ∃ k, n = k + 1 := ⟨n - 1, by omega⟩
  have hi : glob[i]? = some 92 := by simpa using get_drop0 hd
  have hlt := lt_of_get hi
  refine ⟨n, by simp; omega, ?_⟩
  rw [skipBraces]
  simp [hi, bLBrace, bRBrace, bComma, bStar, bQuest, bLBrack, bRBrack, bBack]

theorem Skips.lbrack : Skips d false true [91] := by
  intro glob i tl n hd hn
  obtain ⟨n, rfl⟩ : ∃ k, n = k + 1 := ⟨n - 1, by omega⟩
  have hi : glob[i]? = some 91 := by simpa using get_drop0 hd
  have hlt := lt_of_get hi
  refine ⟨n, by simp; omega, ?_⟩
  rw [skipBraces]
  simp [hi, bLBrace, bRBrace, bComma, bStar, bQuest, bLBrack, bRBrack, bBack]

theorem Skips.rbrack : Skips d true false [93] := by
  intro glob i tl n hd hn
  obtain ⟨n, rfl⟩ : ∃ k, n = k + 1 := ⟨n - 1, by omega⟩
  have hi : glob[i]? = some 93 := by simpa using get_drop0 hd
  have hlt := lt_of_get hi
  refine ⟨n, by simp; omega, ?_⟩
  rw [skipBraces]
  simp [hi, bLBrace, bRBrace, bComma, bStar, bQuest, bLBrack, bRBrack, bBack]

theorem Skips.symIn {s : Sym} (h : symOk false s) : Skips d true true s.bytes := by
  cases s with
  | plain b =>
    refine Skips.byte (fun e => h.1 (by rw [e]; rfl)) (fun _ e => h.2 rfl (by rw [e]; rfl)) (by simp)
  | esc b => exact Skips.esc

theorem Skips.items : ∀ items : List Item, itemsOk false items → Skips d true true (items.flatMap Item.bytes)
  | [], _ => Skips.nil _
  | .one s :: rest, h => by
    rw [List.flatMap_cons]
    exact (Skips.symIn h.1).append (Skips.items rest h.2.2)
  | .range lo hi :: rest, h => by
    rw [List.flatMap_cons]
    have hdash : Skips d true true [45] := Skips.byte (by decide) (by decide) (by simp)
    have := (Skips.symIn h.1).append (hdash.append ((Skips.symIn h.2.1).append (Skips.items rest h.2.2)))
    simpa [Item.bytes] using this

/-- Every atom is skipped. -/
theorem Skips.atom {a : Atom} (h : a.okInside) : Skips d false false a.bytes := by
  cases a with
  | lit s =>
    cases s with
    | plain b =>
      obtain ⟨⟨h1, h2, h3, h4, h5⟩, h6, h7⟩ := h
      exact Skips.byte h5 (by simp) (fun _ => ⟨h4, h7, fun _ => h6, h3, h1⟩)
    | esc b => exact Skips.esc
  | any => exact Skips.byte (by decide) (by simp) (fun _ => by simp)
  | cls neg items =>
    obtain ⟨⟨h1, h2, h3⟩, h4⟩ := h
    have hneg : Skips d true true neg.toList := by
      cases neg with
      | none => exact Skips.nil _
      | some n =>
        have : n = 94 ∨ n = 33 := h3
        refine Skips.byte ?_ (fun _ => ?_) (by simp) <;> omega
    have := Skips.lbrack.append (hneg.append ((Skips.items items h4).append Skips.rbrack))
    simpa [Atom.bytes] using this

theorem Skips.atoms {as : List Atom} (h : ∀ a ∈ as, a.okInside) : Skips d false false (atomBytes as) :=
  Skips.flatMap _ _ _ fun a ha => Skips.atom (h a ha)

theorem Skips.braces {x : List Nat} (h : Skips (d + 1) false false x) : Skips d false false (123 :: (x ++ [125])) := by
  intro glob i tl n hd hn
  obtain ⟨n, rfl⟩ : ∃ k, n = k + 1 := ⟨n - 1, by omega⟩
  have hi : glob[i]? = some 123 := by simpa using get_drop0 hd
  have hlt := lt_of_get hi
  have hd1 : glob.drop (i + 1) = x ++ (125 :: tl) := by
    have := drop_add (x := [123]) hd
    simpa using this
  obtain ⟨n1, e1, e2⟩ := h glob (i + 1) _ n hd1 (by omega)
  have hi2 : glob[i + 1 + x.length]? = some 125 := by simpa using get_drop0 (drop_add hd1)
  have hlt2 := lt_of_get hi2
  obtain ⟨n1, rfl⟩ : ∃ k, n1 = k + 1 := ⟨n1 - 1, by omega⟩
  refine ⟨n1, by simp; omega, ?_⟩
  rw [skipBraces]
  simp only [hi, bLBrace, Nat.add_eq_zero_iff, Nat.one_ne_zero, and_false, if_false, Bool.not_false, and_self, if_true]
  rw [e2, skipBraces]
  simp only [hi2, bLBrace, bRBrace, Nat.add_eq_zero_iff, Nat.one_ne_zero, and_false, if_false, Bool.not_false, and_true, if_true,
    show ¬ (125 : Nat) = 123 by decide, List.length_cons, List.length_append, List.length_nil]
  rw [show i + 1 + x.length + 1 = i + (x.length + (0 + 1) + 1) by omega]
  rfl

theorem Skips.nested {inner : Bool} {x : List Nat} (h : Nested inner x) : ∀ d, (inner = false ∨ 0 < d) → Skips d false false x := by
  induction h with
  | nil => intro d _; exact Skips.nil _
  | atom ha _ ih => intro d hd; exact (Skips.atom ha).append (ih d hd)
  | comma _ ih =>
    intro d hd
    have h0 : 0 < d := by rcases hd with h | h; · cases h
                          · exact h
    have : Skips d false false [44] := Skips.byte (by decide) (by simp) (fun _ => ⟨by decide, by decide, by omega, by decide, by decide⟩)
    exact this.append (ih d hd)
  | braces _ _ ih1 ih2 =>
    intro d hd
    have := (Skips.braces (ih1 (d + 1) (Or.inr (by omega)))).append (ih2 d hd)
    simpa using this

/-! ### One atom -/

section
variable {glob path : List Nat} {isPrefix negated : Bool}

theorem okInside_ok {a : Atom} (h : a.okInside) : a.ok := by
  cases a with
  | lit s =>
    cases s with
    | plain b => exact h.1
    | esc b => trivial
  | any => trivial
  | cls neg items => exact h.1

theorem atom_length (a : Atom) : 0 < a.bytes.length := by
  cases a with
  | lit s => exact sym_length s
  | any => simp [Atom.bytes]
  | cls neg items => simp [Atom.bytes]

theorem items_length (items : List Item) : items.length ≤ (items.flatMap Item.bytes).length := by
  induction items with
  | nil => simp
  | cons it items ih =>
    have : 0 < it.bytes.length := by
      cases it with
      | one s => exact sym_length s
      | range lo hi => simp [Item.bytes]; omega
    simp only [List.flatMap_cons, List.length_append, List.length_cons]
    omega

/-- A round at an atom, in the middle of the text. -/
theorem atom_step {s : State} {b : Braces} {a : Atom} {tl : List Nat} {c : Nat} (ha : a.ok) (hd : glob.drop s.glob = a.bytes ++ tl)
    (hp : path[s.path]? = some c) (hb : b.stack = [] ∨ (a.okInside ∧ glob[s.glob - 1]? ≠ some 125)) :
    if a.has c then
      ∃ w, (s.star.p = 0 → w.p = 0) ∧ step glob path isPrefix negated s b = .cont ⟨s.path + 1, s.glob + a.bytes.length, s.wild, w⟩ b
    else ∃ i x, glob.drop i = x ++ tl ∧ (a.okInside → Skips 0 false false x) ∧ s.glob ≤ i ∧
      step glob path isPrefix negated s b = afterMismatch glob path isPrefix negated { s with glob := i } b := by
  cases a with
  | any =>
    have hg : glob[s.glob]? = some 63 := by simpa [Atom.bytes] using get_drop0 hd
    unfold step
    simp only [hg, hp, bStar, bQuest, bSlash, Atom.has, if_true, show ¬ (63 : Nat) = 42 by decide, if_false]
    by_cases hc : c = 47
    · subst hc
      simp only [Char.reduceToNat, ne_eq, not_true_eq_false, decide_false, if_false, Bool.false_eq_true]
      exact ⟨s.glob, [63], by simpa [Atom.bytes] using hd, fun h => Skips.atom h, Nat.le_refl _, rfl⟩
    · simp only [Char.reduceToNat, ne_eq, hc, not_false_eq_true, decide_true, if_true]
      exact ⟨_, id, rfl⟩
  | lit sy =>
    have hsy : sy ≠ .plain 92 := by
      rintro rfl
      exact ha.2.2.2.2 rfl
    obtain ⟨g, hg, hu⟩ := sym_read hd hsy
    have hgs : g ≠ 42 ∧ g ≠ 63 ∧ g ≠ 91 ∧ g ≠ 123 := by
      obtain ⟨g', e1, e2⟩ := sym_first sy tl
      rw [get_drop0 hd] at hg
      rw [show (Atom.lit sy).bytes = sy.bytes from rfl] at hg
      rw [e1] at hg
      injection hg with hg
      subst hg
      refine ⟨fun e => ?_, fun e => ?_, fun e => ?_, fun e => ?_⟩ <;>
        · have := (e2 _ (by omega)).1 e
          subst this
          simp [Atom.ok] at ha
    have hin : b.stack ≠ [] → g ≠ 125 ∧ g ≠ 44 := by
      intro hs
      have hi := (hb.resolve_left hs).1
      obtain ⟨g', e1, e2⟩ := sym_first sy tl
      rw [get_drop0 hd] at hg
      rw [show (Atom.lit sy).bytes = sy.bytes from rfl] at hg
      rw [e1] at hg
      injection hg with hg
      subst hg
      refine ⟨fun e => ?_, fun e => ?_⟩ <;>
        · have := (e2 _ (by omega)).1 e
          subst this
          simp [Atom.okInside] at hi
    have hx1 : ¬ (g = 125 ∧ b.stack ≠ []) := fun h => (hin h.2).1 h.1
    have hx2 : ¬ (g = 44 ∧ b.stack ≠ []) := fun h => (hin h.2).2 h.1
    have hm : (if sy.val = bSlash then c = bSlash else c = sy.val) ↔ c = sy.val := by
      by_cases h : sy.val = bSlash <;> simp [h]
    unfold step
    simp only [hg, hp, bStar, bQuest, bLBrack, bLBrace, bRBrace, bComma, hgs.1, hgs.2.1, hgs.2.2.1, hgs.2.2.2, if_false, hx1, hx2, hu]
    by_cases hc : c = sy.val
    · rw [if_pos (show Atom.has c (.lit sy) = true by simp [Atom.has, hc]), if_pos (hm.2 hc)]
      have hpop : ¬ (b.stack ≠ [] ∧ 0 < s.glob + sy.bytes.length - 1 ∧ glob[s.glob + sy.bytes.length - 1 - 1]? = some 125) := by
        rintro ⟨h1, h2, h3⟩
        cases sy with
        | plain y =>
          simp only [Sym.bytes, List.length_singleton, Nat.add_sub_cancel] at h3
          exact (hb.resolve_left h1).2 h3
        | esc y =>
          have : glob[s.glob]? = some 92 := by simpa [Atom.bytes, Sym.bytes] using get_drop0 hd
          simp only [Sym.bytes, List.length_cons, List.length_nil] at h3
          rw [show s.glob + (0 + 1 + 1) - 1 - 1 = s.glob by omega, this] at h3
          simp at h3
      simp only [hpop, if_false]
      have := sym_length sy
      rw [show s.glob + sy.bytes.length - 1 + 1 = s.glob + (Atom.lit sy).bytes.length by simp only [Atom.bytes]; omega]
      exact ⟨_, fun h => by split <;> simp [h], rfl⟩
    · rw [if_neg (show ¬ Atom.has c (.lit sy) = true by simp [Atom.has, hc]), if_neg (fun h => hc (hm.1 h))]
      cases sy with
      | plain y =>
        refine ⟨s.glob, [y], hd, fun h => Skips.atom h, Nat.le_refl _, ?_⟩
        simp [Sym.bytes]
      | esc y =>
        refine ⟨s.glob + 1, [y], ?_, fun h => ?_, by omega, ?_⟩
        · exact drop_add (x := [92]) hd
        · obtain ⟨h1, h2, h3, h4, h5, h6⟩ := h
          exact Skips.byte h6 (by simp) (fun _ => ⟨h1, h2, fun _ => h3, h4, h5⟩)
        · simp [Sym.bytes]
  | cls neg items =>
    obtain ⟨h1, h2, h3⟩ := ha
    have hg : glob[s.glob]? = some 91 := by simpa [Atom.bytes] using get_drop0 hd
    have hd1 : glob.drop (s.glob + 1) = neg.toList ++ (items.flatMap Item.bytes ++ 93 :: tl) := by
      have : glob.drop s.glob = [91] ++ (neg.toList ++ (items.flatMap Item.bytes ++ 93 :: tl)) := by rw [hd]; simp [Atom.bytes]
      exact drop_add this
    have hneg : decide (glob[s.glob + 1]? = some bCaret ∨ glob[s.glob + 1]? = some bBang) = neg.isSome := by
      cases neg with
      | none =>
        cases items with
        | nil => exact absurd rfl h1
        | cons it items =>
          obtain ⟨g', e1, e2⟩ := item_first it (items.flatMap Item.bytes ++ 93 :: tl)
          rw [get_drop0 hd1]
          simp only [Option.toList_none, List.nil_append, List.flatMap_cons, List.append_assoc]
          rw [e1]
          have := h3 it (by simp)
          simp only [Option.some.injEq, bCaret, bBang, Option.isSome_none, decide_eq_false_iff_not, not_or]
          exact ⟨fun e => this.1 ((e2 _ (by decide)).1 e), fun e => this.2 ((e2 _ (by decide)).1 e)⟩
      | some m =>
        rw [get_drop0 hd1]
        have : m = 94 ∨ m = 33 := h3
        simpa using this
    have hi : (if neg.isSome = true then s.glob + 1 + 1 else s.glob + 1) = s.glob + 1 + neg.toList.length := by
      cases neg <;> simp
    have hd2 := drop_add hd1
    have hlen : items.length < glob.length + 1 := by
      have e1 := items_length items
      have e2 := congrArg List.length hd2
      simp only [List.length_drop, List.length_append, List.length_cons] at e2
      omega
    have hd3 := drop_add hd2
    have hlt : s.glob + 1 + neg.toList.length + (items.flatMap Item.bytes).length < glob.length := by
      refine Nat.lt_of_not_le fun h => ?_
      rw [List.drop_eq_nil_of_le h] at hd3
      cases hd3
    have hlen2 : s.glob + 1 + neg.toList.length + (items.flatMap Item.bytes).length + 1 = s.glob + (Atom.cls neg items).bytes.length := by
      simp [Atom.bytes]; omega
    unfold step
    simp only [hg, hp, bStar, bQuest, bLBrack, if_true, hneg, hi, show ¬ (91 : Nat) = 42 by decide, show ¬ (91 : Nat) = 63 by decide, if_false]
    rw [class_read glob c items _ _ true false tl h2 (fun e => absurd e h1) hd2 hlen]
    simp only [Bool.false_or, show ¬ glob.length ≤ s.glob + 1 + neg.toList.length + (items.flatMap Item.bytes).length by omega, if_false, hlen2]
    have hhas : Atom.has c (.cls neg items) = decide (items.any (Item.has c) ≠ neg.isSome) := by
      cases neg <;> cases h : items.any (Item.has c) <;> simp [Atom.has, h]
    rw [hhas]
    by_cases h : items.any (Item.has c) ≠ neg.isSome
    · rw [if_pos (by simpa using h), if_pos h]
      exact ⟨_, id, rfl⟩
    · rw [if_neg (by simpa using h), if_neg h]
      refine ⟨_, [], ?_, fun _ => Skips.nil _, ?_, rfl⟩
      · simpa using drop_add hd
      · omega

/-- A round at an atom, at the end of the text. -/
theorem atom_end {s : State} {b : Braces} {a : Atom} {tl : List Nat} (ha : a.ok) (hd : glob.drop s.glob = a.bytes ++ tl)
    (hp : path[s.path]? = none) (hb : b.stack = [] ∨ a.okInside) :
    step glob path isPrefix negated s b = afterMismatch glob path isPrefix negated s b := by
  have key : ∃ g, glob[s.glob]? = some g ∧ g ≠ 42 ∧ (b.stack ≠ [] → g ≠ 125 ∧ g ≠ 44) := by
    cases a with
    | any => exact ⟨63, by simpa [Atom.bytes] using get_drop0 hd, by decide, fun _ => by decide⟩
    | cls neg items => exact ⟨91, by simpa [Atom.bytes] using get_drop0 hd, by decide, fun _ => by decide⟩
    | lit sy =>
      obtain ⟨g', e1, e2⟩ := sym_first sy tl
      refine ⟨g', (get_drop0 hd).trans e1, fun e => ?_, fun hs => ⟨fun e => ?_, fun e => ?_⟩⟩
      · have := (e2 _ (by omega)).1 e
        subst this
        simp [Atom.ok] at ha
      · have hi := hb.resolve_left hs
        have := (e2 _ (by omega)).1 e
        subst this
        simp [Atom.okInside] at hi
      · have hi := hb.resolve_left hs
        have := (e2 _ (by omega)).1 e
        subst this
        simp [Atom.okInside] at hi
  obtain ⟨g, h1, h2, h3⟩ := key
  unfold step
  simp only [h1, hp, bStar, bRBrace, bComma, h2, if_false]
  rw [if_neg (fun h => (h3 h.2).1 h.1), if_neg (fun h => (h3 h.2).2 h.1)]

/-! ### Alternatives -/

/-- The other alternatives, the closing brace and what follows. -/
def restBytes (os : List (List Atom)) (tl : List Nat) : List Nat := os.flatMap (fun o => 44 :: atomBytes o) ++ 125 :: tl

theorem restBytes_cons (o : List Atom) (os : List (List Atom)) (tl : List Nat) :
    restBytes (o :: os) tl = 44 :: (atomBytes o ++ restBytes os tl) := by simp [restBytes]

/-- The run goes on after an alternative: with the next one, or after the group. -/
def Decided (glob path : List Nat) (isPrefix negated : Bool) (top : State) (os : List (List Atom)) (tl : List Nat) (L : Int) (k : Nat)
    (r : Res Bool) : Prop :=
  match os with
  | [] => if 0 ≤ L then ∃ n gi, k < gi ∧ glob.drop gi = tl ∧ glob.length - gi + 1 ≤ n ∧
        r = run glob path isPrefix negated n ⟨L.toNat, gi, top.wild, top.star⟩ ⟨[], -1⟩
      else r = .ok negated
  | o :: os => ∃ n s, k < s.glob ∧ glob.drop s.glob = atomBytes o ++ restBytes os tl ∧ glob.length - s.glob + 1 ≤ n ∧ s.wild.p = 0 ∧
      s.path = top.path ∧ glob[s.glob - 1]? ≠ some 125 ∧ r = run glob path isPrefix negated n s ⟨[top], L⟩

theorem Decided.mono {top : State} {os : List (List Atom)} {tl : List Nat} {L : Int} {k k' : Nat} {r : Res Bool}
    (h : Decided glob path isPrefix negated top os tl L k r) (hk : k' ≤ k) : Decided glob path isPrefix negated top os tl L k' r := by
  cases os with
  | nil =>
    unfold Decided at h ⊢
    dsimp only at h ⊢
    split
    · rename_i hL
      rw [if_pos hL] at h
      obtain ⟨n, gi, h1, h2⟩ := h
      exact ⟨n, gi, by omega, h2⟩
    · rename_i hL
      rw [if_neg hL] at h
      exact h
  | cons o os =>
    obtain ⟨n, s, h1, h2⟩ := h
    exact ⟨n, s, by omega, h2⟩

/-- An alternative has been read to its end. -/
theorem decided_success {top s : State} {os : List (List Atom)} {tl : List Nat} {L : Int} {n : Nat} (hd : glob.drop s.glob = restBytes os tl)
    (hn : glob.length - s.glob + 1 ≤ n) :
    Decided glob path isPrefix negated top os tl (max L s.path) s.glob (run glob path isPrefix negated n s ⟨[top], L⟩) := by
  obtain ⟨n, rfl⟩ : ∃ k, n = k + 1 := ⟨n - 1, by omega⟩
  cases os with
  | nil =>
    have hg : glob[s.glob]? = some 125 := by simpa [restBytes] using get_drop0 hd
    have hlt := lt_of_get hg
    have hstep : step glob path isPrefix negated s ⟨[top], L⟩ = .cont ⟨(max L s.path).toNat, s.glob + 1, top.wild, top.star⟩ ⟨[], -1⟩ := by
      unfold step
      simp only [hg, bStar, bQuest, bLBrack, bLBrace, bRBrace]
      cases path[s.path]? <;> simp [pop]
    have hL : 0 ≤ max L s.path := by omega
    unfold Decided
    simp only [hL, if_true]
    refine ⟨n, s.glob + 1, by omega, ?_, by omega, ?_⟩
    · exact drop_add (x := [125]) hd
    · rw [run, if_pos (.inl hlt), hstep]
  | cons o os =>
    rw [restBytes_cons] at hd
    have hg : glob[s.glob]? = some 44 := by simpa using get_drop0 hd
    have hlt := lt_of_get hg
    have hstep : step glob path isPrefix negated s ⟨[top], L⟩ = .cont ⟨top.path, s.glob + 1, {}, {}⟩ ⟨[top], max L s.path⟩ := by
      unfold step
      simp only [hg, bStar, bQuest, bLBrack, bLBrace, bRBrace, bComma]
      cases path[s.path]? <;> simp
    refine ⟨n, ⟨top.path, s.glob + 1, {}, {}⟩, by simp, drop_add (x := [44]) hd, by simp; omega, rfl, rfl, ?_, ?_⟩
    · simp [hg]
    · rw [run, if_pos (.inl hlt), hstep]

/-- An alternative has failed. -/
theorem decided_failure {top s : State} {os : List (List Atom)} {x tl : List Nat} {L : Int} {n k : Nat} (hx : Skips 0 false false x)
    (hd : glob.drop s.glob = x ++ restBytes os tl) (hw : s.wild.p = 0) (htw : top.wild.p = 0) (htp : top.path < path.length)
    (hk : k ≤ s.glob) (hn : glob.length - s.glob + 1 ≤ n + 1) :
    Decided glob path isPrefix negated top os tl L k
      (match afterMismatch glob path isPrefix negated s ⟨[top], L⟩ with
        | .cont s b => run glob path isPrefix negated n s b
        | .ret r => .ok r
        | .panic => .error .panic) := by
  obtain ⟨n1, e1, e2⟩ := hx glob s.glob _ (glob.length + 1) hd (by omega)
  have hd2 := drop_add hd
  obtain ⟨n1, rfl⟩ : ∃ k, n1 = k + 1 := ⟨n1 - 1, by omega⟩
  cases os with
  | nil =>
    have hg : glob[s.glob + x.length]? = some 125 := by simpa [restBytes] using get_drop0 hd2
    have hlt := lt_of_get hg
    have hskip : skipBraces glob true (glob.length + 1) s.glob 1 false = (.endBrace, s.glob + x.length + 1) := by
      rw [e2, skipBraces]
      simp only [hg, bLBrace, bRBrace, Nat.one_ne_zero, if_false, Bool.not_false, and_true, if_true, show ¬ (125 : Nat) = 123 by decide]
      cases n1 <;> simp [skipBraces]
    unfold Decided afterMismatch
    simp only [hw, Nat.lt_irrefl, false_and, if_false, hskip]
    by_cases hL : 0 ≤ L
    · simp only [hL, if_true, pop]
      exact ⟨n, s.glob + x.length + 1, by omega, drop_add (x := [125]) hd2, by omega, rfl⟩
    · simp only [hL, if_false, htw, Nat.lt_irrefl, false_and]
      have : top.path ≠ path.length := by omega
      cases isPrefix <;> cases negated <;> simp [this]
  | cons o os =>
    rw [restBytes_cons] at hd2
    have hg : glob[s.glob + x.length]? = some 44 := by simpa using get_drop0 hd2
    have hlt := lt_of_get hg
    have hskip : skipBraces glob true (glob.length + 1) s.glob 1 false = (.comma, s.glob + x.length + 1) := by
      rw [e2, skipBraces]
      simp [hg, bLBrace, bRBrace, bComma]
    unfold afterMismatch
    simp only [hw, Nat.lt_irrefl, false_and, if_false, hskip]
    refine ⟨n, ⟨top.path, s.glob + x.length + 1, s.wild, s.star⟩, ?_, drop_add (x := [44]) hd2, ?_, hw, rfl, ?_, rfl⟩
    · simp only; omega
    · simp only; omega
    · simp [hg]

theorem atom_last {a : Atom} (h : a.okInside) {i : Nat} {tl : List Nat} (hd : glob.drop i = a.bytes ++ tl) :
    glob[i + a.bytes.length - 1]? ≠ some 125 := by
  have h1 := atom_length a
  have e : glob[i + a.bytes.length - 1]? = a.bytes[a.bytes.length - 1]? := by
    rw [show i + a.bytes.length - 1 = i + (a.bytes.length - 1) by omega, get_drop hd, List.getElem?_append_left (by omega)]
  rw [e]
  cases a with
  | any => simp [Atom.bytes]
  | lit s =>
    cases s with
    | plain b => simpa [Atom.bytes, Sym.bytes] using h.2.2
    | esc b => simpa [Atom.bytes, Sym.bytes] using h.2.1
  | cls neg items =>
    rw [show Atom.bytes (.cls neg items) = ('['.toNat :: (neg.toList ++ items.flatMap Item.bytes)) ++ [93] by simp [Atom.bytes]]
    rw [List.length_append, List.length_singleton, Nat.add_sub_cancel, List.getElem?_concat_length]
    simp

/-- An alternative is read. -/
theorem option_run {top : State} {os : List (List Atom)} {tl : List Nat} {L : Int} (htw : top.wild.p = 0) (htp : top.path < path.length) :
    ∀ (o : List Atom) (s : State) (n : Nat), (∀ a ∈ o, a.okInside) → glob.drop s.glob = atomBytes o ++ restBytes os tl →
      glob.length - s.glob + 1 ≤ n → s.wild.p = 0 → glob[s.glob - 1]? ≠ some 125 →
      Decided glob path isPrefix negated top os tl
        (if fits o ((path.drop s.path).take o.length) then max L ↑(s.path + o.length) else L) s.glob
        (run glob path isPrefix negated n s ⟨[top], L⟩) := by
  intro o
  induction o with
  | nil =>
    intro s n _ hd hn _ _
    have := decided_success (path := path) (isPrefix := isPrefix) (negated := negated) (top := top) (L := L) (s := s) (n := n) hd hn
    simpa [fits] using this
  | cons a o ih =>
    intro s n hok hd hn hw hq
    obtain ⟨n, rfl⟩ : ∃ k, n = k + 1 := ⟨n - 1, by omega⟩
    have ha : a.okInside := hok a (by simp)
    have hd' : glob.drop s.glob = a.bytes ++ (atomBytes o ++ restBytes os tl) := by rw [hd]; simp [atomBytes]
    have hlen := atom_length a
    have hlt : s.glob < glob.length := by
      refine Nat.lt_of_not_le fun h => ?_
      rw [List.drop_eq_nil_of_le h] at hd'
      have := congrArg List.length hd'
      simp at this
      omega
    rw [run, if_pos (show s.glob < glob.length ∨ s.path < path.length from .inl hlt)]
    cases hp : path[s.path]? with
    | none =>
      rw [atom_end (okInside_ok ha) hd' hp (.inr ha), drop_eq_nil' hp]
      simp only [List.take_nil, fits, Bool.false_eq_true, if_false]
      refine decided_failure (x := a.bytes ++ atomBytes o) ((Skips.atom ha).append (Skips.atoms fun x hx => hok x (by simp [hx]))) ?_ hw htw htp
        (Nat.le_refl _) (by omega)
      rw [hd', List.append_assoc]
    | some c =>
      have hst := atom_step (isPrefix := isPrefix) (negated := negated) (b := ⟨[top], L⟩) (okInside_ok ha) hd' hp (.inr ⟨ha, hq⟩)
      rw [drop_eq_cons hp]
      simp only [List.length_cons, List.take_succ_cons, fits]
      by_cases hh : a.has c = true
      · rw [if_pos hh] at hst
        obtain ⟨w, -, hst⟩ := hst
        rw [hst]
        have := ih ⟨s.path + 1, s.glob + a.bytes.length, s.wild, w⟩ n (fun x hx => hok x (by simp [hx])) (drop_add hd') (by simp only; omega) hw
          (atom_last ha hd')
        simp only [hh, Bool.true_and]
        rw [show s.path + (o.length + 1) = s.path + 1 + o.length by omega]
        exact this.mono (by simp only; omega)
      · rw [if_neg hh] at hst
        obtain ⟨i, x, h1, h2, h3, h4⟩ := hst
        rw [h4]
        simp only [hh, Bool.false_and, Bool.false_eq_true, if_false]
        refine decided_failure (x := x ++ atomBytes o) ((h2 ha).append (Skips.atoms fun x hx => hok x (by simp [hx]))) ?_ hw htw htp
          h3 (by simp only; omega)
        rw [List.append_assoc]
        exact h1

/-- How far the best alternative so far reaches. -/
def best (path : List Nat) (p0 : Nat) : List (List Atom) → Int → Int
  | [], L => L
  | o :: os, L => best path p0 os (if fits o ((path.drop p0).take o.length) then max L ↑(p0 + o.length) else L)

/-- All alternatives are read. -/
theorem options_run {top : State} {tl : List Nat} (htw : top.wild.p = 0) (htp : top.path < path.length) :
    ∀ (os : List (List Atom)) (o : List Atom) (s : State) (n : Nat) (L : Int), (∀ a ∈ o, a.okInside) → (∀ o ∈ os, ∀ a ∈ o, a.okInside) →
      glob.drop s.glob = atomBytes o ++ restBytes os tl → glob.length - s.glob + 1 ≤ n → s.wild.p = 0 → s.path = top.path →
      glob[s.glob - 1]? ≠ some 125 →
      Decided glob path isPrefix negated top [] tl (best path top.path (o :: os) L) s.glob
        (run glob path isPrefix negated n s ⟨[top], L⟩) := by
  intro os
  induction os with
  | nil =>
    intro o s n L ho _ hd hn hw hp hq
    have := option_run (path := path) (isPrefix := isPrefix) (negated := negated) (L := L) htw htp o s n ho hd hn hw hq
    rw [hp] at this
    exact this
  | cons o1 os ih =>
    intro o s n L ho hos hd hn hw hp hq
    have := option_run (path := path) (isPrefix := isPrefix) (negated := negated) (L := L) htw htp o s n ho hd hn hw hq
    rw [hp] at this
    obtain ⟨n1, s1, h1, h2, h3, h4, h5, h6, h7⟩ := this
    rw [h7]
    exact (ih o1 s1 n1 _ (hos o1 (by simp)) (fun x hx => hos x (by simp [hx])) h2 h3 h4 h5 h6).mono (by omega)

/-! ### The whole pattern -/

theorem best_spec (path : List Nat) (p0 : Nat) : ∀ (os : List (List Atom)) (L : Int),
    best path p0 os L = (matching os (path.drop p0)).foldl (fun L o => max L ↑(p0 + o.length)) L := by
  intro os
  induction os with
  | nil => intro L; rfl
  | cons o os ih =>
    intro L
    unfold best matching
    rw [List.filter_cons]
    by_cases h : fits o ((path.drop p0).take o.length) = true
    · rw [if_pos h, if_pos h, List.foldl_cons]; exact ih _
    · rw [if_neg h, if_neg h]; exact ih _

theorem foldl_max (p0 : Nat) : ∀ (os : List (List Atom)) (m : Nat),
    os.foldl (fun L o => max L ((p0 + o.length : Nat) : Int)) ((p0 + m : Nat) : Int) = ((p0 + (os.map List.length).foldl max m : Nat) : Int) := by
  intro os
  induction os with
  | nil => intro m; rfl
  | cons o os ih =>
    intro m
    rw [List.foldl_cons, show max ((p0 + m : Nat) : Int) ((p0 + o.length : Nat) : Int) = ((p0 + max m o.length : Nat) : Int) by omega, ih]
    rfl

theorem best_longest (path : List Nat) (p0 : Nat) (os : List (List Atom)) :
    best path p0 os (-1) = match longestOf (matching os (path.drop p0)) with
      | none => -1
      | some n => ((p0 + n : Nat) : Int) := by
  rw [best_spec]
  unfold longestOf
  cases hm : matching os (path.drop p0) with
  | nil => rfl
  | cons o rest =>
    rw [List.foldl_cons, show max (-1) ((p0 + o.length : Nat) : Int) = ((p0 + o.length : Nat) : Int) by omega, foldl_max]
    rfl

theorem fits_length : ∀ (o : List Atom) (r : List Nat), fits o r = true → o.length = r.length
  | [], [], _ => rfl
  | [], _ :: _, h => by simp [fits] at h
  | _ :: _, [], h => by simp [fits] at h
  | a :: o, c :: r, h => by
    simp only [fits, Bool.and_eq_true] at h
    simp [fits_length o r h.2]

theorem longest_le {os : List (List Atom)} {r : List Nat} {n : Nat} (h : longestOf (matching os r) = some n) : n ≤ r.length := by
  unfold longestOf at h
  have := List.max?_mem h
  rw [List.mem_map] at this
  obtain ⟨o, ho, rfl⟩ := this
  unfold matching at ho
  rw [List.mem_filter] at ho
  have := fits_length _ _ ho.2
  rw [List.length_take] at this
  omega

/-- The matcher on a well-written pattern. -/
theorem run_exact : ∀ (ps : List Piece) (s : State) (L : Int) (n : Nat), (∀ p ∈ ps, p.ok) → glob.drop s.glob = ps.flatMap Piece.bytes →
    glob.length - s.glob + 1 ≤ n → s.wild.p = 0 → s.path ≤ path.length → L = -1 →
    run glob path isPrefix negated n s ⟨[], L⟩ = .ok (accepts isPrefix ps (path.drop s.path) != negated) := by
  intro ps
  induction ps with
  | nil =>
    intro s L n _ hd hn hw hp hL
    obtain ⟨n, rfl⟩ : ∃ k, n = k + 1 := ⟨n - 1, by omega⟩
    have hgl : glob.length ≤ s.glob := List.drop_eq_nil_iff.1 hd
    have hgi : glob[s.glob]? = none := List.getElem?_eq_none_iff.2 hgl
    rw [run]
    cases hpi : path[s.path]? with
    | none =>
      have hpl : path.length ≤ s.path := List.getElem?_eq_none_iff.mp hpi
      rw [if_neg (by omega), if_neg (by simp), drop_eq_nil' hpi]
      cases negated <;> simp [accepts]
    | some pc =>
      have hpl := lt_of_get hpi
      rw [if_pos (.inr hpl), drop_eq_cons hpi]
      simp only [step, hgi, afterMismatch, hw]
      have : s.path ≠ path.length := by omega
      cases isPrefix <;> cases negated <;> simp [accepts, this]
  | cons p ps ih =>
    intro s L n hok hd hn hw hp hL
    subst hL
    obtain ⟨n, rfl⟩ : ∃ k, n = k + 1 := ⟨n - 1, by omega⟩
    have hokp := hok p (by simp)
    have hps : ∀ q ∈ ps, q.ok := fun q hq => hok q (by simp [hq])
    cases p with
    | atom a =>
      have hd' : glob.drop s.glob = a.bytes ++ ps.flatMap Piece.bytes := by rw [hd]; simp [Piece.bytes]
      have hlen := atom_length a
      have hlt : s.glob < glob.length := by
        refine Nat.lt_of_not_le fun h => ?_
        rw [List.drop_eq_nil_of_le h] at hd'
        have := congrArg List.length hd'
        simp at this
        omega
      rw [run, if_pos (show s.glob < glob.length ∨ s.path < path.length from .inl hlt)]
      cases hpi : path[s.path]? with
      | none =>
        have hpe : s.path = path.length := by
          have := List.getElem?_eq_none_iff.mp hpi
          omega
        rw [atom_end hokp hd' hpi (.inl rfl), drop_eq_nil' hpi]
        simp only [afterMismatch, hw, accepts]
        cases isPrefix <;> cases negated <;> simp [hpe]
      | some c =>
        have hpl := lt_of_get hpi
        have hst := atom_step (isPrefix := isPrefix) (negated := negated) (b := ⟨[], -1⟩) hokp hd' hpi (.inl rfl)
        rw [drop_eq_cons hpi]
        simp only [accepts]
        by_cases hh : a.has c = true
        · rw [if_pos hh] at hst
          obtain ⟨w, -, hst⟩ := hst
          rw [hst]
          have := ih ⟨s.path + 1, s.glob + a.bytes.length, s.wild, w⟩ (-1) n hps (drop_add hd') (by simp only; omega) hw (by simp only; omega) rfl
          simp only [hh, Bool.true_and]
          exact this
        · rw [if_neg hh] at hst
          obtain ⟨i, x, h1, h2, h3, h4⟩ := hst
          rw [h4]
          have : s.path ≠ path.length := by omega
          simp only [hh, Bool.false_and, afterMismatch, hw]
          cases isPrefix <;> cases negated <;> simp [this]
    | group o os =>
      have hd' : glob.drop s.glob = 123 :: (atomBytes o ++ restBytes os (ps.flatMap Piece.bytes)) := by
        rw [hd]; simp [Piece.bytes, restBytes]
      have hg : glob[s.glob]? = some 123 := by simpa using get_drop0 hd'
      have hlt := lt_of_get hg
      rw [run, if_pos (show s.glob < glob.length ∨ s.path < path.length from .inl hlt)]
      cases hpi : path[s.path]? with
      | none =>
        have hpe : s.path = path.length := by
          have := List.getElem?_eq_none_iff.mp hpi
          omega
        have hst : step glob path isPrefix negated s ⟨[], -1⟩ = afterMismatch glob path isPrefix negated s ⟨[], -1⟩ := by
          unfold step
          simp [hg, hpi, bStar, bRBrace, bComma]
        rw [hst, drop_eq_nil' hpi]
        simp only [afterMismatch, hw, accepts]
        cases isPrefix <;> cases negated <;> simp [hpe]
      | some c =>
        have hpl := lt_of_get hpi
        have hst : step glob path isPrefix negated s ⟨[], -1⟩ = .cont ⟨s.path, s.glob + 1, {}, {}⟩ ⟨[s], -1⟩ := by
          unfold step
          simp [hg, hpi, bStar, bQuest, bLBrack, bLBrace, push]
        rw [hst]
        have := options_run (path := path) (isPrefix := isPrefix) (negated := negated) (top := s) (tl := ps.flatMap Piece.bytes) hw hpl os o
          ⟨s.path, s.glob + 1, {}, {}⟩ n (-1) hokp.1 hokp.2 (drop_add (x := [123]) hd') (by simp only; omega) rfl rfl (by simp [hg])
        dsimp only
        rw [best_longest] at this
        rw [drop_eq_cons hpi]
        simp only [accepts]
        rw [← drop_eq_cons hpi]
        cases hb : longestOf (matching (o :: os) (path.drop s.path)) with
        | none =>
          rw [hb] at this
          unfold Decided at this
          dsimp only at this ⊢
          rw [if_neg (by omega)] at this
          rw [this]
          cases negated <;> rfl
        | some m =>
          rw [hb] at this
          unfold Decided at this
          dsimp only at this ⊢
          rw [if_pos (Int.natCast_nonneg _)] at this
          obtain ⟨n1, gi, h1, h2, h3, h4⟩ := this
          have hm := longest_le hb
          rw [List.length_drop] at hm
          rw [Int.toNat_natCast] at h4
          rw [h4, ih ⟨s.path + m, gi, s.wild, s.star⟩ (-1) n1 hps h2 h3 hw (by simp only; omega) rfl, List.drop_drop]

/-- A first alternative that fails at its first byte does not count, whatever follows it up to the comma. -/
theorem run_skip {a : Atom} {x : List Nat} {o : List Atom} {os : List (List Atom)} {ps : List Piece} {c : Nat} {r : List Nat} {n : Nat}
    (ha : a.okInside) (hx : Nested false x) (hok : ∀ p ∈ Piece.group o os :: ps, p.ok) (hc : a.has c = false) (hpath : path = c :: r)
    (hg : glob = 123 :: (a.bytes ++ x ++ restBytes (o :: os) (ps.flatMap Piece.bytes))) (hn : glob.length + 1 ≤ n) :
    run glob path isPrefix negated n {} {} = .ok (accepts isPrefix (.group o os :: ps) path != negated) := by
  obtain ⟨n, rfl⟩ : ∃ k, n = k + 2 := ⟨n - 2, by rw [hg] at hn; simp at hn; omega⟩
  have hlen : 1 < glob.length := by rw [hg]; have := atom_length a; simp; omega
  have hg0 : glob[0]? = some 123 := by rw [hg]; rfl
  have hp0 : path[0]? = some c := by rw [hpath]; rfl
  have hpl : 0 < path.length := by rw [hpath]; simp
  have hst : step glob path isPrefix negated {} {} = .cont ⟨0, 1, {}, {}⟩ ⟨[{}], -1⟩ := by
    unfold step
    simp [hg0, hp0, bStar, bQuest, bLBrack, bLBrace, push]
  have hd1 : glob.drop 1 = a.bytes ++ (x ++ restBytes (o :: os) (ps.flatMap Piece.bytes)) := by rw [hg]; simp
  have hst2 := atom_step (glob := glob) (path := path) (isPrefix := isPrefix) (negated := negated) (s := ⟨0, 1, {}, {}⟩) (b := ⟨[{}], -1⟩)
    (okInside_ok ha) hd1 hp0 (.inr ⟨ha, by simp [hg0]⟩)
  rw [if_neg (by rw [hc]; decide)] at hst2
  obtain ⟨i, y, h1, h2, h3, h4⟩ := hst2
  have h3 : 1 ≤ i := h3
  rw [run, if_pos (show 0 < glob.length ∨ 0 < path.length from .inr hpl), hst]
  dsimp only
  rw [run, if_pos (show 1 < glob.length ∨ 0 < path.length from .inr hpl), h4]
  have := decided_failure (glob := glob) (path := path) (isPrefix := isPrefix) (negated := negated) (top := {}) (s := ⟨0, i, {}, {}⟩) (os := o :: os)
    (tl := ps.flatMap Piece.bytes) (L := -1) (n := n) (k := 1) ((h2 ha).append (Skips.nested hx 0 (Or.inl rfl)))
    (by rw [List.append_assoc]; exact h1) rfl rfl hpl h3 (by simp only; omega)
  obtain ⟨n1, s1, g1, g2, g3, g4, g5, g6, g7⟩ := this
  refine g7.trans ?_
  have hokp := hok (.group o os) (by simp)
  have := options_run (glob := glob) (path := path) (isPrefix := isPrefix) (negated := negated) (top := {}) (tl := ps.flatMap Piece.bytes) rfl hpl os o
    s1 n1 (-1) hokp.1 hokp.2 g2 g3 g4 g5 g6
  rw [best_longest] at this
  subst hpath
  simp only [accepts]
  rw [show (c :: r).drop (State.path {}) = c :: r from rfl] at this
  cases hb : longestOf (matching (o :: os) (c :: r)) with
  | none =>
    rw [hb] at this
    unfold Decided at this
    dsimp only at this ⊢
    rw [if_neg (by omega)] at this
    rw [this]
    cases negated <;> rfl
  | some m =>
    rw [hb] at this
    unfold Decided at this
    dsimp only at this ⊢
    rw [if_pos (Int.natCast_nonneg _)] at this
    obtain ⟨n2, gi, k1, k2, k3, k4⟩ := this
    have hm := longest_le hb
    rw [Int.toNat_natCast] at k4
    rw [k4, run_exact ps ⟨0 + m, gi, {}, {}⟩ (-1) n2 (fun p hp => hok p (by simp [hp])) k2 k3 rfl (by simp only; omega) rfl]
    simp only [Nat.zero_add]

theorem bangs_replicate (k : Nat) (l : List Nat) (h : l.head? ≠ some 33) : leadingBangs (List.replicate k 33 ++ l) = k := by
  induction k with
  | zero => simpa using leadingBangs_zero _ h
  | succ k ih => simp [List.replicate_succ, leadingBangs, bBang, ih]

theorem head_bytes {ps : List Piece} (h : patOk ps) : (ps.flatMap Piece.bytes).head? ≠ some 33 := by
  cases ps with
  | nil => simp
  | cons p ps =>
    obtain ⟨h1, h2⟩ := h
    have hp := h1 p (by simp)
    cases p with
    | group o os => simp [Piece.bytes]
    | atom a =>
      cases a with
      | any => simp [Piece.bytes, Atom.bytes]
      | cls neg items => simp [Piece.bytes, Atom.bytes]
      | lit s =>
        cases s with
        | plain b =>
          simp only [List.head?_cons, ne_eq, Option.some.injEq, Piece.atom.injEq, Atom.lit.injEq, Sym.plain.injEq] at h2
          simpa [Piece.bytes, Atom.bytes, Sym.bytes] using h2
        | esc b => simp [Piece.bytes, Atom.bytes, Sym.bytes]

theorem match_exact (bangs : Nat) (ps : List Piece) (hok : patOk ps) (fuel : Nat) (hf : (patBytes bangs ps).length + 1 ≤ fuel) :
    matchInternal fuel (patBytes bangs ps) path isPrefix = .ok (accepts isPrefix ps path != decide (bangs % 2 = 1)) := by
  unfold matchInternal
  have hb : leadingBangs (patBytes bangs ps) = bangs := bangs_replicate bangs _ (head_bytes hok)
  simp only [hb]
  have hd : (patBytes bangs ps).drop bangs = ps.flatMap Piece.bytes := by
    have := drop_add (l := patBytes bangs ps) (i := 0) (x := List.replicate bangs 33) rfl
    simpa using this
  have := run_exact (glob := patBytes bangs ps) (path := path) (isPrefix := isPrefix) (negated := bangs % 2 == 1) ps { glob := bangs } (-1) fuel
    hok.1 hd (by simp only; omega) rfl (Nat.zero_le _) rfl
  rw [this]
  rfl

end

end Mitex.Glob
