/-
C64: what glob patterns without `*` mean.
-/
import Verif.Proof.GlobExact

namespace Mitex
open Glob GlobSpec

/-- C64: the matcher decides exactly what the specification says, on every well-written pattern without stars and with braces nested
at most once, for every text, in both modes; each leading `!` negates the answer. -/
theorem C64_exact (bangs : Nat) (ps : List Piece) (hok : patOk ps) (pat s : Text) (hpat : bytes pat = patBytes bangs ps) (fuel : Nat)
    (hf : (bytes pat).length + 1 ≤ fuel) :
    matchFull fuel pat s = .ok (accepts false ps (bytes s) != decide (bangs % 2 = 1)) ∧
    matchPrefix fuel pat s = .ok (accepts true ps (bytes s) != decide (bangs % 2 = 1)) := by
  unfold matchFull matchPrefix
  rw [hpat] at hf ⊢
  exact ⟨match_exact bangs ps hok fuel hf, match_exact bangs ps hok fuel hf⟩

/-- A list of atoms, as a pattern. -/
def ofAtoms (as : List Atom) : List Piece := as.map .atom

theorem accepts_atoms_full : ∀ (as : List Atom) (r : List Nat), accepts false (ofAtoms as) r = fits as r
  | [], [] => rfl
  | [], _ :: _ => rfl
  | _ :: _, [] => rfl
  | a :: as, c :: r => by
    show (a.has c && accepts false (ofAtoms as) r) = (a.has c && fits as r)
    rw [accepts_atoms_full as r]

theorem accepts_atoms_prefix : ∀ (as : List Atom) (r : List Nat), accepts true (ofAtoms as) r = (decide (r.length ≤ as.length) && fits (as.take r.length) r)
  | [], [] => rfl
  | [], _ :: _ => by simp [ofAtoms, accepts]
  | _ :: _, [] => by simp [ofAtoms, accepts, fits]
  | a :: as, c :: r => by
    show (a.has c && accepts true (ofAtoms as) r) = _
    rw [accepts_atoms_prefix as r]
    simp only [List.length_cons, List.take_succ_cons, fits, Nat.add_le_add_iff_right]
    cases a.has c <;> simp

/-- C64, without braces: the pattern matches exactly the texts of as many bytes as it has atoms, each of which matches its byte; in
prefix mode, the texts that are matched by a beginning of the pattern. -/
theorem C64_atoms (as : List Atom) (hok : patOk (ofAtoms as)) (pat s : Text) (hpat : bytes pat = atomBytes as) (fuel : Nat)
    (hf : (bytes pat).length + 1 ≤ fuel) :
    matchFull fuel pat s = .ok (fits as (bytes s)) ∧
    matchPrefix fuel pat s = .ok (decide ((bytes s).length ≤ as.length) && fits (as.take (bytes s).length) (bytes s)) := by
  have hb : bytes pat = patBytes 0 (ofAtoms as) := by
    rw [hpat]
    simp [patBytes, ofAtoms, atomBytes, List.flatMap_map, Piece.bytes]
  have := C64_exact 0 (ofAtoms as) hok pat s hb fuel hf
  rw [accepts_atoms_full, accepts_atoms_prefix] at this
  simpa using this

/-- The atoms of a pattern, for one choice of alternatives. -/
inductive Chosen : List Piece → List Atom → Prop
  | nil : Chosen [] []
  | atom {a ps as} (h : Chosen ps as) : Chosen (.atom a :: ps) (a :: as)
  | group {o os ps o' as} (ho : o' ∈ o :: os) (h : Chosen ps as) : Chosen (.group o os :: ps) (o' ++ as)

theorem fits_append : ∀ (o : List Atom) (as : List Atom) (r : List Nat), fits (o ++ as) r = (fits o (r.take o.length) && fits as (r.drop o.length))
  | [], as, r => by simp [fits]
  | a :: o, as, [] => by simp [fits]
  | a :: o, as, c :: r => by
    simp only [List.cons_append, fits, List.length_cons, List.take_succ_cons, List.drop_succ_cons, fits_append o as r, Bool.and_assoc]

theorem longest_mem {os : List (List Atom)} {r : List Nat} {n : Nat} (h : longestOf (matching os r) = some n) :
    ∃ o ∈ os, fits o (r.take o.length) = true ∧ o.length = n := by
  have := List.max?_mem h
  rw [List.mem_map] at this
  obtain ⟨o, ho, rfl⟩ := this
  unfold matching at ho
  rw [List.mem_filter] at ho
  exact ⟨o, ho.1, ho.2, rfl⟩

theorem accepts_sound : ∀ (ps : List Piece) (r : List Nat), accepts false ps r = true → ∃ as, Chosen ps as ∧ fits as r = true := by
  intro ps
  induction ps with
  | nil =>
    intro r h
    cases r with
    | nil => exact ⟨[], .nil, rfl⟩
    | cons c r => simp [accepts] at h
  | cons p ps ih =>
    intro r h
    cases r with
    | nil => simp [accepts] at h
    | cons c r =>
      cases p with
      | atom a =>
        simp only [accepts, Bool.and_eq_true] at h
        obtain ⟨as, h1, h2⟩ := ih r h.2
        exact ⟨a :: as, .atom h1, by simp [fits, h.1, h2]⟩
      | group o os =>
        simp only [accepts] at h
        cases hl : longestOf (matching (o :: os) (c :: r)) with
        | none => rw [hl] at h; simp at h
        | some n =>
          rw [hl] at h
          obtain ⟨o', m1, m2, rfl⟩ := longest_mem hl
          obtain ⟨as, h1, h2⟩ := ih _ h
          exact ⟨o' ++ as, .group m1 h1, by rw [fits_append, m2, h2]; rfl⟩

theorem accepts_sound_prefix : ∀ (ps : List Piece) (r : List Nat), accepts true ps r = true →
    ∃ as, Chosen ps as ∧ r.length ≤ as.length ∧ fits (as.take r.length) r = true := by
  intro ps
  have any : ∀ ps : List Piece, ∃ as, Chosen ps as := by
    intro ps
    induction ps with
    | nil => exact ⟨[], .nil⟩
    | cons p ps ih =>
      obtain ⟨as, h⟩ := ih
      cases p with
      | atom a => exact ⟨_, .atom h⟩
      | group o os => exact ⟨_, .group (List.mem_cons_self) h⟩
  induction ps with
  | nil =>
    intro r h
    cases r with
    | nil => exact ⟨[], .nil, Nat.le_refl _, rfl⟩
    | cons c r => simp [accepts] at h
  | cons p ps ih =>
    intro r h
    cases r with
    | nil =>
      obtain ⟨as, h⟩ := any (p :: ps)
      exact ⟨as, h, Nat.zero_le _, by simp [fits]⟩
    | cons c r =>
      cases p with
      | atom a =>
        simp only [accepts, Bool.and_eq_true] at h
        obtain ⟨as, h1, h2, h3⟩ := ih r h.2
        exact ⟨a :: as, .atom h1, by simp [h2], by simp [fits, h.1, h3]⟩
      | group o os =>
        simp only [accepts] at h
        cases hl : longestOf (matching (o :: os) (c :: r)) with
        | none => rw [hl] at h; simp at h
        | some n =>
          rw [hl] at h
          have hle := longest_le hl
          obtain ⟨o', m1, m2, rfl⟩ := longest_mem hl
          obtain ⟨as, h1, h2, h3⟩ := ih _ h
          rw [List.length_drop] at h2 h3
          refine ⟨o' ++ as, .group m1 h1, by rw [List.length_append]; omega, ?_⟩
          rw [List.take_append, fits_append, List.take_of_length_le (by omega), m2, h3]
          rfl

/-- C64, with braces: what the matcher accepts is matched by the pattern with one alternative chosen in each braces; in prefix mode, by
a beginning of it. -/
theorem C64_sound (ps : List Piece) (hok : patOk ps) (pat s : Text) (hpat : bytes pat = patBytes 0 ps) (fuel : Nat)
    (hf : (bytes pat).length + 1 ≤ fuel) :
    (matchFull fuel pat s = .ok true → ∃ as, Chosen ps as ∧ fits as (bytes s) = true) ∧
    (matchPrefix fuel pat s = .ok true → ∃ as, Chosen ps as ∧ (bytes s).length ≤ as.length ∧ fits (as.take (bytes s).length) (bytes s) = true) := by
  obtain ⟨h1, h2⟩ := C64_exact 0 ps hok pat s hpat fuel hf
  rw [h1, h2]
  refine ⟨fun h => accepts_sound ps _ (by simpa using h), fun h => accepts_sound_prefix ps _ (by simpa using h)⟩

/-- No text begins with two alternatives of different lengths, and none is empty. -/
def Unambiguous (ps : List Piece) : Prop := ∀ o os, Piece.group o os ∈ ps →
  (∀ x ∈ o :: os, x ≠ []) ∧ ∀ x ∈ o :: os, ∀ y ∈ o :: os, ∀ r : List Nat, fits x (r.take x.length) = true → fits y (r.take y.length) = true → x.length = y.length

theorem max?_const : ∀ (l : List Nat) (n : Nat), n ∈ l → (∀ m ∈ l, m = n) → l.max? = some n := by
  intro l n h1 h2
  cases hm : l.max? with
  | none => rw [List.max?_eq_none_iff] at hm; rw [hm] at h1; cases h1
  | some m => rw [h2 m (List.max?_mem hm)]

theorem accepts_complete : ∀ (ps : List Piece) (as : List Atom), Chosen ps as → Unambiguous ps → ∀ r, fits as r = true → accepts false ps r = true := by
  intro ps as h
  induction h with
  | nil =>
    intro _ r hr
    cases r with
    | nil => rfl
    | cons c r => simp [fits] at hr
  | atom h ih =>
    intro hu r hr
    cases r with
    | nil => simp [fits] at hr
    | cons c r =>
      simp only [fits, Bool.and_eq_true] at hr
      simp only [accepts, hr.1, Bool.true_and]
      exact ih (fun o os ho => hu o os (by simp [ho])) r hr.2
  | @group o os ps o' as ho h ih =>
    intro hu r hr
    obtain ⟨u1, u2⟩ := hu o os (by simp)
    rw [fits_append, Bool.and_eq_true] at hr
    cases r with
    | nil =>
      cases o' with
      | nil => exact absurd rfl (u1 _ ho)
      | cons a o' => simp [fits] at hr
    | cons c r =>
      simp only [accepts]
      have hl : longestOf (matching (o :: os) (c :: r)) = some o'.length := by
        refine max?_const _ _ ?_ ?_
        · rw [List.mem_map]
          exact ⟨o', List.mem_filter.2 ⟨ho, hr.1⟩, rfl⟩
        · intro m hm
          rw [List.mem_map] at hm
          obtain ⟨x, hx, rfl⟩ := hm
          obtain ⟨x1, x2⟩ := List.mem_filter.1 hx
          exact u2 x x1 o' ho _ x2 hr.1
      rw [hl]
      exact ih (fun o os ho => hu o os (by simp [ho])) _ hr.2

/-- C64: if the alternatives are not empty and cannot be confused, full matching is exactly matching one choice of alternatives. -/
theorem C64_alternatives (ps : List Piece) (hok : patOk ps) (hu : Unambiguous ps) (pat s : Text) (hpat : bytes pat = patBytes 0 ps) (fuel : Nat)
    (hf : (bytes pat).length + 1 ≤ fuel) : matchFull fuel pat s = .ok true ↔ ∃ as, Chosen ps as ∧ fits as (bytes s) = true := by
  refine ⟨(C64_sound ps hok pat s hpat fuel hf).1, ?_⟩
  rintro ⟨as, h1, h2⟩
  rw [(C64_exact 0 ps hok pat s hpat fuel hf).1, accepts_complete ps as h1 hu _ h2]
  rfl

/-- C64, nested braces: an alternative that fails at its first byte is passed over as a whole, however its rest is nested: the answer is
that for the pattern without this alternative. -/
theorem C64_skips_nested (a : Atom) (x : List Nat) (o : List Atom) (os : List (List Atom)) (ps : List Piece) (ha : a.okInside)
    (hx : Nested false x) (hok : ∀ p ∈ Piece.group o os :: ps, p.ok) (pat s : Text)
    (hpat : bytes pat = '{'.toNat :: (a.bytes ++ x ++ ((o :: os).flatMap (fun o => ','.toNat :: atomBytes o) ++ '}'.toNat :: ps.flatMap Piece.bytes)))
    (c : Nat) (r : List Nat) (hs : bytes s = c :: r) (hc : a.has c = false) (fuel : Nat) (hf : (bytes pat).length + 1 ≤ fuel) :
    matchFull fuel pat s = .ok (accepts false (.group o os :: ps) (bytes s)) ∧
    matchPrefix fuel pat s = .ok (accepts true (.group o os :: ps) (bytes s)) := by
  have hb : leadingBangs (bytes pat) = 0 := by rw [hpat]; rfl
  constructor
  · have := run_skip (glob := bytes pat) (path := bytes s) (isPrefix := false) (negated := false) ha hx hok hc hs hpat hf
    unfold matchFull matchInternal
    simp only [hb]
    refine this.trans ?_
    simp
  · have := run_skip (glob := bytes pat) (path := bytes s) (isPrefix := true) (negated := false) ha hx hok hc hs hpat hf
    unfold matchPrefix matchInternal
    simp only [hb]
    refine this.trans ?_
    simp

/-- C64, the limits: alternatives are not tried again (`{a,ab}b` does not match `ab`); an optional part at the end of the pattern is not
optional (`a{,b}` does not match `a`); prefixes end at alternatives (`{ab}` refuses the beginning `a`); and nested alternatives are
wrong in both directions: `{{a,b},c}` does not match `c`, `{a{b,c}d,e}x` matches `abx`. -/
theorem C64_limits (fuel : Nat) (hf : 20 ≤ fuel) :
    matchFull fuel "{ab,a}b".toList "ab".toList = .ok false ∧
    matchFull fuel "a{,b}".toList "a".toList = .ok false ∧
    matchPrefix fuel "{ab}".toList "a".toList = .ok false ∧
    matchFull fuel "{{a,b},c}".toList "c".toList = .ok false ∧
    matchFull fuel "{a{b,c}d,e}x".toList "abx".toList = .ok true := by
  obtain ⟨n, rfl⟩ : ∃ k, fuel = k + 20 := ⟨fuel - 20, by omega⟩
  refine ⟨rfl, rfl, rfl, rfl, rfl⟩

/-- `!![^a-c\]]?{x,[y-z]w}/` -/
example : patOk [.atom (.cls (some '^'.toNat) [.range (.plain 'a'.toNat) (.plain 'c'.toNat), .one (.esc ']'.toNat)]), .atom .any,
      .group [.lit (.plain 'x'.toNat)] [[.cls none [.range (.plain 'y'.toNat) (.plain 'z'.toNat)], .lit (.plain 'w'.toNat)]],
      .atom (.lit (.plain '/'.toNat))] ∧
    bytes "!![^a-c\\]]?{x,[y-z]w}/".toList = patBytes 2 [.atom (.cls (some '^'.toNat) [.range (.plain 'a'.toNat) (.plain 'c'.toNat),
        .one (.esc ']'.toNat)]), .atom .any,
      .group [.lit (.plain 'x'.toNat)] [[.cls none [.range (.plain 'y'.toNat) (.plain 'z'.toNat)], .lit (.plain 'w'.toNat)]],
      .atom (.lit (.plain '/'.toNat))] ∧
    matchFull 60 "!![^a-c\\]]?{x,[y-z]w}/".toList "d.yw/".toList = .ok true ∧
    matchFull 60 "!![^a-c\\]]?{x,[y-z]w}/".toList "c.yw/".toList = .ok false := by
  refine ⟨?_, by decide, by decide, by decide⟩
  simp [patOk, Piece.ok, Atom.ok, Atom.okInside, itemsOk, symOk, Item.start]

/-- `{a{b,{c,d}},y}` -/
example : matchFull 60 "{a{b,{c,d}},y}".toList "y".toList = .ok true :=
  (C64_skips_nested (.lit (.plain 'a'.toNat)) (bytes "{b,{c,d}}".toList) [.lit (.plain 'y'.toNat)] [] []
    (by simp [Atom.okInside, Atom.ok])
    (.braces (x := bytes "b,{c,d}".toList) (y := [])
      (.atom (a := .lit (.plain 'b'.toNat)) (x := bytes ",{c,d}".toList) (by simp [Atom.okInside, Atom.ok])
        (.comma (.braces (x := bytes "c,d".toList) (y := [])
          (.atom (a := .lit (.plain 'c'.toNat)) (x := bytes ",d".toList) (by simp [Atom.okInside, Atom.ok])
            (.comma (.atom (a := .lit (.plain 'd'.toNat)) (x := []) (by simp [Atom.okInside, Atom.ok]) .nil))) .nil))) .nil)
    (by simp [Piece.ok, Atom.okInside, Atom.ok]) _ "y".toList (by decide) 'y'.toNat [] (by decide) (by decide) 60 (by decide)).1

end Mitex
