/-
JSON values that differ only in order and in meaningless members say the same.
-/
import Verif.Proof.SpecJson

namespace Mitex.SpecJson

theorem Alike.symm {a b : Json} (h : Alike a b) : Alike b a := by
  induction h with
  | refl j => exact .refl j
  | trans _ _ h1 h2 => exact .trans h2 h1
  | order h => exact .order h.symm
  | added h => exact .removed h
  | removed h => exact .added h
  | member _ ih => exact .member ih
  | element _ ih => exact .element ih

/-- Values that are no objects and no arrays are alike only to themselves. -/
theorem Alike.leaf {a b : Json} (h : Alike a b) : (∀ s, a = .str s → b = .str s) ∧ (∀ n, a = .int n → b = .int n) ∧ (a = .null → b = .null) := by
  induction h with
  | refl j => exact ⟨fun _ h => h, fun _ h => h, fun h => h⟩
  | trans _ _ h1 h2 => exact ⟨fun s h => h2.1 s (h1.1 s h), fun n h => h2.2.1 n (h1.2.1 n h), fun h => h2.2.2 (h1.2.2 h)⟩
  | order h => exact ⟨fun _ h => (by cases h), fun _ h => (by cases h), fun h => (by cases h)⟩
  | added h => exact ⟨fun _ h => (by cases h), fun _ h => (by cases h), fun h => (by cases h)⟩
  | removed h => exact ⟨fun _ h => (by cases h), fun _ h => (by cases h), fun h => (by cases h)⟩
  | member _ ih => exact ⟨fun _ h => (by cases h), fun _ h => (by cases h), fun h => (by cases h)⟩
  | element _ ih => exact ⟨fun _ h => (by cases h), fun _ h => (by cases h), fun h => (by cases h)⟩

/-- Lists of optional values, alike one by one. -/
inductive AllAlike : List (Option Json) → List (Option Json) → Prop
  | nil : AllAlike [] []
  | missing {l l'} : AllAlike l l' → AllAlike (none :: l) (none :: l')
  | given {v v' l l'} : Alike v v' → AllAlike l l' → AllAlike (some v :: l) (some v' :: l')

theorem AllAlike.refl : ∀ l, AllAlike l l
  | [] => .nil
  | none :: l => .missing (AllAlike.refl l)
  | some v :: l => .given (.refl v) (AllAlike.refl l)

theorem AllAlike.trans {a b c : List (Option Json)} (h : AllAlike a b) (h' : AllAlike b c) : AllAlike a c := by
  induction h generalizing c with
  | nil => exact h'
  | missing _ ih => cases h' with | missing h2 => exact .missing (ih h2)
  | given h1 _ ih => cases h' with | given h2 h3 => exact .given (h1.trans h2) (ih h3)

theorem fieldOf_perm {o o' : List (Text × Json)} (h : o.Perm o') (k : Text) : fieldOf o k = fieldOf o' k := by
  have hp := h.filter fun e => decide (e.1 = k)
  unfold fieldOf
  cases h1 : o.filter fun e => decide (e.1 = k) with
  | nil => rw [h1] at hp; rw [List.nil_perm.mp hp]
  | cons e l =>
    rw [h1] at hp
    cases l with
    | nil => rw [List.singleton_perm.mp hp]
    | cons e' l =>
      have hl := hp.length_eq
      cases h2 : o'.filter fun e => decide (e.1 = k) with
      | nil => rw [h2] at hl; cases hl
      | cons f l' =>
        cases l' with
        | nil => rw [h2] at hl; cases hl
        | cons => rfl

theorem fieldOf_other {pre post : List (Text × Json)} {k q : Text} {v : Json} (h : k ≠ q) :
    fieldOf (pre ++ (k, v) :: post) q = fieldOf (pre ++ post) q := by
  unfold fieldOf
  rw [List.filter_append, List.filter_append, List.filter_cons_of_neg (by simpa using h)]

theorem fieldOf_member {pre post : List (Text × Json)} {k : Text} {v v' : Json} {r : Option Json}
    (h : fieldOf (pre ++ (k, v) :: post) k = some r) : r = some v ∧ fieldOf (pre ++ (k, v') :: post) k = some (some v') := by
  unfold fieldOf at *
  rw [List.filter_append, List.filter_cons_of_pos (by simp)] at h
  rw [List.filter_append, List.filter_cons_of_pos (by simp)]
  generalize pre.filter (fun e => decide (e.1 = k)) = a at *
  generalize post.filter (fun e => decide (e.1 = k)) = b at *
  cases a with
  | nil =>
    cases b with
    | nil => simp at h ⊢; exact h.symm
    | cons => simp at h
  | cons x a =>
    cases a with
    | nil => simp at h
    | cons => simp at h

/-- The members of an object after a change that keeps each meaningful member, up to likeness. -/
theorem kind_step {o o' : List (Text × Json)}
    (hf : ∀ q ∈ knownMembers, ∀ r, fieldOf o q = some r →
      ∃ r', fieldOf o' q = some r' ∧ AllAlike [r] [r']) {nested : Bool} {vars : List Text} {t : Text} {names : List Text}
    (hn : ∀ q ∈ names, q ∈ knownMembers) {vs : List (Option Json)} (h : Kind nested vars t names vs (.obj o)) :
    ∃ vs', Kind nested vars t names vs' (.obj o') ∧ AllAlike vs vs' := by
  have hmem : ∀ (names : List Text) (vs : List (Option Json)), (∀ q ∈ names, q ∈ knownMembers) → Members o names vs →
      ∃ vs', Members o' names vs' ∧ AllAlike vs vs' := by
    intro names vs hn hm
    induction hm with
    | nil => exact ⟨[], .nil, .nil⟩
    | @given k v ks vs h1 _ ih =>
      obtain ⟨vs', h2, h3⟩ := ih (fun q hq => hn q (by simp [hq]))
      obtain ⟨r', h4, h5⟩ := hf k (hn k (by simp)) _ (fieldOf_has.mpr h1)
      cases h5 with
      | given h6 _ => exact ⟨_, .given (fieldOf_has.mp h4) h2, .given h6 h3⟩
    | @missing k ks vs h1 _ ih =>
      obtain ⟨vs', h2, h3⟩ := ih (fun q hq => hn q (by simp [hq]))
      obtain ⟨r', h4, h5⟩ := hf k (hn k (by simp)) _ (fieldOf_lacks.mpr h1)
      cases h5 with
      | missing _ => exact ⟨_, .missing (fieldOf_lacks.mp h4) h2, .missing h3⟩
  cases h with
  | object h1 h2 h3 =>
    obtain ⟨vs', h4, h5⟩ := hmem _ _ hn h3
    obtain ⟨r', h6, h7⟩ := hf t!"kind" (by decide) _ (fieldOf_has.mpr h1)
    cases h7 with
    | given h8 _ =>
      refine ⟨vs', .object (fieldOf_has.mp h6) ?_ h4, h5⟩
      cases h2 with
      | word h9 => rw [h8.leaf.1 _ rfl]; exact .word h9
      | index h9 h10 => rw [h8.leaf.2.1 _ rfl]; exact .index h9 h10

theorem kind_alike {j j' : Json} (h : Alike j j') {nested : Bool} {vars : List Text} {t : Text} {names : List Text}
    (hn : ∀ q ∈ names, q ∈ knownMembers) {vs : List (Option Json)} (hk : Kind nested vars t names vs j) :
    ∃ vs', Kind nested vars t names vs' j' ∧ AllAlike vs vs' := by
  have same : ∀ r : Option Json, AllAlike [r] [r] := fun r => AllAlike.refl _
  induction h generalizing vs with
  | refl j => exact ⟨vs, hk, .refl vs⟩
  | trans _ _ h1 h2 =>
    obtain ⟨vs', h3, h4⟩ := h1 hk
    obtain ⟨vs'', h5, h6⟩ := h2 h3
    exact ⟨vs'', h5, h4.trans h6⟩
  | order hp =>
    exact kind_step (fun q _ r hr => ⟨r, by rw [← fieldOf_perm hp]; exact hr, same r⟩) hn hk
  | added hu =>
    exact kind_step (fun q hq r hr => ⟨r, by rw [fieldOf_other (q := q) (fun h => hu (by rw [h]; exact hq))]; exact hr, same r⟩) hn hk
  | removed hu =>
    exact kind_step (fun q hq r hr => ⟨r, by rw [fieldOf_other (q := q) (fun h => hu (by rw [h]; exact hq))] at hr; exact hr, same r⟩) hn hk
  | @member k v v' pre post hv _ =>
    refine kind_step (fun q hq r hr => ?_) hn hk
    by_cases hkq : k = q
    · subst hkq
      obtain ⟨rfl, h2⟩ := fieldOf_member (v' := v') hr
      exact ⟨_, h2, .given hv .nil⟩
    · rw [fieldOf_other hkq] at hr
      exact ⟨r, by rw [fieldOf_other hkq]; exact hr, same r⟩
  | @element v v' pre post hv _ =>
    cases pre with
    | nil =>
      cases hk with
      | array h1 h2 =>
        refine ⟨_, .array ?_ h2, .refl _⟩
        cases h1 with
        | word h9 => rw [hv.leaf.1 _ rfl]; exact .word h9
        | index h9 h10 => rw [hv.leaf.2.1 _ rfl]; exact .index h9 h10
    | cons w pre =>
      rw [List.cons_append] at hk ⊢
      cases hk with
      | array h1 h2 =>
        refine ⟨_, .array h1 (by simpa using h2), ?_⟩
        rw [List.map_append, List.map_append, List.map_cons, List.map_cons]
        clear h1 h2
        induction pre with
        | nil => exact .given hv (.refl _)
        | cons x pre ih => exact .given (.refl x) ih

theorem SaysPattern.alike {j j' : Json} {p : ArgPattern} (h : SaysPattern j p) (ha : Alike j j') : SaysPattern j' p := by
  cases h with
  | none h =>
    obtain ⟨vs, h1, h2⟩ := kind_alike ha (by decide) h
    cases h2; exact .none h1
  | fixedLen h hl =>
    obtain ⟨vs, h1, h2⟩ := kind_alike ha (by decide) h
    cases h2 with
    | given h3 h4 => cases h4; rw [h3.leaf.2.1 _ rfl] at h1; exact .fixedLen h1 hl
  | rangeLen h hl hl' =>
    obtain ⟨vs, h1, h2⟩ := kind_alike ha (by decide) h
    cases h2 with
    | given h3 h4 => cases h4 with
      | given h5 h6 => cases h6; rw [h3.leaf.2.1 _ rfl, h5.leaf.2.1 _ rfl] at h1; exact .rangeLen h1 hl hl'
  | greedy h =>
    obtain ⟨vs, h1, h2⟩ := kind_alike ha (by decide) h
    cases h2; exact .greedy h1
  | glob h =>
    obtain ⟨vs, h1, h2⟩ := kind_alike ha (by decide) h
    cases h2 with
    | given h3 h4 => cases h4; rw [h3.leaf.1 _ rfl] at h1; exact .glob h1

theorem SaysShape.alike {j j' : Json} {p : ArgShape} (h : SaysShape j p) (ha : Alike j j') : SaysShape j' p := by
  cases h with
  | right h hp =>
    obtain ⟨vs, h1, h2⟩ := kind_alike ha (by decide) h
    cases h2 with
    | given h3 h4 => cases h4; exact .right h1 (hp.alike h3)
  | left1 h =>
    obtain ⟨vs, h1, h2⟩ := kind_alike ha (by decide) h
    cases h2; exact .left1 h1
  | infixGreedy h =>
    obtain ⟨vs, h1, h2⟩ := kind_alike ha (by decide) h
    cases h2; exact .infixGreedy h1

theorem SaysFeature.alike {j j' : Json} {p : CtxFeature} (h : SaysFeature j p) (ha : Alike j j') : SaysFeature j' p := by
  obtain ⟨vs, h1, h2⟩ := kind_alike ha (by decide) h
  cases h2; exact h1

theorem Maybe.alike {v v' : Option Json} {a : Option Text} {l l' : List (Option Json)} (h : Maybe v a) (ha : AllAlike (v :: l) (v' :: l')) :
    Maybe v' a := by
  cases h with
  | missing => cases ha; exact .missing
  | null => cases ha with | given h _ => rw [h.leaf.2.2 rfl]; exact .null
  | text s => cases ha with | given h _ => rw [h.leaf.1 _ rfl]; exact .text s

theorem Says.alike {j j' : Json} {it : SugarItem} (h : Says j it) (ha : Alike j j') : Says j' it := by
  cases h with
  | cmd h hs hm =>
    obtain ⟨vs, h1, h2⟩ := kind_alike ha (by decide) h
    cases h2 with
    | given h3 h4 => cases h4 with
      | missing h5 => cases h5; exact .cmd h1 (hs.alike h3) hm
      | given h5 h6 => cases h6; exact .cmd h1 (hs.alike h3) (hm.alike (.given h5 .nil))
  | env h hs hf hm =>
    obtain ⟨vs, h1, h2⟩ := kind_alike ha (by decide) h
    cases h2 with
    | given h3 h4 => cases h4 with
      | given h5 h6 => cases h6 with
        | missing h7 => cases h7; exact .env h1 (hs.alike h3) (SaysFeature.alike hf h5) hm
        | given h7 h8 => cases h8; exact .env h1 (hs.alike h3) (SaysFeature.alike hf h5) (hm.alike (.given h7 .nil))
  | envGlob h hf =>
    obtain ⟨vs, h1, h2⟩ := kind_alike ha (by decide) h
    cases h2 with
    | given h3 h4 => cases h4 with
      | given h5 h6 => cases h6 with
        | given h7 h8 =>
          cases h8
          rw [h3.leaf.1 _ rfl, h5.leaf.1 _ rfl] at h1
          exact .envGlob h1 (SaysFeature.alike hf h7)
  | symAlias h =>
    obtain ⟨vs, h1, h2⟩ := kind_alike ha (by decide) h
    cases h2 with
    | given h3 h4 => cases h4; rw [h3.leaf.1 _ rfl] at h1; exact .symAlias h1
  | cmdGreedy h =>
    obtain ⟨vs, h1, h2⟩ := kind_alike ha (by decide) h
    cases h2 with
    | given h3 h4 => cases h4; rw [h3.leaf.1 _ rfl] at h1; exact .cmdGreedy h1
  | cmdInfix h =>
    obtain ⟨vs, h1, h2⟩ := kind_alike ha (by decide) h
    cases h2 with
    | given h3 h4 => cases h4; rw [h3.leaf.1 _ rfl] at h1; exact .cmdInfix h1
  | cmdGlob h =>
    obtain ⟨vs, h1, h2⟩ := kind_alike ha (by decide) h
    cases h2 with
    | given h3 h4 => cases h4 with
      | given h5 h6 => cases h6; rw [h3.leaf.1 _ rfl, h5.leaf.1 _ rfl] at h1; exact .cmdGlob h1
  | symbol h => obtain ⟨vs, h1, h2⟩ := kind_alike ha (by decide) h; cases h2; exact .symbol h1
  | command0 h => obtain ⟨vs, h1, h2⟩ := kind_alike ha (by decide) h; cases h2; exact .command0 h1
  | command1 h => obtain ⟨vs, h1, h2⟩ := kind_alike ha (by decide) h; cases h2; exact .command1 h1
  | command2 h => obtain ⟨vs, h1, h2⟩ := kind_alike ha (by decide) h; cases h2; exact .command2 h1
  | cmdLeft1 h => obtain ⟨vs, h1, h2⟩ := kind_alike ha (by decide) h; cases h2; exact .cmdLeft1 h1
  | envMatrix h => obtain ⟨vs, h1, h2⟩ := kind_alike ha (by decide) h; cases h2; exact .envMatrix h1
  | envNormal h => obtain ⟨vs, h1, h2⟩ := kind_alike ha (by decide) h; cases h2; exact .envNormal h1

end Mitex.SpecJson
