/-
Captures lie within the path (C73).
-/
import Verif.Proof.GlobCapture

namespace Mitex.Glob

/-- All captures lie within the first `L` bytes. -/
def Within (L : Nat) (caps : List Capture) : Prop := ∀ c ∈ caps, c.1 ≤ L ∧ c.2 ≤ L

theorem Within.begin {L i : Nat} {c : Capture} {caps : List Capture} (h : Within L caps) (hc : c.1 ≤ L ∧ c.2 ≤ L) : Within L (beginCapture i c caps) := by
  unfold beginCapture
  split
  · intro d hd
    rcases List.mem_or_eq_of_mem_set hd with hd | rfl
    · exact h d hd
    · exact hc
  · intro d hd
    rcases List.mem_append.1 hd with hd | hd
    · exact h d hd
    · rw [List.mem_singleton.1 hd]; exact hc

theorem Within.extend {L i e : Nat} {caps : List Capture} (h : Within L caps) (he : e ≤ L) : Within L (extendCapture i e caps) := by
  unfold extendCapture
  split
  · intro d hd
    obtain ⟨j, hj⟩ := List.mem_iff_getElem?.1 hd
    rw [List.getElem?_modify] at hj
    obtain ⟨c, hc, rfl⟩ := Option.map_eq_some_iff.1 hj
    have := h c (List.mem_of_getElem? hc)
    split
    · exact ⟨this.1, he⟩
    · exact this
  · exact h

theorem Within.take {L : Nat} {caps : List Capture} (h : Within L caps) (n : Nat) : Within L (caps.take n) :=
  fun c hc => h c (List.mem_of_mem_take hc)

theorem Within.skip {L : Nat} (glob : List Nat) (sc : Bool) {p : Nat} (hp : p ≤ L) : ∀ (n i br : Nat) (ib : Bool) (ci : Nat) (caps : List Capture),
    Within L caps → Within L (skipBracesC glob sc p n i br ib ci caps).2 := by
  intro n
  induction n with
  | zero => intro _ _ _ _ _ h; exact h
  | succ n ih =>
    intro i br ib ci caps h
    rw [skipBracesC]
    split
    · exact h
    · cases glob[i]? with
      | none => exact h
      | some c =>
        dsimp only
        repeat' split
        all_goals first | exact h | exact ih _ _ _ _ _ h | exact ih _ _ _ _ _ (h.begin ⟨hp, hp⟩)

/-- The places in a state of the matcher. -/
structure Placed (L : Nat) (s : CState) (b : CBraces) (caps : List Capture) : Prop where
  path : s.path ≤ L
  stack : ∀ t ∈ b.stack, t.path ≤ L
  longest : b.longest ≤ L
  caps : Within L caps

/-- …and after a round. -/
def COut.placed (L : Nat) : COut → Prop
  | .cont s b caps => Placed L s b caps
  | .ret _ caps => Within L caps
  | .panic => True

theorem Placed.pop {L : Nat} {s : CState} {b : CBraces} {caps : List Capture} (h : Placed L s b caps) {s' : CState} {b' : CBraces}
    {caps' : List Capture} (he : popC b s caps = some (s', b', caps')) : Placed L s' b' caps' := by
  obtain ⟨st, l⟩ := b
  cases st with
  | nil => cases he
  | cons top rest =>
    have hl : l.toNat ≤ L := by have := h.longest; simp only at this; omega
    cases he
    refine ⟨hl, fun t ht => h.stack t (List.mem_cons_of_mem _ ht), ?_, h.caps.extend hl⟩
    dsimp only
    split
    · omega
    · exact h.longest

section
variable {glob path : List Nat} {pre neg : Bool}

theorem Placed.mismatch {s : CState} {b : CBraces} {caps : List Capture} (h : Placed path.length s b caps) :
    (afterMismatchC glob path pre neg s b caps).placed path.length := by
  unfold afterMismatchC
  dsimp only
  split
  · rename_i h1
    exact ⟨h1.2, h.stack, h.longest, h.caps⟩
  · obtain ⟨st, l⟩ := b
    cases st with
    | nil => exact h.caps
    | cons top rest =>
      dsimp only
      have hk := Within.skip glob true h.path (glob.length + 1) s.glob 1 false (s.cap + 1) caps h.caps
      revert hk
      rcases skipBracesC glob true s.path (glob.length + 1) s.glob 1 false (s.cap + 1) caps with ⟨⟨bs, i⟩, caps'⟩
      intro hk
      cases bs with
      | invalid => exact hk
      | comma => exact ⟨h.stack top List.mem_cons_self, h.stack, h.longest, hk⟩
      | endBrace =>
        dsimp only
        split
        · have hp : Placed path.length { s with glob := i } ⟨top :: rest, l⟩ caps' := ⟨h.path, h.stack, h.longest, hk⟩
          cases hq : popC ⟨top :: rest, l⟩ { s with glob := i } caps' with
          | none => trivial
          | some r => exact hp.pop hq
        · have h2 : ∀ t ∈ rest, t.path ≤ path.length := fun t ht => h.stack t (List.mem_cons_of_mem _ ht)
          split
          · rename_i h1
            exact ⟨h1.2, h2, h.longest, hk.take _⟩
          · exact hk.take _

theorem starBeginC_path (s : CState) (caps : List Capture) : (starBeginC glob path s caps).1.path = s.path := by
  unfold starBeginC
  dsimp only
  repeat' split
  all_goals rfl

theorem Placed.star {s : CState} {b : CBraces} {caps : List Capture} (h : Placed path.length s b caps) :
    (starArmC glob path s b caps).placed path.length := by
  rw [starArmC_eq]
  have h1 : Within path.length (starBeginC glob path s caps).2 := by
    unfold starBeginC
    dsimp only
    repeat' split
    all_goals first | exact h.caps.begin (c := (s.path, s.path)) ⟨h.path, h.path⟩ | exact h.caps.extend h.path
  have h2 : (starBeginC glob path s caps).1.path ≤ path.length := by rw [starBeginC_path]; exact h.path
  revert h1 h2
  generalize (starBeginC glob path s caps).1 = sg
  generalize (starBeginC glob path s caps).2 = caps'
  intro h1 h2
  unfold starEndC
  dsimp only
  have hp : (if sg.star.p ≠ sg.wild.p ∧ path[sg.path]? = some bSlash then
      if 0 < sg.star.p ∧ sg.path + 1 < path.length then
        { sg with glob := sg.star.g, cap := sg.star.cap, wild := { sg.wild with g := sg.star.g, cap := sg.star.cap } }
      else { sg with wild := { sg.wild with p := 0 } }
    else sg).path = sg.path := by
    repeat' split
    all_goals rfl
  revert hp
  generalize (if sg.star.p ≠ sg.wild.p ∧ path[sg.path]? = some bSlash then
      if 0 < sg.star.p ∧ sg.path + 1 < path.length then
        { sg with glob := sg.star.g, cap := sg.star.cap, wild := { sg.wild with g := sg.star.g, cap := sg.star.cap } }
      else { sg with wild := { sg.wild with p := 0 } }
    else sg) = s2
  intro hp
  rw [← hp] at h2
  split
  · have hk := Within.skip glob false h2 (glob.length + 1) s2.glob 1 false (s2.cap + 1) caps' h1
    revert hk
    rcases skipBracesC glob false s2.path (glob.length + 1) s2.glob 1 false (s2.cap + 1) caps' with ⟨⟨bs, i⟩, caps''⟩
    intro hk
    cases bs with
    | invalid => exact hk
    | comma => exact ⟨h2, h.stack, h.longest, hk⟩
    | endBrace => exact ⟨h2, h.stack, h.longest, hk⟩
  · exact ⟨h2, h.stack, h.longest, h1⟩

theorem Placed.step {s : CState} {b : CBraces} {caps : List Capture} (h : Placed path.length s b caps) :
    (stepC glob path pre neg s b caps).placed path.length := by
  have hpop : ∀ (s' : CState) (b' : CBraces), Placed path.length s' b' caps → COut.placed path.length (match popC b' s' caps with
        | none => .panic
        | some (s, b, caps) => .cont s b caps) := by
    intro s' b' h'
    cases hq : popC b' s' caps with
    | none => trivial
    | some r => exact h'.pop hq
  have hmax : max b.longest (s.path : Int) ≤ path.length := by have := h.longest; have := h.path; omega
  have hcomma : COut.placed path.length (match b.stack with
        | [] => COut.panic
        | top :: _ =>
          .cont { s with path := top.path, glob := s.glob + 1, wild := {}, star := {} }
            { b with longest := max b.longest s.path } caps) := by
    obtain ⟨st, l⟩ := b
    cases st with
    | nil => trivial
    | cons top rest => exact ⟨h.stack top List.mem_cons_self, h.stack, hmax, h.caps⟩
  unfold stepC
  cases glob[s.glob]? with
  | none => exact h.mismatch
  | some g =>
    dsimp only
    split
    · exact h.star
    cases hpc : path[s.path]? with
    | none =>
      dsimp only
      split
      · exact hpop { s with glob := s.glob + 1 } { b with longest := max b.longest s.path } ⟨h.path, h.stack, hmax, h.caps⟩
      split
      · exact hcomma
      · exact h.mismatch
    | some pc =>
      have hlt : s.path + 1 ≤ path.length := (List.getElem?_eq_some_iff.1 hpc).1
      dsimp only
      split
      · split
        · exact ⟨hlt, h.stack, h.longest, h.caps.begin (c := (s.path, s.path + 1)) ⟨h.path, hlt⟩⟩
        · exact h.mismatch
      split
      · cases classLoop glob pc (glob.length + 1) _ true false with
        | none => exact h.caps
        | some r =>
          dsimp only
          split
          · exact h.caps
          · split
            · exact ⟨hlt, h.stack, h.longest, h.caps.begin (c := (s.path, s.path + 1)) ⟨h.path, hlt⟩⟩
            · exact Placed.mismatch ⟨h.path, h.stack, h.longest, h.caps⟩
      split
      · split
        · exact h.caps
        · refine ⟨h.path, fun t ht => ?_, h.longest, h.caps.begin (c := (s.path, s.path)) ⟨h.path, h.path⟩⟩
          rcases List.mem_cons.1 ht with rfl | ht
          · exact h.path
          · exact h.stack t ht
      split
      · exact hpop { s with glob := s.glob + 1 } { b with longest := max b.longest s.path } ⟨h.path, h.stack, hmax, h.caps⟩
      split
      · exact hcomma
      cases unescape g glob s.glob with
      | none => exact h.caps
      | some r =>
        obtain ⟨c, i⟩ := r
        dsimp only
        by_cases h5 : (if c = bSlash then pc = bSlash else pc = c)
        · rw [if_pos h5]
          by_cases h6 : b.stack ≠ [] ∧ 0 < i ∧ glob[i-1]? = some bRBrace
          · rw [if_pos h6]
            have hp : Placed path.length { s with glob := i, cap := endCapture s.cap caps } { b with longest := s.path } caps :=
              ⟨h.path, h.stack, by have := h.path; dsimp only; omega, h.caps⟩
            cases hq : popC { b with longest := s.path } { s with glob := i, cap := endCapture s.cap caps } caps with
            | none => trivial
            | some r =>
              obtain ⟨s', b', caps'⟩ := r
              have h7 := hp.pop hq
              have h8 : s'.path = s.path := by
                obtain ⟨st, l⟩ := b
                cases st with
                | nil => cases hq
                | cons top rest => cases hq; simp
              exact ⟨by dsimp only; omega, h7.stack, h7.longest, h7.caps⟩
          · rw [if_neg h6]
            exact ⟨hlt, h.stack, h.longest, h.caps⟩
        · rw [if_neg h5]
          exact Placed.mismatch ⟨h.path, h.stack, h.longest, h.caps⟩

theorem Placed.run : ∀ (n : Nat) (s : CState) (b : CBraces) (caps : List Capture), Placed path.length s b caps → ∀ r caps',
    runC glob path pre neg n s b caps = .ok (r, caps') → Within path.length caps' := by
  intro n
  induction n with
  | zero => intro _ _ _ _ _ _ h; cases h
  | succ n ih =>
    intro s b caps h r caps' he
    rw [runC] at he
    split at he
    · have hs := h.step (glob := glob) (pre := pre) (neg := neg)
      cases hc : stepC glob path pre neg s b caps with
      | cont s b caps => rw [hc] at he hs; exact ih _ _ _ hs _ _ he
      | ret r caps => rw [hc] at he hs; cases he; exact hs
      | panic => rw [hc] at he; cases he
    · obtain ⟨st, l⟩ := b
      cases st with
      | nil => cases he; exact h.caps
      | cons top rest =>
        dsimp only at he
        split at he
        · cases he; exact h.caps
        · split at he
          · cases he
          · split at he
            · cases he; exact h.caps.extend h.path
            · cases he; exact h.caps

end

end Mitex.Glob
