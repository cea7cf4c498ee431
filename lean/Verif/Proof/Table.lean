import Verif.Spec.Table
import Verif.Proof.ConvParts
import Verif.Proof.ParserBase

namespace Mitex

/-! ### Numbers -/

theorem digitChar_eq {n : Nat} (h : n < 10) : Nat.digitChar n = Char.ofNat (48 + n) := by
  have : n = 0 ∨ n = 1 ∨ n = 2 ∨ n = 3 ∨ n = 4 ∨ n = 5 ∨ n = 6 ∨ n = 7 ∨ n = 8 ∨ n = 9 := by omega
  rcases this with h | h | h | h | h | h | h | h | h | h <;> subst h <;> decide

theorem toDigits_natDigits (fuel n : Nat) (ds : List Char) (h : n < fuel) :
    Nat.toDigitsCore 10 fuel n ds = natDigits fuel n ++ ds := by
  induction fuel generalizing n ds with
  | zero => omega
  | succ fuel ih =>
    rw [Nat.toDigitsCore, natDigits]
    by_cases hn : n < 10
    · rw [if_pos hn, if_pos (by omega), digitChar_eq (by omega), Nat.mod_eq_of_lt hn]
      rfl
    · rw [if_neg hn, if_neg (by omega), ih _ _ (by omega), digitChar_eq (by omega)]
      simp

theorem natText_eq (n : Nat) : natText n = decimal n := by
  unfold natText decimal Nat.toDigits
  rw [toDigits_natDigits _ _ _ (by omega), List.append_nil]

/-! ### The header -/

theorem barPositions_from (pre cs : Text) : ((List.range cs.length).filter fun i => decide (cs[i]? = some '|')).map
      (fun i => (columnLetters (pre ++ cs.take i)).length) = 
    match cs with
    | [] => []
    | c :: cs => (if c = '|' then [(columnLetters pre).length] else []) ++
        ((List.range cs.length).filter fun i => decide (cs[i]? = some '|')).map
          (fun i => (columnLetters (pre ++ [c] ++ cs.take i)).length) := by
  cases cs with
  | nil => rfl
  | cons c cs =>
    simp only [List.length_cons, List.range_succ_eq_map, List.filter_cons, List.getElem?_cons_zero]
    by_cases hc : c = '|'
    · simp [hc, List.filter_map, Function.comp_def]
    · simp [hc, List.filter_map, Function.comp_def]

theorem splitAlign_ok (cs pre : Text) (h : ∀ c ∈ cs, isColumnChar c) :
    splitAlign cs (columnLetters pre).length = .ok (columnLetters cs,
      ((List.range cs.length).filter fun i => decide (cs[i]? = some '|')).map
        (fun i => (columnLetters (pre ++ cs.take i)).length)) := by
  induction cs generalizing pre with
  | nil => rfl
  | cons c cs ih =>
    rw [barPositions_from]
    have hc := h c List.mem_cons_self
    have hi := ih (pre ++ [c]) fun d hd => h d (List.mem_cons_of_mem _ hd)
    rw [splitAlign]
    by_cases hb : c = '|'
    · subst hb
      have : columnLetters (pre ++ ['|']) = columnLetters pre := by simp [columnLetters]
      rw [this] at hi
      rw [if_neg (by decide), if_pos rfl, hi]
      simp [columnLetters, bind, Except.bind]
    · have hl : c = 'l' ∨ c = 'c' ∨ c = 'r' := by
        rcases hc with h | h | h | h
        · exact Or.inl h
        · exact Or.inr (Or.inl h)
        · exact Or.inr (Or.inr h)
        · exact absurd h hb
      have : (columnLetters (pre ++ [c])).length = (columnLetters pre).length + 1 := by simp [columnLetters, hb]
      rw [this] at hi
      rw [if_pos hl, hi]
      simp [columnLetters, hb, bind, Except.bind]

theorem splitAlign_bad (pre : Text) (c : Char) (post : Text) (i : Nat) (h : ∀ d ∈ pre, isColumnChar d) (hc : ¬ isColumnChar c) :
    splitAlign (pre ++ c :: post) i = .error (.error (t!"unknown alignment: " ++ [c])) := by
  induction pre generalizing i with
  | nil =>
    rw [List.nil_append, splitAlign, if_neg fun h => hc ?_, if_neg fun h => hc ?_]
    · rfl
    · exact Or.inr (Or.inr (Or.inr h))
    · rcases h with h | h | h
      · exact Or.inl h
      · exact Or.inr (Or.inl h)
      · exact Or.inr (Or.inr (Or.inl h))
  | cons d pre ih =>
    rw [List.cons_append, splitAlign, ih _ fun x hx => h x (List.mem_cons_of_mem _ hx),
      ih _ fun x hx => h x (List.mem_cons_of_mem _ hx)]
    have hd := h d List.mem_cons_self
    by_cases h1 : d = 'l' ∨ d = 'c' ∨ d = 'r'
    · rw [if_pos h1]; rfl
    · have h2 : d = '|' := by
        rcases hd with h | h | h | h
        · exact absurd (Or.inl h) h1
        · exact absurd (Or.inr (Or.inl h)) h1
        · exact absurd (Or.inr (Or.inr h)) h1
        · exact h
      rw [if_neg h1, if_pos h2]; rfl

theorem alignNames (t : Text) (h : ∀ c ∈ t, c = 'l' ∨ c = 'c' ∨ c = 'r') :
    (t.map alignName).flatten = (t.map fun c => columnAlign c ++ t!", ").flatten := by
  congr 1
  apply List.map_congr_left
  intro c hc
  rcases h c hc with h | h | h <;> subst h <;> decide

theorem tableHeader_eq (tn cs : Text) (h : ∀ c ∈ cs, isColumnChar c) :
    tableHeader tn (columnLetters cs) (barPositions cs) = tableStart tn cs := by
  have hl : ∀ c ∈ columnLetters cs, c = 'l' ∨ c = 'c' ∨ c = 'r' := by
    intro c hc
    have hm := List.mem_filter.mp hc
    have hb : c ≠ '|' := by simpa using hm.2
    rcases h c hm.1 with h | h | h | h
    · exact Or.inl h
    · exact Or.inr (Or.inl h)
    · exact Or.inr (Or.inr h)
    · exact absurd h hb
  unfold tableHeader tableStart
  rw [alignNames _ hl]
  simp only [natText_eq, List.append_assoc]
  rfl

theorem stripEnds_braces (t : Text) : stripEnds ('{' :: (t ++ ['}'])) = .ok t := by
  have hb : ∀ (a b : Text), byteLen (a ++ b) = byteLen a + byteLen b := by
    intro a b
    induction a with
    | nil => simp [byteLen]
    | cons c a ih => simp only [List.cons_append, byteLen, ih]; omega
  have htk : ∀ t : Text, takeBytes (byteLen t) (t ++ ['}']) = some t := by
    intro t
    induction t with
    | nil => rfl
    | cons c t ih =>
      have hp : 0 < utf8Len c := by unfold utf8Len; split <;> (try split) <;> (try split) <;> omega
      rw [byteLen, List.cons_append]
      obtain ⟨k, hk⟩ : ∃ k, utf8Len c + byteLen t = k + 1 := ⟨utf8Len c + byteLen t - 1, by omega⟩
      rw [hk, takeBytes, if_pos (by omega), show k + 1 - utf8Len c = byteLen t by omega, ih]
      rfl
  unfold stripEnds
  have hl : byteLen ('{' :: (t ++ ['}'])) = byteLen t + 2 := by
    rw [byteLen, hb]
    show utf8Len '{' + (byteLen t + byteLen ['}']) = _
    have h1 : utf8Len '{' = 1 := by decide
    have h2 : byteLen ['}'] = 1 := by decide
    omega
  rw [if_neg (by omega), show byteLen ('{' :: (t ++ ['}'])) - 1 = byteLen ('{' :: t) by
    rw [hl, byteLen]; have h1 : utf8Len '{' = 1 := by decide
    omega]
  have := htk ('{' :: t)
  rw [List.cons_append] at this
  rw [this]
  have h1 : utf8Len '{' = 1 := by decide
  simp [dropBytes, h1]

/-! ### The cells -/

theorem ruleLine_eq {e : Elem} {full name t : Text} (hk : e.kind = .itemCmd) (hf : cmdNameOf e = .ok full) (hn : dropOne full = .ok name)
    (h : ruleText name = some t) : ruleLine e = t := by
  have hr : isRule e = true := by rw [isRule_eq hk hf hn, h]; rfl
  unfold ruleLine
  rw [if_pos hr, cmdNameOf_ok hf]
  have := dropOne_tail hn
  subst this
  simp only [Option.map_some, Option.some.injEq]
  unfold ruleText at h
  by_cases h1 : full.tail = t!"hline"
  · rw [if_pos h1] at h; rw [h1, if_neg (by decide)]; exact Option.some.inj h
  rw [if_neg h1] at h
  by_cases h2 : full.tail = t!"toprule"
  · rw [if_pos h2] at h; rw [if_pos (Or.inl h2)]; exact Option.some.inj h
  rw [if_neg h2] at h
  by_cases h3 : full.tail = t!"midrule"
  · rw [if_pos h3] at h; rw [h3, if_neg (by decide)]; exact Option.some.inj h
  rw [if_neg h3] at h
  by_cases h4 : full.tail = t!"bottomrule"
  · rw [if_pos h4] at h; rw [if_pos (Or.inr h4)]; exact Option.some.inj h
  rw [if_neg h4] at h
  cases h

/-- The exterior step: a separator, a leading element or the start of content. -/
theorem tableExterior_cases (e : Elem) (s : CState) : IfOk (fun r =>
    (isSeparator e = true ∧ r = (true, s.write (t!"[" ++ t!"]" ++ separatorText e))) ∨
    (isSeparator e = false ∧ isLead e = true ∧ r = (true, s.write (ruleLine e))) ∨
    (isSeparator e = false ∧ isLead e = false ∧ r = (false, s.write t!"["))) (tableExterior e s) := by
  unfold tableExterior
  split
  · rename_i h
    have hr : ruleLine e = [] := by simp [ruleLine, isRule, h]
    exact IfOk.ok (Or.inr (Or.inl ⟨by simp [isSeparator, h], by simp [isLead, h], by rw [hr]; simp [CState.write]⟩))
  · rename_i h
    have hr : ruleLine e = [] := by simp [ruleLine, isRule, h]
    exact IfOk.ok (Or.inr (Or.inl ⟨by simp [isSeparator, h], by simp [isLead, h], by rw [hr]; simp [CState.write]⟩))
  · rename_i h
    exact IfOk.ok (Or.inl ⟨by simp [isSeparator, h], by simp [separatorText, h]⟩)
  · rename_i h
    exact IfOk.ok (Or.inl ⟨by simp [isSeparator, h], by simp [separatorText, h]⟩)
  · rename_i h
    refine (IfOk.self _).bind fun full hf => (IfOk.self _).bind fun name hn => ?_
    have := isRule_eq h hf hn
    have hs : isSeparator e = false := by simp [isSeparator, h]
    split
    · rename_i t hr
      rw [hr] at this
      refine IfOk.ok (Or.inr (Or.inl ⟨hs, by simp [isLead, this], ?_⟩))
      rw [ruleLine_eq h hf hn hr]
    · rename_i hr
      rw [hr] at this
      exact IfOk.ok (Or.inr (Or.inr ⟨hs, by simp [isLead, this, h], rfl⟩))
  · rename_i h1 h2 h3 h4 h5
    have hr : isRule e = false := by unfold isRule; rw [decide_eq_false h5]; rfl
    exact IfOk.ok (Or.inr (Or.inr ⟨decide_eq_false fun h => h.elim h3 h4,
      by unfold isLead; rw [hr, decide_eq_false fun h => h.elim h1 h2]; rfl, rfl⟩))

theorem tableInterior_cases (C : ConvFn) (e : Elem) (s : CState) :
    (isSeparator e = true ∧ tableInterior C e s = .ok (true, s.write (t!"]" ++ separatorText e))) ∨
    (isSeparator e = false ∧ tableInterior C e s = (C e s).map fun s' => (false, s')) := by
  unfold tableInterior
  split
  · rename_i h
    exact Or.inl ⟨by simp [isSeparator, h], by simp [separatorText, h]⟩
  · rename_i h
    exact Or.inl ⟨by simp [isSeparator, h], by simp [separatorText, h]⟩
  · rename_i h1 h2
    refine Or.inr ⟨decide_eq_false fun h => h.elim h1 h2, ?_⟩
    cases C e s <;> rfl

theorem tableLoop_filter (C : ConvFn) (es : List Elem) (ext : Bool) (s : CState) :
    tableLoop C es ext s = tableLoop C (es.filter fun c => !isBeginEnd c) ext s := by
  induction es generalizing ext s with
  | nil => rfl
  | cons e es ih =>
    rw [tableLoop]
    by_cases h : isBeginEnd e = true
    · rw [if_pos h, ih]; simp [h]
    · rw [if_neg h, List.filter_cons, if_pos (by simpa using h), tableLoop, if_neg h]
      congr 1
      funext r
      exact ih _ _

theorem cellsText_cons {R : List Elem → Text → Prop} {e : Elem} {es : List Elem} {t : Text} (hl : isLead e = true)
    (hs : isSeparator e = false)
    (h : ∃ u r, CellsText R (cellsOf es).1 u ∧ RestText R (cellsOf es).2 r ∧ t = u ++ r) :
    ∃ u r, CellsText R (cellsOf (e :: es)).1 u ∧ RestText R (cellsOf (e :: es)).2 r ∧ ruleLine e ++ t = u ++ r := by
  obtain ⟨u, r, hu, hr, rfl⟩ := h
  rw [cellsOf, hs]
  simp only [Bool.false_eq_true, if_false]
  cases hc : (cellsOf es).1 with
  | nil =>
    rw [hc] at hu
    cases hu
    refine ⟨[], ruleLine e ++ r, rfl, ?_, by simp⟩
    unfold RestText at hr ⊢
    have h1 : cellContent (e :: (cellsOf es).2) = cellContent (cellsOf es).2 := by simp [cellContent, hl]
    have h2 : leadLines (e :: (cellsOf es).2) = ruleLine e ++ leadLines (cellsOf es).2 := by simp [leadLines, hl]
    dsimp only
    rw [h1, h2]
    split
    · rename_i h; rw [if_pos h] at hr; rw [hr]
    · rename_i h; rw [if_neg h] at hr
      obtain ⟨o, ho, rfl⟩ := hr
      exact ⟨o, ho, by simp only [List.append_assoc]⟩
  | cons p cells =>
    obtain ⟨c, sep⟩ := p
    rw [hc] at hu
    obtain ⟨o, t', ho, ht', rfl⟩ := hu
    refine ⟨_, r, ⟨o, t', ?_, ht', rfl⟩, hr, ?_⟩
    · have h1 : cellContent (e :: c) = cellContent c := by simp [cellContent, hl]
      rw [h1]; exact ho
    · have h2 : leadLines (e :: c) = ruleLine e ++ leadLines c := by simp [leadLines, hl]
      rw [h2]; simp only [List.append_assoc]

theorem cells_loop {C : ConvFn} (hC : Framed C) {x : Place} (es : List Elem) (hes : ∀ e ∈ es, isBeginEnd e = false) (s : CState)
    (hx : At x s) :
    IfOk (fun s' => ∃ u r, CellsText (Yields C x) (cellsOf es).1 u ∧ RestText (Yields C x) (cellsOf es).2 r ∧
      s'.out = s.out ++ (u ++ r)) (tableLoop C es true s) ∧
    IfOk (fun s' => match (cellsOf es).1 with
      | [] => convList C (cellsOf es).2 s = .ok s'
      | (c, sep) :: cells => ∃ s1 u r, convList C c s = .ok s1 ∧ CellsText (Yields C x) cells u ∧
          RestText (Yields C x) (cellsOf es).2 r ∧ s'.out = s1.out ++ (t!"]" ++ separatorText sep ++ u ++ r))
      (tableLoop C es false s) := by
  induction es generalizing s with
  | nil =>
    refine ⟨IfOk.ok ⟨[], [], rfl, ?_, by simp⟩, IfOk.ok rfl⟩
    unfold RestText
    rw [if_pos (show cellContent (cellsOf []).2 = [] from rfl)]; rfl
  | cons e es ih =>
    have hes' := fun d hd => hes d (List.mem_cons_of_mem _ hd)
    have hbe := hes e List.mem_cons_self
    have inner : ∀ s : CState, At x s → IfOk (fun s' => match (cellsOf (e :: es)).1 with
      | [] => convList C (cellsOf (e :: es)).2 s = .ok s'
      | (c, sep) :: cells => ∃ s1 u r, convList C c s = .ok s1 ∧ CellsText (Yields C x) cells u ∧
          RestText (Yields C x) (cellsOf (e :: es)).2 r ∧ s'.out = s1.out ++ (t!"]" ++ separatorText sep ++ u ++ r))
      (tableInterior C e s >>= fun r => tableLoop C es r.1 r.2) := by
      intro s hx
      rcases tableInterior_cases C e s with ⟨hs, hr⟩ | ⟨hs, hr⟩
      · rw [hr, ok_bind]
        refine (ih hes' _ (hx.write _)).1.mono fun s' h => ?_
        obtain ⟨u, r, hu, hr, ho⟩ := h
        rw [cellsOf, if_pos hs]
        refine ⟨s, u, r, rfl, hu, hr, ?_⟩
        rw [ho]
        simp only [CState.write, List.append_assoc]
      · rw [hr]
        cases hce : C e s with
        | error y => exact IfOk.error
        | ok a =>
          show IfOk _ (tableLoop C es false a)
          have ha : At x a := hx.frame (hC e s a hce)
          refine (ih hes' a ha).2.mono fun s' h => ?_
          rw [cellsOf, if_neg (by rw [hs]; decide)]
          cases hc : (cellsOf es).1 with
          | nil =>
            rw [hc] at h
            dsimp only at h ⊢
            rw [convList, hce, ok_bind]
            exact h
          | cons p cells =>
            obtain ⟨c, sep⟩ := p
            rw [hc] at h
            obtain ⟨s1, u, r, h1, h2⟩ := h
            refine ⟨s1, u, r, ?_, h2⟩
            rw [convList, hce, ok_bind]
            exact h1
    constructor
    · rw [tableLoop, if_neg (by rw [hbe]; decide)]
      rw [tableStep, if_pos rfl]
      cases hr : tableExterior e s with
      | error y => exact IfOk.error
      | ok r =>
        rcases tableExterior_cases e s r hr with ⟨hs, rfl⟩ | ⟨hs, hl, rfl⟩ | ⟨hs, hl, rfl⟩
        · rw [ok_bind, if_pos rfl, ok_bind]
          refine (ih hes' _ (hx.write _)).1.mono fun s' h => ?_
          obtain ⟨u, r, hu, hr, ho⟩ := h
          rw [cellsOf, if_pos hs]
          refine ⟨_, r, ⟨[], u, ⟨s, s, hx, rfl, by simp⟩, hu, rfl⟩, hr, ?_⟩
          rw [ho]
          simp [CState.write, leadLines]
        · rw [ok_bind, if_pos rfl, ok_bind]
          refine (ih hes' _ (hx.write _)).1.mono fun s' h => ?_
          obtain ⟨u, r, hu, hr, ho⟩ := h
          obtain ⟨u', r', hu', hr', ho'⟩ := cellsText_cons hl hs ⟨u, r, hu, hr, rfl⟩
          refine ⟨u', r', hu', hr', ?_⟩
          rw [ho, ← ho']
          simp only [CState.write, List.append_assoc]
        · rw [ok_bind, if_neg (fun h => by cases h)]
          refine (inner _ (hx.write _)).mono fun s' h => ?_
          have hcell : ∀ c, cellContent (e :: c) = e :: c ∧ leadLines (e :: c) = [] := by
            intro c; simp [cellContent, leadLines, hl]
          rw [cellsOf, if_neg (by rw [hs]; decide)] at h ⊢
          cases hc : (cellsOf es).1 with
          | nil =>
            rw [hc] at h
            dsimp only at h ⊢
            have hf := hC.list _ _ _ h
            obtain ⟨o, ho⟩ := hf.2.2.2
            refine ⟨[], t!"[" ++ o, rfl, ?_, ?_⟩
            · unfold RestText
              rw [(hcell _).1, (hcell _).2, if_neg (by simp)]
              exact ⟨o, ⟨_, _, hx.write _, by rw [← convList_fold]; exact h, ho⟩, by simp⟩
            · rw [ho]; simp [CState.write]
          | cons p cells =>
            obtain ⟨c, sep⟩ := p
            rw [hc] at h
            obtain ⟨s1, u, r, h1, h2, h3, h4⟩ := h
            dsimp only at h4 ⊢
            have hf := hC.list _ _ _ h1
            obtain ⟨o, ho⟩ := hf.2.2.2
            refine ⟨_, r, ⟨o, u, ?_, h2, rfl⟩, h3, ?_⟩
            · rw [(hcell _).1]; exact ⟨_, _, hx.write _, by rw [← convList_fold]; exact h1, ho⟩
            · rw [h4, ho, (hcell _).2]; simp [CState.write]
    · rw [tableLoop, if_neg (by rw [hbe]; decide)]
      rw [tableStep, if_neg (by decide)]
      exact inner s hx

end Mitex
