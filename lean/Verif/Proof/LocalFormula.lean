/-
A formula is read like a document of its own (C77).
-/
import Verif.Proof.LocalClosed

namespace Mitex
namespace Local
open Grammar

variable {env : PEnv}

/-! ### The scope is only seen at its end -/

/-- The tokens do not start with one of `stop`. -/
def NoEnd (stop : List Token) (ts : List Tok) : Prop := ∀ t, ts.head? = some t → t.1 ∉ stop

theorem items_stay {sc : Scope} {stop : List Token} {r r' : Row} {ts ts' : List Tok} (h : Items env sc stop r ts r' ts')
    (hs : ∃ t, ts.head? = some t ∧ t.1 ∈ stop) : ts' = ts := by
  obtain ⟨t, ht, hm⟩ := hs
  cases h with
  | over => rfl
  | more h => cases ht; exact absurd hm h

theorem enders_plain (sc : Scope) (k : Token) (h : k ∈ enders sc) : isBlank k = false ∧ k ≠ .word ∧ ∀ b, k ≠ .left b := by
  cases sc <;> simp only [enders, List.mem_cons, List.not_mem_nil, or_false] at h <;>
    (first | exact h.elim | (rcases h with rfl | rfl | rfl | rfl | rfl | rfl <;> exact ⟨rfl, fun h => (by cases h), fun _ h => (by cases h)⟩) |
      (rcases h with rfl | rfl | rfl | rfl <;> exact ⟨rfl, fun h => (by cases h), fun _ h => (by cases h)⟩) |
      (rcases h with rfl | rfl | rfl <;> exact ⟨rfl, fun h => (by cases h), fun _ h => (by cases h)⟩) |
      (rcases h with rfl | rfl <;> exact ⟨rfl, fun h => (by cases h), fun _ h => (by cases h)⟩) |
      (rcases h with rfl <;> exact ⟨rfl, fun h => (by cases h), fun _ h => (by cases h)⟩))

theorem args_stay {sc : Scope} {p : ArgPattern} {ks : List ArgKind} {ts ts' blanks : List Tok} {args : List Elem}
    (h : Args env sc p ks ts args blanks ts') (hs : ∃ t, ts.head? = some t ∧ t.1 ∈ enders sc) : ts' = ts := by
  obtain ⟨t, ht, hm⟩ := hs
  obtain ⟨h1, h2, h3⟩ := enders_plain sc _ hm
  cases h with
  | over => rfl
  | blank h => cases ht; rw [h1] at h; cases h
  | char => cases ht; exact absurd rfl h2
  | group => cases ht; exact absurd rfl (h3 _)
  | bracket => cases ht; exact absurd rfl (h3 _)
  | item _ h => 
    cases ht
    unfold argsOver at h
    simp only [hm, or_true, decide_true, Bool.true_or] at h
    cases h

theorem over_root {g : GlobFn} {S : Scope} {p : ArgPattern} {ks : List ArgKind} {k : Token} (h : k ∉ enders S) :
    argsOver g .root p ks k = argsOver g S p ks k := by
  unfold argsOver
  have : k ∉ enders .root := fun h => (by cases h)
  simp only [h, this, or_false]

theorem given_eats {S : Scope} {ts ts' : List Tok} (h : ArgsGiven env S ts) (he : Eats ts ts') : ArgsGiven env S ts' := by
  intro u x v p args blanks t w e
  obtain ⟨u', e'⟩ := he.tail (t := (.cmd .beginEnv, x)) (fun h => (by cases h)) e
  exact h u' x v p args blanks t w e'

theorem rescope (env : PEnv) (S : Scope) (hS : S ≠ .environment) :
    (∀ {sc stop r ts r' ts'}, Items env sc stop r ts r' ts' → sc = S → ArgsGiven env S ts → NoEnd (enders S) ts' →
      (stop = enders S → Items env .root [] r ts r' ts') ∧ (stop = greedyEnders S → Items env .root (greedyEnders .root) r ts r' ts')) := by
  obtain ⟨eat1, eat2, eat3⟩ := eatsAll env
  let M1 : ∀ sc one r ts att r' ts', Item env sc one r ts att r' ts' → Prop := fun sc one r ts att r' ts' _ =>
    sc = S → ArgsGiven env S ts → NoEnd (enders S) ts' → Item env .root one r ts att r' ts'
  let M2 : ∀ sc stop r ts r' ts', Items env sc stop r ts r' ts' → Prop := fun sc stop r ts r' ts' _ =>
    sc = S → ArgsGiven env S ts → NoEnd (enders S) ts' →
      (stop = enders S → Items env .root [] r ts r' ts') ∧ (stop = greedyEnders S → Items env .root (greedyEnders .root) r ts r' ts')
  let M3 : ∀ sc p ks ts args blanks ts', Args env sc p ks ts args blanks ts' → Prop := fun sc p ks ts args blanks ts' _ =>
    sc = S → ArgsGiven env S ts → NoEnd (enders S) ts' → Args env .root p ks ts args blanks ts'
  have hg : greedyEnders S = .ampersand :: enders S := by unfold greedyEnders; rw [if_neg hS]; rfl
  have hg0 : greedyEnders .root = [.ampersand] := by decide
  refine @Items.rec env M1 M2 M3 ?over ?single ?misplaced ?text ?char ?noChar ?group ?environment ?environmentArgs ?delimited ?block
      ?blockOpen ?symbol ?command ?greedy ?post ?inf ?prime ?apostrophe ?script ?iover ?imore ?aover ?ablank ?achar ?agroup ?abracket ?aitem
  case over => intros; exact fun _ _ _ => .over
  case single => intro _ _ _ _ _ _ _ h; exact fun _ _ _ => .single h
  case misplaced => intro _ _ _ _ _ _ h; exact fun _ _ _ => .misplaced h
  case text => intro _ _ _ _ _ _ _ h hr he; exact fun _ _ _ => .text h hr he
  case char => intros; exact fun _ _ _ => .char
  case noChar => intros; exact fun _ _ _ => .noChar
  case group => intro _ _ _ _ _ _ _ _ _ _ _ _ h hi _; exact fun _ _ _ => .group h hi
  case environment => intro _ _ _ _ _ _ _ h hi _; exact fun _ _ _ => .environment h hi
  case environmentArgs =>
    intro _ _ _ _ p x args blanks ts ts1 _ h hp ha hi ih _
    intro e hA _
    subst e
    refine .environmentArgs h hp (ih rfl (given_eats hA (.tok (.refl _))) ?_) hi
    intro t ht
    cases ts1 with
    | nil => cases ht
    | cons s w => cases ht; exact hA [] x ts p args blanks t w rfl h ha
  case delimited => intro _ _ _ _ _ _ _ hi _; exact fun _ _ _ => .delimited hi
  case block => intro _ _ _ _ _ _ _ _ _ h hb; exact fun _ _ _ => .block h hb
  case blockOpen => intro _ _ _ _ _ _ _ h hb; exact fun _ _ _ => .blockOpen h hb
  case symbol => intro _ _ _ _ _ _ hn h; exact fun _ _ _ => .symbol hn h
  case command => intro _ _ _ _ _ _ _ _ _ _ hn h h1 h2 _ ih; exact fun e hA hn' => .command hn h h1 h2 (ih e (given_eats hA (.tok (.refl _))) hn')
  case greedy =>
    intro _ _ _ _ _ _ _ _ hn h _ ih
    intro e hA hn'
    subst e
    exact .greedy hn h ((ih rfl (given_eats hA (.tok (.refl _))) hn').2 rfl)
  case post => intro _ _ _ _ _ _ _ _ hn h ho; exact fun _ _ _ => .postfix hn h ho
  case inf =>
    intro _ _ _ _ _ _ _ _ _ _ hn h ho _ ih
    intro e hA hn'
    subst e
    exact .infix hn h ho ((ih rfl (given_eats hA (.tok (.refl _))) hn').2 rfl)
  case prime => intro _ _ _ _ _ _ _ hl ho; exact fun _ _ _ => .prime hl ho
  case apostrophe => intro _ _ _ _ _ hl; exact fun _ _ _ => .apostrophe hl
  case script =>
    intro _ _ _ _ _ _ _ _ _ blanks _ _ hk ho hb he _ ih
    intro e hA hn'
    exact .script hk ho hb he (ih e (given_eats hA (.tok (.append blanks (.refl _)))) hn')
  case iover =>
    intro _ stop _ ts h
    intro e hA hn'
    subst e
    constructor
    · intro hs
      refine .over fun t ht => ?_
      have := h t ht
      rw [hs] at this
      exact absurd this (hn' t ht)
    · intro hs
      refine .over fun t ht => ?_
      have := h t ht
      rw [hs, hg] at this
      rw [hg0]
      rcases List.mem_cons.1 this with h | h
      · rw [h]; exact List.mem_cons_self ..
      · exact absurd h (hn' t ht)
  case imore =>
    intro sc stop _ _ _ t _ ts ts1 ts' h hi hs ih1 ih2
    intro e hA hn'
    subst e
    have hst : (stop = enders sc ∨ stop = greedyEnders sc) → NoEnd (enders sc) ts1 := by
      intro hor s hs' hm
      have hm' : s.1 ∈ stop := by
        rcases hor with rfl | rfl
        · exact hm
        · rw [hg]; exact List.mem_cons_of_mem _ hm
      have e := items_stay hs ⟨s, hs', hm'⟩
      rw [← e] at hs'
      exact hn' s hs' hm
    constructor
    · intro hs'
      exact .more (fun h => (by cases h)) (ih1 rfl hA (hst (.inl hs'))) ((ih2 rfl (given_eats hA (eat1 hi).1) hn').1 hs')
    · intro hs'
      refine .more ?_ (ih1 rfl hA (hst (.inr hs'))) ((ih2 rfl (given_eats hA (eat1 hi).1) hn').2 hs')
      intro hm
      rw [hg0] at hm
      apply h
      rw [hs', hg, List.mem_singleton.1 hm]
      exact List.mem_cons_self ..
  case aover =>
    intro _ _ _ _ h
    intro e hA hn'
    subst e
    refine .over fun t ht => ?_
    obtain ⟨h1, h2, h3⟩ := h t ht
    exact ⟨h1, h2, by rw [over_root (hn' t ht)]; exact h3⟩
  case ablank => intro _ _ _ _ _ _ _ _ h _ ih; exact fun e hA hn' => .blank h (ih e (given_eats hA (.tok (.refl _))) hn')
  case achar => intro _ _ _ c cs _ _ ts _ h _ ih; exact fun e hA hn' => .char h (ih e (given_eats hA (Eats.rest c cs ts)) hn')
  case agroup =>
    intro _ _ _ _ _ _ _ _ _ _ _ hs h hi _ _ ih
    intro e hA hn'
    exact .group hs h hi (ih e (given_eats hA (.tok ((eat2 hi).trans (.closing _ _)))) hn')
  case abracket => intro _ _ _ _ _ _ _ _ _ hs h _ ih; exact fun e hA hn' => .bracket hs h (ih e (given_eats hA (.tok (.refl _))) hn')
  case aitem =>
    intro sc _ _ k x _ _ _ _ ts ts1 ts' hk h hi ha ih1 ih2
    intro e hA hn'
    subst e
    have h1 : NoEnd (enders sc) ts1 := by
      intro s hs' hm
      have e := args_stay ha ⟨s, hs', hm⟩
      rw [← e] at hs'
      exact hn' s hs' hm
    have h2 : k ∉ enders sc := by
      intro hm
      unfold argsOver at h
      simp only [hm, or_true, decide_true, Bool.true_or] at h
      cases h
    exact .item hk (by rw [over_root h2]; exact h) (ih1 rfl hA h1) (ih2 rfl (given_eats hA (eat1 hi).1) hn')

/-! ### The row is moved back -/

theorem item_positions {sc : Scope} {one : Bool} {r : Row} {ts : List Tok} {att : Bool} {r' : Row} {ts' : List Tok}
    (h : Item env sc one r ts att r' ts') : (r'.first = r.first ∨ r'.first = none) ∧ (r'.last = r.last ∨ r'.last = none) := by
  refine @Item.rec env (fun _ _ r _ _ r' _ _ => (r'.first = r.first ∨ r'.first = none) ∧ (r'.last = r.last ∨ r'.last = none))
    (fun _ _ _ _ _ _ _ => True) (fun _ _ _ _ _ _ _ _ => True)
    ?over ?single ?misplaced ?text ?char ?noChar ?group ?environment ?environmentArgs ?delimited ?block
      ?blockOpen ?symbol ?command ?greedy ?post ?inf ?prime ?apostrophe ?script ?iover ?imore ?aover ?ablank ?achar ?agroup ?abracket ?aitem
    _ _ _ _ _ _ _ h
  case script =>
    intro _ _ _ r r' _ _ kept _ _ _ _ _ _ _ _ _ ih
    unfold Row.enter at ih
    unfold Row.leave
    dsimp only at ih ⊢
    have back : ∀ o : Option Int, (o.map (· - (kept.length : Int))).map (· + (kept.length : Int)) = o := by
      intro o
      cases o with
      | none => rfl
      | some z => simp only [Option.map_some, Option.some.injEq]; omega
    obtain ⟨h1, h2⟩ := ih
    constructor
    · rcases h1 with h | h <;> rw [h]
      · exact .inl (back _)
      · exact .inr rfl
    · rcases h2 with h | h <;> rw [h]
      · exact .inl (back _)
      · exact .inr rfl
  case environmentArgs => intros; exact ⟨.inl rfl, .inr rfl⟩
  case command => intros; exact ⟨.inl rfl, .inr rfl⟩
  case greedy => intros; exact ⟨.inl rfl, .inr rfl⟩
  case inf => intros; exact ⟨.inr rfl, .inr rfl⟩
  case iover => intros; trivial
  case imore => intros; trivial
  case aover => intros; trivial
  case ablank => intros; trivial
  case achar => intros; trivial
  case agroup => intros; trivial
  case abracket => intros; trivial
  case aitem => intros; trivial
  all_goals (intros; exact ⟨.inl rfl, .inl rfl⟩)

/-- The positions of the row are not before the row. -/
def Inside (r : Row) : Prop := (∀ i, r.first = some i → 0 ≤ i) ∧ (∀ i, r.last = some i → 0 ≤ i)

theorem unshift_operand {P : List Elem} {r : Row} {p : Option Int} {kept arg : List Elem} (hp : ∀ i, p = some i → 0 ≤ i)
    (h : (shift P r).operand (p.map (· + (P.length : Int))) = some (kept, arg)) : ∃ kept', kept = P ++ kept' ∧ r.operand p = some (kept', arg) := by
  cases p with
  | none => cases h; exact ⟨r.items, rfl, rfl⟩
  | some i =>
    have h0 := hp i rfl
    by_cases hi : 0 ≤ i ∧ i ≤ (r.items.length : Int)
    · have e : r.operand (some i) = some (r.items.take i.toNat, [.node .clauseArgument (r.items.drop i.toNat)]) := by
        unfold Row.operand
        dsimp only
        rw [if_pos hi]
      have := shift_operand (P := P) e
      rw [this] at h
      cases h
      exact ⟨_, rfl, e⟩
    · unfold Row.operand at h
      dsimp only [Option.map] at h
      rw [if_neg] at h
      · cases h
      · unfold shift
        rw [List.length_append]
        omega

theorem unshift_item {P : List Elem} {sc : Scope} {one att : Bool} {R R' r : Row} {ts ts' : List Tok} (h : Item env sc one R ts att R' ts')
    (e : R = shift P r) (hr : Inside r) : ∃ r', R' = shift P r' ∧ Item env sc one r ts att r' ts' := by
  subst e
  have addNone : ∀ (r : Row) es, shift P { r.add es with last := none } = { (shift P r).add es with last := none } := by
    intro r es
    have := shift_add P r es
    unfold shift Row.add at this ⊢
    simp only [Row.mk.injEq, true_and] at this ⊢
    exact ⟨this.1, rfl⟩
  cases h with
  | over => exact ⟨_, rfl, .over⟩
  | single h => exact ⟨_, (shift_add ..).symm, .single h⟩
  | misplaced h => exact ⟨_, (shift_add ..).symm, .misplaced h⟩
  | text h hr he => exact ⟨_, (shift_add ..).symm, .text h hr he⟩
  | char => exact ⟨_, (shift_add ..).symm, .char⟩
  | noChar => exact ⟨_, rfl, .noChar⟩
  | group h hi => exact ⟨_, (shift_add ..).symm, .group h hi⟩
  | environment h hi => exact ⟨_, (shift_add ..).symm, .environment h hi⟩
  | environmentArgs h hp ha hi => exact ⟨_, (addNone ..).symm, .environmentArgs h hp ha hi⟩
  | delimited hi => exact ⟨_, (shift_add ..).symm, .delimited hi⟩
  | block h hb => exact ⟨_, (shift_add ..).symm, .block h hb⟩
  | blockOpen h hb => exact ⟨_, (shift_add ..).symm, .blockOpen h hb⟩
  | symbol hn h => exact ⟨_, (shift_add ..).symm, .symbol hn h⟩
  | command hn h h1 h2 ha => exact ⟨_, (addNone ..).symm, .command hn h h1 h2 ha⟩
  | greedy hn h hi => exact ⟨_, (addNone ..).symm, .greedy hn h hi⟩
  | «postfix» hn h ho =>
    have e : (shift P r).last.or (shift P r).first = (r.last.or r.first).map (· + (P.length : Int)) := by
      unfold shift; cases r.last <;> rfl
    rw [e] at ho
    obtain ⟨kept', rfl, ho'⟩ := unshift_operand (by
      intro i hi
      cases hl : r.last with
      | none => rw [hl] at hi; exact hr.1 i hi
      | some j => rw [hl] at hi; cases hi; exact hr.2 _ hl) ho
    refine ⟨_, ?_, .postfix hn h ho'⟩
    unfold shift
    rw [List.append_assoc]
  | «infix» hn h ho hi =>
    obtain ⟨kept', rfl, ho'⟩ := unshift_operand hr.1 ho
    refine ⟨_, ?_, .infix hn h ho' hi⟩
    unfold shift
    rw [List.append_assoc]
    rfl
  | prime hl ho =>
    obtain ⟨kept', rfl, ho'⟩ := unshift_operand hr.2 ho
    refine ⟨_, ?_, .prime (by unfold shift at hl; simpa using hl) ho'⟩
    unfold shift
    rw [List.append_assoc]
  | apostrophe hl => exact ⟨_, (shift_add ..).symm, .apostrophe (by unfold shift at hl; simpa using hl)⟩
  | @script _ _ _ _ r1 k x kept arg blanks ts _ hk ho hb he hi =>
    obtain ⟨kept', rfl, ho'⟩ := unshift_operand hr.2 ho
    have e1 : ∀ es, (shift P r).enter (P ++ kept').length es = r.enter kept'.length es := by
      intro es
      unfold shift Row.enter
      simp only [Row.mk.injEq, true_and, Option.map_map]
      constructor
      all_goals
        congr 1
        funext i
        simp only [Function.comp_apply, List.length_append]
        omega
    have e2 : ∀ es, shift P (Row.leave kept'.length r1 es) = Row.leave (P ++ kept').length r1 (P ++ es) := by
      intro es
      unfold shift Row.leave
      simp only [Row.mk.injEq, true_and, Option.map_map]
      constructor
      all_goals
        congr 1
        funext i
        simp only [Function.comp_apply, List.length_append]
        omega
    rw [e1] at hi
    refine ⟨_, ?_, .script hk ho' hb he hi⟩
    rw [e2, List.append_assoc]

theorem unshift_reaches {P : List Elem} {R R' : Row} {ts hs ts' : List Tok} (h : Reaches env R ts hs R' ts') :
    ∀ {r : Row}, R = shift P r → Inside r → ∃ r', R' = shift P r' ∧ Reaches env r ts hs r' ts' := by
  induction h with
  | refl => intro r e _; exact ⟨r, e, .refl _ _⟩
  | @step R R1 R' t att ts ts1 ts' hs hi h ih =>
    intro r e hr
    obtain ⟨r1, e1, hi'⟩ := unshift_item hi e hr
    have hp := item_positions hi'
    have hin : Inside r1 := by
      constructor
      · intro i hf
        rcases hp.1 with h | h
        · exact hr.1 i (by rw [← h]; exact hf)
        · rw [h] at hf; cases hf
      · intro i hf
        rcases hp.2 with h | h
        · exact hr.2 i (by rw [← h]; exact hf)
        · rw [h] at hf; cases hf
    subst e
    subst e1
    have e : (if att = true then { shift P r1 with last := some ((shift P r).items.length : Int) } else shift P r1)
        = shift P (if att = true then { r1 with last := some (r.items.length : Int) } else r1) := by
      cases att with
      | false => rfl
      | true =>
        unfold shift
        simp only [if_true, Row.mk.injEq, true_and, Option.map_some, Option.some.injEq, List.length_append]
        omega
    obtain ⟨r', e', h'⟩ := ih e (by
      cases att with
      | false => exact hin
      | true => exact ⟨hin.1, fun i hi => (by cases hi; omega)⟩)
    exact ⟨r', e', .step hi' h'⟩

/-- What stands between two marks is a document of its own. -/
theorem inner_document {S : Scope} (hS : S ≠ .environment) {o c : Tok} {tx : List Tok} {r' : Row} (hc : c.1 ≠ .word)
    (hi : Items env S (enders S) ⟨[leafOf o], some 1, none⟩ (tx ++ [c]) r' [c]) (hA : ArgsGiven env S tx) :
    ∃ B, r'.items = leafOf o :: B ∧ Document env tx (.node .scopeRoot B) := by
  have h1 := (lookahead env).2.1 hi (u := tx) (u' := []) (t := c) (v := []) hc rfl rfl (T := []) (fun s hs => (by cases hs))
  rw [List.append_nil] at h1
  have h2 := (rescope env S hS h1 rfl hA (fun t ht => (by cases ht))).1 rfl
  obtain ⟨hs, h3⟩ := items_reaches h2
  obtain ⟨r, e, h4⟩ := unshift_reaches (P := [leafOf o]) h3 (r := start) rfl ⟨fun i h => (by cases h; decide), fun i h => (by cases h)⟩
  exact ⟨r.items, by rw [e]; rfl, r, reaches_items h4, rfl⟩

/-! ### A tree that is one formula -/

theorem args_blanks {sc : Scope} {p : ArgPattern} {ks : List ArgKind} {ts ts' blanks : List Tok} {args : List Elem}
    (h : Args env sc p ks ts args blanks ts') : ∀ b ∈ blanks, isBlank b.1 = true := by
  refine @Args.rec env (fun _ _ _ _ _ _ _ _ => True) (fun _ _ _ _ _ _ _ => True) (fun _ _ _ _ _ blanks _ _ => ∀ b ∈ blanks, isBlank b.1 = true)
    ?over ?single ?misplaced ?text ?char ?noChar ?group ?environment ?environmentArgs ?delimited ?block
      ?blockOpen ?symbol ?command ?greedy ?post ?inf ?prime ?apostrophe ?script ?iover ?imore ?aover ?ablank ?achar ?agroup ?abracket ?aitem
    _ _ _ _ _ _ _ h
  case aover => intro _ _ _ _ _ b hb; cases hb
  case ablank =>
    intro _ _ _ _ args _ _ _ h _ ih
    split
    · intro b hb
      rcases List.mem_cons.1 hb with rfl | hb
      · exact h
      · exact ih b hb
    · exact ih
  case achar => intro _ _ _ _ _ _ _ _ _ _ _ ih; exact ih
  case agroup => intro _ _ _ _ _ _ _ _ _ _ _ _ _ _ _ _ ih; exact ih
  case abracket => intro _ _ _ _ _ _ _ _ _ _ _ _ ih; exact ih
  case aitem => intro _ _ _ _ _ _ _ _ _ _ _ _ _ _ _ _ _ ih; exact ih
  all_goals (intros; trivial)

/-- Not a mark of a formula. -/
def NoMathMark (e : Elem) : Prop := e.kind ≠ .tokenDollar ∧ e.kind ≠ .tokenEndMath

theorem blank_leaf {t : Tok} (h : isBlank t.1 = true) : NoMathMark (leafOf t) := by
  obtain ⟨k, x⟩ := t
  have h := of_decide_eq_true h
  simp only [List.mem_cons, List.not_mem_nil, or_false] at h
  rcases h with rfl | rfl | rfl <;> exact ⟨fun h => (by cases h), fun h => (by cases h)⟩

/-- An item is added to the row, or takes the place of some of its items; it is no mark of a formula. -/
theorem item_shape {sc : Scope} {one att : Bool} {r r' : Row} {ts ts' : List Tok} (h : Item env sc one r ts att r' ts') :
    ∃ n new, r'.items = r.items.take n ++ new ∧ ∀ e ∈ new, NoMathMark e := by
  have add : ∀ es : List Elem, (∀ e ∈ es, NoMathMark e) → ∃ n new, r.items ++ es = r.items.take n ++ new ∧ ∀ e ∈ new, NoMathMark e :=
    fun es h => ⟨r.items.length, es, by rw [List.take_length], h⟩
  have one : ∀ e : Elem, NoMathMark e → ∀ e' ∈ [e], NoMathMark e' := fun e h e' h' => (by rw [List.mem_singleton.1 h']; exact h)
  have op : ∀ (p : Option Int) (kept arg : List Elem) (es : List Elem), r.operand p = some (kept, arg) → (∀ e ∈ es, NoMathMark e) →
      ∃ n new, kept ++ es = r.items.take n ++ new ∧ ∀ e ∈ new, NoMathMark e := by
    intro p kept arg es ho he
    cases p with
    | none => cases ho; exact add es he
    | some i =>
      unfold Row.operand at ho
      dsimp only at ho
      split at ho
      · cases ho; exact ⟨_, es, rfl, he⟩
      · cases ho
  have nd : ∀ (k : Kind) (cs : List Elem), k ≠ .tokenDollar → k ≠ .tokenEndMath → NoMathMark (.node k cs) := fun k cs h1 h2 => ⟨h1, h2⟩
  cases h with
  | over => exact ⟨r.items.length, [], by rw [List.take_length, List.append_nil], fun _ h => (by cases h)⟩
  | @single _ _ _ _ k x _ h =>
    refine add _ (one _ ?_)
    unfold Grammar.single at h
    split at h
    · rename_i hk
      simp only [List.mem_cons, List.not_mem_nil, or_false] at hk
      rcases hk with rfl | rfl | rfl | rfl | rfl | rfl | rfl | rfl | rfl <;> exact ⟨fun h => (by cases h), fun h => (by cases h)⟩
    · split at h
      · rename_i hk
        simp only [List.mem_cons, List.not_mem_nil, or_false] at hk
        rcases hk with rfl | rfl | rfl | rfl | rfl | rfl | rfl | rfl | rfl | rfl <;> exact ⟨fun h => (by cases h), fun h => (by cases h)⟩
      · cases h
  | misplaced h => exact add _ (one _ (nd _ _ (by decide) (by decide)))
  | text h hr he => exact add _ (one _ (nd _ _ (by decide) (by decide)))
  | char => exact add _ (one _ ⟨fun h => (by cases h), fun h => (by cases h)⟩)
  | noChar => exact ⟨r.items.length, [], by rw [List.take_length, List.append_nil], fun _ h => (by cases h)⟩
  | @group _ _ _ _ _ _ k _ kind _ _ _ h hi =>
    refine add _ (one _ ?_)
    unfold grouping at h
    split at h
    · cases h; exact nd _ _ (by decide) (by decide)
    · cases h; exact nd _ _ (by decide) (by decide)
    · cases h; exact nd _ _ (by decide) (by decide)
    · cases h
  | environment h hi => exact add _ (one _ (nd _ _ (by decide) (by decide)))
  | environmentArgs h hp ha hi => exact add _ (one _ (nd _ _ (by decide) (by decide)))
  | delimited hi => exact add _ (one _ (nd _ _ (by decide) (by decide)))
  | block h hb =>
    refine add _ (one _ ?_)
    rcases h with h | h <;> cases h <;> exact nd _ _ (by decide) (by decide)
  | blockOpen h hb =>
    refine add _ (one _ ?_)
    rcases h with h | h <;> cases h <;> exact nd _ _ (by decide) (by decide)
  | symbol hn h => exact add _ (one _ (nd _ _ (by decide) (by decide)))
  | command hn h h1 h2 ha =>
    refine add _ ?_
    intro e he
    rcases List.mem_cons.1 he with rfl | he
    · exact nd _ _ (by decide) (by decide)
    · obtain ⟨b, hb, rfl⟩ := List.mem_map.1 he
      exact blank_leaf (args_blanks ha b hb)
  | greedy hn h hi => exact add _ (one _ (nd _ _ (by decide) (by decide)))
  | «postfix» hn h ho => exact op _ _ _ _ ho (one _ (nd _ _ (by decide) (by decide)))
  | «infix» hn h ho hi => exact op _ _ _ _ ho (one _ (nd _ _ (by decide) (by decide)))
  | prime hl ho => exact op _ _ _ _ ho (one _ (nd _ _ (by decide) (by decide)))
  | apostrophe hl => exact add _ (one _ ⟨fun h => (by cases h), fun h => (by cases h)⟩)
  | script hk ho hb he hi => exact op _ _ _ _ ho (one _ (nd _ _ (by decide) (by decide)))

theorem items_shape {r r' : Row} {sc : Scope} {stop : List Token} {ts ts' : List Tok} (h : Items env sc stop r ts r' ts') :
    ∃ n new, r'.items = r.items.take n ++ new ∧ ∀ e ∈ new, NoMathMark e := by
  refine @Items.rec env (fun _ _ _ _ _ _ _ _ => True) (fun _ _ r _ r' _ _ => ∃ n new, r'.items = r.items.take n ++ new ∧ ∀ e ∈ new, NoMathMark e)
    (fun _ _ _ _ _ _ _ _ => True)
    ?over ?single ?misplaced ?text ?char ?noChar ?group ?environment ?environmentArgs ?delimited ?block
      ?blockOpen ?symbol ?command ?greedy ?post ?inf ?prime ?apostrophe ?script ?iover ?imore ?aover ?ablank ?achar ?agroup ?abracket ?aitem
    _ _ _ _ _ _ h
  case iover => intro _ _ r _ _; exact ⟨r.items.length, [], by rw [List.take_length, List.append_nil], fun _ h => (by cases h)⟩
  case imore =>
    intro _ _ r r1 r' t att _ _ _ _ hi _ _ ih
    obtain ⟨n, new, e, hn⟩ := item_shape hi
    obtain ⟨m, new', e', hn'⟩ := ih
    have e2 : (if att = true then { r1 with last := some (r.items.length : Int) } else r1).items = r1.items := by split <;> rfl
    rw [e2, e, List.take_append, List.take_take, List.append_assoc] at e'
    refine ⟨_, _, e', ?_⟩
    intro x hx
    rcases List.mem_append.1 hx with hx | hx
    · exact hn x (List.mem_of_mem_take hx)
    · exact hn' x hx
  all_goals (intros; trivial)

/-- More than one item, or one that has taken others. -/
def Further (es : List Elem) : Prop := 2 ≤ es.length ∨ ∃ e, es = [e] ∧ (e.kind = .itemCmd ∨ e.kind = .itemAttachComponent)

theorem item_further {sc : Scope} {att : Bool} {r r' : Row} {t : Tok} {ts ts' : List Tok} (h : Item env sc false r (t :: ts) att r' ts')
    (hr : r.items ≠ []) : Further r'.items := by
  have hl : 0 < r.items.length := List.length_pos_iff.2 hr
  have add : ∀ e es, Further (r.items ++ e :: es) := by
    intro e es
    refine .inl ?_
    rw [List.length_append, List.length_cons]
    omega
  have op : ∀ (kept : List Elem) (e : Elem), (e.kind = .itemCmd ∨ e.kind = .itemAttachComponent) → Further (kept ++ [e]) := by
    intro kept e he
    cases kept with
    | nil => exact .inr ⟨e, rfl, he⟩
    | cons a as =>
      refine .inl ?_
      rw [List.length_append, List.length_cons, List.length_cons]
      omega
  cases h with
  | single h => exact add _ _
  | misplaced h => exact add _ _
  | text h hr he => exact add _ _
  | group h hi => exact add _ _
  | environment h hi => exact add _ _
  | environmentArgs h hp ha hi => exact add _ _
  | delimited hi => exact add _ _
  | block h hb => exact add _ _
  | blockOpen h hb => exact add _ _
  | symbol hn h => exact add _ _
  | command hn h h1 h2 ha => exact add _ _
  | greedy hn h hi => exact add _ _
  | «postfix» hn h ho => exact op _ _ (.inl rfl)
  | «infix» hn h ho hi => exact op _ _ (.inl rfl)
  | prime hl ho => exact op _ _ (.inr rfl)
  | apostrophe hl => exact add _ _
  | script hk ho hb he hi => exact op _ _ (.inr rfl)

theorem reaches_further {r r' : Row} {ts hs ts' : List Tok} (h : Reaches env r ts hs r' ts') (hr : r.items ≠ []) :
    ts' = ts ∧ r' = r ∨ Further r'.items := by
  induction h with
  | refl => exact .inl ⟨rfl, rfl⟩
  | @step r r1 r' t att ts ts1 ts' hs hi h ih =>
    have h1 := item_further hi hr
    have e2 : (if att = true then { r1 with last := some (r.items.length : Int) } else r1).items = r1.items := by split <;> rfl
    rw [e2] at ih
    have h2 : r1.items ≠ [] := by
      rcases h1 with h | ⟨e, h, _⟩
      · intro h'; rw [h'] at h; simp at h
      · rw [h]; simp
    rcases ih h2 with ⟨_, h⟩ | h
    · right; rw [h, e2]; exact h1
    · exact .inr h

theorem item_math {sc : Scope} {one att : Bool} {r r1 : Row} {ts ts1 : List Tok} (hi : Item env sc one r ts att r1 ts1) {ok : Token} {ox : Text} {tl : List Tok}
    (e : ts = (ok, ox) :: tl) (hok : ok = .dollar ∨ ok = .cmd .beginMath) :
    ∃ sc' close kind r' ts', grouping ok = some (sc', close, kind, att) ∧ Items env sc' (enders sc') ⟨[leafOf (ok, ox)], some 1, none⟩ tl r' ts' ∧
      r1 = r.add [.node kind (r'.items ++ (closing close ts').1)] ∧ ts1 = (closing close ts').2 := by
  have no : ∀ {k : Token} {x : Text} {l : List Tok}, (k, x) :: l = (ok, ox) :: tl → k = ok := fun h => (by cases h; rfl)
  cases hi with
  | over => cases e
  | group h hi => cases e; exact ⟨_, _, _, _, _, h, hi, rfl, rfl⟩
  | single h => cases no e; rcases hok with h' | h' <;> cases h' <;> cases h
  | misplaced h => cases no e; rcases hok with h' | h' <;> cases h' <;> cases h
  | text h => cases no e; rcases hok with h' | h' <;> cases h' <;> (rcases h with h | ⟨h, _⟩ <;> cases h)
  | char => cases no e; rcases hok with h' | h' <;> cases h'
  | noChar => cases no e; rcases hok with h' | h' <;> cases h'
  | environment => cases no e; rcases hok with h' | h' <;> cases h'
  | environmentArgs => cases no e; rcases hok with h' | h' <;> cases h'
  | delimited => cases no e; rcases hok with h' | h' <;> cases h'
  | block => cases no e; rcases hok with h' | h' <;> cases h'
  | blockOpen => cases no e; rcases hok with h' | h' <;> cases h'
  | symbol hn => cases no e; rcases hok with h' | h' <;> cases h'; cases hn
  | command hn => cases no e; rcases hok with h' | h' <;> cases h'; cases hn
  | greedy hn => cases no e; rcases hok with h' | h' <;> cases h'; cases hn
  | «postfix» hn => cases no e; rcases hok with h' | h' <;> cases h'; cases hn
  | «infix» hn => cases no e; rcases hok with h' | h' <;> cases h'; cases hn
  | prime => cases no e; rcases hok with h' | h' <;> cases h'
  | apostrophe => cases no e; rcases hok with h' | h' <;> cases h'
  | script h => cases no e; rcases hok with h' | h' <;> cases h' <;> (rcases h with h | h <;> cases h)

/-- A tree that is one formula between its marks: the formula ends at the closing mark. -/
theorem formula_inner {o c : Tok} {S : Scope} {tx : List Tok} {B : List Elem} (hg : grouping o.1 = some (S, c.1, .itemFormula, false))
    (hd : Document env (o :: (tx ++ [c])) (.node .scopeRoot [.node .itemFormula (leafOf o :: (B ++ [leafOf c]))])) :
    ∃ r', Items env S (enders S) ⟨[leafOf o], some 1, none⟩ (tx ++ [c]) r' [c] ∧ r'.items = leafOf o :: B := by
  obtain ⟨r, h, e⟩ := hd
  have hk : ¬ NoMathMark (leafOf c) ∧ c.1 ≠ .word ∧ (o.1 = .dollar ∨ o.1 = .cmd .beginMath) := by
    obtain ⟨ck, cx⟩ := c
    unfold grouping at hg
    dsimp only at hg
    split at hg
    · cases hg
    · rename_i heq; cases hg; exact ⟨fun h => h.1 rfl, fun h => (by cases h), .inl heq⟩
    · rename_i heq; cases hg; exact ⟨fun h => h.2 rfl, fun h => (by cases h), .inr heq⟩
    · cases hg
  obtain ⟨hk, hcw, hok⟩ := hk
  obtain ⟨hs, h⟩ := items_reaches h
  cases h with
  | @step _ r1 _ t att ts ts1 ts' hs hi h =>
    obtain ⟨ok, ox⟩ := o
    have hi' := item_math hi rfl hok
    obtain ⟨sc', close, kind, r', ts', hg', hI, e1, e2⟩ := hi'
    rw [show (ok, ox).1 = ok from rfl] at hg
    rw [hg] at hg'
    cases hg'
    subst e1
    subst e2
    have hrow : (start.add [Elem.node .itemFormula (r'.items ++ (closing c.1 ts').1)]).items ≠ [] := by
      intro h; cases h
    simp only [Bool.false_eq_true, if_false] at h
    have hr : r.items = [.node .itemFormula (leafOf (ok, ox) :: (B ++ [leafOf c]))] := by injection e with _ h1; exact h1.symm
    rcases reaches_further h hrow with ⟨h1, h2⟩ | h1
    · rw [h2] at hr
      have hr' : r'.items ++ (closing c.1 ts').1 = leafOf (ok, ox) :: (B ++ [leafOf c]) := by
        have := List.cons.inj hr
        have := this.1
        injection this
      cases ts' with
      | nil =>
        exfalso
        rw [show (closing c.1 ([] : List Tok)).1 = [] from rfl, List.append_nil] at hr'
        obtain ⟨n, new, en, hn⟩ := items_shape hI
        have hlast : r'.items.getLast? = some (leafOf c) := by
          rw [hr', ← List.cons_append, List.getLast?_append]
          rfl
        have hin : leafOf c ∈ r'.items := List.mem_of_getLast? hlast
        have hnew : leafOf c ∉ new := fun h => hk (hn _ h)
        cases hnw : new with
        | nil =>
          rw [hnw, List.append_nil] at en
          have := congrArg List.length en
          rw [hr'] at this
          simp only [List.length_take, List.length_cons, List.length_append, List.length_nil] at this
          omega
        | cons a as =>
          rw [hnw] at en hnew
          rw [en, List.getLast?_append] at hlast
          have : (a :: as).getLast? = some (leafOf c) := by
            cases hq : (a :: as).getLast? with
            | none => simp at hq
            | some z => rw [hq] at hlast; exact hlast
          exact hnew (List.mem_of_getLast? this)
      | cons t tl =>
        have cl : closing c.1 (t :: tl) = if t.1 = c.1 then ([leafOf t], tl) else ([], t :: tl) := rfl
        by_cases ht : t.1 = c.1
        · rw [cl, if_pos ht] at hr' h1
          dsimp only at h1
          subst h1
          obtain ⟨u, hu⟩ := ((eatsAll env).2.1 hI).tail (u' := []) (t := t) (v := []) (by rw [ht]; exact hcw) rfl
          have : [c] = [t] := (List.append_inj' hu rfl).2
          cases this
          refine ⟨r', hI, ?_⟩
          rw [← List.cons_append] at hr'
          exact List.append_cancel_right hr'
        · rw [cl, if_neg ht] at h1
          cases h1
    · exfalso
      rw [hr] at h1
      rcases h1 with h | ⟨e, h, h'⟩
      · simp at h
      · cases h
        rcases h' with h | h <;> cases h

end Local
end Mitex
