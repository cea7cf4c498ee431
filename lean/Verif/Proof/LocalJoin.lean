/-
Rows one after the other (C75).
-/
import Verif.Spec.Local
import Verif.Proof.Local

namespace Mitex
namespace Local
open Grammar

variable {env : PEnv}

/-! ### The row is moved -/

/-- The row after the items `P`. -/
def shift (P : List Elem) (r : Row) : Row :=
  ⟨P ++ r.items, r.first.map (· + (P.length : Int)), r.last.map (· + (P.length : Int))⟩

theorem shift_add (P : List Elem) (r : Row) (es : List Elem) : shift P (r.add es) = (shift P r).add es := by
  unfold shift Row.add
  rw [List.append_assoc]

theorem shift_operand {P : List Elem} {r : Row} {p : Option Int} {kept arg : List Elem} (h : r.operand p = some (kept, arg)) :
    (shift P r).operand (p.map (· + (P.length : Int))) = some (P ++ kept, arg) := by
  cases p with
  | none => cases h; rfl
  | some i =>
    unfold Row.operand at h ⊢
    dsimp only [Option.map] at h ⊢
    by_cases hi : 0 ≤ i ∧ i ≤ (r.items.length : Int)
    · rw [if_pos hi] at h
      cases h
      have h1 : 0 ≤ i + (P.length : Int) ∧ i + (P.length : Int) ≤ ((shift P r).items.length : Int) := by
        unfold shift
        rw [List.length_append]
        omega
      rw [if_pos h1]
      have h2 : (i + (P.length : Int)).toNat = P.length + i.toNat := by omega
      rw [h2]
      unfold shift
      dsimp only
      rw [List.take_length_add_append, List.drop_length_add_append]
    · rw [if_neg hi] at h; cases h

theorem shift_item (P : List Elem) {sc : Scope} {one att : Bool} {r r' : Row} {ts ts' : List Tok} (h : Item env sc one r ts att r' ts') :
    Item env sc one (shift P r) ts att (shift P r') ts' := by
  have addNone : ∀ (r : Row) es, shift P { r.add es with last := none } = { (shift P r).add es with last := none } := by
    intro r es
    have := shift_add P r es
    unfold shift Row.add at this ⊢
    simp only [Row.mk.injEq, true_and] at this ⊢
    exact ⟨this.1, rfl⟩
  cases h with
  | over => exact .over
  | single h => rw [shift_add]; exact .single h
  | misplaced h => rw [shift_add]; exact .misplaced h
  | text h hr he => rw [shift_add]; exact .text h hr he
  | char => rw [shift_add]; exact .char
  | noChar => exact .noChar
  | group h hi => rw [shift_add]; exact .group h hi
  | environment h hi => rw [shift_add]; exact .environment h hi
  | environmentArgs h hp ha hi => rw [addNone]; exact .environmentArgs h hp ha hi
  | delimited hi => rw [shift_add]; exact .delimited hi
  | block h hb => rw [shift_add]; exact .block h hb
  | blockOpen h hb => rw [shift_add]; exact .blockOpen h hb
  | symbol hn h => rw [shift_add]; exact .symbol hn h
  | command hn h h1 h2 ha => rw [addNone]; exact .command hn h h1 h2 ha
  | greedy hn h hi => rw [addNone]; exact .greedy hn h hi
  | «postfix» hn h ho =>
    have ho := shift_operand (P := P) ho
    have e : (r.last.or r.first).map (· + (P.length : Int)) = (shift P r).last.or (shift P r).first := by
      unfold shift; cases r.last <;> rfl
    rw [e] at ho
    have := Item.postfix (env := env) (sc := sc) (one := one) (ts := ts') hn h ho
    rw [List.append_assoc] at this
    exact this
  | «infix» hn h ho hi =>
    have ho := shift_operand (P := P) ho
    have := Item.infix (env := env) (sc := sc) (one := one) hn h ho hi
    rw [List.append_assoc] at this
    exact this
  | @prime _ _ _ x _ _ _ hl ho =>
    have ho := shift_operand (P := P) ho
    have := Item.prime (env := env) (sc := sc) (one := one) (x := x) (ts := ts') (r := shift P r) (by unfold shift; simpa using hl) ho
    rw [List.append_assoc] at this
    exact this
  | apostrophe hl => rw [shift_add]; exact .apostrophe (by unfold shift; simpa using hl)
  | @script _ _ _ _ r1 k x kept arg blanks ts _ hk ho hb he hi =>
    have ho := shift_operand (P := P) ho
    have e1 : ∀ es, (shift P r).enter (P ++ kept).length es = r.enter kept.length es := by
      intro es
      unfold shift Row.enter
      simp only [Row.mk.injEq, true_and, Option.map_map]
      constructor
      all_goals
        congr 1
        funext i
        simp only [Function.comp_apply, List.length_append]
        omega
    have e2 : ∀ es, shift P (Row.leave kept.length r1 es) = Row.leave (P ++ kept).length r1 (P ++ es) := by
      intro es
      unfold shift Row.leave
      simp only [Row.mk.injEq, true_and, Option.map_map]
      constructor
      all_goals
        congr 1
        funext i
        simp only [Function.comp_apply, List.length_append]
        omega
    rw [e2, ← List.append_assoc]
    exact .script hk ho hb he (by rw [e1]; exact hi)

theorem shift_reaches (P : List Elem) {r r' : Row} {ts hs ts' : List Tok} (h : Reaches env r ts hs r' ts') :
    Reaches env (shift P r) ts hs (shift P r') ts' := by
  induction h with
  | refl => exact .refl _ _
  | @step r r1 r' t att ts ts1 ts' hs hi h ih =>
    refine .step (shift_item P hi) ?_
    have e : (if att = true then { shift P r1 with last := some ((shift P r).items.length : Int) } else shift P r1)
        = shift P (if att = true then { r1 with last := some (r.items.length : Int) } else r1) := by
      cases att with
      | false => rfl
      | true =>
        unfold shift
        simp only [if_true, Row.mk.injEq, true_and, Option.map_some, Option.some.injEq, List.length_append]
        omega
    rw [e]
    exact ih

/-! ### Where the row starts does not matter -/

theorem leads_blanks {b : Bool} (blanks ts : List Tok) (hb : ∀ t ∈ blanks, isBlank t.1 = true) (he : ∀ t, ts.head? = some t → isBlank t.1 = false) :
    leads true (blanks ++ ts) = leads b ts := by
  induction blanks with
  | nil =>
    cases ts with
    | nil => rfl
    | cons t ts =>
      rw [List.nil_append, leads, leads, he t rfl]
      simp only [Bool.and_false, Bool.false_eq_true, if_false]
  | cons t blanks ih =>
    rw [List.cons_append, leads, hb t (List.mem_cons_self ..)]
    simp only [Bool.and_true, if_true]
    exact ih fun s hs => hb s (List.mem_cons_of_mem _ hs)

theorem takesLeft_left {n : CommandName} {name : Text} (hn : isCommand n = true)
    (h : commandArgs env.spec name = .left1 ∨ commandArgs env.spec name = .infixGreedy) : takesLeft env (.cmd n, '\\' :: name) = true := by
  unfold takesLeft
  simp only [hn, Bool.true_and]
  exact decide_eq_true h

theorem leads_cmd {n : CommandName} {x : Text} {ts : List Tok} {b : Bool} : leads b ((.cmd n, x) :: ts) = [(.cmd n, x)] := by
  have : isBlank (.cmd n) = false := by unfold isBlank; simp
  rw [leads, this, Bool.and_false]
  simp

theorem first_item : ∀ (n : Nat) {sc : Scope} {one att : Bool} {r r' : Row} {ts ts' : List Tok}, ts.length ≤ n → Item env sc one r ts att r' ts' →
    (∀ t ∈ leads false ts, takesLeft env t = false) → ∀ f, Item env sc one { r with first := f } ts att { r' with first := f } ts' := by
  intro n
  induction n with
  | zero =>
    intro sc one att r r' ts ts' hn h hl f
    cases ts with
    | nil => cases h with
      | over => exact .over
    | cons t ts => simp at hn
  | succ n ih =>
    intro sc one att r r' ts ts' hn h hl f
    cases h with
    | over => exact .over
    | single h => exact .single (r := { r with first := f }) h
    | misplaced h => exact .misplaced (r := { r with first := f }) h
    | text h hr he => exact .text (r := { r with first := f }) h hr he
    | char => exact .char (r := { r with first := f })
    | noChar => exact .noChar
    | group h hi => exact .group (r := { r with first := f }) h hi
    | environment h hi => exact .environment (r := { r with first := f }) h hi
    | environmentArgs h hp ha hi => exact .environmentArgs (r := { r with first := f }) h hp ha hi
    | delimited hi => exact .delimited (r := { r with first := f }) hi
    | block h hb => exact .block (r := { r with first := f }) h hb
    | blockOpen h hb => exact .blockOpen (r := { r with first := f }) h hb
    | symbol hc h => exact .symbol (r := { r with first := f }) hc h
    | command hc h h1 h2 ha => exact .command (r := { r with first := f }) hc h h1 h2 ha
    | greedy hc h hi => exact .greedy (r := { r with first := f }) hc h hi
    | «postfix» hc h ho =>
      have := hl _ (by rw [leads_cmd]; exact List.mem_singleton.2 rfl)
      rw [takesLeft_left hc (.inl h)] at this
      cases this
    | «infix» hc h ho hi =>
      have := hl _ (by rw [leads_cmd]; exact List.mem_singleton.2 rfl)
      rw [takesLeft_left hc (.inr h)] at this
      cases this
    | prime hq ho => exact .prime (r := { r with first := f }) hq ho
    | apostrophe hq => exact .apostrophe (r := { r with first := f }) hq
    | @script _ _ _ _ r1 k x kept arg blanks ts _ hk ho hb he hi =>
      have e0 : leads false ((k, x) :: (blanks ++ ts)) = (k, x) :: leads false ts := by
        rw [leads]
        simp only [Bool.false_and, Bool.false_eq_true, if_false]
        rw [if_pos hk, leads_blanks blanks ts hb he]
      rw [e0] at hl
      have i := ih (by simp only [List.length_cons, List.length_append] at hn; omega) hi
        (fun t ht => hl t (List.mem_cons_of_mem _ ht)) (f.map (· - (kept.length : Int)))
      have := Item.script (env := env) (one := one) (r := { r with first := f }) hk ho hb he i
      have e : (f.map (· - (kept.length : Int))).map (· + (kept.length : Int)) = f := by
        cases f with
        | none => rfl
        | some z => simp only [Option.map_some, Option.some.injEq]; omega
      unfold Row.leave at this ⊢
      dsimp only at this ⊢
      rw [e] at this
      exact this

theorem first_reaches {r r' : Row} {ts hs ts' : List Tok} (h : Reaches env r ts hs r' ts') (hl : ∀ t ∈ hs, takesLeft env t = false) (f : Option Int) :
    Reaches env { r with first := f } ts hs { r' with first := f } ts' := by
  induction h with
  | refl => exact .refl _ _
  | @step r r1 r' t att ts ts1 ts' hs hi h ih =>
    refine .step (first_item _ (Nat.le_refl _) hi (fun t ht => hl t (List.mem_append_left _ ht)) f) ?_
    have i := ih fun t ht => hl t (List.mem_append_right _ ht)
    cases att with
    | false => exact i
    | true => exact i

/-! ### The item before does not matter -/

theorem last_item {r r' : Row} {t : Tok} {att : Bool} {ts ts' : List Tok} (h : Item env .root false r (t :: ts) att r' ts')
    (hl : takesLeft env t = false) (hm : isMark t.1 = false) (l : Option Int) :
    ∃ l', Item env .root false { r with last := l } (t :: ts) att { r' with last := l' } ts' ∧ (settles t.1 = true → att = true ∨ l' = r'.last) := by
  cases h with
  | single h =>
    rename_i k x
    refine ⟨l, .single (r := { r with last := l }) h, fun hs => .inl ?_⟩
    unfold Grammar.single at h
    split at h
    · rename_i hk
      dsimp only at hs
      simp only [List.mem_cons, List.not_mem_nil, or_false] at hk
      rcases hk with rfl | rfl | rfl | rfl | rfl | rfl | rfl | rfl | rfl <;> cases hs
    · split at h
      · cases h; rfl
      · cases h
  | misplaced h => exact ⟨l, .misplaced (r := { r with last := l }) h, fun _ => .inl rfl⟩
  | text h hr he => exact ⟨l, .text (r := { r with last := l }) h hr he, fun _ => .inl rfl⟩
  | group h hi =>
    rename_i k x
    refine ⟨l, .group (r := { r with last := l }) h hi, fun hs => .inl ?_⟩
    unfold grouping at h
    split at h
    · cases h; rfl
    · cases hs
    · cases hs
    · cases h
  | environment h hi => exact ⟨l, .environment (r := { r with last := l }) h hi, fun _ => .inl rfl⟩
  | environmentArgs h hp ha hi => exact ⟨none, .environmentArgs (r := { r with last := l }) h hp ha hi, fun _ => .inl rfl⟩
  | delimited hi => exact ⟨l, .delimited (r := { r with last := l }) hi, fun _ => .inl rfl⟩
  | block h hb => exact ⟨l, .block (r := { r with last := l }) h hb, fun _ => .inl rfl⟩
  | blockOpen h hb => exact ⟨l, .blockOpen (r := { r with last := l }) h hb, fun _ => .inl rfl⟩
  | symbol hn h => exact ⟨l, .symbol (r := { r with last := l }) hn h, fun _ => .inl rfl⟩
  | command hn h h1 h2 ha => exact ⟨none, .command (r := { r with last := l }) hn h h1 h2 ha, fun _ => .inl rfl⟩
  | greedy hn h hi => exact ⟨none, .greedy (r := { r with last := l }) hn h hi, fun _ => .inr rfl⟩
  | «postfix» hn h ho => rw [takesLeft_left hn (.inl h)] at hl; cases hl
  | «infix» hn h ho hi => rw [takesLeft_left hn (.inr h)] at hl; cases hl
  | prime => cases hm
  | apostrophe => cases hm
  | script hk => rcases hk with rfl | rfl <;> cases hm

theorem leads_plain {t : Tok} {ts : List Tok} (h : isMark t.1 = false) : leads false (t :: ts) = [t] := by
  rw [leads]
  simp only [Bool.false_and, Bool.false_eq_true, if_false]
  rw [if_neg]
  rintro (h' | h') <;> rw [h'] at h <;> cases h

theorem leads_head (t : Tok) (ts : List Tok) : ∃ l, leads false (t :: ts) = t :: l := by
  rw [leads]
  simp only [Bool.false_and, Bool.false_eq_true, if_false]
  split
  · exact ⟨_, rfl⟩
  · exact ⟨_, rfl⟩

/-- Items that stand alone are read in the same way after any row. -/
theorem alone_reaches {r r' : Row} {ts hs ts' : List Tok} (h : Reaches env r ts hs r' ts') (ha : standAlone env hs = true) (f l : Option Int) :
    ∃ l', Reaches env { r with first := f, last := l } ts hs { r' with first := f, last := l' } ts' := by
  induction h generalizing l with
  | refl => exact ⟨l, .refl _ _⟩
  | @step r r1 r' t att ts ts1 ts' hs hi h ih =>
    obtain ⟨l0, e0⟩ := leads_head t ts
    rw [e0, List.cons_append, standAlone] at ha
    simp only [Bool.and_eq_true, Bool.not_eq_true'] at ha
    obtain ⟨⟨h1, h2⟩, h3⟩ := ha
    have e1 := leads_plain (ts := ts) h2
    rw [e1] at e0
    cases e0
    have hi' := first_item _ (Nat.le_refl _) hi (by rw [e1]; intro s hs; rw [List.mem_singleton.1 hs]; exact h1) f
    obtain ⟨l1, hi2, hset⟩ := last_item hi' h1 h2 l
    by_cases hs1 : settles t.1 = true
    · rw [if_pos hs1] at h3
      have hall : ∀ s ∈ hs, takesLeft env s = false := by
        intro s hs
        have := List.all_eq_true.1 h3 s hs
        simpa using this
      have i := first_reaches h hall f
      refine ⟨r'.last, ?_⟩
      refine .step hi2 ?_
      cases att with
      | true => exact i
      | false =>
        rcases hset hs1 with hf | hf
        · cases hf
        · rw [hf]; exact i
    · rw [if_neg hs1] at h3
      cases att with
      | true =>
        obtain ⟨l', i⟩ := ih h3 (some (r.items.length : Int))
        exact ⟨l', .step hi2 i⟩
      | false =>
        obtain ⟨l', i⟩ := ih h3 l1
        exact ⟨l', .step hi2 i⟩

/-! ### Reading in steps -/

theorem Reaches.trans {r r1 r2 : Row} {ts ts1 ts2 hs hs' : List Tok} (h : Reaches env r ts hs r1 ts1) (k : Reaches env r1 ts1 hs' r2 ts2) :
    Reaches env r ts (hs ++ hs') r2 ts2 := by
  induction h with
  | refl => exact k
  | step hi _ ih => rw [List.append_assoc]; exact .step hi (ih k)

theorem reaches_items {r r' : Row} {ts hs : List Tok} (h : Reaches env r ts hs r' []) : Items env .root [] r ts r' [] := by
  obtain ⟨e, he⟩ : ∃ e : List Tok, e = [] := ⟨_, rfl⟩
  rw [← he] at h
  induction h with
  | refl => rw [he]; exact .over fun _ h => (by cases h)
  | step hi _ ih => exact .more (fun h => (by cases h)) hi (ih he)

theorem items_reaches {r r' : Row} {ts : List Tok} (h : Items env .root [] r ts r' []) : ∃ hs, Reaches env r ts hs r' [] := by
  obtain ⟨sc, hsc⟩ : ∃ sc : Scope, sc = .root := ⟨_, rfl⟩
  obtain ⟨stop, hst⟩ : ∃ stop : List Token, stop = [] := ⟨_, rfl⟩
  obtain ⟨e, he⟩ : ∃ e : List Tok, e = [] := ⟨_, rfl⟩
  rw [← hsc, ← hst, ← he] at h
  rw [← he]
  generalize hn : ts.length = n
  refine @Items.rec env (fun _ _ _ _ _ _ _ _ => True) (fun sc stop r ts r' ts' _ => sc = .root → stop = [] → ts' = [] → ∃ hs, Reaches env r ts hs r' ts')
    (fun _ _ _ _ _ _ _ _ => True)
    ?over ?single ?misplaced ?text ?char ?noChar ?group ?environment ?environmentArgs ?delimited ?block
      ?blockOpen ?symbol ?command ?greedy ?post ?inf ?prime ?apostrophe ?script ?iover ?imore ?aover ?ablank ?achar ?agroup ?abracket ?aitem
    _ _ _ _ _ _ h hsc hst he
  case iover => intro _ _ r ts _ _ _ _; exact ⟨[], .refl _ _⟩
  case imore =>
    intro _ _ _ _ _ _ _ _ _ _ _ hi _ _ ih h1 h2 h3
    subst h1
    obtain ⟨hs, i⟩ := ih rfl h2 h3
    exact ⟨_, .step hi i⟩
  all_goals (intros; trivial)

end Local
end Mitex
