/-
The size of the tree of a text (C74).
-/
import Verif.Spec.Size
import Verif.Proof.GrammarFull

namespace Mitex
open Grammar (Item Items Args Row isBlank isTextPart closing delimiter rightDelimiter restOfWord enders)

theorem weights_append (a b : List Elem) : weights (a ++ b) = weights a + weights b := by
  induction a with
  | nil => simp [weights]
  | cons e a ih => simp only [List.cons_append, weights, ih]; omega

theorem weight_pos (e : Elem) : 1 ≤ e.weight := by
  cases e <;> simp only [Elem.weight] <;> omega

/-- What a token may become. -/
def tokWeight (t : Tok) : Nat := 6 * (1 + t.2.length)

def toksWeight (ts : List Tok) : Nat := (ts.map tokWeight).sum

theorem toksWeight_cons (t : Tok) (ts : List Tok) : toksWeight (t :: ts) = tokWeight t + toksWeight ts := by simp [toksWeight]
theorem toksWeight_nil : toksWeight [] = 0 := rfl
theorem toksWeight_append (a b : List Tok) : toksWeight (a ++ b) = toksWeight a + toksWeight b := by simp [toksWeight]

theorem leaf_weight (t : Tok) : (leafOf t).weight + 5 ≤ tokWeight t := by
  obtain ⟨k, x⟩ := t
  simp only [leafOf, Elem.weight, tokWeight]
  omega

theorem leaves_weight (ts : List Tok) : weights (ts.map leafOf) ≤ toksWeight ts := by
  induction ts with
  | nil => simp [weights]
  | cons t ts ih =>
    have := leaf_weight t
    simp only [List.map_cons, weights, toksWeight_cons]
    omega

theorem closing_weight (k : Token) (ts : List Tok) : weights (closing k ts).1 + (closing k ts).1.length + toksWeight (closing k ts).2 ≤ toksWeight ts := by
  unfold Grammar.closing
  split
  · rename_i t ts'
    have := leaf_weight t
    split
    · simp only [weights, toksWeight_cons, List.length_singleton]; omega
    · simp [weights]
  · simp [weights]

theorem ending_weight (es : List Elem) : weights (es.map fun e => Elem.node .itemEnd [e]) = weights es + es.length := by
  induction es with
  | nil => rfl
  | cons e es ih => simp only [List.map_cons, weights, Elem.weight, ih, List.length_cons]; omega

theorem rest_weight (c : Char) (cs : Text) (ts : List Tok) : toksWeight (restOfWord cs ts) + 6 ≤ toksWeight ((.word, c :: cs) :: ts) := by
  unfold Grammar.restOfWord
  split
  · simp only [toksWeight_cons, tokWeight, List.length_cons]; omega
  · simp only [toksWeight_cons, tokWeight, List.length_cons]; omega

theorem span_weight (p : Tok → Bool) (ts : List Tok) : toksWeight (ts.takeWhile p) + toksWeight (ts.dropWhile p) = toksWeight ts := by
  rw [← toksWeight_append, List.takeWhile_append_dropWhile]

theorem delimiter_weight (t : Tok) (ts : List Tok) : (delimiter t ts).1.weight + 4 + toksWeight (delimiter t ts).2 ≤ tokWeight t + toksWeight ts := by
  have h1 := leaf_weight t
  have h2 := leaves_weight (ts.takeWhile fun t => isBlank t.1)
  have h3 := span_weight (fun t => isBlank t.1) ts
  have hc : ∀ es : List Elem, (Elem.node .clauseLR (leafOf t :: (ts.takeWhile fun t => isBlank t.1).map leafOf ++ es)).weight + 4 ≤
      tokWeight t + toksWeight (ts.takeWhile fun t => isBlank t.1) + weights es := by
    intro es
    simp only [Elem.weight, weights, List.cons_append, weights_append]
    omega
  unfold Grammar.delimiter
  dsimp only
  split
  all_goals rename_i heq
  · rename_i x rest'
    have := hc [.token .tokenCommandSym x]
    rw [heq] at h3
    simp only [weights, Elem.weight, toksWeight_cons, tokWeight] at this h3 ⊢
    omega
  · have := hc []
    rw [← h3]
    simp only [weights, Nat.add_zero] at this ⊢
    omega
  · have := hc []
    rw [← h3]
    simp only [weights, Nat.add_zero] at this ⊢
    omega
  · have := hc []
    rw [← h3]
    simp only [weights, Nat.add_zero] at this ⊢
    omega
  · have := hc []
    rw [← h3]
    simp only [weights, Nat.add_zero] at this ⊢
    omega
  · rename_i c cs rest'
    have := hc [.token .tokenWord [c]]
    have hr := rest_weight c cs rest'
    rw [heq] at h3
    simp only [weights, Elem.weight, List.length_singleton] at this ⊢
    omega
  · rename_i t' rest' _ _ _ _ _
    have := hc [leafOf t']
    have hl := leaf_weight t'
    rw [heq] at h3
    simp only [weights, toksWeight_cons] at this h3 ⊢
    omega

theorem right_weight (ts : List Tok) : weights (rightDelimiter ts).1 + toksWeight (rightDelimiter ts).2 ≤ toksWeight ts := by
  unfold Grammar.rightDelimiter
  split
  · rename_i x ts'
    have := delimiter_weight (.cmd .right, x) ts'
    simp only [weights, toksWeight_cons]
    omega
  · simp [weights]

theorem operand_weight {r : Row} {p : Option Int} {kept arg : List Elem} (h : r.operand p = some (kept, arg)) :
    weights kept + weights arg ≤ weights r.items + 1 := by
  unfold Grammar.Row.operand at h
  split at h
  · cases h; simp [weights]
  · split at h
    · cases h
      rename_i i _
      have := weights_append (r.items.take i.toNat) (r.items.drop i.toNat)
      rw [List.take_append_drop] at this
      simp only [weights, Elem.weight]
      omega
    · cases h

/-- Reading an item does not create weight, and leaves one over unless nothing is read. -/
def ItemW (r : Row) (ts : List Tok) (r' : Row) (ts' : List Tok) : Prop :=
  weights r'.items + toksWeight ts' ≤ weights r.items + toksWeight ts ∧
  ∀ k x tl, ts = (k, x) :: tl → k ≠ .word → weights r'.items + toksWeight ts' + 1 ≤ weights r.items + toksWeight ts

theorem ItemW.of {r r' : Row} {ts ts' : List Tok} (h : weights r'.items + toksWeight ts' + 1 ≤ weights r.items + toksWeight ts) : ItemW r ts r' ts' :=
  ⟨by omega, fun _ _ _ _ _ => h⟩

theorem tree_weight {env : PEnv} {sc : Scope} {stop : List Token} {r : Row} {ts : List Tok} {r' : Row} {ts' : List Tok}
    (h : Items env sc stop r ts r' ts') : weights r'.items + toksWeight ts' ≤ weights r.items + toksWeight ts := by
  refine @Items.rec env (fun sc one r ts att r' ts' _ => ItemW r ts r' ts')
    (fun sc stop r ts r' ts' _ => weights r'.items + toksWeight ts' ≤ weights r.items + toksWeight ts)
    (fun sc p ks ts args blanks ts' _ => weights args + toksWeight blanks + toksWeight ts' ≤ toksWeight ts)
    ?over ?single ?misplaced ?text ?char ?noChar ?group ?environment ?environmentArgs ?delimited ?block ?blockOpen ?symbol ?command ?greedy
    ?post ?inf ?prime ?apostrophe ?script ?iover ?imore ?aover ?ablank ?achar ?agroup ?abracket ?aitem sc stop r ts r' ts' h
  case over => intro _ _ r; exact ⟨Nat.le_refl _, fun _ _ _ h => (by cases h)⟩
  case single =>
    intro _ _ _ r k x ts h
    have := leaf_weight (k, x)
    refine .of ?_
    simp only [Grammar.Row.add, weights_append, weights, toksWeight_cons]; omega
  case misplaced =>
    intro _ _ r k x ts h
    have := leaf_weight (k, x)
    refine .of ?_
    simp only [Grammar.Row.add, weights_append, weights, Elem.weight, toksWeight_cons]; omega
  case text =>
    intro sc one r k x run ts h hr he
    have h1 := leaf_weight (k, x)
    have h2 := leaves_weight run
    refine .of ?_
    simp only [Grammar.Row.add, weights_append, weights, Elem.weight, toksWeight_cons, toksWeight_append, List.map_cons]; omega
  case char =>
    intro _ r c cs ts
    have := rest_weight c cs ts
    refine .of ?_
    simp only [Grammar.Row.add, weights_append, weights, Elem.weight, List.length_singleton]; omega
  case noChar => intro _ r ts; exact ⟨Nat.le_refl _, fun _ _ _ h hk => (by cases h; exact absurd rfl hk)⟩
  case group =>
    intro sc sc' one att r r' k close kind x ts ts' h _ ih
    have h1 := leaf_weight (k, x)
    have h2 := closing_weight close ts'
    refine .of ?_
    simp only [Grammar.Row.add, weights_append, weights, Elem.weight, toksWeight_cons] at ih ⊢; omega
  case environment =>
    intro sc one r r' x ts ts' h _ ih
    have h1 := leaf_weight (.cmd .beginEnv, x)
    have h2 := closing_weight (.cmd .endEnv) ts'
    refine .of ?_
    simp only [Grammar.Row.add, weights_append, weights, Elem.weight, toksWeight_cons, ending_weight] at ih ⊢; omega
  case environmentArgs =>
    intro sc one r r' p x args blanks ts ts1 ts' h hp _ _ iha ih
    have h1 := leaf_weight (.cmd .beginEnv, x)
    have h2 := closing_weight (.cmd .endEnv) ts'
    have h3 := leaves_weight blanks
    refine .of ?_
    simp only [Grammar.Row.add, weights_append, weights, Elem.weight, toksWeight_cons, ending_weight] at ih ⊢; omega
  case delimited =>
    intro sc one r r' x ts ts' _ ih
    have h1 := delimiter_weight (.cmd .left, x) ts
    have h2 := right_weight ts'
    refine .of ?_
    simp only [Grammar.Row.add, weights_append, weights, Elem.weight, toksWeight_cons] at ih ⊢; omega
  case block =>
    intro sc one r i kind x y body ts h hb
    have h2 := leaves_weight body
    refine .of ?_
    simp only [Grammar.Row.add, weights_append, weights, Elem.weight, toksWeight_cons, toksWeight_append, tokWeight]; omega
  case blockOpen =>
    intro sc one r i kind x body h hb
    have h2 := leaves_weight body
    refine .of ?_
    simp only [Grammar.Row.add, weights_append, weights, Elem.weight, toksWeight_cons, tokWeight, toksWeight_nil]
    omega
  case symbol =>
    intro sc one r n name ts hn h
    have h1 := leaf_weight (.cmd n, '\\' :: name)
    refine .of ?_
    simp only [Grammar.Row.add, weights_append, weights, Elem.weight, toksWeight_cons]; omega
  case command =>
    intro sc one r n name p args blanks ts ts' hn h h1 h2 _ ih
    have h1 := leaf_weight (.cmd n, '\\' :: name)
    have h3 := leaves_weight blanks
    refine .of ?_
    simp only [Grammar.Row.add, weights_append, weights, Elem.weight, toksWeight_cons]; omega
  case greedy =>
    intro sc one r r' n name ts ts' hn h _ ih
    have h1 := leaf_weight (.cmd n, '\\' :: name)
    refine .of ?_
    simp only [Grammar.Row.add, weights_append, weights, Elem.weight, toksWeight_cons] at ih ⊢; omega
  case post =>
    intro sc one r n name kept arg ts hn h ho
    have h1 := leaf_weight (.cmd n, '\\' :: name)
    have h2 := operand_weight ho
    refine .of ?_
    simp only [weights_append, weights, Elem.weight, toksWeight_cons]; omega
  case inf =>
    intro sc one r r' n name kept arg ts ts' hn h ho _ ih
    have h1 := leaf_weight (.cmd n, '\\' :: name)
    have h2 := operand_weight ho
    refine .of ?_
    simp only [weights_append, weights, Elem.weight, toksWeight_cons] at ih ⊢; omega
  case prime =>
    intro sc one r x kept arg ts hl ho
    have h1 := leaf_weight (.apostrophe, x)
    have h2 := operand_weight ho
    refine .of ?_
    simp only [weights_append, weights, Elem.weight, toksWeight_cons]; omega
  case apostrophe =>
    intro sc one r x ts hl
    have h1 := leaf_weight (.apostrophe, x)
    refine .of ?_
    simp only [Grammar.Row.add, weights_append, weights, toksWeight_cons]; omega
  case script =>
    intro sc one att r r' k x kept arg blanks ts ts' hk ho hb he _ ih
    have h1 := leaf_weight (k, x)
    have h2 := operand_weight ho
    have h3 := leaves_weight blanks
    have ih := ih.1
    refine .of ?_
    simp only [Grammar.Row.leave, Grammar.Row.enter, weights_append, weights, Elem.weight, toksWeight_cons, toksWeight_append] at ih ⊢
    omega
  case iover => intro _ _ _ _ _; exact Nat.le_refl _
  case imore =>
    intro sc stop r r1 r' t att ts ts1 ts' h _ _ ih1 ih2
    have ih1 := ih1.1
    have e : (if att = true then { r1 with last := some (r.items.length : Int) } else r1).items = r1.items := by split <;> rfl
    rw [e] at ih2
    omega
  case aover => intro _ _ _ _ _; simp [weights, toksWeight]
  case ablank =>
    intro sc p ks t args blanks ts ts' h _ ih
    split
    · simp only [toksWeight_cons]; omega
    · simp only [toksWeight_cons]; omega
  case achar =>
    intro sc p ks c cs args blanks ts ts' h _ ih
    have := rest_weight c cs ts
    simp only [weights, Elem.weight, List.length_singleton]; omega
  case agroup =>
    intro sc p ks b x r' args blanks ts ts1 ts' hs h _ _ ihi iha
    have h1 := leaf_weight (.left b, x)
    have h2 := closing_weight (Grammar.argGrouping b).2.2.1 ts1
    simp only [weights_append, weights, Elem.weight, toksWeight_cons] at ihi ⊢; omega
  case abracket =>
    intro sc p ks b x args blanks ts ts' hs h _ ih
    have h1 := leaf_weight (.left b, x)
    simp only [weights, Elem.weight, toksWeight_cons]; omega
  case aitem =>
    intro sc p ks k x att r' args blanks ts ts1 ts' hk h _ _ ihi iha
    have := ihi.2 k x ts rfl hk.1
    simp only [weights, Elem.weight, toksWeight_cons] at this ⊢; omega

/-- The tree of a document. -/
theorem document_weight {env : PEnv} {ts : List Tok} {e : Elem} (h : Grammar.Document env ts e) : e.weight ≤ 1 + toksWeight ts := by
  obtain ⟨r, hi, rfl⟩ := h
  have := tree_weight hi
  simp only [weights, toksWeight, List.map_nil, List.sum_nil] at this
  simp only [Elem.weight, toksWeight]
  omega

end Mitex
