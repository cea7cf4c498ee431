/-
The size of the output: what the templates cost (C74).
-/
import Verif.Proof.SizeTree
import Verif.Proof.NestingAll

namespace Mitex

/-! ### Trees -/

theorem weights_sublist {a b : List Elem} (h : a.Sublist b) : weights a ≤ weights b := by
  induction h with
  | slnil => exact Nat.le_refl _
  | cons x _ ih => simp only [weights]; omega
  | cons_cons x _ ih => simp only [weights]; omega

theorem weights_filter (p q : Elem → Bool) (cs : List Elem) (h : ∀ c ∈ cs, p c = true → q c = true → False) :
    weights (cs.filter p) + weights (cs.filter q) ≤ weights cs := by
  induction cs with
  | nil => simp [weights]
  | cons c cs ih =>
    have ih := ih fun d hd => h d (List.mem_cons_of_mem _ hd)
    have := h c List.mem_cons_self
    rw [List.filter_cons, List.filter_cons]
    by_cases h1 : p c = true <;> by_cases h2 : q c = true
    · exact (this h1 h2).elim
    all_goals simp only [h1, h2, if_true, if_false, weights, Bool.false_eq_true]; omega

theorem weight_mem {c : Elem} {cs : List Elem} (h : c ∈ cs) : c.weight ≤ weights cs := by
  have := weights_sublist (List.singleton_sublist.2 h)
  simpa [weights] using this

theorem depth_mem {spec : CommandSpec} {c : Elem} {cs : List Elem} (h : c ∈ cs) : listDepth spec c ≤ listDepths spec cs := by
  induction cs with
  | nil => cases h
  | cons d cs ih =>
    rcases List.mem_cons.1 h with rfl | h
    · simp only [listDepths]; omega
    · have := ih h; simp only [listDepths]; omega

theorem children_weight (e : Elem) : weights e.children + 1 ≤ e.weight := by
  cases e <;> simp only [Elem.children, Elem.weight, weights] <;> omega

theorem child_lists {spec : CommandSpec} {e c : Elem} (h : c ∈ e.children) : listDepth spec c ≤ listDepth spec e := by
  cases e with
  | token k t => cases h
  | node k cs =>
    have : c ∈ cs := h
    have := depth_mem (spec := spec) this
    simp only [listDepth]; omega

theorem child_weight {e c : Elem} (h : c ∈ e.children) : c.weight + 1 ≤ e.weight := by
  have := children_weight e
  have := weight_mem h
  omega

mutual
theorem text_weight : ∀ e : Elem, e.text.length + 1 ≤ e.weight
  | .token k t => by simp [Elem.text, Elem.leaves, Elem.weight]; omega
  | .node k cs => by
    have := texts_weight cs
    simp only [Elem.text, Elem.leaves, Elem.weight]
    omega
theorem texts_weight : ∀ cs : List Elem, ((Elem.leaves.go cs).map Prod.snd).flatten.length ≤ weights cs
  | [] => by simp [Elem.leaves.go, weights]
  | c :: cs => by
    have h1 := text_weight c
    have h2 := texts_weight cs
    simp only [Elem.text] at h1
    simp only [Elem.leaves.go, List.map_append, List.flatten_append, List.length_append, weights]
    omega
end

theorem texts_weight' (cs : List Elem) : (cs.flatMap Elem.text).length ≤ weights cs := by
  induction cs with
  | nil => simp [weights]
  | cons c cs ih =>
    have := text_weight c
    simp only [List.flatMap_cons, List.length_append, weights]
    omega

theorem trim_length (t : Text) : (trim t).length ≤ t.length := by
  unfold trim trimEnd trimStart
  have h1 := (List.dropWhile_suffix (p := isWs) (l := t)).length_le
  have h2 := (List.dropWhile_suffix (p := isWs) (l := (t.dropWhile isWs).reverse)).length_le
  simp only [List.length_reverse] at h2 ⊢
  omega

theorem undelimited_length {t l : Text} (h : undelimited t = some l) : l.length + 2 ≤ t.length := by
  unfold undelimited at h
  split at h
  · rename_i c d r _ _
    split at h
    · cases h; simp
    · cases h
  · cases h

/-! ### Costs -/

/-- What is used to pay. -/
structure Rates where
  spec : CommandSpec
  A : Nat
  Q : Nat
  D : Nat
  N : Nat
  K : Nat
  names : NamesWithin spec A
  digits : ∀ i, i ≤ N → (decimal i).length ≤ D
  enough : A + Q + 2 * D + 100 ≤ K

section
variable (R : Rates)

/-- What a piece costs; each part leaves something for the marks around it. -/
def price : Piece → Nat
  | .text t => t.length
  | .part _ e => R.K * e.weight - (R.D + 12)
  | .blank e => e.text.length
  | .dropBlank => 0
  | .keepLabel l => l.length + 2
  | .putLabel => 0

/-- The piece is small enough. -/
def PieceFits : Piece → Prop
  | .part y c => c.weight ≤ R.N ∧ 2 * (y.lists + listDepth R.spec c) ≤ R.Q
  | _ => True

def Cost (ps : List Piece) (n : Nat) : Prop := (∀ p ∈ ps, PieceFits R p) ∧ (ps.map (price R)).sum ≤ n

variable {R}

theorem Rates.unit (c : Elem) : R.D + 12 ≤ R.K * c.weight := by
  have h1 := R.enough
  have h2 := weight_pos c
  have : R.K * 1 ≤ R.K * c.weight := Nat.mul_le_mul_left _ h2
  omega

theorem Cost.nil : Cost R [] 0 := ⟨fun _ h => (by cases h), Nat.le_refl _⟩

theorem Cost.mono {ps : List Piece} {a b : Nat} (h : Cost R ps a) (hab : a ≤ b) : Cost R ps b := ⟨h.1, Nat.le_trans h.2 hab⟩

theorem Cost.append {ps qs : List Piece} {a b : Nat} (h : Cost R ps a) (k : Cost R qs b) : Cost R (ps ++ qs) (a + b) := by
  refine ⟨fun p hp => ?_, ?_⟩
  · rcases List.mem_append.1 hp with hp | hp
    · exact h.1 p hp
    · exact k.1 p hp
  · have h1 := h.2
    have h2 := k.2
    rw [List.map_append, List.sum_append]
    omega

theorem Cost.cons {p : Piece} {qs : List Piece} {a b : Nat} (h : Cost R [p] a) (k : Cost R qs b) : Cost R (p :: qs) (a + b) := h.append k

theorem Cost.text (t : Text) : Cost R [.text t] t.length :=
  ⟨fun p hp => (by rw [List.mem_singleton.1 hp]; exact trivial), by simp [price]⟩

theorem Cost.part {y : Place} {c : Elem} (h : PieceFits R (.part y c)) : Cost R [.part y c] (R.K * c.weight - (R.D + 12)) :=
  ⟨fun p hp => (by rw [List.mem_singleton.1 hp]; exact h), by simp [price]⟩

theorem Cost.inMode {m : Mode} {x : Place} {ps : List Piece} {a : Nat} (h : Cost R ps a) : Cost R (inMode m x ps) a := by
  unfold Mitex.inMode
  split
  · exact h
  · exact Cost.nil.mono (Nat.zero_le _)

theorem Cost.ite {p : Prop} [Decidable p] {ps : List Piece} {a : Nat} (h : Cost R ps a) : Cost R (if p then ps else []) a := by
  split
  · exact h
  · exact Cost.nil.mono (Nat.zero_le _)

/-- The parts of several elements. -/
theorem Cost.flatMap {α : Type} (f : α → List Piece) (g : α → Elem) (as : List α) (h : ∀ a ∈ as, Cost R (f a) (R.K * (g a).weight)) :
    Cost R (as.flatMap f) (R.K * weights (as.map g)) := by
  induction as with
  | nil => exact Cost.nil
  | cons a as ih =>
    rw [List.flatMap_cons, List.map_cons]
    refine ((h a List.mem_cons_self).append (ih fun b hb => h b (List.mem_cons_of_mem _ hb))).mono ?_
    simp only [weights, Nat.mul_add]
    omega

theorem Cost.flatMap' (f : Elem → List Piece) (cs : List Elem) (h : ∀ a ∈ cs, Cost R (f a) (R.K * a.weight)) :
    Cost R (cs.flatMap f) (R.K * weights cs) := by
  have := Cost.flatMap f id cs h
  rwa [List.map_id] at this

theorem Cost.each {y : Place} {cs : List Elem} (h : ∀ c ∈ cs, PieceFits R (.part y c)) : Cost R (each y cs) (R.K * weights cs) := by
  have := Cost.flatMap' (R := R) (fun c => [.part y c]) cs fun c hc => (Cost.part (h c hc)).mono (Nat.sub_le _ _)
  have e : Mitex.each y cs = cs.flatMap fun c => [.part y c] := by
    unfold Mitex.each
    rw [List.map_eq_flatMap]
  rw [e]
  exact this

/-- A part between two marks. -/
theorem Cost.around {y : Place} {c : Elem} (a b : Text) (h : PieceFits R (.part y c)) (hab : a.length + b.length ≤ R.D + 12) :
    Cost R [.text a, .part y c, .text b] (R.K * c.weight) := by
  refine ((Cost.text a).cons ((Cost.part h).cons (Cost.text b))).mono ?_
  have := R.unit c
  omega

theorem Cost.commaList {k : Kind} {y : Place} {cs : List Elem} (h : ∀ c ∈ cs, PieceFits R (.part y c)) :
    Cost R (commaList k y cs) (R.K * weights cs) := by
  induction cs with
  | nil => exact Cost.nil
  | cons c cs ih =>
    cases cs with
    | nil =>
      refine (Cost.part (h c List.mem_cons_self)).mono ?_
      simp only [weights, Nat.add_zero]
      omega
    | cons d cs =>
      refine ((Cost.part (h c List.mem_cons_self)).cons ((Cost.ite (Cost.text t!",")).append (ih fun d hd => h d (List.mem_cons_of_mem _ hd)))).mono ?_
      have := R.unit c
      simp only [weights, Nat.mul_add, List.length_singleton]
      omega

/-- A template that costs less than its element. -/
def Pays (R : Rates) (e : Elem) (ps : List Piece) : Prop := Cost R ps (R.K * e.weight - (R.D + 12))

theorem Pays.of {e : Elem} {ps : List Piece} {n : Nat} (h : Cost R ps n) (hn : n + (R.D + 12) ≤ R.K * e.weight) : Pays R e ps := h.mono (by omega)

/-- Fixed text, besides the parts. -/
theorem Pays.parts {e : Elem} {ps : List Piece} {n w : Nat} (h : Cost R ps (n + R.K * w)) (hw : w + 1 ≤ e.weight)
    (hn : n + (R.D + 12) ≤ R.K) : Pays R e ps := by
  refine .of h ?_
  have : R.K * (w + 1) ≤ R.K * e.weight := Nat.mul_le_mul_left _ hw
  rw [Nat.mul_add, Nat.mul_one] at this
  omega

/-- The element is small enough. -/
def ElemFits (R : Rates) (x : Place) (e : Elem) : Prop := e.weight ≤ R.N ∧ 2 * (x.lists + listDepth R.spec e) ≤ R.Q

theorem ElemFits.child {x : Place} {e c : Elem} (h : ElemFits R x e) (hc : c ∈ e.children) : ElemFits R x c := by
  have h1 := child_weight hc
  have h2 := child_lists (spec := R.spec) hc
  obtain ⟨h3, h4⟩ := h
  exact ⟨by omega, by omega⟩

theorem ElemFits.part {x y : Place} {c : Elem} (h : ElemFits R x c) (hy : y.lists = x.lists) : PieceFits R (.part y c) := by
  obtain ⟨h3, h4⟩ := h
  exact ⟨h3, by rw [hy]; exact h4⟩

theorem ElemFits.arg {x : Place} {e c : Elem} (h : ElemFits R x e) (hc : c ∈ e.arguments) : ElemFits R x c := by
  unfold Elem.arguments Elem.childNodes at hc
  exact h.child (List.mem_filter.1 (List.mem_filter.1 hc).1).1

/-! ### Groups, delimiters, scripts -/

theorem formula_pays {x : Place} {e : Elem} {ps : List Piece} (h : formulaTemplate x e = .ok ps) (hf : ElemFits R x e) : Pays R e ps := by
  unfold formulaTemplate at h
  split at h
  · cases h
    have c1 : Cost R (inMode .text x [.text (if e.isInline then t!"#math.equation(block: false, $" else t!"$ ")]) 30 := by
      refine (Cost.text _).inMode.mono ?_
      split <;> decide
    have c2 : Cost R (inMode .text x [.text (if e.isInline then t!"$);" else t!" $")]) 3 := by
      refine (Cost.text _).inMode.mono ?_
      split <;> decide
    have c3 : Cost R (each { x with mode := .math } e.children) (R.K * weights e.children) := .each fun c hc => (hf.child hc).part rfl
    refine .parts (n := 33) ((c1.append c3).append c2 |>.mono (by omega)) (children_weight e) ?_
    have := R.enough
    omega
  · cases h

theorem curly_pays {x : Place} {e : Elem} (hf : ElemFits R x e) : Pays R e (curlyTemplate x e) := by
  have c1 : Cost R (each ⟨x.mode, if x.mode = .math ∧ x.env ≠ .subStack then .mathCurlyGroup else x.env, x.lists⟩ e.children) (R.K * weights e.children) :=
    .each fun c hc => (hf.child hc).part rfl
  have c2 : Cost R (inMode .math x (if e.children.all isEmptyGroupPart then [.text t!"zws "] else [])) 4 := (Cost.ite (Cost.text _)).inMode
  refine .parts (n := 4) (Cost.mono (c1.append c2) (by omega)) (children_weight e) ?_
  have := R.enough
  omega

theorem delimiter_pays {x : Place} {e : Elem} {ps : List Piece} (h : delimiterTemplate x e = .ok ps) (hf : ElemFits R x e) : Pays R e ps := by
  unfold delimiterTemplate at h
  split at h
  · rename_i k t ds hcs
    cases ha : orCrash (afterBackslash t) with
    | error f => rw [ha] at h; cases h
    | ok name =>
      rw [ha] at h
      cases h
      have c1 : Cost R (ds.flatMap fun d => (if isDot d then [] else [.part x d]) ++ [.text t!" "]) (R.K * weights ds) := by
        refine .flatMap' _ _ fun d hd => ?_
        have hd : d ∈ e.children := by rw [hcs]; exact List.mem_cons_of_mem _ hd
        have c : Cost R (if isDot d then [] else [.part x d]) (R.K * d.weight - (R.D + 12)) := by
          split
          · exact Cost.nil.mono (Nat.zero_le _)
          · exact .part ((hf.child hd).part rfl)
        refine (c.append (Cost.text _)).mono ?_
        have := R.unit d
        simp only [List.length_singleton]
        omega
      have c2 : Cost R (if name = t!"left" then [.text t!"lr("] else []) 3 := .ite (.text _)
      have c3 : Cost R (if name = t!"right" then [.text t!")"] else []) 1 := .ite (.text _)
      refine .parts (n := 4) (w := weights ds) (((c2.append c1).append c3).mono (by omega)) ?_ ?_
      · have := children_weight e
        rw [hcs] at this
        simp only [weights] at this
        omega
      · have := R.enough
        omega
  · cases h

theorem script_pays {x : Place} {k : Kind} {cs : List Elem} (hf : ElemFits R x (.node k cs)) : Pays R (.node k cs) (scriptTemplate x cs) := by
  have hK := R.enough
  have hc := fun c (hc : c ∈ cs) => (hf.child (c := c) hc).part (y := x) rfl
  have hw : weights cs + 1 ≤ (Elem.node k cs).weight := by simp only [Elem.weight]; omega
  unfold scriptTemplate
  dsimp only
  split
  · exact .parts (n := 0) ((Cost.each hc).mono (by omega)) hw (by omega)
  · rename_i mark script hd
    have hsplit : weights (cs.takeWhile fun c => !isScriptMark c) + (mark.weight + weights script) = weights cs := by
      have h1 := weights_append (cs.takeWhile fun c => !isScriptMark c) (cs.dropWhile fun c => !isScriptMark c)
      rw [List.takeWhile_append_dropWhile, hd] at h1
      simp only [weights] at h1
      omega
    have hs : ∀ c ∈ script, c ∈ cs := fun c h => (List.dropWhile_suffix _).mem (hd ▸ List.mem_cons_of_mem _ h)
    have hb : ∀ c ∈ cs.takeWhile (fun c => !isScriptMark c), c ∈ cs := fun c h => (List.takeWhile_prefix _).mem h
    have c1 : Cost R (each x (cs.takeWhile fun c => !isScriptMark c)) _ := .each fun c h => hc c (hb c h)
    have c2 : Cost R (if (cs.takeWhile fun c => !isScriptMark c).all isSpaceToken then [.text t!"zws"] else []) 3 := .ite (.text _)
    have c3 : Cost R [.text (mark.text ++ t!"(")] _ := .text _
    have c4 : Cost R (each x script) _ := .each fun c h => hc c (hs c h)
    have c5 : Cost R [.text t!")"] 1 := .text _
    refine .parts (n := 4) (((((c1.append c2).append c3).append c4).append c5).mono ?_) hw (by omega)
    rw [← hsplit]
    have := text_weight mark
    have : mark.weight ≤ R.K * mark.weight := Nat.le_mul_of_pos_left _ (by omega)
    simp only [Nat.mul_add, List.length_append, List.length_singleton]
    omega

end

end Mitex
