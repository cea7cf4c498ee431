/-
The size of the output: commands, environments, and all elements (C74).
-/
import Verif.Proof.SizeTemplate

namespace Mitex

section
variable {R : Rates}

/-! ### Commands -/

theorem arguments_weight (e : Elem) : weights e.arguments ≤ weights e.children := by
  unfold Elem.arguments Elem.childNodes
  exact weights_sublist (List.filter_sublist.trans List.filter_sublist)

theorem item_pays {x : Place} {e : Elem} {ps : List Piece} (h : itemTemplate x = .ok ps) (hf : ElemFits R x e) : Pays R e ps := by
  have hK := R.enough
  have hq := hf.2
  have hs : ∀ mark : Text, mark.length = 2 → Pays R e [.text (t!"\n" ++ List.replicate (2 * (x.lists - 1)) ' ' ++ mark)] := by
    intro mark hm
    refine .parts (n := R.Q + 3) (w := 0) (Cost.mono (.text _) ?_) (weight_pos e) (by omega)
    simp only [List.length_append, List.length_replicate, List.length_singleton, hm]
    omega
  unfold itemTemplate at h
  dsimp only at h
  split at h
  · split at h
    · cases h
    · cases h; exact hs _ rfl
  · split at h
    · cases h
    · cases h; exact hs _ rfl
  · cases h

theorem label_pays {x : Place} {e : Elem} {ps : List Piece} (h : labelTemplate x e = .ok ps) : Pays R e ps := by
  have hK := R.enough
  unfold labelTemplate at h
  cases h1 : e.arguments.head? with
  | none => rw [h1] at h; cases h
  | some a =>
  cases h2 : undelimited a.text with
  | none => rw [h1] at h; simp only [bind, Except.bind, orCrash, h2, crash] at h; cases h
  | some l =>
  rw [h1] at h
  simp only [bind, Except.bind, orCrash, h2] at h
  have hl : (trim l).length + 2 + 1 ≤ e.weight := by
    have e1 := trim_length l
    have e2 := undelimited_length h2
    have e3 := text_weight a
    have e4 := weight_mem (List.mem_of_mem_head? h1)
    have e5 := arguments_weight e
    have e6 := children_weight e
    omega
  have hm : (trim l).length + 2 ≤ R.K * ((trim l).length + 2) := Nat.le_mul_of_pos_left _ (by omega)
  split at h
  · cases h
    refine .parts (n := 0) (w := (trim l).length + 2) ((Cost.text _).inMode.mono ?_) hl (by omega)
    simp only [List.length_append, List.length_singleton]
    omega
  · cases h
    refine .parts (n := 0) (w := (trim l).length + 2) ⟨?_, ?_⟩ hl (by omega)
    · intro p hp; rw [List.mem_singleton.1 hp]; exact trivial
    · simp only [List.map_cons, List.map_nil, List.sum_cons, List.sum_nil, price]
      omega

theorem splitOn_length (a : Char) (t : Text) : ((t.splitOn a).map fun p => p.length + 1).sum = t.length + 1 := by
  have h := List.intercalate_splitOn (xs := t) a
  have hne : t.splitOn a ≠ [] := List.splitOn_ne_nil a t
  have : ∀ ps : List Text, ps ≠ [] → (ps.map fun p => p.length + 1).sum = ([a].intercalate ps).length + 1 := by
    intro ps
    induction ps with
    | nil => intro h; exact absurd rfl h
    | cons p ps ih =>
      intro _
      cases ps with
      | nil => simp [List.intercalate]
      | cons q qs =>
        have e : [a].intercalate (p :: q :: qs) = p ++ a :: [a].intercalate (q :: qs) := by simp [List.intercalate, List.intersperse]
        rw [e, List.map_cons, List.sum_cons, ih (by simp)]
        simp
        omega
  rw [this _ hne, h]

theorem splitOn_mem_length {a : Char} {t p : Text} (h : p ∈ t.splitOn a) : p.length ≤ t.length := by
  have : ∀ ps : List Text, p ∈ ps → p.length + 1 ≤ (ps.map fun p => p.length + 1).sum := by
    intro ps
    induction ps with
    | nil => intro h; cases h
    | cons q qs ih =>
      intro h
      rcases List.mem_cons.1 h with rfl | h
      · simp
      · have := ih h
        simp only [List.map_cons, List.sum_cons]
        omega
  have := this _ h
  rw [splitOn_length] at this
  omega

theorem withoutEnd_length (suf t : Text) : (withoutEnd suf t).length ≤ t.length := by
  induction t using withoutEnd.induct suf with
  | case1 t h ih =>
    rw [withoutEnd, dif_pos h]
    refine Nat.le_trans ih ?_
    rw [List.length_take]
    omega
  | case2 t h => rw [withoutEnd, dif_neg h]; exact Nat.le_refl _

theorem lengthText_length (v : Text) : (lengthText v).length ≤ v.length + 7 := by
  unfold lengthText
  split
  · have := withoutEnd_length t!"\\textwidth" v
    simp only [List.length_append, List.length_cons, List.length_nil]
    omega
  · split
    · have := withoutEnd_length t!"\\textheight" v
      simp only [List.length_append, List.length_cons, List.length_nil]
      omega
    · omega

theorem imageOption_length (o : Text) : (imageOption o).length ≤ 20 * (o.length + 1) := by
  unfold imageOption
  dsimp only
  split
  · rename_i hk
    have hkey : (trim (((trim o).splitOn '=').headD [])).length ≤ 6 := by
      rcases hk with h | h <;> rw [h] <;> decide
    have hv : (if ((trim o).splitOn '=').length = 2 then trim (((trim o).splitOn '=').getLastD []) else []).length ≤ o.length := by
      split
      · have h1 := trim_length (((trim o).splitOn '=').getLastD [])
        have h2 := trim_length o
        rcases hg : (trim o).splitOn '=' with _ | ⟨a, l⟩
        · exact Nat.zero_le _
        · have hm : ((trim o).splitOn '=').getLastD [] ∈ (trim o).splitOn '=' := by
            rw [hg]
            simp [List.getLastD, List.getLast_mem]
          have := splitOn_mem_length hm
          rw [hg] at this h1
          omega
      · exact Nat.zero_le _
    have := lengthText_length (if ((trim o).splitOn '=').length = 2 then trim (((trim o).splitOn '=').getLastD []) else [])
    simp only [List.length_append, List.length_cons, List.length_nil]
    omega
  · exact Nat.zero_le _

theorem imageOptions_length (t : Text) : ((t.splitOn ',').flatMap imageOption).length ≤ 20 * (t.length + 1) := by
  rw [← splitOn_length ',' t]
  generalize t.splitOn ',' = ps
  induction ps with
  | nil => simp
  | cons p ps ih =>
    have := imageOption_length p
    simp only [List.flatMap_cons, List.length_append, List.map_cons, List.sum_cons]
    omega

theorem argument_weight {e a : Elem} (h : a ∈ e.arguments) : a.weight + 1 ≤ e.weight := by
  have e4 := weight_mem h
  have e5 := arguments_weight e
  have e6 := children_weight e
  omega

theorem image_pays {e : Elem} {ps : List Piece} (h : imageTemplate e = .ok ps) : Pays R e ps := by
  have hK := R.enough
  unfold imageTemplate at h
  cases h1 : groupArgument .itemBracket e.arguments with
  | error x => rw [h1] at h; cases h
  | ok opt =>
  cases h2 : groupArgument .itemCurly e.arguments with
  | error x => rw [h1, h2] at h; cases h
  | ok file? =>
  cases file? with
  | none => rw [h1, h2] at h; cases h
  | some file =>
  cases h4 : undelimited file.text with
  | none => rw [h1, h2] at h; simp only [bind, Except.bind, orCrash, h4, crash] at h; cases h
  | some f =>
  rw [h1, h2] at h
  simp only [bind, Except.bind, orCrash, h4] at h
  have hf : (trim f).length + 3 ≤ e.weight := by
    have e1 := trim_length f
    have e2 := undelimited_length h4
    have e3 := text_weight file
    have e4 := argument_weight (groupArgument_spec h2).1
    omega
  obtain ⟨o, ho, hps⟩ : ∃ o : Text, o.length ≤ 20 * e.weight ∧ ps = [.text (t!"#image(" ++ o ++ t!"\"" ++ trim f ++ t!"\")")] := by
    cases opt with
    | none => cases h; exact ⟨[], Nat.zero_le _, rfl⟩
    | some a =>
      cases hu : undelimited a.text with
      | none => simp only [hu, crash, Except.map] at h; cases h
      | some t =>
        simp only [hu, Except.map] at h
        cases h
        refine ⟨_, Nat.le_trans (imageOptions_length _) ?_, rfl⟩
        have e1 := trim_length t
        have e2 := undelimited_length hu
        have e3 := text_weight a
        have e4 := argument_weight (groupArgument_spec h1).1
        omega
  subst hps
  have hm : (R.D + 100) * e.weight ≤ R.K * e.weight := Nat.mul_le_mul_right _ (by omega)
  have hp := weight_pos e
  have hd : R.D * 1 ≤ R.D * e.weight := Nat.mul_le_mul_left _ hp
  rw [Nat.add_mul] at hm
  refine .of (n := 21 * e.weight + 20) (Cost.mono (.text _) ?_) ?_
  · simp only [List.length_append, List.length_cons, List.length_nil]
    omega
  · omega

/-- The length of the color model. -/
def modelLength (full : Text) (e : Elem) : Nat := ((colorModel full e).getD []).length

theorem color_weight (full : Text) (e : Elem) : modelLength full e + weights (coloredParts full e) ≤ weights e.children := by
  refine Nat.le_trans ?_ (arguments_weight e)
  unfold modelLength colorModel coloredParts
  by_cases hf : full = t!"\\color"
  · rw [if_pos hf, if_pos hf]
    cases he : e.arguments with
    | nil => exact Nat.le_refl _
    | cons a as =>
      dsimp only
      cases hd : a.children.dropWhile fun c => blankKind c.kind with
      | nil => exact Nat.zero_le _
      | cons b cs =>
        dsimp only
        have h1 : b.weight + weights cs + 1 ≤ a.weight := by
          have h1 := weights_sublist (List.dropWhile_suffix (fun c : Elem => blankKind c.kind) (l := a.children)).sublist
          have h2 := children_weight a
          rw [hd] at h1
          simp only [weights] at h1
          omega
        by_cases hb : b.kind = .tokenLBracket
        · rw [if_pos hb, if_pos hb]
          have h2 := texts_weight' (cs.takeWhile fun c => decide (c.kind ≠ .tokenRBracket))
          have h3 := weights_append (cs.takeWhile fun c => decide (c.kind ≠ .tokenRBracket)) (cs.dropWhile fun c => decide (c.kind ≠ .tokenRBracket))
          rw [List.takeWhile_append_dropWhile] at h3
          have h4 : weights ((afterBracket cs).dropWhile fun c => blankKind c.kind) ≤ weights (cs.dropWhile fun c => decide (c.kind ≠ .tokenRBracket)) := by
            refine weights_sublist ((List.dropWhile_suffix _).sublist.trans ?_)
            unfold afterBracket
            exact List.tail_sublist _
          simp only [Option.getD_some, weights]
          omega
        · rw [if_neg hb, if_neg hb]
          have h4 := weights_sublist (List.dropWhile_suffix (fun c : Elem => blankKind c.kind) (l := b :: cs)).sublist
          simp only [weights, Option.getD_none, List.length_nil] at h4 ⊢
          omega
  · rw [if_neg hf, if_neg hf]
    cases he : e.arguments with
    | nil => exact Nat.le_refl _
    | cons a as =>
      dsimp only
      by_cases hb : a.text.head? = some '[' ∧ a.text.getLast? = some ']' ∧ 2 ≤ byteLen a.text
      · rw [if_pos hb, if_pos hb]
        have := text_weight a
        simp only [Option.getD_some, weights, List.length_dropLast, List.length_tail]
        omega
      · rw [if_neg hb, if_neg hb]
        simp only [weights, Option.getD_none, List.length_nil]
        omega

theorem colorFunction_length (hn : NamesWithin R.spec R.A) (full : Text) : (colorFunction R.spec full).length ≤ R.A + 10 := by
  unfold colorFunction
  split
  · rename_i sh hs
    have := hn.1 _ _ hs
    cases ha : sh.alias with
    | none => show 10 ≤ _; omega
    | some a => rw [ha] at this; exact Nat.le_trans this (by omega)
  · show 10 ≤ _; omega

theorem color_pays {x : Place} {full : Text} {e : Elem} {ps : List Piece} (h : colorTemplate R.spec x full e = .ok ps) (hf : ElemFits R x e) : Pays R e ps := by
  have hK := R.enough
  unfold colorTemplate at h
  split at h
  · cases h
  · cases h
    have hp : ∀ c ∈ coloredParts full e, ElemFits R x c := by
      intro c hc
      rcases coloredParts_mem hc with ⟨a, ha, hc⟩ | hc
      · exact (hf.arg ha).child hc
      · exact hf.arg hc
    have hm : (match colorModel full e with
      | some m => t!"[" ++ m ++ t!"]"
      | none => t!"none").length ≤ modelLength full e + 4 := by
      unfold modelLength
      cases colorModel full e with
      | none => exact Nat.le_refl _
      | some m => simp
    have c1 : ∀ u : Text, u.length ≤ modelLength full e + 4 → Cost R [.text (colorFunction R.spec full ++ t!"(" ++ u ++ t!", [")] (R.A + modelLength full e + 20) := by
      intro u hu
      refine (Cost.text _).mono ?_
      have := colorFunction_length R.names full
      rw [List.length_append, List.length_append, List.length_append]
      simp only [List.length_cons, List.length_nil]
      omega
    have c2 : Cost R [colorPiece x (coloredParts full e), .text t!"])["] (8 + R.K * weights ((coloredParts full e).take 1)) := by
      refine ((?_ : Cost R [colorPiece x (coloredParts full e)] (5 + R.K * weights ((coloredParts full e).take 1))).cons (Cost.text _)).mono
        (by simp only [List.length_cons, List.length_nil]; omega)
      unfold colorPiece
      cases hc : coloredParts full e with
      | nil => exact (Cost.text _).mono (by simp only [List.length_cons, List.length_nil]; omega)
      | cons c cs =>
        refine (Cost.part ((hp c (hc ▸ List.mem_cons_self)).part (y := { x with mode := .text }) rfl)).mono ?_
        simp only [List.take, weights, Nat.add_zero]
        omega
    have c3 : Cost R ((coloredParts full e).tail.flatMap (fun b => inMode .math x [.text t!"$"] ++ [.part x b] ++ inMode .math x [.text t!"$"]))
        (R.K * weights (coloredParts full e).tail) := by
      refine .flatMap' _ _ fun b hb => ?_
      refine (((Cost.text t!"$").inMode.append (Cost.part ((hp b (List.mem_of_mem_tail hb)).part rfl))).append (Cost.text t!"$").inMode).mono ?_
      have := R.unit b
      simp only [List.length_singleton]
      omega
    have c4 : Cost R [.text t!"]"] 1 := .text _
    have c5 : Cost R (inMode .text x [.text t!";"]) 1 := (Cost.text _).inMode
    refine .parts (n := R.A + 30) (w := modelLength full e + weights (coloredParts full e))
      (Cost.mono (((((c1 _ hm).append c2).append c3).append c4).append c5) ?_) ?_ (by omega)
    · have h1 : modelLength full e ≤ R.K * modelLength full e := Nat.le_mul_of_pos_left _ (by omega)
      have h2 : weights (coloredParts full e) = weights ((coloredParts full e).take 1) + weights (coloredParts full e).tail := by
        cases coloredParts full e with
        | nil => rfl
        | cons c cs => simp [weights]
      rw [h2]
      simp only [Nat.mul_add]
      omega
    · have := color_weight full e
      have := children_weight e
      omega

theorem arguments_pay {x : Place} {sh : CmdShape} {tn : Text} {args : List Elem} {ps : List Piece}
    (h : argumentsTemplate x sh tn args = .ok ps) (hf : ∀ c ∈ args, ElemFits R x c) : Cost R ps (2 + R.K * weights args) := by
  unfold argumentsTemplate at h
  split at h
  · cases h; exact (Cost.text _).mono (by simp only [List.length_singleton]; omega)
  · split at h
    · rename_i k cs as
      cases h
      have c1 : Cost R (commaList .itemCurly x cs) (R.K * weights cs) :=
        .commaList fun c hc => ((hf _ List.mem_cons_self).child (c := c) hc).part rfl
      refine (((Cost.text t!"(").append c1).append (Cost.text t!")")).mono ?_
      have : R.K * weights cs ≤ R.K * weights (Elem.node k cs :: as) := by
        refine Nat.mul_le_mul_left _ ?_
        simp only [weights, Elem.weight]
        omega
      simp only [List.length_singleton]
      omega
    · cases h
  · split at h
    · cases h
      refine (((Cost.text t!"(").append (Cost.commaList fun c hc => (hf c hc).part rfl)).append (Cost.text t!")")).mono ?_
      simp only [List.length_singleton]
      omega
    · cases h
      have c1 : Cost R ((args.filter fun a => decide (a.kind = .clauseArgument)).flatMap
          (fun a => [.text t!"[", .part { x with mode := .text } a, .text t!"]"])) (R.K * weights (args.filter fun a => decide (a.kind = .clauseArgument))) :=
        .flatMap' _ _ fun a ha => .around _ _ ((hf a (List.mem_filter.1 ha).1).part rfl) (by simp only [List.length_singleton]; omega)
      refine (c1.append (Cost.text t!";")).mono ?_
      have : R.K * weights (args.filter fun a => decide (a.kind = .clauseArgument)) ≤ R.K * weights args :=
        Nat.mul_le_mul_left _ (weights_sublist List.filter_sublist)
      simp only [List.length_singleton]
      omega

theorem normal_pays {x : Place} {name : Text} {e : Elem} {ps : List Piece} (h : normalTemplate R.spec x name e = .ok ps) (hf : ElemFits R x e) : Pays R e ps := by
  have hK := R.enough
  unfold normalTemplate at h
  split at h
  · rename_i sh hs
    dsimp only at h
    have htn : (writtenName x.mode name sh).length ≤ R.A + 7 := by
      have := R.names.1 _ _ hs
      unfold writtenName
      split
      · show 7 ≤ _; omega
      · split
        · show 5 ≤ _; omega
        · cases hal : sh.alias with
          | none => rw [hal] at this; exact Nat.le_trans this (by omega)
          | some a => rw [hal] at this; exact Nat.le_trans this (by omega)
    cases ha : argumentsTemplate ⟨x.mode, if writtenName x.mode name sh = t!"substack" then .subStack else x.env, x.lists⟩ sh (writtenName x.mode name sh)
      (e.children.filter fun c => decide (c.kind ≠ .clauseCommandName)) with
    | error e => rw [ha] at h; cases h
    | ok qs =>
      rw [ha] at h
      cases h
      have c1 := arguments_pay (R := R) ha fun c hc => hf.child (List.mem_filter.1 hc).1
      refine .parts (n := R.A + 9) (w := weights (e.children.filter fun c => decide (c.kind ≠ .clauseCommandName)))
        (Cost.mono ((Cost.text _).cons c1) (by omega)) ?_ (by omega)
      have := weights_sublist (List.filter_sublist (p := fun c => decide (c.kind ≠ .clauseCommandName)) (l := e.children))
      have := children_weight e
      omega
  · cases h

theorem command_pays {x : Place} {e : Elem} {ps : List Piece} (h : commandTemplate R.spec x e = .ok ps) (hf : ElemFits R x e) : Pays R e ps := by
  unfold commandTemplate at h
  split at h
  · split at h
    · exact item_pays h hf
    · split at h
      · exact label_pays h
      · split at h
        · exact image_pays h
        · split at h
          · exact color_pays h hf
          · exact normal_pays h hf
  · cases h

/-! ### Environments -/

theorem Cost.flatMapN {α : Type} (f : α → List Piece) (g : α → Nat) (as : List α) (h : ∀ a ∈ as, Cost R (f a) (R.K * g a)) :
    Cost R (as.flatMap f) (R.K * (as.map g).sum) := by
  induction as with
  | nil => exact Cost.nil
  | cons a as ih =>
    rw [List.flatMap_cons, List.map_cons]
    refine ((h a List.mem_cons_self).append (ih fun b hb => h b (List.mem_cons_of_mem _ hb))).mono ?_
    simp only [List.sum_cons, Nat.mul_add]
    omega

theorem env_weight (e : Elem) : weights e.envArguments + weights (between e) ≤ weights e.children := by
  have h1 := weights_filter (fun c => decide (c.kind = .itemBegin)) (fun c => decide (c.kind ≠ .itemBegin ∧ c.kind ≠ .itemEnd)) e.children
    (by
      intro c _ h1 h2
      exact (of_decide_eq_true h2).1 (of_decide_eq_true h1))
  have h2 : weights e.envArguments ≤ weights (e.children.filter fun c => decide (c.kind = .itemBegin)) := by
    unfold Elem.envArguments
    split
    · rename_i b hb
      unfold Elem.envBegin Elem.childNodes at hb
      have hm := (List.mem_filter.1 (List.mem_of_find?_eq_some hb)).1
      have hk := List.find?_some hb
      have h1 := weight_mem (List.mem_filter (p := fun c : Elem => decide (c.kind = .itemBegin)).2 ⟨hm, hk⟩)
      have h2 := arguments_weight b
      have h3 := children_weight b
      omega
    · exact Nat.zero_le _
  unfold between
  omega

theorem ElemFits.envArg {x : Place} {e c : Elem} (h : ElemFits R x e) (hc : c ∈ e.envArguments) : ElemFits R x c := by
  unfold Elem.envArguments at hc
  split at hc
  · rename_i b hb
    unfold Elem.envBegin Elem.childNodes at hb
    exact (h.child (List.mem_filter.1 (List.mem_of_find?_eq_some hb)).1).arg hc
  · cases hc

theorem ElemFits.between {x : Place} {e c : Elem} (h : ElemFits R x e) (hc : c ∈ between e) : ElemFits R x c :=
  h.child (List.mem_filter.1 hc).1

theorem length_weights (cs : List Elem) : cs.length ≤ weights cs := by
  induction cs with
  | nil => exact Nat.le_refl _
  | cons c cs ih =>
    have := weight_pos c
    simp only [List.length_cons, weights]
    omega

theorem mathEnv_pays {x : Place} {env : LEnv} {tn : Text} {e : Elem} (ht : tn.length ≤ R.A) (hf : ElemFits R x e) :
    Pays R e (mathEnvTemplate x env tn e) := by
  have hK := R.enough
  have hw := env_weight e
  have hcw := children_weight e
  have c1 : Cost R (inMode .text x [.text t!"$ "]) 2 := (Cost.text _).inMode
  have c2 : Cost R [.text (tn ++ t!"(")] (R.A + 1) := (Cost.text _).mono (by simp only [List.length_append, List.length_singleton]; omega)
  have c3 : Cost R (e.envArguments.zipIdx.flatMap
        (fun a => [.text (t!"arg" ++ decimal a.2 ++ t!": "), .part ⟨.math, env, x.lists⟩ a.1, .text t!","])) (R.K * weights e.envArguments) := by
    have := Cost.flatMap (R := R) (fun a : Elem × Nat => [.text (t!"arg" ++ decimal a.2 ++ t!": "), .part ⟨.math, env, x.lists⟩ a.1, .text t!","])
      Prod.fst e.envArguments.zipIdx (by
        intro a ha
        refine .around _ _ ((hf.envArg (List.fst_mem_of_mem_zipIdx ha)).part rfl) ?_
        have hi : a.2 < e.envArguments.length := by
          have := List.snd_lt_of_mem_zipIdx ha
          omega
        have := length_weights e.envArguments
        have := R.digits a.2 (by have := hf.1; omega)
        simp only [List.length_append, List.length_cons, List.length_nil]
        omega)
    rwa [List.zipIdx_map_fst] at this
  have c4 : Cost R (each ⟨.math, env, x.lists⟩ (Mitex.between e)) (R.K * weights (Mitex.between e)) := .each fun c hc => (hf.between hc).part rfl
  have c5 : Cost R [.text t!")"] 1 := .text _
  have c6 : Cost R (inMode .text x [.text t!" $"]) 2 := (Cost.text _).inMode
  unfold mathEnvTemplate
  dsimp only
  refine .parts (n := R.A + 6) (w := weights e.envArguments + weights (Mitex.between e))
    (Cost.mono (((((c1.append c2).append c3).append c4).append c5).append c6) ?_) (by omega) (by omega)
  simp only [Nat.mul_add]
  omega

theorem caption_weight (e : Elem) : weights (caption e) + weights ((between e).filter fun c => !isCommand t!"\\caption" c && !isCommand t!"\\centering" c) ≤
    weights e.children := by
  have h1 := weights_filter (isCommand t!"\\caption") (fun c => !isCommand t!"\\caption" c) e.children
    (by intro c _ h1 h2; rw [h1] at h2; cases h2)
  have h2 : weights (caption e) ≤ weights (e.children.filter (isCommand t!"\\caption")) := by
    unfold caption
    split
    · rename_i c hc
      have h1 := weight_mem (List.mem_of_getLast? hc)
      have h2 := arguments_weight c
      have h3 := children_weight c
      have h4 := weights_sublist (List.take_sublist 1 c.arguments)
      omega
    · exact Nat.zero_le _
  have h3 : weights ((between e).filter fun c => !isCommand t!"\\caption" c && !isCommand t!"\\centering" c) ≤
      weights (e.children.filter fun c => !isCommand t!"\\caption" c) := by
    have e1 : ((between e).filter fun c => !isCommand t!"\\caption" c && !isCommand t!"\\centering" c) =
        ((between e).filter fun c => !isCommand t!"\\caption" c).filter fun c => !isCommand t!"\\centering" c := by
      rw [List.filter_filter]
      refine List.filter_congr fun c _ => ?_
      rw [Bool.and_comm]
    rw [e1]
    refine weights_sublist (List.filter_sublist.trans ?_)
    exact List.Sublist.filter _ List.filter_sublist
  omega

theorem figure_pays {x : Place} {tn : Text} {e : Elem} {ps : List Piece} (h : figureTemplate x tn e = .ok ps) (ht : tn.length ≤ R.A)
    (hf : ElemFits R x e) : Pays R e ps := by
  have hK := R.enough
  have hw := caption_weight e
  have hcw := children_weight e
  unfold figureTemplate at h
  dsimp only at h
  split at h
  · cases h
    have c1 : Cost R [.text (t!"#" ++ tn ++ t!"(")] (R.A + 2) := (Cost.text _).mono (by simp only [List.length_append, List.length_singleton]; omega)
    have c2 : Cost R ((caption e).flatMap (fun c => [.text t!"caption: [", .part ⟨x.mode, .figure, x.lists⟩ c, .text t!"],"])) (R.K * weights (caption e)) := by
      refine .flatMap' _ _ fun c hc => .around _ _ (ElemFits.part (x := x) ?_ rfl) (by simp only [List.length_cons, List.length_nil]; omega)
      unfold caption at hc
      split at hc
      · rename_i d hd
        have hm := (List.mem_filter.1 (List.mem_of_getLast? hd)).1
        exact (hf.child hm).arg (List.mem_of_mem_take hc)
      · cases hc
    have c3 : Cost R [.text t!")["] 2 := .text _
    have c4 : Cost R (each ⟨x.mode, .figure, x.lists⟩ ((Mitex.between e).filter fun c => !isCommand t!"\\caption" c && !isCommand t!"\\centering" c)) _ :=
      .each fun c hc => (hf.between (List.mem_filter.1 hc).1).part rfl
    have c5 : Cost R [.text t!"];"] 2 := .text _
    refine .parts (n := R.A + 6)
      (w := weights (caption e) + weights ((Mitex.between e).filter fun c => !isCommand t!"\\caption" c && !isCommand t!"\\centering" c))
      (Cost.mono ((((c1.append c2).append c3).append c4).append c5) ?_) (by omega) (by omega)
    simp only [Nat.mul_add]
    omega
  · cases h

theorem cells_weight (es : List Elem) : ((cellsOf es).1.map fun c => weights c.1 + c.2.weight).sum + weights (cellsOf es).2 = weights es := by
  induction es with
  | nil => rfl
  | cons e es ih =>
    rw [cellsOf]
    split
    · simp only [List.map_cons, List.sum_cons, weights]
      omega
    · split
      · rename_i h
        rw [h] at ih
        simp only [List.map_nil, List.sum_nil, weights] at ih ⊢
        omega
      · rename_i c sep cells h
        rw [h] at ih
        simp only [List.map_cons, List.sum_cons, weights] at ih ⊢
        omega

theorem cellsOf_rest {c : Elem} : ∀ {es : List Elem}, c ∈ (cellsOf es).2 → c ∈ es
  | [], h => by cases h
  | e :: es, h => by
    rw [cellsOf] at h
    split at h
    · exact List.mem_cons_of_mem _ (cellsOf_rest h)
    · split at h
      · rcases List.mem_cons.1 h with rfl | h
        · exact List.mem_cons_self
        · exact List.mem_cons_of_mem _ (cellsOf_rest h)
      · exact List.mem_cons_of_mem _ (cellsOf_rest h)

theorem leadLines_length (c : List Elem) : (leadLines c).length + 27 * weights (cellContent c) ≤ 27 * weights c := by
  have h1 := weights_append (c.takeWhile isLead) (c.dropWhile isLead)
  rw [List.takeWhile_append_dropWhile] at h1
  have h2 : ∀ es : List Elem, ((es.map ruleLine).flatten).length ≤ 27 * weights es := by
    intro es
    induction es with
    | nil => exact Nat.le_refl _
    | cons e es ih =>
      have he : (ruleLine e).length ≤ 27 := by
        unfold ruleLine
        split
        · split <;> decide
        · decide
      have := weight_pos e
      simp only [List.map_cons, List.flatten_cons, List.length_append, weights]
      omega
  have := h2 (c.takeWhile isLead)
  unfold leadLines cellContent
  omega

theorem cells_pay {y : Place} {es : List Elem} (hf : ∀ c ∈ es, PieceFits R (.part y c)) : Cost R (cellsTemplate y es) (1 + R.K * weights es) := by
  have hK := R.enough
  have lead : ∀ c : List Elem, (leadLines c).length + R.K * weights (cellContent c) ≤ R.K * weights c := by
    intro c
    have h1 := leadLines_length c
    have h2 : weights (cellContent c) ≤ weights c := weights_sublist (List.dropWhile_suffix _).sublist
    obtain ⟨k, hk⟩ : ∃ k, R.K = 27 + k := ⟨R.K - 27, by omega⟩
    rw [hk, Nat.add_mul, Nat.add_mul]
    have := Nat.mul_le_mul_left k h2
    omega
  have c1 : Cost R ((cellsOf es).1.flatMap (fun c => [.text (leadLines c.1 ++ t!"[")] ++ each y (cellContent c.1) ++ [.text (t!"]" ++ separatorText c.2)]))
      (R.K * ((cellsOf es).1.map fun c => weights c.1 + c.2.weight).sum) := by
    refine .flatMapN _ _ _ fun c hc => ?_
    have c2 : Cost R (each y (cellContent c.1)) _ := .each fun d hd => hf d (cellsOf_mem c hc ((List.dropWhile_suffix _).mem hd))
    refine (((Cost.text _).append c2).append (Cost.text _)).mono ?_
    have h1 := lead c.1
    have h2 := R.unit c.2
    have h3 : (separatorText c.2).length = 2 := by unfold separatorText; split <;> rfl
    simp only [List.length_append, List.length_singleton, h3, Nat.mul_add]
    omega
  have c2 : Cost R [.text (leadLines (cellsOf es).2)] _ := .text _
  have c3 : Cost R (if (cellContent (cellsOf es).2).isEmpty then [] else .text t!"[" :: each y (cellContent (cellsOf es).2))
      (1 + R.K * weights (cellContent (cellsOf es).2)) := by
    split
    · exact Cost.nil.mono (Nat.zero_le _)
    · exact (Cost.text _).cons (.each fun d hd => hf d (cellsOf_rest ((List.dropWhile_suffix _).mem hd)))
  refine Cost.mono ((c1.append c2).append c3) ?_
  have h1 := lead (cellsOf es).2
  rw [← cells_weight es, Nat.mul_add]
  omega

theorem columnLetters_length (a : Text) : (columnLetters a).length ≤ a.length := List.length_filter_le _ _

theorem tableStart_length {tn a : Text} (ha : a.length ≤ R.N) : (tableStart tn a).length ≤ tn.length + R.D + 50 + (R.D + 50) * a.length := by
  have hd := R.digits (columnLetters a).length (Nat.le_trans (columnLetters_length a) ha)
  have h1 : ∀ u : Text, ((u.map fun c => columnAlign c ++ t!", ").flatten).length ≤ 8 * u.length := by
    intro u
    induction u with
    | nil => exact Nat.le_refl _
    | cons c u ih =>
      have hc : (columnAlign c).length ≤ 6 := by
        unfold columnAlign
        split
        · decide
        · split <;> decide
      simp only [List.map_cons, List.flatten_cons, List.length_append, List.length_cons, List.length_nil]
      omega
  have h2 : ∀ u : List Nat, (∀ i ∈ u, i ≤ R.N) → ((u.map fun i => t!"table.vline(stroke: .5pt, x: " ++ decimal i ++ t!"), ").flatten).length ≤ (R.D + 40) * u.length := by
    intro u
    induction u with
    | nil => intro _; exact Nat.le_refl _
    | cons i u ih =>
      intro hu
      have := R.digits i (hu i List.mem_cons_self)
      have := ih fun j hj => hu j (List.mem_cons_of_mem _ hj)
      simp only [List.map_cons, List.flatten_cons, List.length_append, List.length_cons, List.length_nil, Nat.mul_add]
      omega
  have hb : (barPositions a).length ≤ a.length := by
    unfold barPositions
    rw [List.length_map]
    refine Nat.le_trans (List.length_filter_le _ _) ?_
    rw [List.length_range]
    exact Nat.le_refl _
  have hbm : ∀ i ∈ barPositions a, i ≤ R.N := by
    intro i hi
    unfold barPositions at hi
    obtain ⟨j, _, rfl⟩ := List.mem_map.1 hi
    have := columnLetters_length (a.take j)
    rw [List.length_take] at this
    omega
  have e1 := h1 (columnLetters a)
  have e2 := h2 (barPositions a) hbm
  have e3 := columnLetters_length a
  have e4 := Nat.mul_le_mul_left (R.D + 40) hb
  unfold tableStart
  simp only [List.length_append, List.length_cons, List.length_nil, Nat.add_mul] at e2 e4 ⊢
  omega

theorem table_pays {x : Place} {tn : Text} {e : Elem} {ps : List Piece} (h : tableTemplate x tn e = .ok ps) (ht : tn.length ≤ R.A)
    (hf : ElemFits R x e) : Pays R e ps := by
  have hK := R.enough
  have hw := env_weight e
  have hcw := children_weight e
  unfold tableTemplate at h
  cases h1 : e.envArguments.head? with
  | none => rw [h1] at h; cases h
  | some arg =>
  cases h2 : undelimited arg.text with
  | none => rw [h1] at h; simp only [bind, Except.bind, orCrash, h2, crash] at h; cases h
  | some a =>
  rw [h1] at h
  simp only [bind, Except.bind, orCrash, h2] at h
  split at h
  · cases h
  · cases h
    have hl : (trim a).length ≤ weights e.envArguments := by
      have e1 := trim_length a
      have e2 := undelimited_length h2
      have e3 := text_weight arg
      have e4 := weight_mem (List.mem_of_mem_head? h1)
      omega
    have hN : (trim a).length ≤ R.N := by have := hf.1; omega
    have c1 : Cost R [.text (tableStart tn (trim a))] (R.A + R.D + 50 + R.K * weights e.envArguments) := by
      refine (Cost.text _).mono ?_
      have e1 := tableStart_length (R := R) (tn := tn) hN
      have e2 := Nat.mul_le_mul_left (R.D + 50) hl
      have e3 : (R.D + 50) * weights e.envArguments ≤ R.K * weights e.envArguments := Nat.mul_le_mul_right _ (by omega)
      omega
    have c2 := cells_pay (R := R) (y := ⟨x.mode, .table, x.lists⟩) (es := Mitex.between e) fun c hc => (hf.between hc).part rfl
    have c3 : Cost R [.text t!");"] 2 := .text _
    refine .parts (n := R.A + R.D + 53) (w := weights e.envArguments + weights (Mitex.between e)) (Cost.mono ((c1.append c2).append c3) ?_) (by omega) (by omega)
    simp only [Nat.mul_add]
    omega

theorem put_pays {e : Elem} {ps : List Piece} {x : Place} (h : Pays R e ps) : Pays R e (ps ++ inMode .text x [.putLabel]) := by
  have c : Cost R [.putLabel] 0 := ⟨fun p hp => (by rw [List.mem_singleton.1 hp]; exact trivial), Nat.le_refl _⟩
  exact Cost.append h c.inMode

theorem list_pays {x : Place} {cs : List Elem} {y : Place} (hy : y.lists = x.lists + 1) (hl : isListEnv R.spec (.node .itemEnv cs) = true)
    (hf : ElemFits R x (.node .itemEnv cs)) : Pays R (.node .itemEnv cs) (each y (between (.node .itemEnv cs))) := by
  have hK := R.enough
  refine .parts (n := 0) (w := weights (Mitex.between (.node .itemEnv cs))) (Cost.mono (.each fun c hc => ?_) (by omega)) ?_ (by omega)
  · have hm : c ∈ cs := (List.mem_filter.1 hc).1
    have h1 := depth_mem (spec := R.spec) hm
    have h2 := (hf.child (c := c) hm).1
    have h3 := hf.2
    simp only [listDepth, hl, if_true] at h3
    exact ⟨h2, by rw [hy]; omega⟩
  · have := env_weight (.node .itemEnv cs)
    have := children_weight (.node .itemEnv cs)
    omega

theorem environment_pays {x : Place} {cs : List Elem} {ps : List Piece}
    (h : environmentTemplate R.spec x (.node .itemEnv cs) = .ok ps) (hf : ElemFits R x (.node .itemEnv cs)) : Pays R (.node .itemEnv cs) ps := by
  have hK := R.enough
  unfold environmentTemplate at h
  cases h1 : (Elem.node .itemEnv cs).envName with
  | none => rw [h1] at h; cases h
  | some n =>
  rw [h1] at h
  simp only [bind, Except.bind, orCrash] at h
  split at h
  · rename_i sh hs
    have ht := R.names.2 _ _ hs
    have hlist : sh.ctx = .isItemize ∨ sh.ctx = .isEnumerate → isListEnv R.spec (.node .itemEnv cs) = true := by
      intro hc
      unfold isListEnv
      rw [h1]
      simp only [hs, Elem.kind, decide_true, Bool.true_and]
      exact decide_eq_true hc
    split at h
    · rename_i hc
      cases h; exact list_pays rfl (hlist (.inl hc)) hf
    · rename_i hc
      cases h; exact list_pays rfl (hlist (.inr hc)) hf
    · cases h; exact put_pays (mathEnv_pays ht hf)
    · cases h; exact put_pays (mathEnv_pays ht hf)
    · cases h; exact put_pays (mathEnv_pays ht hf)
    · cases hg : figureTemplate x (sh.alias.getD (trim n)) (.node .itemEnv cs) with
      | error e => rw [hg] at h; cases h
      | ok qs =>
        rw [hg] at h
        cases h
        exact put_pays (figure_pays hg ht hf)
    · cases hg : tableTemplate x (sh.alias.getD (trim n)) (.node .itemEnv cs) with
      | error e => rw [hg] at h; cases h
      | ok qs =>
        rw [hg] at h
        cases h
        exact put_pays (table_pays hg ht hf)
    · cases h
      refine put_pays ?_
      have hw := env_weight (.node .itemEnv cs)
      have hcw := children_weight (.node .itemEnv cs)
      have c1 : Cost R [.text (t!"#" ++ sh.alias.getD (trim n) ++ t!"[")] (R.A + 2) :=
        (Cost.text _).mono (by simp only [List.length_append, List.length_singleton]; omega)
      have c2 : Cost R (each ⟨x.mode, .none, x.lists⟩ (Mitex.between (.node .itemEnv cs))) _ := .each fun c hc => (hf.between hc).part rfl
      have c3 : Cost R [.text t!"];"] 2 := .text _
      exact .parts (n := R.A + 4) (w := weights (Mitex.between (.node .itemEnv cs))) (Cost.mono ((c1.append c2).append c3) (by omega)) (by omega) (by omega)
  · cases h

/-! ### All elements -/

theorem blank_pays (e : Elem) : Pays R e [.blank e] := by
  have hK := R.enough
  have h1 := text_weight e
  have hm : e.text.length ≤ R.K * e.text.length := Nat.le_mul_of_pos_left _ (by omega)
  refine .parts (n := 0) (w := e.text.length) ⟨?_, ?_⟩ h1 (by omega)
  · intro p hp; rw [List.mem_singleton.1 hp]; exact trivial
  · simp only [List.map_cons, List.map_nil, List.sum_cons, List.sum_nil, price]
    omega

/-- Fixed text. -/
theorem fixed_pays (e : Elem) {t : Text} (h : t.length ≤ 80) : Pays R e [.text t] := by
  have hK := R.enough
  exact .parts (n := 80) (w := 0) (Cost.mono (.text _) (by omega)) (weight_pos e) (by omega)

theorem token_pays {x : Place} {k : Kind} {t : Text} {ps : List Piece} (h : tokenTemplate R.spec x k t = .ok ps)
    (hf : ElemFits R x (.token k t)) : Pays R (.token k t) ps := by
  have hK := R.enough
  have hw : (Elem.token k t).weight = 1 + t.length := rfl
  unfold tokenTemplate at h
  split at h
  · cases h
    refine .parts (n := 0) (w := t.length) (Cost.mono (.text _) ?_) (by rw [hw]; omega) (by omega)
    have : (wordText x.mode t).length ≤ 2 * t.length := by
      unfold wordText
      split
      · omega
      · clear hf hw
        induction t with
        | nil => exact Nat.le_refl _
        | cons c t ih =>
          simp only [List.flatMap_cons, List.length_append, List.length_cons, List.length_nil]
          omega
    have : 2 * t.length ≤ R.K * t.length := Nat.mul_le_mul_right _ (by omega)
    omega
  · cases h; exact blank_pays _
  · cases h
    have hq := hf.2
    have c1 : Cost R [.dropBlank] 0 := ⟨fun p hp => (by rw [List.mem_singleton.1 hp]; exact trivial), Nat.le_refl _⟩
    refine .parts (n := R.Q) (w := t.length) (Cost.mono ((Cost.text _).cons c1) ?_) (by rw [hw]; omega) (by omega)
    have : t.length ≤ R.K * t.length := Nat.le_mul_of_pos_left _ (by omega)
    simp only [List.length_append, List.length_replicate]
    omega
  · cases ha : afterBackslash t with
    | none => simp only [ha, orCrash, bind, Except.bind, crash] at h; cases h
    | some name =>
      simp only [ha, orCrash, bind, Except.bind] at h
      split at h
      · rename_i sh hs
        cases h
        have := R.names.1 _ _ hs
        exact .parts (n := R.A) (w := 0) (Cost.mono (.text _) (by omega)) (weight_pos _) (by omega)
      · cases h
  · cases h

theorem containers_pay {x : Place} {k : Kind} {cs : List Elem} (hf : ElemFits R x (.node k cs)) : Pays R (.node k cs) (each x cs) := by
  have hK := R.enough
  exact .parts (n := 0) (w := weights cs) (Cost.mono (.each fun c hc => (hf.child (c := c) hc).part rfl) (by omega)) (children_weight (.node k cs)) (by omega)

theorem template_pays {x : Place} {e : Elem} {ps : List Piece} (h : template R.spec x e = .ok ps) (hf : ElemFits R x e) : Pays R e ps := by
  unfold template at h
  split at h
  · cases h; exact Cost.nil.mono (Nat.zero_le _)
  · split at h
    · cases h; exact fixed_pays e (by simp)
    · split at h
      · cases h
      · cases h
      · cases h
      · cases h
      · cases h; exact fixed_pays e (by decide)
      · cases h; exact fixed_pays e (by split <;> decide)
      · cases h; exact fixed_pays e (by unfold ampersandText; split <;> decide)
      · cases h; exact fixed_pays e (by unfold newLineText; split <;> decide)
      · cases e with
        | token k t => exact token_pays h hf
        | node k cs =>
          simp only [nodeTemplate] at h
          split at h
          · exact formula_pays h hf
          · cases h; exact curly_pays hf
          · exact delimiter_pays h hf
          · cases h
            split
            · exact script_pays hf
            · exact containers_pay hf
          · exact command_pays h hf
          · exact environment_pays h hf
          · cases h
            rename_i hk
            have hK := R.enough
            have h1 := text_weight (.node .itemTypstCode cs)
            exact .parts (n := 0) (w := (Elem.node .itemTypstCode cs).text.length)
              (Cost.mono (.text _) (by have := Nat.le_mul_of_pos_left (Elem.node .itemTypstCode cs).text.length (n := R.K) (by omega); omega)) h1 (by omega)
          · cases h; exact blank_pays _
          · split at h
            · cases h; exact containers_pay hf
            · cases h

theorem Cost.drop {p : Piece} {ps : List Piece} {n : Nat} (hc : Cost R (p :: ps) n) :
    PieceFits R p ∧ price R p ≤ n ∧ Cost R ps (n - price R p) := by
  have h2 := hc.2
  simp only [List.map_cons, List.sum_cons] at h2
  exact ⟨hc.1 p List.mem_cons_self, by omega, fun q hq => hc.1 q (List.mem_cons_of_mem _ hq), by omega⟩

/-- The waiting label, with its marks. -/
def pending (m : Mem) : Nat :=
  match m.label with
  | some l => l.length + 2
  | none => 0

theorem printed_length {x : Place} {e : Elem} {m : Mem} {t : Text} {m' : Mem} (h : Printed R.spec x e m t m') :
    ElemFits R x e → t.length + pending m' + (R.D + 12) ≤ R.K * e.weight + pending m := by
  refine @Printed.rec R.spec
    (fun x e m t m' _ => ElemFits R x e → t.length + pending m' + (R.D + 12) ≤ R.K * e.weight + pending m)
    (fun ps m t m' _ => ∀ n, Cost R ps n → t.length + pending m' ≤ n + pending m)
    ?mk ?nil ?text ?part ?blank ?dropped ?dropBlank ?keepLabel ?putLabel ?noLabel x e m t m' h
  case mk =>
    intro x e ps m m' t h _ ih hf
    have h1 := ih _ (template_pays h hf)
    have h2 := R.unit e
    have h3 : pending (if e.kind = .tokenWhiteSpace then m else { m with skip := false }) = pending m := by split <;> rfl
    omega
  case nil => intro m n _; simp
  case text =>
    intro ps m m' u t _ ih n hc
    obtain ⟨_, h1, h2⟩ := hc.drop
    have := ih _ h2
    simp only [price, List.length_append] at h1 this ⊢
    omega
  case part =>
    intro x e ps m m' m'' t u _ _ ih1 ih2 n hc
    obtain ⟨h0, h1, h2⟩ := hc.drop
    have e1 := ih1 h0
    have e2 := ih2 _ h2
    have := R.unit e
    simp only [price, List.length_append] at h1 e2 ⊢
    omega
  case blank =>
    intro k t ps m m' u _ _ ih n hc
    obtain ⟨_, h1, h2⟩ := hc.drop
    have := ih _ h2
    have e : (Elem.token k t).text = t := by simp [Elem.text, Elem.leaves]
    simp only [price, List.length_append, e] at h1 this ⊢
    omega
  case dropped =>
    intro e ps m m' u _ _ ih n hc
    obtain ⟨_, h1, h2⟩ := hc.drop
    have := ih _ h2
    have e : pending { m with skip := false } = pending m := rfl
    omega
  case dropBlank =>
    intro ps m m' u _ ih n hc
    obtain ⟨_, h1, h2⟩ := hc.drop
    have := ih _ h2
    have e : pending { m with skip := true } = pending m := rfl
    omega
  case keepLabel =>
    intro l ps m m' u _ ih n hc
    obtain ⟨_, h1, h2⟩ := hc.drop
    have := ih _ h2
    have e : pending { m with label := some l } = l.length + 2 := rfl
    simp only [price] at h1 this
    omega
  case putLabel =>
    intro l ps m m' u hl _ ih n hc
    obtain ⟨_, h1, h2⟩ := hc.drop
    have := ih _ h2
    have e : pending { m with label := none } = 0 := rfl
    have e2 : pending m = l.length + 2 := by unfold pending; rw [hl]
    simp only [price, List.length_append, List.length_singleton] at h1 this ⊢
    omega
  case noLabel =>
    intro ps m m' u _ _ ih n hc
    obtain ⟨_, h1, h2⟩ := hc.drop
    have := ih _ h2
    omega

end

end Mitex
