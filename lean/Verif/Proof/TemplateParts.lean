/-
The elements that are converted as parts of an element.
-/
import Verif.Proof.NestingAll
import Verif.Proof.SizeAll

namespace Mitex
namespace Agree

/-- The kinds of nodes whose children are converted. -/
def isOpen (k : Kind) : Bool :=
  isContainer k || decide (k ∈ [Kind.itemFormula, .itemCurly, .clauseLR, .itemAttachComponent, .itemCmd, .itemEnv])

/-- The element has the property `p`, and so have all elements in it; it is an argument, or a child of a node whose children are converted, and
which has the property `p`. -/
def Sits (p : Elem → Prop) (c : Elem) : Prop := c.Forall p ∧ ∃ d, p d ∧ c ∈ d.children ∧ (c.kind = .clauseArgument ∨ isOpen d.kind = true)

/-- All parts of the template. -/
def AllSit (p : Elem → Prop) (ps : List Piece) : Prop := ∀ y c, Piece.part y c ∈ ps → Sits p c

section
variable {p : Elem → Prop}

theorem forall_self {e : Elem} (h : e.Forall p) : p e := by
  cases e with
  | token k t => exact (Forall_token _ _ _).1 h
  | node k cs => exact ((Forall_node _ _ _).1 h).1

theorem forall_child {e c : Elem} (h : e.Forall p) (hc : c ∈ e.children) : c.Forall p := by
  cases e with
  | token k t => cases hc
  | node k cs => exact ((Forall_node _ _ _).1 h).2 c hc

theorem sits_child {e c : Elem} (h : e.Forall p) (hk : isOpen e.kind = true) (hc : c ∈ e.children) : Sits p c :=
  ⟨forall_child h hc, e, forall_self h, hc, .inr hk⟩

theorem arg_mem {e c : Elem} (h : c ∈ e.arguments) : c ∈ e.children ∧ c.kind = .clauseArgument := by
  unfold Elem.arguments Elem.childNodes at h
  rw [List.mem_filter, List.mem_filter] at h
  exact ⟨h.1.1, of_decide_eq_true h.2⟩

theorem sits_arg {e c : Elem} (h : e.Forall p) (hc : c ∈ e.arguments) : Sits p c :=
  ⟨forall_child h (arg_mem hc).1, e, forall_self h, (arg_mem hc).1, .inl (arg_mem hc).2⟩

theorem sits_argPart {e a c : Elem} (h : e.Forall p) (ha : a ∈ e.arguments) (hc : c ∈ a.children) : Sits p c :=
  sits_child (forall_child h (arg_mem ha).1) (by rw [(arg_mem ha).2]; decide) hc

theorem sits_envArg {e c : Elem} (h : e.Forall p) (hc : c ∈ e.envArguments) : Sits p c := by
  unfold Elem.envArguments at hc
  split at hc
  · rename_i b hb
    have hm := (List.mem_filter.1 (List.mem_of_find?_eq_some hb)).1
    exact sits_arg (forall_child h hm) hc
  · cases hc

theorem sits_caption {e c : Elem} (h : e.Forall p) (hc : c ∈ caption e) : Sits p c := by
  unfold caption at hc
  split at hc
  · rename_i d hd
    have hm := (List.mem_filter.1 (List.mem_of_getLast? hd)).1
    exact sits_arg (forall_child h hm) (List.mem_of_mem_take hc)
  · cases hc

theorem between_mem {e c : Elem} (h : c ∈ between e) : c ∈ e.children := (List.mem_filter.1 h).1

theorem AllSit.nil : AllSit p [] := fun _ _ h => (by cases h)

theorem AllSit.append {ps qs : List Piece} (h : AllSit p ps) (k : AllSit p qs) : AllSit p (ps ++ qs) := by
  intro y c hc
  rcases List.mem_append.1 hc with hc | hc
  · exact h y c hc
  · exact k y c hc

theorem AllSit.text {t : Text} {ps : List Piece} (h : AllSit p ps) : AllSit p (.text t :: ps) := by
  intro y c hc
  rcases List.mem_cons.1 hc with hc | hc
  · cases hc
  · exact h y c hc

theorem AllSit.part {x : Place} {c : Elem} {ps : List Piece} (hc : Sits p c) (h : AllSit p ps) : AllSit p (.part x c :: ps) := by
  intro y d hd
  rcases List.mem_cons.1 hd with hd | hd
  · cases hd; exact hc
  · exact h y d hd

theorem AllSit.each {x : Place} {cs : List Elem} (h : ∀ c ∈ cs, Sits p c) : AllSit p (each x cs) := by
  intro y c hc
  obtain ⟨d, hd, e⟩ := List.mem_map.1 hc
  cases e
  exact h _ hd

theorem AllSit.inMode {m : Mode} {x : Place} {ps : List Piece} (h : AllSit p ps) : AllSit p (inMode m x ps) := by
  unfold Mitex.inMode
  split
  · exact h
  · exact .nil

theorem AllSit.flatMap {α : Type} {f : α → List Piece} {as : List α} (h : ∀ a ∈ as, AllSit p (f a)) : AllSit p (as.flatMap f) := by
  intro y c hc
  obtain ⟨a, ha, hc⟩ := List.mem_flatMap.1 hc
  exact h a ha y c hc

theorem AllSit.commaList {k : Kind} {x : Place} : ∀ {cs : List Elem}, (∀ c ∈ cs, Sits p c) → AllSit p (commaList k x cs)
  | [], _ => .nil
  | [a], h => .part (h a List.mem_cons_self) .nil
  | a :: b :: as, h => by
    rw [Mitex.commaList]
    refine .part (h a List.mem_cons_self) (.append ?_ (AllSit.commaList fun c hc => h c (List.mem_cons_of_mem _ hc)))
    split
    · exact .text .nil
    · exact .nil

theorem formula_sits {x : Place} {e : Elem} {ps : List Piece} (h : formulaTemplate x e = .ok ps) (he : e.Forall p) (hk : e.kind = .itemFormula) :
    AllSit p ps := by
  unfold formulaTemplate at h
  split at h
  · cases h
    exact ((AllSit.inMode (.text .nil)).append (.each fun c hc => sits_child he (by rw [hk]; decide) hc)).append (.inMode (.text .nil))
  · cases h

theorem curly_sits {x : Place} {e : Elem} (he : e.Forall p) (hk : e.kind = .itemCurly) : AllSit p (curlyTemplate x e) := by
  unfold curlyTemplate
  refine (AllSit.each fun c hc => sits_child he (by rw [hk]; decide) hc).append (.inMode ?_)
  split
  · exact .text .nil
  · exact .nil

theorem delimiter_sits {x : Place} {e : Elem} {ps : List Piece} (h : delimiterTemplate x e = .ok ps) (he : e.Forall p) (hk : e.kind = .clauseLR) :
    AllSit p ps := by
  unfold delimiterTemplate at h
  split at h
  · rename_i k t ds hcs
    cases ha : afterBackslash t with
    | none => rw [ha] at h; cases h
    | some name =>
      rw [ha] at h
      cases h
      refine AllSit.append (.append ?_ (.flatMap fun d hd => .append ?_ (.text .nil))) ?_
      · split
        · exact .text .nil
        · exact .nil
      · split
        · exact .nil
        · exact .part (sits_child he (by rw [hk]; decide) (by rw [hcs]; exact List.mem_cons_of_mem _ hd)) .nil
      · split
        · exact .text .nil
        · exact .nil
  · cases h

theorem script_sits {x : Place} {cs : List Elem} (he : (Elem.node .itemAttachComponent cs).Forall p) : AllSit p (scriptTemplate x cs) := by
  have hc : ∀ c ∈ cs, Sits p c := fun c hc => sits_child he (by rfl) hc
  unfold scriptTemplate
  dsimp only
  split
  · exact .each hc
  · rename_i mark script hd
    have hs : ∀ c ∈ mark :: script, c ∈ cs := fun c h => (List.dropWhile_suffix _).mem (hd ▸ h)
    refine AllSit.append (.append (.append (.append (.each fun c h => hc c ((List.takeWhile_prefix _).mem h)) ?_) (.text .nil))
      (.each fun c h => hc c (hs c (List.mem_cons_of_mem _ h)))) (.text .nil)
    split
    · exact .text .nil
    · exact .nil

theorem item_sits {x : Place} {ps : List Piece} (h : itemTemplate x = .ok ps) : AllSit p ps := by
  unfold itemTemplate at h
  dsimp only at h
  split at h
  · split at h
    · cases h
    · cases h; exact .text .nil
  · split at h
    · cases h
    · cases h; exact .text .nil
  · cases h

theorem label_sits {x : Place} {e : Elem} {ps : List Piece} (h : labelTemplate x e = .ok ps) : AllSit p ps := by
  unfold labelTemplate at h
  cases ha : e.arguments.head? with
  | none => rw [ha] at h; cases h
  | some a =>
    cases hu : undelimited a.text with
    | none => simp only [ha, hu, orCrash, bind, Except.bind, crash] at h; cases h
    | some l =>
      simp only [ha, hu, orCrash, bind, Except.bind] at h
      split at h
      · cases h; exact .inMode (.text .nil)
      · cases h
        intro y c hc
        rcases List.mem_cons.1 hc with hc | hc <;> cases hc

theorem image_sits {e : Elem} {ps : List Piece} (h : imageTemplate e = .ok ps) : AllSit p ps := by
  have : ∃ t, ps = [.text t] := by
    unfold imageTemplate at h
    simp only [bind, Except.bind] at h
    repeat (split at h; · cases h)
    split at h
    · split at h
      · cases h
      · cases h; exact ⟨_, rfl⟩
    · cases h; exact ⟨_, rfl⟩
  obtain ⟨t, rfl⟩ := this
  exact .text .nil

theorem color_sits {spec : CommandSpec} {x : Place} {full : Text} {e : Elem} {ps : List Piece} (h : colorTemplate spec x full e = .ok ps)
    (he : e.Forall p) : AllSit p ps := by
  have hc : ∀ c ∈ coloredParts full e, Sits p c := by
    intro c hc
    rcases coloredParts_mem hc with ⟨a, ha, hc⟩ | hc
    · exact sits_argPart he ha hc
    · exact sits_arg he hc
  unfold colorTemplate at h
  split at h
  · cases h
  · cases h
    refine AllSit.append (.append (.append (.append (.text .nil) ?_) (.flatMap fun b hb => ?_)) (.text .nil)) (.inMode (.text .nil))
    · unfold colorPiece
      split
      · exact .text (.text .nil)
      · rename_i c cs hcs
        exact .part (hc c (by rw [hcs]; exact List.mem_cons_self)) (.text .nil)
    · exact ((AllSit.inMode (.text .nil)).append (.part (hc b (List.mem_of_mem_tail hb)) .nil)).append (.inMode (.text .nil))

theorem arguments_sit {x : Place} {sh : CmdShape} {tn : Text} {args : List Elem} {ps : List Piece}
    (h : argumentsTemplate x sh tn args = .ok ps) (ha : ∀ a ∈ args, Sits p a) (hs : ∀ k cs, Elem.node k cs ∈ args → ∀ c ∈ cs, Sits p c) : AllSit p ps := by
  unfold argumentsTemplate at h
  split at h
  · cases h; exact .text .nil
  · split at h
    · rename_i k cs as
      cases h
      exact ((AllSit.text .nil).append (.commaList (hs k cs List.mem_cons_self))).append (.text .nil)
    · cases h
  · split at h
    · cases h
      exact ((AllSit.text .nil).append (.commaList ha)).append (.text .nil)
    · cases h
      exact (AllSit.flatMap fun a h => .text (.part (ha a (List.mem_filter.1 h).1) (.text .nil))).append (.text .nil)

theorem mathEnv_sits {x : Place} {env : LEnv} {tn : Text} {e : Elem} (he : e.Forall p) (hk : e.kind = .itemEnv) : AllSit p (mathEnvTemplate x env tn e) := by
  unfold mathEnvTemplate
  dsimp only
  refine AllSit.append (.append (.append (.append (.append (.inMode (.text .nil)) (.text .nil)) (.flatMap fun a ha => .text (.part ?_ (.text .nil))))
    (.each fun c hc => sits_child he (by rw [hk]; decide) (between_mem hc))) (.text .nil)) (.inMode (.text .nil))
  exact sits_envArg he (List.fst_mem_of_mem_zipIdx ha)

theorem figure_sits {x : Place} {tn : Text} {e : Elem} {ps : List Piece} (h : figureTemplate x tn e = .ok ps) (he : e.Forall p) (hk : e.kind = .itemEnv) :
    AllSit p ps := by
  unfold figureTemplate at h
  dsimp only at h
  split at h
  · cases h
    exact ((((AllSit.text .nil).append (.flatMap fun c hc => .text (.part (sits_caption he hc) (.text .nil)))).append (.text .nil)).append
      (.each fun c hc => sits_child he (by rw [hk]; decide) (between_mem (List.mem_filter.1 hc).1))).append (.text .nil)
  · cases h

theorem cells_sit {y : Place} {es : List Elem} (h : ∀ c ∈ es, Sits p c) : AllSit p (cellsTemplate y es) := by
  unfold cellsTemplate
  refine AllSit.append (.append (.flatMap fun cell hcell => ?_) (.text .nil)) ?_
  · refine ((AllSit.text .nil).append (.each fun c hc => h c ?_)).append (.text .nil)
    exact cellsOf_mem cell hcell ((List.dropWhile_suffix _).mem hc)
  · split
    · exact .nil
    · exact .text (.each fun c hc => h c (cellsOf_rest ((List.dropWhile_suffix _).mem hc)))

theorem table_sits {x : Place} {tn : Text} {e : Elem} {ps : List Piece} (h : tableTemplate x tn e = .ok ps) (he : e.Forall p) (hk : e.kind = .itemEnv) :
    AllSit p ps := by
  unfold tableTemplate at h
  cases ha : e.envArguments.head? with
  | none => rw [ha] at h; cases h
  | some a =>
    cases hu : undelimited a.text with
    | none => simp only [ha, hu, orCrash, bind, Except.bind, crash] at h; cases h
    | some l =>
      simp only [ha, hu, orCrash, bind, Except.bind] at h
      split at h
      · cases h
      · cases h
        exact .text ((cells_sit fun c hc => sits_child he (by rw [hk]; decide) (between_mem hc)).append (.text .nil))

theorem normal_sits {spec : CommandSpec} {x : Place} {name : Text} {cs : List Elem} {ps : List Piece}
    (h : normalTemplate spec x name (.node .itemCmd cs) = .ok ps) (he : (Elem.node .itemCmd cs).Forall p)
    (hcmd : ∀ c ∈ cs, c.kind = .clauseCommandName ∨ ∃ ds, c = .node .clauseArgument ds) : AllSit p ps := by
  unfold normalTemplate at h
  split at h
  · dsimp only at h
    cases ha : argumentsTemplate ⟨x.mode, if writtenName x.mode name _ = t!"substack" then .subStack else x.env, x.lists⟩ _
        (writtenName x.mode name _) ((Elem.node .itemCmd cs).children.filter fun c => decide (c.kind ≠ .clauseCommandName)) with
    | error f => rw [ha] at h; cases h
    | ok qs =>
      rw [ha] at h
      cases h
      refine .text (arguments_sit ha (fun a h => ?_) fun k ds h c hc => ?_)
      · exact sits_child he (by rfl) (List.mem_filter.1 h).1
      · obtain ⟨h1, h2⟩ := List.mem_filter.1 h
        rcases hcmd _ h1 with h3 | ⟨es, h3⟩
        · exact absurd h3 (of_decide_eq_true h2)
        · cases h3
          exact sits_child (forall_child he h1) (by rfl) hc
  · cases h

theorem command_sits {spec : CommandSpec} {x : Place} {cs : List Elem} {ps : List Piece}
    (h : commandTemplate spec x (.node .itemCmd cs) = .ok ps) (he : (Elem.node .itemCmd cs).Forall p)
    (hcmd : ∀ c ∈ cs, c.kind = .clauseCommandName ∨ ∃ ds, c = .node .clauseArgument ds) : AllSit p ps := by
  unfold commandTemplate at h
  split at h
  · split at h
    · exact item_sits h
    · split at h
      · exact label_sits h
      · split at h
        · exact image_sits h
        · split at h
          · exact color_sits h he
          · exact normal_sits h he hcmd
  · cases h

theorem environment_sits {spec : CommandSpec} {x : Place} {cs : List Elem} {ps : List Piece}
    (h : environmentTemplate spec x (.node .itemEnv cs) = .ok ps) (he : (Elem.node .itemEnv cs).Forall p) : AllSit p ps := by
  have hb : ∀ y, AllSit p (each y (between (.node .itemEnv cs))) := fun y => .each fun c hc => sits_child he (by rfl) (between_mem hc)
  have hput : AllSit p (inMode .text x [.putLabel]) := .inMode fun y c hc => by
    rcases List.mem_cons.1 hc with hc | hc <;> cases hc
  unfold environmentTemplate at h
  cases hn : (Elem.node .itemEnv cs).envName with
  | none => rw [hn] at h; cases h
  | some n =>
    simp only [hn, orCrash, bind, Except.bind] at h
    split at h
    · split at h
      · cases h; exact hb _
      · cases h; exact hb _
      · cases h; exact (mathEnv_sits he rfl).append hput
      · cases h; exact (mathEnv_sits he rfl).append hput
      · cases h; exact (mathEnv_sits he rfl).append hput
      · rename_i sh _ _ _
        cases hf : figureTemplate x (sh.alias.getD (trim n)) (.node .itemEnv cs) with
        | error f => rw [hf] at h; cases h
        | ok qs => rw [hf] at h; cases h; exact (figure_sits hf he rfl).append hput
      · rename_i sh _ _ _
        cases hf : tableTemplate x (sh.alias.getD (trim n)) (.node .itemEnv cs) with
        | error f => rw [hf] at h; cases h
        | ok qs => rw [hf] at h; cases h; exact (table_sits hf he rfl).append hput
      · cases h
        exact (((AllSit.text .nil).append (hb _)).append (.text .nil)).append hput
    · cases h

theorem token_sits {spec : CommandSpec} {x : Place} {k : Kind} {t : Text} {ps : List Piece} (h : tokenTemplate spec x k t = .ok ps) : AllSit p ps := by
  unfold tokenTemplate at h
  split at h
  · cases h; exact .text .nil
  · cases h
    intro y c hc
    rcases List.mem_cons.1 hc with hc | hc <;> cases hc
  · cases h
    refine .text fun y c hc => ?_
    rcases List.mem_cons.1 hc with hc | hc <;> cases hc
  · cases ha : afterBackslash t with
    | none => rw [ha] at h; cases h
    | some name =>
      simp only [ha, orCrash, bind, Except.bind] at h
      split at h
      · cases h; exact .text .nil
      · cases h
  · cases h

/-- The parts of a template sit where they are converted. -/
theorem template_sits {spec : CommandSpec} {x : Place} {e : Elem} {ps : List Piece} (h : template spec x e = .ok ps) (he : e.Forall p)
    (hcmd : e.kind = .itemCmd → ∀ c ∈ e.children, c.kind = .clauseCommandName ∨ ∃ ds, c = .node .clauseArgument ds) : AllSit p ps := by
  unfold template at h
  split at h
  · cases h; exact .nil
  · split at h
    · cases h; exact .text .nil
    · split at h
      · cases h
      · cases h
      · cases h
      · cases h
      · cases h; exact .text .nil
      · cases h; exact .text .nil
      · cases h; exact .text .nil
      · cases h; exact .text .nil
      · cases e with
        | token k t => exact token_sits h
        | node k cs =>
          simp only [nodeTemplate] at h
          split at h
          · exact formula_sits h he rfl
          · cases h; exact curly_sits he rfl
          · exact delimiter_sits h he rfl
          · cases h
            split
            · exact script_sits he
            · exact .each fun c hc => sits_child he (by rfl) hc
          · exact command_sits h he (hcmd rfl)
          · exact environment_sits h he
          · cases h; exact .text .nil
          · cases h
            intro y c hc
            rcases List.mem_cons.1 hc with hc | hc <;> cases hc
          · split at h
            · rename_i hk
              cases h
              refine .each fun c hc => sits_child he ?_ hc
              show isOpen k = true
              unfold isOpen
              rw [hk]
              rfl
            · cases h

end

end Agree
end Mitex
