/-
Names are never joined: all templates.
-/
import Verif.Proof.Words

namespace Mitex

instance (b : Bool) (t : Text) (b' : Bool) : Decidable (Joins b t b') := inferInstanceAs (Decidable (_ ∧ _ ∧ _))

theorem Joins.endsIn {t u : Text} (hu : u ≠ []) (h : endsW u = false) : Joins false (t ++ u) false := by
  refine Joins.closed ?_
  unfold endsW at h ⊢
  rw [List.getLast?_append]
  rw [List.getLast?_eq_some_getLast hu] at h ⊢
  exact h

/-- A child that is not a bare symbol. -/
def Item1 (c : Elem) : Prop := Fit c ∧ c.kind ≠ .tokenCommandSym

theorem Spaced.one {a b : Bool} {t : Text} (h : Joins a t b) : Spaced a [.text t] b := .text h (.nil _)

theorem Spaced.item {x : Place} {c : Elem} {ps : List Piece} {b : Bool} (hx : x.mode = .math) (hc : Item1 c) (k : Spaced false ps b) :
    Spaced false (.part x c :: ps) b := by
  refine .part hc.1 ?_
  have : endsClosed x c = true := decide_eq_true ⟨hx, hc.2⟩
  rw [this]
  exact k

/-- Anything, before a mark. -/
theorem Spaced.before {x : Place} {c : Elem} {ps : List Piece} {b : Bool} {t : Text} (hc : Fit c) (h : Joins true t false) (k : Spaced false ps b) :
    Spaced false (.part x c :: .text t :: ps) b := by
  refine .part hc (.text (b := false) ?_ k)
  cases !endsClosed x c with
  | true => exact h
  | false => exact ⟨fun h => (by cases h), h.2.1, fun _ h => (by cases h)⟩

theorem Spaced.each {x : Place} (hx : x.mode = .math) : ∀ {cs : List Elem}, (∀ c ∈ cs, Item1 c) → Spaced false (each x cs) false
  | [], _ => .nil _
  | c :: cs, h => .item hx (h c List.mem_cons_self) (Spaced.each hx fun d hd => h d (List.mem_cons_of_mem _ hd))

theorem Spaced.flatMap {α : Type} {f : α → List Piece} : ∀ {l : List α}, (∀ a ∈ l, Spaced false (f a) false) → Spaced false (l.flatMap f) false
  | [], _ => .nil _
  | a :: l, h => by
    rw [List.flatMap_cons]
    exact (h a List.mem_cons_self).append (Spaced.flatMap fun b hb => h b (List.mem_cons_of_mem _ hb))

theorem Spaced.commaList {x : Place} {k : Kind} (hx : x.mode = .math) : ∀ {cs : List Elem}, (∀ c ∈ cs, Item1 c) →
    Spaced false (commaList k x cs) false
  | [], _ => .nil _
  | [a], h => .item hx (h a List.mem_cons_self) (.nil _)
  | a :: b :: as, h => by
    refine .item hx (h a List.mem_cons_self) (.append (b := false) ?_ (Spaced.commaList hx fun d hd => h d (List.mem_cons_of_mem _ hd)))
    split
    · exact .one (by decide)
    · exact .nil _

theorem Whole.item {c : Elem} (h : Fit c) (hw : Whole c) : Item1 c := ⟨h, hw.2⟩

theorem Fit.arg {e c : Elem} (h : Fit e) (hc : c ∈ e.arguments) : Item1 c := by
  unfold Elem.arguments Elem.childNodes at hc
  rw [List.mem_filter, List.mem_filter] at hc
  refine ⟨h.child hc.1.1, ?_⟩
  have : c.kind = .clauseArgument := of_decide_eq_true hc.2
  rw [this]
  decide

theorem Fit.envArg {e c : Elem} (h : Fit e) (hc : c ∈ e.envArguments) : Item1 c := by
  unfold Elem.envArguments at hc
  split at hc
  · rename_i b hb
    have hm := (List.mem_filter.1 (List.mem_of_find?_eq_some hb)).1
    exact (h.child hm).arg hc
  · cases hc

/-! ### Commands -/

theorem Fit.argChild {ds : List Elem} (h : Fit (.node .clauseArgument ds)) {c : Elem} (hc : c ∈ ds) : Item1 c :=
  ⟨h.child hc, (h.self.1 c hc).2⟩

theorem Fit.argPart {e a c : Elem} (h : Fit e) (ha : a ∈ e.arguments) (hc : c ∈ a.children) : Item1 c := by
  have h1 := (h.arg ha).1
  have hk : a.kind = .clauseArgument := by
    unfold Elem.arguments at ha
    exact of_decide_eq_true (List.mem_filter.1 ha).2
  cases a with
  | token k t => cases hc
  | node k cs =>
    have hk : k = .clauseArgument := hk
    subst hk
    exact h1.argChild hc

/-- A name, before what is written after it. -/
theorem Spaced.name {t u : Text} {ps : List Piece} {b : Bool} (h : Joins true u false) (k : Spaced false ps b) :
    Spaced false (.text t :: .text u :: ps) b := .text .any (.text h k)

theorem arguments_spaced {x : Place} {sh : CmdShape} {tn : Text} {args : List Elem} {ps : List Piece}
    (h : argumentsTemplate x sh tn args = .ok ps) (hx : x.mode = .math) (ha : ∀ c ∈ args, Fit c ∧ ∃ ds, c = .node .clauseArgument ds) :
    ∃ u qs, ps = .text u :: qs ∧ Joins true u false ∧ Spaced false qs false := by
  have hw : ∀ c ∈ args, Item1 c := fun c hc => by
    obtain ⟨h1, ds, rfl⟩ := ha c hc
    exact ⟨h1, by simp [Elem.kind]⟩
  unfold argumentsTemplate at h
  split at h
  · cases h
    exact ⟨_, _, rfl, by decide, .nil _⟩
  · split at h
    · rename_i k cs as
      cases h
      obtain ⟨h1, ds, hd⟩ := ha _ List.mem_cons_self
      cases hd
      exact ⟨_, _, rfl, by decide, Spaced.append (Spaced.commaList hx fun c hc => h1.argChild hc) (.one (by decide))⟩
    · cases h
  · split at h
    · cases h
      exact ⟨_, _, rfl, by decide, Spaced.append (Spaced.commaList hx hw) (.one (by decide))⟩
    · cases h
      cases hf : args.filter fun a => decide (a.kind = .clauseArgument) with
      | nil => exact ⟨_, _, rfl, by decide, .nil _⟩
      | cons a as =>
        rw [List.flatMap_cons]
        have hm : ∀ c ∈ a :: as, Item1 c := fun c hc => hw c (List.mem_filter.1 (hf ▸ hc)).1
        refine ⟨_, _, rfl, by decide, ?_⟩
        refine .before (hm a List.mem_cons_self).1 (by decide) (Spaced.append (b := false) ?_ (.one (by decide)))
        exact Spaced.flatMap fun c hc => .text (b := false) (by decide) (.before (hm c (List.mem_cons_of_mem _ hc)).1 (by decide) (.nil _))

theorem Fit.command {cs : List Elem} (h : Fit (.node .itemCmd cs)) :
    ∀ c ∈ cs, (∃ t, c = .token .clauseCommandName ('\\' :: t)) ∨ ∃ ds, c = .node .clauseArgument ds := h.self.1

section
variable {spec : CommandSpec}

theorem normal_spaced {x : Place} {name : Text} {cs : List Elem} {ps : List Piece}
    (h : normalTemplate spec x name (.node .itemCmd cs) = .ok ps) (hp : Fit (.node .itemCmd cs)) (hx : x.mode = .math) : Spaced false ps false := by
  unfold normalTemplate at h
  split at h
  · rename_i sh hs
    dsimp only at h
    cases ha : argumentsTemplate ⟨x.mode, if writtenName x.mode name sh = t!"substack" then .subStack else x.env, x.lists⟩ sh (writtenName x.mode name sh)
      ((Elem.node .itemCmd cs).children.filter fun c => decide (c.kind ≠ .clauseCommandName)) with
    | error e => rw [ha] at h; cases h
    | ok qs =>
      rw [ha] at h
      cases h
      obtain ⟨u, rs, rfl, h1, h2⟩ := arguments_spaced ha hx fun c hcm => by
        obtain ⟨h1, h2⟩ := List.mem_filter.1 hcm
        refine ⟨hp.child h1, ?_⟩
        rcases hp.command c h1 with ⟨t, rfl⟩ | h
        · simp [Elem.kind] at h2
        · exact h
      exact .name h1 h2
  · cases h

theorem item_spaced {x : Place} {ps : List Piece} (h : itemTemplate x = .ok ps) : Spaced false ps false := by
  unfold itemTemplate at h
  dsimp only at h
  split at h
  · split at h
    · cases h
    · cases h
      exact .one (Joins.endsIn (by decide) (by decide))
  · split at h
    · cases h
    · cases h
      exact .one (Joins.endsIn (by decide) (by decide))
  · cases h

theorem label_spaced {x : Place} {e : Elem} {ps : List Piece} (h : labelTemplate x e = .ok ps) (hx : x.mode = .math) : Spaced false ps false := by
  unfold labelTemplate at h
  cases h1 : e.arguments.head? with
  | none => rw [h1] at h; cases h
  | some a =>
  cases h2 : undelimited a.text with
  | none => rw [h1] at h; simp only [bind, Except.bind, orCrash, h2, crash] at h; cases h
  | some l =>
  rw [h1] at h
  simp only [bind, Except.bind, orCrash, h2] at h
  split at h
  · cases h
    unfold inMode
    rw [if_neg (by rw [hx]; decide)]
    exact .nil _
  · cases h
    exact .keepLabel (.nil _)

theorem image_spaced {e : Elem} {ps : List Piece} (h : imageTemplate e = .ok ps) : Spaced false ps false := by
  have : ∃ t, ps = [.text (t ++ t!"\")")] := by
    unfold imageTemplate at h
    simp only [bind, Except.bind] at h
    repeat' (split at h)
    all_goals (first | (cases h; done) | (cases h; exact ⟨_, rfl⟩) | skip)
  obtain ⟨t, rfl⟩ := this
  exact .one (Joins.endsIn (by decide) (by decide))

theorem color_spaced {x : Place} {full : Text} {e : Elem} {ps : List Piece} (h : colorTemplate spec x full e = .ok ps) (hx : x.mode = .math)
    (hp : Fit e) : Spaced false ps false := by
  have hitem : ∀ c ∈ coloredParts full e, Item1 c := fun c hc => by
    rcases coloredParts_mem hc with ⟨a, ha, hc⟩ | hc
    · exact hp.argPart ha hc
    · exact hp.arg hc
  unfold colorTemplate at h
  split at h
  · cases h
  · cases h
    have hd : ∀ ps, inMode .math x ps = ps := fun ps => by unfold inMode; rw [if_pos hx]
    have ht : ∀ ps, inMode .text x ps = [] := fun ps => by unfold inMode; rw [if_neg (by rw [hx]; decide)]
    simp only [hd, ht]
    refine Spaced.append (b := false) (Spaced.append (b := false) (Spaced.append (b := false) (Spaced.append (b := false) ?_ ?_) ?_) ?_) (.nil _)
    · exact .one (Joins.endsIn (by decide) (by decide))
    · unfold colorPiece
      cases hc : coloredParts full e with
      | nil => exact .text (b := true) (by decide) (.one (by decide))
      | cons c cs => exact .before (hitem c (by rw [hc]; exact List.mem_cons_self)).1 (by decide) (.nil _)
    · refine Spaced.flatMap fun c hc => .text (b := false) (by decide) (.item hx (hitem c (List.mem_of_mem_tail hc)) (.one (by decide)))
    · exact .one (by decide)

theorem command_spaced {x : Place} {cs : List Elem} {ps : List Piece}
    (h : commandTemplate spec x (.node .itemCmd cs) = .ok ps) (hp : Fit (.node .itemCmd cs)) (hx : x.mode = .math) : Spaced false ps false := by
  unfold commandTemplate at h
  split at h
  · split at h
    · exact item_spaced h
    · split at h
      · exact label_spaced h hx
      · split at h
        · exact image_spaced h
        · split at h
          · exact color_spaced h hx hp
          · exact normal_spaced h hp hx
  · cases h

/-! ### Environments -/

theorem Fit.between {cs : List Elem} (h : Fit (.node .itemEnv cs)) {c : Elem} (hc : c ∈ between (.node .itemEnv cs)) : Item1 c := by
  have hm : c ∈ cs := (List.mem_filter.1 hc).1
  exact ⟨h.child hm, (h.self.1 c hm).2⟩

theorem mathEnv_spaced {x : Place} {env : LEnv} {tn : Text} {cs : List Elem} (hp : Fit (.node .itemEnv cs)) (hx : x.mode = .math) :
    Spaced false (mathEnvTemplate x env tn (.node .itemEnv cs)) false := by
  unfold mathEnvTemplate inMode
  dsimp only
  rw [if_neg (by rw [hx]; decide), if_neg (by rw [hx]; decide), List.nil_append, List.append_nil]
  refine Spaced.append (b := false) (Spaced.append (b := false) (Spaced.append (b := false) ?_ ?_) ?_) (.one (by decide))
  · exact .one (Joins.endsIn (by decide) (by decide))
  · refine Spaced.flatMap fun a ha => ?_
    exact .text (b := false) (Joins.endsIn (by decide) (by decide)) (.item rfl (hp.envArg (List.fst_mem_of_mem_zipIdx ha)) (.one (by decide)))
  · exact Spaced.each rfl fun c hc => hp.between hc

theorem caption_item {cs : List Elem} (h : Fit (.node .itemEnv cs)) {c : Elem} (hc : c ∈ caption (.node .itemEnv cs)) : Item1 c := by
  unfold caption at hc
  split at hc
  · rename_i d hd
    have hm := (List.mem_filter.1 (List.mem_of_getLast? hd)).1
    exact (h.child hm).arg (List.mem_of_mem_take hc)
  · cases hc

theorem figure_spaced {x : Place} {tn : Text} {cs : List Elem} {ps : List Piece} (h : figureTemplate x tn (.node .itemEnv cs) = .ok ps)
    (hp : Fit (.node .itemEnv cs)) (hx : x.mode = .math) : Spaced false ps false := by
  unfold figureTemplate at h
  dsimp only at h
  split at h
  · cases h
    refine Spaced.append (b := false) (Spaced.append (b := false) (Spaced.append (b := false) (Spaced.append (b := false) ?_ ?_) ?_) ?_) (.one (by decide))
    · exact .one (Joins.endsIn (by decide) (by decide))
    · exact Spaced.flatMap fun a ha => .text (b := false) (by decide) (.item hx (caption_item hp ha) (.one (by decide)))
    · exact .one (by decide)
    · exact Spaced.each (x := ⟨x.mode, .figure, x.lists⟩) hx fun c hc => hp.between (List.mem_filter.1 hc).1
  · cases h

theorem cellsRest_mem {c : Elem} : ∀ {es : List Elem}, c ∈ (cellsOf es).2 → c ∈ es
  | [], h => h
  | e :: es, h => by
    unfold cellsOf at h
    split at h
    · exact List.mem_cons_of_mem _ (cellsRest_mem h)
    · split at h
      · rcases List.mem_cons.1 h with rfl | h
        · exact List.mem_cons_self
        · exact List.mem_cons_of_mem _ (cellsRest_mem h)
      · exact List.mem_cons_of_mem _ (cellsRest_mem h)

theorem leadLines_joins (cell : List Elem) : Joins false (leadLines cell) false := by
  refine Joins.closed ?_
  unfold leadLines
  have : ∀ l : List Text, (∀ t ∈ l, endsW t = false) → endsW l.flatten = false := by
    intro l
    induction l with
    | nil => intro _; rfl
    | cons a l ih =>
      intro h
      rw [List.flatten_cons]
      have h1 := ih fun t ht => h t (List.mem_cons_of_mem _ ht)
      by_cases hl : l.flatten = []
      · rw [hl, List.append_nil]; exact h a List.mem_cons_self
      · unfold endsW at h1 ⊢
        rw [List.getLast?_append]
        rw [List.getLast?_eq_some_getLast hl] at h1 ⊢
        exact h1
  refine this _ fun t ht => ?_
  obtain ⟨e, _, rfl⟩ := List.mem_map.1 ht
  unfold ruleLine
  split
  · split <;> decide
  · rfl

theorem cells_spaced {y : Place} {es : List Elem} (h : ∀ c ∈ es, Item1 c) (hy : y.mode = .math) : Spaced false (cellsTemplate y es) false := by
  unfold cellsTemplate
  refine Spaced.append (b := false) (Spaced.append (b := false) (Spaced.flatMap fun c hcell => ?_) (.one (leadLines_joins _))) ?_
  · refine Spaced.append (b := false) (Spaced.append (b := false) (.one (Joins.endsIn (by decide) (by decide))) ?_) (.one ?_)
    · exact Spaced.each hy fun d hd => h d (cellsOf_mem c hcell ((List.dropWhile_suffix _).mem hd))
    · refine Joins.endsIn ?_ ?_ <;> (unfold separatorText; split <;> decide)
  · split
    · exact .nil _
    · exact .text (b := false) (by decide) (Spaced.each hy fun d hd => h d (cellsRest_mem ((List.dropWhile_suffix _).mem hd)))

theorem table_spaced {x : Place} {tn : Text} {cs : List Elem} {ps : List Piece} (h : tableTemplate x tn (.node .itemEnv cs) = .ok ps)
    (hp : Fit (.node .itemEnv cs)) (hx : x.mode = .math) : Spaced false ps false := by
  unfold tableTemplate at h
  cases h1 : (Elem.node .itemEnv cs).envArguments.head? with
  | none => rw [h1] at h; cases h
  | some arg =>
  cases h2 : undelimited arg.text with
  | none => rw [h1] at h; simp only [bind, Except.bind, orCrash, h2, crash] at h; cases h
  | some a =>
  rw [h1] at h
  simp only [bind, Except.bind, orCrash, h2] at h
  split at h
  · cases h
  · cases h
    refine Spaced.append (b := false) (Spaced.append (b := false) (.one ?_) (cells_spaced (y := ⟨x.mode, .table, x.lists⟩) (fun c h => hp.between h) hx)) (.one (by decide))
    unfold tableStart
    exact Joins.endsIn (by decide) (by decide)

theorem environment_spaced {x : Place} {cs : List Elem} {ps : List Piece}
    (h : environmentTemplate spec x (.node .itemEnv cs) = .ok ps) (hp : Fit (.node .itemEnv cs)) (hx : x.mode = .math) : Spaced false ps false := by
  unfold environmentTemplate at h
  cases h1 : (Elem.node .itemEnv cs).envName with
  | none => rw [h1] at h; cases h
  | some n =>
  rw [h1] at h
  simp only [bind, Except.bind, orCrash] at h
  have ht : inMode .text x [.putLabel] = [] := by unfold inMode; rw [if_neg (by rw [hx]; decide)]
  simp only [ht, List.append_nil] at h
  split at h
  · rename_i sh hs
    split at h
    · cases h; exact Spaced.each (x := ⟨x.mode, .itemize, x.lists + 1⟩) hx fun c hc => hp.between hc
    · cases h; exact Spaced.each (x := ⟨x.mode, .enumerate, x.lists + 1⟩) hx fun c hc => hp.between hc
    · cases h; exact mathEnv_spaced hp hx
    · cases h; exact mathEnv_spaced hp hx
    · cases h; exact mathEnv_spaced hp hx
    · cases hf : figureTemplate x (sh.alias.getD (trim n)) (.node .itemEnv cs) with
      | error e => rw [hf] at h; cases h
      | ok qs => rw [hf] at h; cases h; exact figure_spaced hf hp hx
    · cases hf : tableTemplate x (sh.alias.getD (trim n)) (.node .itemEnv cs) with
      | error e => rw [hf] at h; cases h
      | ok qs => rw [hf] at h; cases h; exact table_spaced hf hp hx
    · cases h
      refine Spaced.append (b := false) (Spaced.append (b := false) (.one (Joins.endsIn (by decide) (by decide))) ?_) (.one (by decide))
      exact Spaced.each (x := ⟨x.mode, .none, x.lists⟩) hx fun c hc => hp.between hc
  · cases h

/-! ### All templates -/

theorem word_joins {t : Text} : Joins false (wordText .math t) false := by
  refine Joins.closed ?_
  unfold wordText
  dsimp only
  rcases List.eq_nil_or_concat t with rfl | ⟨u, c, rfl⟩
  · rfl
  · rw [List.concat_eq_append, List.flatMap_append]
    unfold endsW
    rw [List.getLast?_append]
    rfl

theorem token_spaced {x : Place} {k : Kind} {t : Text} {ps : List Piece} (h : tokenTemplate spec x k t = .ok ps)
    (hp : CopiedOk k t) (hw : k ≠ .tokenCommandSym) (hx : x.mode = .math) : Spaced false ps false := by
  unfold tokenTemplate at h
  split at h
  · cases h; rw [hx]; exact .one word_joins
  · cases h
    refine .blank (fun k u he => ?_) (.nil _)
    cases he
    exact hp.2 (by decide)
  · cases h
    refine .text (b := false) (Joins.blank fun c hc => ?_) (.dropBlank (.nil _))
    rcases List.mem_append.1 hc with hc | hc
    · exact hp.2 (by decide) c hc
    · rw [List.eq_of_mem_replicate hc]; decide
  · exact absurd rfl hw
  · cases h

theorem script_spaced {x : Place} {cs : List Elem} (hcs : ∀ c ∈ cs, Item1 c) (hx : x.mode = .math) : Spaced false (scriptTemplate x cs) false := by
  unfold scriptTemplate
  dsimp only
  split
  · exact Spaced.each hx hcs
  · rename_i mark script hd
    have hm : mark ∈ cs := (List.dropWhile_suffix _).mem (hd ▸ List.mem_cons_self)
    have hscript : ∀ c ∈ script, Item1 c := fun c hc => hcs c ((List.dropWhile_suffix _).mem (hd ▸ List.mem_cons_of_mem _ hc))
    have hmark : isScriptMark mark = true := by
      have := List.head?_dropWhile_not (fun c => !isScriptMark c) cs
      rw [hd] at this
      simpa using this
    have hj : ∀ b, Joins b (mark.text ++ t!"(") false := by
      intro b
      have hp := (hcs mark hm).1.self.1
      cases mark with
      | node k cs => simp [isScriptMark, Elem.isNode] at hmark
      | token k t =>
        have ht : (Elem.token k t).text = t := by simp [Elem.text, Elem.leaves]
        rw [ht]
        simp only [isScriptMark, Elem.isNode, Elem.kind, Bool.not_false, Bool.true_and] at hmark
        have hmark := of_decide_eq_true hmark
        have hall : ∀ c ∈ t, inWord c = false := hp.2 (by rcases hmark with h | h <;> subst h <;> decide)
        refine Joins.mark ⟨by simp, ?_, ?_⟩
        · cases t with
          | nil => rfl
          | cons c t => exact hall c List.mem_cons_self
        · unfold endsW; rw [List.getLast?_append]; rfl
    refine Spaced.append (b := false) (Spaced.append (b := false) ?_ (Spaced.each hx hscript)) (.one (by decide))
    rw [List.append_assoc]
    refine Spaced.append (b := false) (Spaced.each hx fun c hc => hcs c ((List.takeWhile_prefix _).mem hc)) ?_
    split
    · exact .text .any (.one (hj _))
    · exact .one (hj _)

theorem delimiter_spaced {x : Place} {e : Elem} {ps : List Piece} (h : delimiterTemplate x e = .ok ps) (hp : Fit e) : Spaced false ps false := by
  unfold delimiterTemplate at h
  split at h
  · rename_i k t ds he
    cases ha : afterBackslash t with
    | none => rw [ha] at h; cases h
    | some name =>
      rw [ha] at h
      cases h
      have hds : ∀ d ∈ ds, Fit d := fun d hd => hp.child (by rw [he]; exact List.mem_cons_of_mem _ hd)
      refine Spaced.append (b := false) (Spaced.append (b := false) ?_ (Spaced.flatMap fun d hd => ?_)) ?_
      · split
        · exact .one (by decide)
        · exact .nil _
      · split
        · exact .one (by decide)
        · exact .before (hds d hd) (by decide) (.nil _)
      · split
        · exact .one (by decide)
        · exact .nil _
  · cases h

theorem templates_spaced : TemplatesSpaced spec := by
  intro x e ps h hp hx hk
  unfold template at h
  split at h
  · cases h; exact .nil _
  · split at h
    · rename_i c hl
      cases h
      refine .one (Joins.closed ?_)
      have : ∀ y ∈ escapedPunctuation, inWord y.2 = false := by decide
      have hm : (e.kind, c) ∈ escapedPunctuation := by
        revert hl
        generalize escapedPunctuation = l
        induction l with
        | nil => intro h; cases h
        | cons a l ih =>
          intro h
          rw [List.lookup_cons] at h
          split at h
          · rename_i he
            cases h
            obtain ⟨a1, a2⟩ := a
            rw [show e.kind = a1 from by simpa using he]
            exact List.mem_cons_self
          · exact List.mem_cons_of_mem _ (ih h)
      show inWord c = false
      exact this _ hm
    · split at h
      · cases h
      · cases h
      · cases h
      · cases h
      · cases h; exact .one (by decide)
      · cases h
        first
        | exact .one (by decide)
        | (rw [if_pos hx]; exact .one (by decide))
      · cases h
        unfold ampersandText
        split
        · exact .one (by decide)
        · exact .one (by decide)
      · cases h
        unfold newLineText
        split
        · exact .one (by decide)
        · exact .one (by decide)
        · exact .one (by decide)
        · exact .one (by decide)
      · cases e with
        | token k t => exact token_spaced h hp.self.1 hk hx
        | node k cs =>
          have hd : (∀ c ∈ cs, Whole c) → ∀ c ∈ cs, Item1 c := fun hw c hc => ⟨hp.child hc, (hw c hc).2⟩
          simp only [nodeTemplate] at h
          split at h
          · have hch := hd hp.self.1
            unfold formulaTemplate at h
            split at h
            · cases h
              have ht : ∀ ps, inMode .text x ps = [] := fun ps => by unfold inMode; rw [if_neg (by rw [hx]; decide)]
              rw [ht, ht, List.nil_append, List.append_nil]
              exact Spaced.each rfl hch
            · cases h
          · cases h
            unfold curlyTemplate
            refine Spaced.append (b := false)
              (Spaced.each (x := ⟨x.mode, if x.mode = .math ∧ x.env ≠ .subStack then .mathCurlyGroup else x.env, x.lists⟩) hx (hd hp.self.1)) ?_
            unfold inMode
            rw [if_pos hx]
            split
            · exact .one (by decide)
            · exact .nil _
          · exact delimiter_spaced h hp
          · cases h
            rw [if_pos hx]
            exact script_spaced (hd hp.self.1) hx
          · exact command_spaced h hp hx
          · exact environment_spaced h hp hx
          · cases h; exact .one (Joins.closed (hp.self.2 rfl))
          · cases h; exact .blank (fun k t he => (by cases he)) (.nil _)
          · split at h
            · rename_i hk
              cases h
              have hk := of_decide_eq_true hk
              simp only [List.mem_cons, List.not_mem_nil, or_false] at hk
              rcases hk with rfl | rfl | rfl | rfl | rfl | rfl
              · obtain ⟨l, es, hcs, ⟨ds, hl⟩, hr⟩ := hp.self.1
                have hcp : ∀ c ∈ cs, Fit c := fun c hc => hp.child hc
                refine Spaced.each hx fun c hc => ⟨hcp c hc, ?_⟩
                rw [hcs] at hc
                rcases List.mem_cons.1 hc with rfl | hc
                · rw [hl]; simp [Elem.kind]
                · rcases hr with hr | ⟨mid, r, he, hm, ds', hr⟩
                  · exact (hr c hc).2
                  · rw [he] at hc
                    rcases List.mem_append.1 hc with hc | hc
                    · exact (hm c hc).2
                    · rw [List.mem_singleton.1 hc, hr]; simp [Elem.kind]
              all_goals exact Spaced.each hx (hd hp.self.1)
            · cases h

end

end Mitex
