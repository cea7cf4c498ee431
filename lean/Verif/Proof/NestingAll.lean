/-
The output is well nested: commands, environments, and all templates.
-/
import Verif.Proof.NestingTemplate

namespace Mitex

section
variable {spec : CommandSpec}

/-! ### Commands -/

/-- The children of a command. -/
theorem Proper.command {cs : List Elem} (h : Proper spec (.node .itemCmd cs)) :
    ∀ c ∈ cs, (∃ t, c = .token .clauseCommandName ('\\' :: t)) ∨ ∃ ds, c = .node .clauseArgument ds := h.self.1

theorem Proper.commandName {cs : List Elem} (h : Proper spec (.node .itemCmd cs)) {full : Text} (hf : (Elem.node .itemCmd cs).cmdName = some full) :
    ∃ t, full = '\\' :: t := by
  unfold Elem.cmdName at hf
  cases hx : (Elem.node Kind.itemCmd cs).children.find? fun c => !c.isNode && decide (c.kind = .clauseCommandName) with
  | none => rw [hx] at hf; cases hf
  | some c =>
    rw [hx] at hf
    cases hf
    rcases h.command c (List.mem_of_find?_eq_some hx) with ⟨t, rfl⟩ | ⟨ds, rfl⟩
    · exact ⟨t, rfl⟩
    · have := List.find?_some hx
      cases this

theorem whole_argument (ds : List Elem) : Whole (.node .clauseArgument ds) := by
  unfold Whole; exact ⟨by simp [Elem.kind], by simp [Elem.kind]⟩

theorem Proper.argChild {ds : List Elem} (h : Proper spec (.node .clauseArgument ds)) {c : Elem} (hc : c ∈ ds) : Proper spec c ∧ Whole c :=
  ⟨h.child hc, h.self.1 c hc⟩

theorem arguments_run {x : Place} {sh : CmdShape} {tn : Text} {args : List Elem} {ps : List Piece} {st : List Char}
    (h : argumentsTemplate x sh tn args = .ok ps) (hs : sh.args ≠ .right .none) (hc : Clear x.mode st)
    (ha : ∀ c ∈ args, Proper spec c ∧ ∃ ds, c = .node .clauseArgument ds) : Run spec ps st st := by
  have hw : ∀ c ∈ args, Proper spec c ∧ Whole c := fun c hc => by
    obtain ⟨h1, ds, rfl⟩ := ha c hc
    exact ⟨h1, whole_argument ds⟩
  unfold argumentsTemplate at h
  split at h
  · rename_i hn; exact absurd hn hs
  · split at h
    · rename_i k cs as
      cases h
      obtain ⟨h1, ds, hd⟩ := ha _ List.mem_cons_self
      cases hd
      refine Run.append (st1 := ')' :: st) (.fixed [] [')'] (by decide) hc ?_) (.fixed [')'] [] (by decide) hc (.nil _))
      exact commaList_run (fun c hc => h1.argChild hc) (Clear.paren _ _)
    · cases h
  · split at h
    · cases h
      refine Run.append (st1 := ')' :: st) (.fixed [] [')'] (by decide) hc ?_) (.fixed [')'] [] (by decide) hc (.nil _))
      exact commaList_run hw (Clear.paren _ _)
    · cases h
      refine Run.append (flatMap_run fun a h => ?_) (.one (.of_check (by decide)) hc)
      have h := hw a (List.mem_filter.1 h).1
      exact .fixed [] [']'] (by decide) hc (.part h.1 (.whole h.2 (Clear.bracket _ _)) (.fixed [']'] [] (by decide) hc (.nil _)))

theorem normal_run (hn : NamesNeutral spec) {x : Place} {name : Text} {cs : List Elem} {ps : List Piece} {st : List Char}
    (h : normalTemplate spec x name (.node .itemCmd cs) = .ok ps) (hp : Proper spec (.node .itemCmd cs)) (hc : Clear x.mode st) : Run spec ps st st := by
  unfold normalTemplate at h
  split at h
  · rename_i sh hs
    dsimp only at h
    cases ha : argumentsTemplate ⟨x.mode, if writtenName x.mode name sh = t!"substack" then .subStack else x.env, x.lists⟩ sh (writtenName x.mode name sh)
      ((Elem.node .itemCmd cs).children.filter fun c => decide (c.kind ≠ .clauseCommandName)) with
    | error e => rw [ha] at h; cases h
    | ok qs =>
      rw [ha] at h
      cases h
      have hwr : ∀ t, Neutral (sh.alias.getD name ++ t) → Neutral t → Neutral (writtenName x.mode name sh ++ t) := by
        intro t h1 h2
        unfold writtenName
        split
        · exact (Neutral.of_check (by decide)).append h2
        · split
          · exact (Neutral.of_check (by decide)).append h2
          · cases hal : sh.alias with
            | none => rw [hal] at h1; exact h1
            | some a => rw [hal] at h1; exact h1
      by_cases hargs : sh.args = .right .none
      · unfold argumentsTemplate at ha
        rw [hargs] at ha
        cases ha
        have := (hwr t!" " (hn.spaced hs) (.of_check (by decide))).nest hc
        rw [nest_append] at this
        cases hx : nest st (writtenName x.mode name sh) with
        | none => rw [hx] at this; cases this
        | some st1 =>
          rw [hx] at this
          exact .text hx (.text this (.nil _))
      · have hne := hwr [] (by rw [List.append_nil]; exact hn.called hs (.inl hargs)) (fun _ _ _ => rfl)
        rw [List.append_nil] at hne
        refine .neutral hne hc (arguments_run ha hargs hc ?_)
        intro c hcm
        obtain ⟨h1, h2⟩ := List.mem_filter.1 hcm
        refine ⟨hp.child h1, ?_⟩
        rcases hp.command c h1 with ⟨t, rfl⟩ | h
        · simp [Elem.kind] at h2
        · exact h
  · cases h

theorem Proper.argPart {e a c : Elem} (h : Proper spec e) (ha : a ∈ e.arguments) (hc : c ∈ a.children) : Proper spec c ∧ Whole c := by
  obtain ⟨h1, h2⟩ := h.arg ha
  have hk : a.kind = .clauseArgument := by
    unfold Elem.arguments at ha
    exact of_decide_eq_true (List.mem_filter.1 ha).2
  cases a with
  | token k t => cases hc
  | node k cs =>
    have hk : k = .clauseArgument := hk
    subst hk
    exact h1.argChild hc

theorem afterBackslash_name {t name full : Text} (h : afterBackslash full = some name) (hf : full = '\\' :: t) : full = '\\' :: name := by
  subst hf
  unfold afterBackslash at h
  split at h
  · rename_i c n he
    cases he
    split at h
    · cases h; rfl
    · cases h
  · cases h

theorem command_run (hn : NamesNeutral spec) {x : Place} {cs : List Elem} {ps : List Piece} {st : List Char}
    (h : commandTemplate spec x (.node .itemCmd cs) = .ok ps) (hp : Proper spec (.node .itemCmd cs)) (hc : Clear x.mode st) : Run spec ps st st := by
  have ht := hp.self.2
  unfold commandTemplate at h
  split at h
  · rename_i full name h1 h2
    split at h
    · exact item_run h hc
    · split at h
      · rename_i _ hl
        exact label_run h hc (ht.label rfl (hl ▸ h2))
      · split at h
        · rename_i _ _ hl
          exact image_run h hc (ht.image rfl (hl ▸ h2))
        · split at h
          · rename_i hcol
            obtain ⟨t, hf⟩ := hp.commandName h1
            have hb : full = '\\' :: name := by
              unfold bareName at h2
              rw [h1] at h2
              exact afterBackslash_name h2 hf
            refine color_run hn h hb hcol hc (ht.color rfl full h1 name h2 hcol) fun c hc => ?_
            rcases coloredParts_mem hc with ⟨a, ha, hc⟩ | hc
            · exact hp.argPart ha hc
            · exact hp.arg hc
          · exact normal_run hn h hp hc
  · cases h

/-! ### Environments -/

theorem digit_without {d : Nat} (h : d < 10) : Without ('\\' :: marks) [Char.ofNat (48 + d)] := by
  have : ∀ i : Fin 10, Without ('\\' :: marks) [Char.ofNat (48 + i.1)] := by decide
  exact this ⟨d, h⟩

theorem decimal_without (n : Nat) : Without ('\\' :: marks) (decimal n) := by
  rw [← natText_eq]
  have : ∀ fuel n, Without ('\\' :: marks) (natDigits fuel n) := by
    intro fuel
    induction fuel with
    | zero => intro n c hc; cases hc
    | succ fuel ih =>
      intro n
      rw [natDigits]
      split
      · rename_i h; exact digit_without h
      · exact Without.append (ih _) (digit_without (by omega))
  exact this _ _

theorem Proper.between {cs : List Elem} (h : Proper spec (.node .itemEnv cs)) {c : Elem} (hc : c ∈ between (.node .itemEnv cs)) :
    Proper spec c ∧ Whole c := by
  have hm : c ∈ cs := (List.mem_filter.1 hc).1
  exact ⟨h.child hm, h.self.1 c hm⟩

theorem mathEnv_run {x : Place} {env : LEnv} {tn : Text} {cs : List Elem} {st : List Char} (ht : Neutral tn)
    (hp : Proper spec (.node .itemEnv cs)) (hc : Clear x.mode st) : Run spec (mathEnvTemplate x env tn (.node .itemEnv cs)) st st := by
  have key : ∀ st, Clear .math st → Run spec ([.text (tn ++ t!"(")]
      ++ (Elem.node .itemEnv cs).envArguments.zipIdx.flatMap
        (fun a => [.text (t!"arg" ++ decimal a.2 ++ t!": "), .part ⟨.math, env, x.lists⟩ a.1, .text t!","])
      ++ each ⟨.math, env, x.lists⟩ (Mitex.between (.node .itemEnv cs)) ++ [.text t!")"]) st st := by
    intro st hc
    have r1 : Run spec [.text (tn ++ t!"(")] st (')' :: st) := .cut (.neutral ht hc (.fixed [] [')'] (by decide) hc (.nil _)))
    have r2 : Run spec ((Elem.node .itemEnv cs).envArguments.zipIdx.flatMap
        (fun a => [.text (t!"arg" ++ decimal a.2 ++ t!": "), .part ⟨.math, env, x.lists⟩ a.1, .text t!","])) (')' :: st) (')' :: st) := by
      refine flatMap_run fun a ha => ?_
      have h := hp.envArg (List.fst_mem_of_mem_zipIdx ha)
      refine .neutral (neutral_without (Without.append (Without.append (by decide) (decimal_without _)) (by decide))) (Clear.paren .math _) ?_
      exact .part h.1 (.whole h.2 (Clear.paren _ _)) (.one (.of_check (by decide)) (Clear.paren .math _))
    have r3 : Run spec [.text t!")"] (')' :: st) st := .fixed [')'] [] (by decide) hc (.nil _)
    exact ((r1.append r2).append (.each (fun c h => hp.between h) (Clear.paren _ _))).append r3
  unfold mathEnvTemplate inMode
  dsimp only
  by_cases hm : x.mode = .text
  · rw [if_pos hm, if_pos hm]
    rw [hm] at hc
    have r1 : Run spec [.text t!"$ "] st ('$' :: st) := .given [] ['$'] (d := true) (by decide) hc (fun _ => rfl) (.nil _)
    have r2 : Run spec [.text t!" $"] ('$' :: st) st := .fixed ['$'] [] (by decide) hc (.nil _)
    have := (r1.append (key _ (Clear.dollar _))).append r2
    simpa only [List.append_assoc] using this
  · rw [if_neg hm, if_neg hm, List.nil_append, List.append_nil]
    exact key st hc.math

theorem caption_proper {cs : List Elem} (h : Proper spec (.node .itemEnv cs)) {c : Elem} (hc : c ∈ caption (.node .itemEnv cs)) :
    Proper spec c ∧ Whole c := by
  unfold caption at hc
  split at hc
  · rename_i d hd
    have hm := (List.mem_filter.1 (List.mem_of_getLast? hd)).1
    exact (h.child hm).arg (List.mem_of_mem_take hc)
  · cases hc

theorem figure_run {x : Place} {tn : Text} {cs : List Elem} {ps : List Piece} {st : List Char} (h : figureTemplate x tn (.node .itemEnv cs) = .ok ps)
    (ht : Neutral tn) (hp : Proper spec (.node .itemEnv cs)) (hc : Clear x.mode st) : Run spec ps st st := by
  unfold figureTemplate at h
  dsimp only at h
  split at h
  · cases h
    have r1 : Run spec [.text (t!"#" ++ tn ++ t!"(")] st (')' :: st) :=
      .cut (.cut (.neutral (.of_check (by decide)) hc (.neutral ht hc (.fixed [] [')'] (by decide) hc (.nil _)))))
    have r2 : Run spec ((caption (.node .itemEnv cs)).flatMap (fun c => [.text t!"caption: [", .part ⟨x.mode, .figure, x.lists⟩ c, .text t!"],"]))
        (')' :: st) (')' :: st) := by
      refine flatMap_run fun a ha => ?_
      have h := caption_proper hp ha
      exact .fixed [')'] [']', ')'] (by decide) hc (.part h.1 (.whole h.2 (Clear.bracket _ _)) (.fixed [']', ')'] [')'] (by decide) hc (.nil _)))
    have r3 : Run spec [.text t!")["] (')' :: st) (']' :: st) := .fixed [')'] [']'] (by decide) hc (.nil _)
    have r4 : Run spec [.text t!"];"] (']' :: st) st := .fixed [']'] [] (by decide) hc (.nil _)
    exact (((r1.append r2).append r3).append (.each (fun c h => hp.between (List.mem_filter.1 h).1) (Clear.bracket _ _))).append r4
  · cases h

theorem cellsOf_mem {c : Elem} : ∀ {es : List Elem}, (∀ cell ∈ (cellsOf es).1, c ∈ cell.1 → c ∈ es)
  | [] => fun cell h _ => by cases h
  | e :: es => by
    intro cell h hc
    rw [cellsOf] at h
    split at h
    · rcases List.mem_cons.1 h with rfl | h
      · cases hc
      · exact List.mem_cons_of_mem _ (cellsOf_mem cell h hc)
    · split at h
      · cases h
      · rename_i d sep cells he
        rcases List.mem_cons.1 h with rfl | h
        · rcases List.mem_cons.1 hc with rfl | hc
          · exact List.mem_cons_self
          · exact List.mem_cons_of_mem _ (cellsOf_mem (d, sep) (he ▸ List.mem_cons_self) hc)
        · exact List.mem_cons_of_mem _ (cellsOf_mem cell (he ▸ List.mem_cons_of_mem _ h) hc)

theorem neutral_flatten {ts : List Text} (h : ∀ t ∈ ts, Neutral t) : Neutral ts.flatten := by
  rw [← List.flatMap_id]
  exact neutral_flatMap h

theorem leadLines_neutral (cell : List Elem) : Neutral (leadLines cell) := by
  unfold leadLines
  refine neutral_flatten fun t ht => ?_
  obtain ⟨e, _, rfl⟩ := List.mem_map.1 ht
  unfold ruleLine
  split
  · split
    · exact .of_check (by decide)
    · exact .of_check (by decide)
  · exact fun _ _ _ => rfl

theorem tableStart_nest {tn a : Text} (ht : Neutral tn) {m : Mode} {st : List Char} (hc : Clear m st) : nest st (tableStart tn a) = some (')' :: st) := by
  unfold tableStart
  have hp := Clear.paren Mode.math st
  have h1 : nest st (t!"#" ++ tn ++ t!"(stroke: none,\n") = some (')' :: st) := by
    refine nest_step (nest_step (st1 := st) ?_ (ht.nest hc)) ?_
    · exact (Neutral.of_check (by decide)).nest hc
    · exact nestIn_sound (a := []) (b := [')']) (d := false) hc (fun h => (by cases h)) (by decide)
  refine nest_step (nest_step (nest_step (nest_step (nest_step (nest_step (nest_step (nest_step h1 (st2 := ')' :: st) ?_) (st2 := ')' :: st) ?_)
    (st2 := ')' :: st) ?_) (st2 := ')' :: ')' :: st) ?_) (st2 := ')' :: ')' :: st) ?_) (st2 := ')' :: st) ?_) (st2 := ')' :: st) ?_) ?_
  · exact (Neutral.of_check (by decide)).nest hp
  · exact (neutral_without (decimal_without _)).nest hp
  · exact (Neutral.of_check (by decide)).nest hp
  · exact nestIn_sound (a := [')']) (b := [')', ')']) (d := false) hc (fun h => (by cases h)) (by decide)
  · refine Neutral.nest (neutral_flatten fun t ht => ?_) (Clear.paren Mode.math _)
    obtain ⟨c, _, rfl⟩ := List.mem_map.1 ht
    unfold columnAlign
    split
    · exact .of_check (by decide)
    · split
      · exact .of_check (by decide)
      · exact .of_check (by decide)
  · exact nestIn_sound (a := [')', ')']) (b := [')']) (d := false) hc (fun h => (by cases h)) (by decide)
  · refine Neutral.nest (neutral_flatten fun t ht => ?_) hp
    obtain ⟨c, _, rfl⟩ := List.mem_map.1 ht
    intro st h1 h2
    have hc : Clear .math st := ⟨h1, h2, fun h => (by cases h)⟩
    refine nest_step (nest_step (st1 := ')' :: st) ?_ ((neutral_without (decimal_without _)).nest (Clear.paren .math _))) ?_
    · exact nestIn_sound (a := []) (b := [')']) (d := false) hc (fun h => (by cases h)) (by decide)
    · exact nestIn_sound (a := [')']) (b := []) (d := false) hc (fun h => (by cases h)) (by decide)
  · exact (Neutral.of_check (by decide)).nest hp

theorem cells_run {y : Place} {es : List Elem} {st : List Char} (h : ∀ c ∈ es, Proper spec c ∧ Whole c) (hl : cellContent (cellsOf es).2 = [])
    (hc : Clear y.mode st) : Run spec (cellsTemplate y es) st st := by
  unfold cellsTemplate
  rw [hl]
  refine Run.append (st1 := st) (Run.append (flatMap_run fun c hcell => ?_) (.one (leadLines_neutral _) hc)) (.nil _)
  have r1 : Run spec [.text (leadLines c.1 ++ t!"[")] st (']' :: st) :=
    .cut (.neutral (leadLines_neutral _) hc (.fixed [] [']'] (by decide) hc (.nil _)))
  have r2 : Run spec [.text (t!"]" ++ separatorText c.2)] (']' :: st) st := by
    refine .cut (.fixed [']'] [] (by decide) hc (.one ?_ hc))
    unfold separatorText
    split
    · exact .of_check (by decide)
    · exact .of_check (by decide)
  refine (r1.append (.each (fun d hd => h d (cellsOf_mem c hcell ?_)) (Clear.bracket _ _))).append r2
  exact (List.dropWhile_suffix _).mem hd

theorem table_run {x : Place} {tn : Text} {cs : List Elem} {ps : List Piece} {st : List Char} (h : tableTemplate x tn (.node .itemEnv cs) = .ok ps)
    (ht : Neutral tn) (hp : Proper spec (.node .itemEnv cs)) (hl : cellContent (cellsOf (between (.node .itemEnv cs))).2 = [])
    (hc : Clear x.mode st) : Run spec ps st st := by
  unfold tableTemplate at h
  cases h1 : (Elem.node .itemEnv cs).envArguments.head? with
  | none => rw [h1] at h; cases h
  | some arg =>
  cases h2 : undelimited arg.text with
  | none => rw [h1] at h; simp only [bind, Except.bind, orCrash, h2, crash] at h; cases h
  | some a =>
  rw [h1] at h
  simp only [bind, Except.bind, orCrash, h2] at h
  split at h
  · cases h
  · cases h
    have r1 : Run spec [.text (tableStart tn (trim a))] st (')' :: st) := .text (tableStart_nest ht hc) (.nil _)
    have r2 : Run spec [.text t!");"] (')' :: st) st := .fixed [')'] [] (by decide) hc (.nil _)
    exact (r1.append (cells_run (y := ⟨x.mode, .table, x.lists⟩) (fun c h => hp.between h) hl (Clear.paren _ _))).append r2

theorem environment_run (hn : NamesNeutral spec) {x : Place} {cs : List Elem} {ps : List Piece} {st : List Char}
    (h : environmentTemplate spec x (.node .itemEnv cs) = .ok ps) (hp : Proper spec (.node .itemEnv cs)) (hc : Clear x.mode st) : Run spec ps st st := by
  unfold environmentTemplate at h
  cases h1 : (Elem.node .itemEnv cs).envName with
  | none => rw [h1] at h; cases h
  | some n =>
  rw [h1] at h
  simp only [bind, Except.bind, orCrash] at h
  have hput : Run spec (inMode .text x [.putLabel]) st st := by
    unfold inMode
    split
    · exact .putLabel hc.math (.nil _)
    · exact .nil _
  split at h
  · rename_i sh hs
    have ht := hn.2 _ _ hs
    split at h
    · cases h; exact .each (fun c h => hp.between h) hc
    · cases h; exact .each (fun c h => hp.between h) hc
    · cases h; exact (mathEnv_run ht hp hc).append hput
    · cases h; exact (mathEnv_run ht hp hc).append hput
    · cases h; exact (mathEnv_run ht hp hc).append hput
    · cases hf : figureTemplate x (sh.alias.getD (trim n)) (.node .itemEnv cs) with
      | error e => rw [hf] at h; cases h
      | ok qs =>
        rw [hf] at h
        cases h
        exact (figure_run hf ht hp hc).append hput
    · rename_i htab
      cases hf : tableTemplate x (sh.alias.getD (trim n)) (.node .itemEnv cs) with
      | error e => rw [hf] at h; cases h
      | ok qs =>
        rw [hf] at h
        cases h
        exact (table_run hf ht hp (hp.self.2.table rfl n h1 sh hs htab) hc).append hput
    · cases h
      refine Run.append ?_ hput
      have r1 : Run spec [.text (t!"#" ++ sh.alias.getD (trim n) ++ t!"[")] st (']' :: st) :=
        .cut (.cut (.neutral (.of_check (by decide)) hc (.neutral ht hc (.fixed [] [']'] (by decide) hc (.nil _)))))
      have r2 : Run spec [.text t!"];"] (']' :: st) st := .fixed [']'] [] (by decide) hc (.nil _)
      exact (r1.append (.each (fun c h => hp.between h) (Clear.bracket _ _))).append r2
  · cases h

/-! ### All elements -/

theorem word_without {m : Mode} {t : Text} (h : Without ('\\' :: marks) t) : Without ('\\' :: marks) (wordText m t) := by
  cases m with
  | text => exact h
  | math =>
    intro c hc
    obtain ⟨d, hd, hc⟩ := List.mem_flatMap.1 hc
    rcases List.mem_cons.1 hc with rfl | hc
    · exact h _ hd
    · rcases List.mem_cons.1 hc with rfl | hc
      · decide
      · cases hc

theorem token_run {x : Place} {k : Kind} {t : Text} {ps : List Piece} {st : List Char} (h : tokenTemplate spec x k t = .ok ps)
    (hp : CopiedOk k t) (hw : k ≠ .tokenCommandSym) (hc : Clear x.mode st) : Run spec ps st st := by
  unfold tokenTemplate at h
  split at h
  · cases h; exact .one (neutral_without (word_without (hp.1 (by decide)))) hc
  · cases h
    refine .blank (fun k u he => ?_) hc.math (.nil _)
    cases he
    exact neutral_without (hp.1 (by decide))
  · cases h
    refine .neutral (neutral_without (Without.append (hp.1 (by decide)) ?_)) hc (.dropBlank (.nil _))
    intro c hc
    rw [List.eq_of_mem_replicate hc]
    decide
  · exact absurd rfl hw
  · cases h

theorem each_append (x : Place) (a b : List Elem) : each x (a ++ b) = each x a ++ each x b := List.map_append

theorem lr_run {x : Place} {cs : List Elem} {st : List Char} (hp : Proper spec (.node .itemLR cs)) (hc : Clear x.mode st) :
    Run spec (each x cs) st st := by
  obtain ⟨l, es, hcs, ⟨ds, hl⟩, hr⟩ := hp.self.1
  obtain ⟨l', es', r', hcs', hk⟩ := hp.self.2.delimiters rfl
  have hcs' : cs = l' :: (es' ++ [r']) := hcs'
  rw [hcs] at hcs'
  cases hcs'
  rcases hr with hr | ⟨mid, r, he, hm, ds', hr⟩
  · exact absurd hk (hr r' (by simp)).1
  · have := List.append_inj' he rfl
    obtain ⟨rfl, h2⟩ := this
    cases h2
    subst hcs
    have hcp : ∀ c ∈ l :: (es' ++ [r']), Proper spec c := fun c hc => hp.child hc
    show Run spec (.part x l :: each x (es' ++ [r'])) st st
    rw [each_append]
    have hl' := hcp l (by simp)
    have hr' := hcp r' (by simp)
    subst hl hr
    refine .part hl' (.left ds hc) (.append (st1 := ')' :: st) (.each (fun c hc => ⟨hcp c (by simp [hc]), hm c hc⟩) (Clear.paren _ _)) ?_)
    exact .part hr' (.right ds') (.nil _)

theorem delimiter_run (hn : NamesNeutral spec) {x : Place} {name : Text} {ds : List Elem} {ps : List Piece} {st : List Char}
    (h : delimiterTemplate x (.node .clauseLR (.token .clauseCommandName ('\\' :: name) :: ds)) = .ok ps)
    (hp : Proper spec (.node .clauseLR (.token .clauseCommandName ('\\' :: name) :: ds))) :
    (Clear x.mode st → name = t!"left" → Run spec ps st (')' :: st)) ∧ (name = t!"right" → Run spec ps (')' :: st) st) := by
  have hds : ∀ d ∈ ds, Proper spec d ∧ d.kind ≠ .clauseLR := by
    obtain ⟨t, es, he, hes⟩ := hp.self.1
    cases he
    exact fun d hd => ⟨hp.child (List.mem_cons_of_mem _ hd), hes d hd⟩
  have h : Except.ok ((if name = t!"left" then [.text t!"lr("] else [])
      ++ ds.flatMap (fun d => (if isDot d then [] else [.part x d]) ++ [.text t!" "])
      ++ (if name = t!"right" then [.text t!")"] else [])) = (Except.ok ps : Res _) := h
  cases h
  constructor
  · intro hc hl
    subst hl
    rw [if_pos rfl, if_neg (by decide), List.append_nil]
    exact .fixed [] [')'] (by decide) hc (delim_run hn hds (Clear.paren _ _))
  · intro hr
    subst hr
    rw [if_neg (by decide), if_pos rfl, List.nil_append]
    refine (delim_run hn hds (Clear.paren _ _)).append (.text ?_ (.nil _))
    rw [nest_cons, nestStep_clear (Clear.paren .math st)]
    rfl

theorem templates_run (hn : NamesNeutral spec) : TemplatesRun spec := by
  intro x e ps st st' h hp hm
  cases hm with
  | symbol h1 h2 h3 =>
    rename_i t _ _
    have : template spec x (.token .tokenCommandSym t) = tokenTemplate spec x .tokenCommandSym t := rfl
    rw [this] at h
    simp only [tokenTemplate, h1, orCrash, bind, Except.bind, h2] at h
    cases h
    exact .text h3 (.nil _)
  | unknown h1 =>
    rename_i t
    have : template spec x (.token .tokenCommandSym t) = tokenTemplate spec x .tokenCommandSym t := rfl
    rw [this] at h
    cases ha : afterBackslash t with
    | none => simp only [tokenTemplate, ha, orCrash, bind, Except.bind, crash] at h; cases h
    | some name =>
      simp only [tokenTemplate, ha, orCrash, bind, Except.bind] at h
      split at h
      · rename_i sh hs; exact absurd hs (h1 name ha sh)
      · cases h
  | odd cs => cases h
  | left ds hc => exact (delimiter_run hn (ps := ps) h hp).1 hc rfl
  | right ds => exact (delimiter_run hn (ps := ps) h hp).2 rfl
  | whole hw hc =>
    unfold template at h
    split at h
    · cases h; exact .nil _
    · split at h
      · rename_i c hl
        cases h
        refine .text ?_ (.nil _)
        rw [nest_cons, nestStep_clear hc, if_pos rfl]
        rfl
      · split at h
        · cases h
        · cases h
        · cases h
        · cases h
        · cases h; exact .one (.of_check (by decide)) hc
        · cases h
          split
          · exact .one (.of_check (by decide)) hc
          · exact .one (.of_check (by decide)) hc
        · cases h
          unfold ampersandText
          split
          · exact .one (.of_check (by decide)) hc
          · exact .one (.of_check (by decide)) hc
        · cases h
          unfold newLineText
          split
          · exact .one (.of_check (by decide)) hc
          · exact .one (.of_check (by decide)) hc
          · exact .one (.of_check (by decide)) hc
          · exact .one (.of_check (by decide)) hc
        · cases e with
          | token k t => exact token_run h hp.self.1 hw.2 hc
          | node k cs =>
            have hd : (∀ c ∈ cs, Whole c) → ∀ c ∈ cs, Proper spec c ∧ Whole c := fun hx c hc => ⟨hp.child hc, hx c hc⟩
            simp only [nodeTemplate] at h
            split at h
            · exact formula_run h (hd hp.self.1) hc
            · cases h; exact curly_run (hd hp.self.1) hc
            · exact absurd rfl hw.1
            · cases h
              split
              · exact script_run (hd hp.self.1) hc
              · exact .each (hd hp.self.1) hc
            · exact command_run hn h hp hc
            · exact environment_run hn h hp hc
            · cases h; exact .one (hp.self.2.code rfl) hc
            · cases h; exact .blank (fun k t he => (by cases he)) hc.math (.nil _)
            · split at h
              · rename_i hk
                cases h
                have hk := of_decide_eq_true hk
                simp only [List.mem_cons, List.not_mem_nil, or_false] at hk
                rcases hk with rfl | rfl | rfl | rfl | rfl | rfl
                · exact lr_run hp hc
                all_goals exact .each (hd hp.self.1) hc
              · cases h

end

end Mitex
