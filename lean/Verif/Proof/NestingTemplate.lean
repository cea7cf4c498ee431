/-
The output is well nested: the templates, one by one.
-/
import Verif.Proof.Nesting

namespace Mitex

section
variable {spec : CommandSpec}

theorem Run.each {cs : List Elem} {y : Place} {st : List Char} (h : ∀ c ∈ cs, Proper spec c ∧ Whole c) (hc : Clear y.mode st) :
    Run spec (each y cs) st st := by
  induction cs with
  | nil => exact .nil _
  | cons c cs ih =>
    exact .part (h c List.mem_cons_self).1 (.whole (h c List.mem_cons_self).2 hc) (ih fun d hd => h d (List.mem_cons_of_mem _ hd))

/-- A given text. -/
theorem Run.given (a b : List Char) {d : Bool} {t : Text} {ps : List Piece} {m : Mode} {st st2 : List Char} (h : nestIn d a t = some b)
    (hc : Clear m st) (hd : d = true → m = .text) (k : Run spec ps (b ++ st) st2) : Run spec (.text t :: ps) (a ++ st) st2 :=
  .text (nestIn_sound hc hd h) k

theorem Run.neutral {t : Text} {ps : List Piece} {m : Mode} {st st2 : List Char} (h : Neutral t)
    (hc : Clear m st) (k : Run spec ps st st2) : Run spec (.text t :: ps) st st2 :=
  .text (h.nest hc) k

theorem Run.one {t : Text} {m : Mode} {st : List Char} (h : Neutral t) (hc : Clear m st) : Run spec [.text t] st st := .neutral h hc (.nil _)

/-- Concatenated texts may be split. -/
theorem Run.cut {a b : Text} {ps : List Piece} {st st2 : List Char} (h : Run spec (.text a :: .text b :: ps) st st2) :
    Run spec (.text (a ++ b) :: ps) st st2 := by
  cases h with
  | text h1 k =>
    cases k with
    | text h2 k => exact .text (nest_step h1 h2) k

theorem commaList_run {cs : List Elem} {k : Kind} {y : Place} {st : List Char} (h : ∀ c ∈ cs, Proper spec c ∧ Whole c) (hc : Clear y.mode st) :
    Run spec (commaList k y cs) st st := by
  induction cs with
  | nil => exact .nil _
  | cons c cs ih =>
    have hcc := h c List.mem_cons_self
    cases cs with
    | nil => exact .part hcc.1 (.whole hcc.2 hc) (.nil _)
    | cons d cs =>
      refine .part hcc.1 (.whole hcc.2 hc) (.append (st1 := st) ?_ (ih fun d hd => h d (List.mem_cons_of_mem _ hd)))
      split
      · exact .one (.of_check (by decide)) hc
      · exact .nil _

theorem flatMap_run {α : Type} {f : α → List Piece} {st : List Char} {as : List α} (h : ∀ a ∈ as, Run spec (f a) st st) :
    Run spec (as.flatMap f) st st := by
  induction as with
  | nil => exact .nil _
  | cons a as ih =>
    rw [List.flatMap_cons]
    exact (h a List.mem_cons_self).append (ih fun b hb => h b (List.mem_cons_of_mem _ hb))

theorem mem_trim {c : Char} {t : Text} (h : c ∈ trim t) : c ∈ t := by
  unfold trim trimEnd trimStart at h
  rw [List.mem_reverse] at h
  have := (List.dropWhile_suffix (p := isWs)).mem h
  rw [List.mem_reverse] at this
  exact (List.dropWhile_suffix (p := isWs)).mem this

theorem Without.trim {bad : List Char} {t : Text} (h : Without bad t) : Without bad (trim t) := fun c hc => h c (mem_trim hc)

/-! ### Formulas, groups, delimiters, scripts -/

theorem formula_run {x : Place} {e : Elem} {ps : List Piece} {st : List Char} (h : formulaTemplate x e = .ok ps)
    (hcs : ∀ c ∈ e.children, Proper spec c ∧ Whole c) (hc : Clear x.mode st) : Run spec ps st st := by
  unfold formulaTemplate at h
  split at h
  · cases h
    unfold inMode
    by_cases hm : x.mode = .text
    · rw [if_pos hm, if_pos hm]
      rw [hm] at hc
      by_cases hi : e.isInline = true
      · rw [if_pos hi, if_pos hi]
        refine .append (.append (.given [] ['$', ')'] (d := true) (by decide) hc (fun _ => rfl) (.nil _)) (.each hcs (Clear.dollar _))) ?_
        exact .given ['$', ')'] [] (d := false) (by decide) hc (fun h => (by cases h)) (.nil _)
      · rw [if_neg hi, if_neg hi]
        refine .append (.append (.given [] ['$'] (d := true) (by decide) hc (fun _ => rfl) (.nil _)) (.each hcs (Clear.dollar _))) ?_
        exact .given ['$'] [] (d := false) (by decide) hc (fun h => (by cases h)) (.nil _)
    · rw [if_neg hm, if_neg hm]
      simp only [List.nil_append, List.append_nil]
      exact .each hcs hc.math
  · cases h

theorem curly_run {x : Place} {e : Elem} {st : List Char} (hcs : ∀ c ∈ e.children, Proper spec c ∧ Whole c) (hc : Clear x.mode st) :
    Run spec (curlyTemplate x e) st st := by
  refine .append (.each hcs hc) ?_
  unfold inMode
  split
  · split
    · exact .one (.of_check (by decide)) hc
    · exact .nil _
  · exact .nil _

theorem NamesNeutral.spaced (hn : NamesNeutral spec) {name : Text} {sh : CmdShape} (h : spec name = some (.cmd sh)) :
    Neutral (sh.alias.getD name ++ t!" ") := by
  have := hn.1 name sh h
  split at this
  · exact this
  · exact this.append (.of_check (by decide))

theorem NamesNeutral.called (hn : NamesNeutral spec) {name : Text} {sh : CmdShape} (h : spec name = some (.cmd sh))
    (ha : sh.args ≠ .right .none ∨ isColorCommand name) : Neutral (sh.alias.getD name) := by
  have := hn.1 name sh h
  rw [if_neg] at this
  · exact this
  · rintro ⟨h1, h2⟩
    rcases ha with h | h
    · exact h h1
    · exact h2 h

theorem delim_run (hn : NamesNeutral spec) {x : Place} {ds : List Elem} {st : List Char} (hds : ∀ d ∈ ds, Proper spec d ∧ d.kind ≠ .clauseLR)
    (hc : Clear x.mode st) : Run spec (ds.flatMap fun d => (if isDot d then [] else [.part x d]) ++ [.text t!" "]) st st := by
  refine flatMap_run fun d hd => ?_
  have hsp : Run spec [.text t!" "] st st := .one (.of_check (by decide)) hc
  split
  · exact hsp
  · obtain ⟨h1, h2⟩ := hds d hd
    by_cases hk : d.kind = .tokenCommandSym
    · cases d with
      | node k cs =>
        have := h1.self.1
        have hk : k = .tokenCommandSym := hk
        subst hk
        -- a node of this kind has no template; it may do anything
        exact .part h1 (.odd cs) hsp
      | token k t =>
        have hk : k = .tokenCommandSym := hk
        subst hk
        by_cases hs : ∃ name sh, afterBackslash t = some name ∧ spec name = some (.cmd sh)
        · obtain ⟨name, sh, e1, e2⟩ := hs
          have hne := (hn.spaced e2).nest hc
          rw [nest_append] at hne
          cases hx : nest st (sh.alias.getD name) with
          | none => rw [hx] at hne; cases hne
          | some st1 =>
            rw [hx] at hne
            exact .part h1 (.symbol e1 e2 hx) (.text hne (.nil _))
        · exact .part h1 (.unknown fun name e1 sh e2 => hs ⟨name, sh, e1, e2⟩) hsp
    · exact .part h1 (.whole ⟨h2, hk⟩ hc) hsp

theorem script_run {x : Place} {cs : List Elem} {st : List Char} (hcs : ∀ c ∈ cs, Proper spec c ∧ Whole c) (hc : Clear x.mode st) :
    Run spec (scriptTemplate x cs) st st := by
  unfold scriptTemplate
  dsimp only
  split
  · exact .each hcs hc
  · rename_i mark script hd
    have hm : mark ∈ cs := (List.dropWhile_suffix _).mem (hd ▸ List.mem_cons_self)
    have hs : ∀ c ∈ script, c ∈ cs := fun c h => (List.dropWhile_suffix _).mem (hd ▸ List.mem_cons_of_mem _ h)
    have hb : ∀ c ∈ cs.takeWhile (fun c => !isScriptMark c), c ∈ cs := fun c h => (List.takeWhile_prefix _).mem h
    have hmark : isScriptMark mark = true := by
      have := List.head?_dropWhile_not (fun c => !isScriptMark c) cs
      rw [hd] at this
      simpa using this
    have hneu : Neutral mark.text := by
      have hp := (hcs mark hm).1.self.1
      cases mark with
      | node k cs => simp [isScriptMark, Elem.isNode] at hmark
      | token k t =>
        have ht : (Elem.token k t).text = t := by simp [Elem.text, Elem.leaves]
        rw [ht]
        refine neutral_without (hp.1 ?_)
        simp only [isScriptMark, Elem.isNode, Elem.kind, Bool.not_false, Bool.true_and] at hmark
        have hmark := of_decide_eq_true hmark
        rcases hmark with h | h <;> subst h <;> decide
    have r1 : Run spec (if (cs.takeWhile fun c => !isScriptMark c).all isSpaceToken then [.text t!"zws"] else []) st st := by
      split
      · exact .one (.of_check (by decide)) hc
      · exact .nil _
    have r2 : Run spec [.text (mark.text ++ t!"(")] st (')' :: st) :=
      .cut (.neutral hneu hc (.given [] [')'] (d := false) (by decide) hc (fun h => (by cases h)) (.nil _)))
    have r3 : Run spec [.text t!")"] (')' :: st) st := .given [')'] [] (d := false) (by decide) hc (fun h => (by cases h)) (.nil _)
    exact ((((Run.each (fun c h => hcs c (hb c h)) hc).append r1).append r2).append (Run.each (fun c h => hcs c (hs c h)) (Clear.paren _ st))).append r3

/-! ### Commands -/

theorem nest_marks {m : Mode} {st : List Char} (h : Clear m st) {t : Text} (hw : Without marks t) :
    (nest st t = some st ∨ nest st t = some ('\\' :: st)) ∧ (nest ('\\' :: st) t = some st ∨ nest ('\\' :: st) t = some ('\\' :: st)) := by
  induction t with
  | nil => exact ⟨.inl rfl, .inr rfl⟩
  | cons c t ih =>
    obtain ⟨i1, i2⟩ := ih fun d hd => hw d (List.mem_cons_of_mem _ hd)
    have hc := hw c List.mem_cons_self
    simp only [marks, List.mem_cons, List.not_mem_nil, or_false, not_or] at hc
    constructor
    · rw [nest_cons, nestStep_clear h]
      by_cases hb : c = '\\'
      · simp only [hb, if_true]; exact i2
      · simp only [hb, hc, if_false, or_self]; exact i1
    · rw [nest_cons]
      exact i1

/-- A text without marks, before a comma and a space. -/
theorem neutral_marks {t : Text} (hw : Without marks t) : Neutral (t ++ t!", ") := by
  intro st h1 h2
  have hc : Clear .math st := ⟨h1, h2, fun h => (by cases h)⟩
  have hs : nest st t!", " = some st := (Neutral.of_check (t := t!", ") (by decide)).nest hc
  have hs2 : nest ('\\' :: st) t!", " = some st := by
    rw [nest_cons]
    exact (Neutral.of_check (t := t!" ") (by decide)).nest hc
  rcases (nest_marks hc hw).1 with h | h
  · exact nest_step h hs
  · exact nest_step h hs2

theorem mem_splitOn {a c : Char} {t p : Text} (hp : p ∈ t.splitOn a) (hc : c ∈ p) : c ∈ t := by
  have h := List.intercalate_splitOn (xs := t) a
  have : ∀ ps : List Text, p ∈ ps → c ∈ [a].intercalate ps := by
    intro ps
    induction ps with
    | nil => intro h; cases h
    | cons q qs ih =>
      intro h
      cases qs with
      | nil =>
        rcases List.mem_cons.1 h with rfl | h
        · simpa [List.intercalate] using hc
        · cases h
      | cons q2 qs =>
        have e : [a].intercalate (q :: q2 :: qs) = q ++ a :: [a].intercalate (q2 :: qs) := by simp [List.intercalate, List.intersperse]
        rw [e]
        rcases List.mem_cons.1 h with rfl | h
        · exact List.mem_append_left _ hc
        · exact List.mem_append_right _ (List.mem_cons_of_mem _ (ih h))
  rw [← h]
  exact this _ hp

theorem mem_withoutEnd {c : Char} (suf t : Text) : c ∈ withoutEnd suf t → c ∈ t := by
  induction t using withoutEnd.induct suf with
  | case1 t h ih =>
    rw [withoutEnd, dif_pos h]
    exact fun hc => List.mem_of_mem_take (ih hc)
  | case2 t h => rw [withoutEnd, dif_neg h]; exact id

theorem Without.append {bad : List Char} {a b : Text} (h : Without bad a) (k : Without bad b) : Without bad (a ++ b) := by
  intro c hc
  rcases List.mem_append.1 hc with hc | hc
  · exact h c hc
  · exact k c hc

theorem lengthText_without {v : Text} (h : Without marks v) : Without marks (lengthText v) := by
  unfold lengthText
  have hp : Without marks t!" * 100%" := by decide
  split
  · exact Without.append (fun c hc => h c (mem_withoutEnd _ _ hc)) hp
  · split
    · exact Without.append (fun c hc => h c (mem_withoutEnd _ _ hc)) hp
    · exact h

theorem imageOption_neutral {o : Text} (h : Without marks o) : Neutral (imageOption o) := by
  unfold imageOption
  dsimp only
  split
  · rename_i hk
    have hkey : ∀ key : Text, key = t!"width" ∨ key = t!"height" → Without marks key := by
      rintro key (rfl | rfl)
      · decide
      · decide
    have e : ∀ a b c d : Text, a ++ b ++ c ++ d = (a ++ b ++ c) ++ d := fun _ _ _ _ => rfl
    rw [e]
    refine neutral_marks (Without.append (Without.append (hkey _ hk) (by decide)) (lengthText_without ?_))
    split
    · refine Without.trim ?_
      intro c hc
      rcases hg : (trim o).splitOn '=' with _ | ⟨a, l⟩
      · rw [hg] at hc; cases hc
      · have hm : ((trim o).splitOn '=').getLastD [] ∈ (trim o).splitOn '=' := by
          rw [hg]
          simp [List.getLastD, List.getLast_mem]
        exact h c (mem_trim (mem_splitOn hm hc))
    · intro c hc; cases hc
  · intro st _ _; rfl

theorem neutral_flatMap {α : Type} {f : α → Text} : ∀ {as : List α}, (∀ a ∈ as, Neutral (f a)) → Neutral (as.flatMap f)
  | [], _ => fun _ _ _ => rfl
  | a :: as, h => by
    rw [List.flatMap_cons]
    exact (h a List.mem_cons_self).append (neutral_flatMap fun b hb => h b (List.mem_cons_of_mem _ hb))

theorem nest_quoted {st : List Char} : ∀ {t : Text}, Without ['\\', '"'] t → nest ('"' :: st) t = some ('"' :: st)
  | [], _ => rfl
  | c :: t, h => by
    have hc := h c List.mem_cons_self
    simp only [List.mem_cons, List.not_mem_nil, or_false, not_or] at hc
    rw [nest_cons]
    have : nestStep ('"' :: st) c = some ('"' :: st) := by
      show (if c = '"' then _ else if c = '\\' then _ else _) = _
      rw [if_neg hc.2, if_neg hc.1]
    rw [this]
    exact nest_quoted fun d hd => h d (List.mem_cons_of_mem _ hd)

theorem orCrash_ok {α : Type} {o : Option α} {a : α} (h : orCrash o = .ok a) : o = some a := by
  cases o with
  | none => cases h
  | some b => cases h; rfl

theorem groupArgument_spec {k : Kind} {args : List Elem} {a : Elem} (h : groupArgument k args = .ok (some a)) :
    a ∈ args ∧ ∃ c, a.childNodes.head? = some c ∧ c.kind = k := by
  unfold groupArgument at h
  split at h
  · cases h
  · rename_i b bs hd
    split at h
    · cases h
    · rename_i hne
      cases h
      refine ⟨(List.dropWhile_suffix _).mem (hd ▸ List.mem_cons_self), ?_⟩
      have := List.head?_dropWhile_not (startsOther k) args
      rw [hd] at this
      simp only [List.head?_cons] at this
      unfold startsOther at this
      cases hl : a.childNodes with
      | nil => rw [hl] at hne; exact absurd rfl hne
      | cons c cs =>
        rw [hl] at this
        exact ⟨c, rfl, by simpa using this⟩

theorem image_run {e : Elem} {ps : List Piece} {st : List Char} (h : imageTemplate e = .ok ps) {m : Mode} (hc : Clear m st)
    (ht : ∀ a ∈ e.arguments, ∀ l ∈ undelimited a.text,
      (∀ c ∈ a.childNodes.head?, c.kind = .itemBracket → Without marks l) ∧
      (∀ c ∈ a.childNodes.head?, c.kind = .itemCurly → Without ['\\', '"'] l)) : Run spec ps st st := by
  unfold imageTemplate at h
  cases h1 : groupArgument .itemBracket e.arguments with
  | error x => rw [h1] at h; cases h
  | ok opt =>
  cases h2 : groupArgument .itemCurly e.arguments with
  | error x => rw [h1, h2] at h; cases h
  | ok file? =>
  cases file? with
  | none => rw [h1, h2] at h; cases h
  | some file =>
  cases h4 : undelimited file.text with
  | none => rw [h1, h2] at h; simp only [bind, Except.bind, orCrash, h4, crash] at h; cases h
  | some f =>
  rw [h1, h2] at h
  simp only [bind, Except.bind, orCrash, h4] at h
  have hf : Without ['\\', '"'] (trim f) := by
    obtain ⟨g1, g2⟩ := groupArgument_spec h2
    obtain ⟨c, hh, hk⟩ := g2
    exact Without.trim ((ht file g1 f h4).2 c hh hk)
  obtain ⟨o, ho, hps⟩ : ∃ o, Neutral o ∧ ps = [.text (t!"#image(" ++ o ++ t!"\"" ++ trim f ++ t!"\")")] := by
    cases opt with
    | none => cases h; exact ⟨[], fun _ _ _ => rfl, rfl⟩
    | some a =>
      cases hu : undelimited a.text with
      | none => simp only [hu, crash, Except.map] at h; cases h
      | some t =>
        simp only [hu, Except.map] at h
        cases h
        obtain ⟨g1, c, hh, hk⟩ := groupArgument_spec h1
        have hw : Without marks t := (ht a g1 t hu).1 c hh hk
        exact ⟨_, neutral_flatMap fun p hp => imageOption_neutral fun c hc => hw c (mem_trim (mem_splitOn hp hc)), rfl⟩
  subst hps
  refine .text (st1 := st) (nest_step (st1 := '"' :: ')' :: st) (nest_step (st1 := '"' :: ')' :: st)
    (nest_step (st1 := ')' :: st) (nest_step (st1 := ')' :: st) ?_ (ho.nest (Clear.paren .math st))) ?_) (nest_quoted hf)) ?_) (.nil _)
  · exact nestIn_sound (a := []) (b := [')']) (d := false) hc (fun h => (by cases h)) (by decide)
  · exact nestIn_sound (a := [')']) (b := ['"', ')']) (d := false) hc (fun h => (by cases h)) (by decide)
  · exact nestIn_sound (a := ['"', ')']) (b := []) (d := false) hc (fun h => (by cases h)) (by decide)


/-- A given text that does not need text mode. -/
theorem Run.fixed (a b : List Char) {t : Text} {ps : List Piece} {m : Mode} {st st2 : List Char} (h : nestIn false a t = some b)
    (hc : Clear m st) (k : Run spec ps (b ++ st) st2) : Run spec (.text t :: ps) (a ++ st) st2 :=
  .given a b h hc (fun h => (by cases h)) k

theorem color_run (hn : NamesNeutral spec) {x : Place} {full name : Text} {e : Elem} {ps : List Piece} {st : List Char}
    (h : colorTemplate spec x full e = .ok ps) (hb : full = '\\' :: name) (hcol : isColorCommand name) (hc : Clear x.mode st)
    (hm : ∀ m ∈ colorModel full e, Without ('\\' :: marks) m) (hp : ∀ c ∈ coloredParts full e, Proper spec c ∧ Whole c) : Run spec ps st st := by
  unfold colorTemplate at h
  split at h
  · cases h
  · cases h
    have hf : Neutral (colorFunction spec full) := by
      unfold colorFunction
      have : (if full.head? = some '\\' then full.tail else []) = name := by rw [hb]; rfl
      rw [this]
      split
      · rename_i sh hs
        have := hn.called hs (.inr hcol)
        cases ha : sh.alias with
        | none => exact .of_check (by decide)
        | some a => rw [ha] at this; exact this
      · exact .of_check (by decide)
    have hmod : Neutral (match colorModel full e with
      | some m => t!"[" ++ m ++ t!"]"
      | none => t!"none") := by
      split
      · rename_i m hmm
        intro st h1 h2
        have hc : Clear .math st := ⟨h1, h2, fun h => (by cases h)⟩
        refine nest_step (nest_step (st1 := ']' :: st) ?_ (nest_without (Clear.bracket .math st) (hm m hmm))) ?_
        · exact nestIn_sound (a := []) (b := [']']) (d := false) hc (fun h => (by cases h)) (by decide)
        · exact nestIn_sound (a := [']']) (b := []) (d := false) hc (fun h => (by cases h)) (by decide)
      · exact .of_check (by decide)
    have r1 : Run spec [.text (colorFunction spec full ++ t!"(" ++ (match colorModel full e with
      | some m => t!"[" ++ m ++ t!"]"
      | none => t!"none") ++ t!", [")] st (']' :: ')' :: st) := by
      refine .cut (.cut (.cut (.neutral hf hc (.fixed [] [')'] (by decide) hc (.neutral hmod (Clear.paren .math st) ?_)))))
      exact .fixed [')'] [']', ')'] (by decide) hc (.nil _)
    have r2 : Run spec [colorPiece x (coloredParts full e), .text t!"])["] (']' :: ')' :: st) (']' :: st) := by
      have r : Run spec [.text t!"])["] (']' :: ')' :: st) (']' :: st) := .fixed [']', ')'] [']'] (by decide) hc (.nil _)
      unfold colorPiece
      split
      · exact .neutral (.of_check (by decide)) (Clear.bracket .math _) r
      · rename_i c cs hcp
        obtain ⟨h1, h2⟩ := hp c (hcp ▸ List.mem_cons_self)
        exact .part h1 (.whole h2 (Clear.bracket _ _)) r
    have r3 : Run spec ((coloredParts full e).tail.flatMap (fun b => inMode .math x [.text t!"$"] ++ [.part x b] ++ inMode .math x [.text t!"$"]))
        (']' :: st) (']' :: st) := by
      refine flatMap_run fun b hb => ?_
      obtain ⟨h1, h2⟩ := hp b (List.mem_of_mem_tail hb)
      unfold inMode
      by_cases hx : x.mode = .math
      · rw [if_pos hx]
        refine .fixed [']'] ['$', ']'] (by decide) hc (.part h1 (.whole h2 ?_) ?_)
        · rw [hx]; exact Clear.dollar _
        · exact .fixed ['$', ']'] [']'] (by decide) hc (.nil _)
      · rw [if_neg hx]
        exact .part h1 (.whole h2 (Clear.bracket _ _)) (.nil _)
    have r4 : Run spec [.text t!"]"] (']' :: st) st := .fixed [']'] [] (by decide) hc (.nil _)
    have r5 : Run spec (inMode .text x [.text t!";"]) st st := by
      unfold inMode
      split
      · exact .one (.of_check (by decide)) hc
      · exact .nil _
    exact (((r1.append r2).append r3).append r4).append r5

theorem coloredParts_mem {full : Text} {e c : Elem} (h : c ∈ coloredParts full e) :
    (∃ a ∈ e.arguments, c ∈ a.children) ∨ c ∈ e.arguments := by
  unfold coloredParts at h
  split at h
  · split at h
    · cases h
    · rename_i a as ha
      refine .inl ⟨a, ha ▸ List.mem_cons_self, ?_⟩
      split at h
      · cases h
      · rename_i b cs hd
        have hb : ∀ d ∈ b :: cs, d ∈ a.children := fun d hd' => (List.dropWhile_suffix _).mem (hd ▸ hd')
        have h := (List.dropWhile_suffix _).mem h
        split at h
        · unfold afterBracket at h
          exact hb c (List.mem_cons_of_mem _ ((List.dropWhile_suffix _).mem (List.mem_of_mem_tail h)))
        · exact hb c h
  · split at h
    · cases h
    · rename_i a as ha
      refine .inr ?_
      rw [ha]
      split at h
      · exact List.mem_cons_of_mem _ h
      · exact h

theorem item_run {x : Place} {ps : List Piece} {st : List Char} (h : itemTemplate x = .ok ps) (hc : Clear x.mode st) : Run spec ps st st := by
  have hs : ∀ (mark : Text), Without ('\\' :: marks) mark → ∀ n, Without ('\\' :: marks) (t!"\n" ++ List.replicate n ' ' ++ mark) := by
    intro mark hm n
    refine Without.append (Without.append (by decide) ?_) hm
    intro c hc
    rw [List.eq_of_mem_replicate hc]
    decide
  unfold itemTemplate at h
  dsimp only at h
  split at h
  · split at h
    · cases h
    · cases h; exact .one (neutral_without (hs _ (by decide) _)) hc
  · split at h
    · cases h
    · cases h; exact .one (neutral_without (hs _ (by decide) _)) hc
  · cases h

theorem label_run {x : Place} {e : Elem} {ps : List Piece} {st : List Char} (h : labelTemplate x e = .ok ps) (hc : Clear x.mode st)
    (ht : ∀ a ∈ e.arguments.head?, ∀ l ∈ undelimited a.text, Without ('\\' :: marks) l) : Run spec ps st st := by
  unfold labelTemplate at h
  cases h1 : e.arguments.head? with
  | none => rw [h1] at h; cases h
  | some a =>
  cases h2 : undelimited a.text with
  | none => rw [h1] at h; simp only [bind, Except.bind, orCrash, h2, crash] at h; cases h
  | some l =>
  rw [h1] at h
  simp only [bind, Except.bind, orCrash, h2] at h
  have hl := Without.trim (ht a h1 l h2)
  split at h
  · cases h
    unfold inMode
    split
    · exact .one (neutral_without (Without.append (Without.append (by decide) hl) (by decide))) hc
    · exact .nil _
  · cases h
    exact .keepLabel (neutral_without hl) (.nil _)

end

end Mitex
