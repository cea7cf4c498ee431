/-
C45, C47: tables.
-/
import Verif.Props.ConvParts
import Verif.Proof.Table

namespace Mitex

/-- The label written after an environment: nothing, or `<l>` in text mode. -/
def LabelText (m : Mode) (t : Text) : Prop := t = [] ∨ m = .text ∧ ∃ l, t = t!"<" ++ l ++ t!">"

theorem flushLabel_text (s : CState) : ∃ t, LabelText s.mode t ∧ (flushLabel s).out = s.out ++ t := by
  unfold flushLabel
  by_cases h : s.mode = .text
  · rw [if_pos h]
    cases hl : s.label with
    | none => exact ⟨[], Or.inl rfl, by simp⟩
    | some l => exact ⟨_, Or.inr ⟨h, l, rfl⟩, by simp [CState.write]⟩
  · rw [if_neg h]
    exact ⟨[], Or.inl rfl, by simp⟩

theorem convert_table (spec : CommandSpec) (n : Nat) (cs : List Elem) (s : CState) (name : Text) (sh : EnvShape)
    (hn : (Elem.node .itemEnv cs).envName = some name) (hs : spec (trim name) = some (.env sh)) (hc : sh.ctx = .isTable) :
    convert spec (n + 1) (.node .itemEnv cs) s =
      (convTable (convert spec n) .table (sh.alias.getD (trim name)) (.node .itemEnv cs) { s with skip := false }).map flushLabel := by
  show convEnv (convert spec n) spec (.node .itemEnv cs) { s with skip := false } = _
  have hget : getEnv spec (trim name) = some sh := by unfold getEnv; rw [hs]
  unfold convEnv
  simp only [hn, hget]
  rw [hc]
  rw [if_neg (by decide)]
  unfold convEnvKind
  rw [if_neg (by decide)]
  dsimp only [CtxFeature.env]
  cases convTable (convert spec n) .table (sh.alias.getD (trim name)) (.node .itemEnv cs) { s with skip := false } <;> rfl

/-- C45 and C47: the text of a table, exactly.  The column specification (without the braces and the space at its ends) consists of
column characters; the header is as specified; then come all cells up to the last separator, each with its rules before
it, opened, converted and closed; then what is after the last separator. -/
theorem table_exact (spec : CommandSpec) (n : Nat) (cs : List Elem) (s s' : CState) (x : Place) (name cols : Text) (sh : EnvShape)
    (arg : Elem) (args : List Elem) (hx : At x s)
    (hn : (Elem.node .itemEnv cs).envName = some name) (hs : spec (trim name) = some (.env sh)) (hc : sh.ctx = .isTable)
    (ha : (Elem.node .itemEnv cs).envArguments = arg :: args) (ht : arg.text = '{' :: (cols ++ ['}']))
    (h : convert spec (n + 1) (.node .itemEnv cs) s = .ok s') :
    (∀ c ∈ trim cols, isColumnChar c) ∧
    ∃ cells rest label,
      CellsText (Yields (convert spec n) ⟨x.mode, .table, x.lists⟩) (cellsOf (between (.node .itemEnv cs))).1 cells ∧
      RestText (Yields (convert spec n) ⟨x.mode, .table, x.lists⟩) (cellsOf (between (.node .itemEnv cs))).2 rest ∧
      LabelText x.mode label ∧
      s'.out = s.out ++ tableStart (sh.alias.getD (trim name)) (trim cols) ++ cells ++ rest ++ t!");" ++ label := by
  rw [convert_table spec n cs s name sh hn hs hc] at h
  have hcols : ∀ c ∈ trim cols, isColumnChar c := by
    apply Decidable.byContradiction
    intro hnot
    obtain ⟨pre, c, post, hsplit, hpre, hbad⟩ : ∃ pre c post, trim cols = pre ++ c :: post ∧ (∀ d ∈ pre, isColumnChar d) ∧
        ¬ isColumnChar c := by
      generalize trim cols = t at hnot
      clear h ht
      induction t with
      | nil => exact absurd (by simp) hnot
      | cons d t ih =>
        by_cases hd : isColumnChar d
        · have : ¬ ∀ c ∈ t, isColumnChar c := fun hh => hnot fun c hm => by
            rcases List.mem_cons.mp hm with rfl | hm
            · exact hd
            · exact hh c hm
          obtain ⟨pre, c, post, h1, h2, h3⟩ := ih this
          refine ⟨d :: pre, c, post, by rw [h1]; rfl, ?_, h3⟩
          intro c hm
          rcases List.mem_cons.mp hm with rfl | hm
          · exact hd
          · exact h2 c hm
        · exact ⟨[], d, t, rfl, by simp, hd⟩
    unfold convTable at h
    rw [show asNode (.node .itemEnv cs) = .ok cs from rfl, ok_bind] at h
    simp only [ha] at h
    rw [ht, stripEnds_braces, ok_bind, hsplit, splitAlign_bad _ _ _ _ hpre hbad] at h
    cases h
  refine ⟨hcols, ?_⟩
  unfold convTable at h
  rw [show asNode (.node .itemEnv cs) = .ok cs from rfl, ok_bind] at h
  simp only [ha] at h
  have hal := splitAlign_ok (trim cols) [] hcols
  rw [show (columnLetters []).length = 0 from rfl] at hal
  rw [ht, stripEnds_braces, ok_bind, hal, ok_bind] at h
  dsimp only at h
  rw [show (((List.range (trim cols).length).filter fun i => decide ((trim cols)[i]? = some '|')).map
        (fun i => (columnLetters ([] ++ (trim cols).take i)).length)) = barPositions (trim cols) from rfl,
    tableHeader_eq _ _ hcols] at h
  have hx0 : At x { s with skip := false } := hx
  have hx1 := (hx0.enter .table).write (tableStart (sh.alias.getD (trim name)) (trim cols))
  rw [tableLoop_filter] at h
  have hb : cs.filter (fun c => !isBeginEnd c) = between (.node .itemEnv cs) := envBody_eq (.node .itemEnv cs)
  rw [hb] at h
  cases hr : tableLoop (convert spec n) (between (.node .itemEnv cs)) true
      ((({ s with skip := false } : CState).enterEnv .table).write (tableStart (sh.alias.getD (trim name)) (trim cols))) with
  | error y => rw [hr] at h; cases h
  | ok s1 =>
    rw [hr, ok_bind] at h
    have hbe : ∀ e ∈ between (.node .itemEnv cs), isBeginEnd e = false := fun e he => (between_mem he).2
    obtain ⟨u, r, hu, hrest, ho⟩ := (cells_loop (convert_framed spec n) _ hbe _ hx1).1 s1 hr
    cases hq : (s1.write t!");").exitEnv s.env with
    | error y => rw [hq] at h; cases h
    | ok s2 =>
      rw [hq] at h
      have h2 : s' = flushLabel s2 := by cases h; rfl
      subst h2
      have hm : s2.mode = x.mode := by
        have h1 : s1.mode = x.mode :=
          ((convert_framed spec n).tableLoop _ _ _ s1 hr).1.trans hx.1
        unfold CState.exitEnv at hq
        split at hq
        · split at hq
          · cases hq; exact h1
          · cases hq
        · cases hq; exact h1
      obtain ⟨lab, hlab, hlo⟩ := flushLabel_text s2
      refine ⟨u, r, lab, hu, hrest, by rw [← hm]; exact hlab, ?_⟩
      rw [hlo, exit_out hq, CState.write, ho]
      simp only [CState.write, CState.enterEnv, List.append_assoc]

/-- C45: the header has as many columns as the specification has letters, their alignments in order, and for each bar a vertical
line at the number of letters before it. -/
theorem C45_header (spec : CommandSpec) (n : Nat) (cs : List Elem) (s s' : CState) (name cols : Text) (sh : EnvShape)
    (arg : Elem) (args : List Elem)
    (hn : (Elem.node .itemEnv cs).envName = some name) (hs : spec (trim name) = some (.env sh)) (hc : sh.ctx = .isTable)
    (ha : (Elem.node .itemEnv cs).envArguments = arg :: args) (ht : arg.text = '{' :: (cols ++ ['}']))
    (h : convert spec (n + 1) (.node .itemEnv cs) s = .ok s') :
    ∃ body, s'.out = s.out ++ tableStart (sh.alias.getD (trim name)) (trim cols) ++ body := by
  have hx : At ⟨s.mode, s.env, 0⟩ { s with indent := 0 } := ⟨rfl, rfl, rfl⟩
  rw [convert_table spec n cs s name sh hn hs hc] at h
  unfold convTable at h
  rw [show asNode (.node .itemEnv cs) = .ok cs from rfl, ok_bind] at h
  simp only [ha] at h
  rw [ht, stripEnds_braces, ok_bind] at h
  have hcols : ∀ c ∈ trim cols, isColumnChar c := by
    cases hsp : splitAlign (trim cols) 0 with
    | error y => rw [hsp] at h; cases h
    | ok r =>
      clear h
      generalize trim cols = t at hsp
      have : ∀ (t : Text) (i : Nat) (r : List Char × List Nat), splitAlign t i = .ok r → ∀ c ∈ t, isColumnChar c := by
        intro t
        induction t with
        | nil => simp
        | cons d t ih =>
          intro i r hr c hm
          rw [splitAlign] at hr
          have hd : isColumnChar d ∧ ∃ j q, splitAlign t j = .ok q := by
            split at hr
            · rename_i hd
              refine ⟨?_, ?_⟩
              · rcases hd with hd | hd | hd
                · exact Or.inl hd
                · exact Or.inr (Or.inl hd)
                · exact Or.inr (Or.inr (Or.inl hd))
              · cases hq : splitAlign t (i + 1) with
                | error y => rw [hq] at hr; cases hr
                | ok q => exact ⟨_, q, hq⟩
            · split at hr
              · rename_i hd
                refine ⟨Or.inr (Or.inr (Or.inr hd)), ?_⟩
                cases hq : splitAlign t i with
                | error y => rw [hq] at hr; cases hr
                | ok q => exact ⟨_, q, hq⟩
              · cases hr
          obtain ⟨hd, j, q, hq⟩ := hd
          rcases List.mem_cons.mp hm with rfl | hm
          · exact hd
          · exact ih j q hq c hm
      exact this t 0 r hsp
  have hal := splitAlign_ok (trim cols) [] hcols
  rw [show (columnLetters []).length = 0 from rfl] at hal
  rw [hal, ok_bind] at h
  dsimp only at h
  rw [show (((List.range (trim cols).length).filter fun i => decide ((trim cols)[i]? = some '|')).map
        (fun i => (columnLetters ([] ++ (trim cols).take i)).length)) = barPositions (trim cols) from rfl,
    tableHeader_eq _ _ hcols] at h
  cases hr : tableLoop (convert spec n) cs true
      ((({ s with skip := false } : CState).enterEnv .table).write (tableStart (sh.alias.getD (trim name)) (trim cols))) with
  | error y => rw [hr] at h; cases h
  | ok s1 =>
    rw [hr, ok_bind] at h
    have hf := (convert_framed spec n).tableLoop _ _ _ s1 hr
    cases hq : (s1.write t!");").exitEnv s.env with
    | error y => rw [hq] at h; cases h
    | ok s2 =>
      rw [hq] at h
      have h2 : s' = flushLabel s2 := by cases h; rfl
      subst h2
      obtain ⟨lab, _, hlo⟩ := flushLabel_text s2
      obtain ⟨o, ho⟩ := hf.2.2.2
      refine ⟨o ++ t!");" ++ lab, ?_⟩
      rw [hlo, exit_out hq, CState.write, ho]
      simp only [CState.write, CState.enterEnv, List.append_assoc]

/-- C45: a character that is neither a column letter nor a bar is an error, which names the first such character. -/
theorem C45_unknown (spec : CommandSpec) (n : Nat) (cs : List Elem) (s : CState) (name cols pre post : Text) (c : Char) (sh : EnvShape)
    (arg : Elem) (args : List Elem)
    (hn : (Elem.node .itemEnv cs).envName = some name) (hs : spec (trim name) = some (.env sh)) (hc : sh.ctx = .isTable)
    (ha : (Elem.node .itemEnv cs).envArguments = arg :: args) (ht : arg.text = '{' :: (cols ++ ['}']))
    (hcols : trim cols = pre ++ c :: post) (hpre : ∀ d ∈ pre, isColumnChar d) (hbad : ¬ isColumnChar c) :
    convert spec (n + 1) (.node .itemEnv cs) s = .error (.error (t!"unknown alignment: " ++ [c])) := by
  rw [convert_table spec n cs s name sh hn hs hc]
  unfold convTable
  rw [show asNode (.node .itemEnv cs) = .ok cs from rfl, ok_bind]
  simp only [ha]
  rw [ht, stripEnds_braces, ok_bind, hcols, splitAlign_bad _ _ _ _ hpre hbad]
  rfl

/-- The tree of `\begin{tabular}{cols}\end{tabular}`, for a column specification that is one word. -/
def emptyTable (cols : Text) : List Elem :=
  [.node .itemBegin [.token .tokenCommandSym t!"tabular", .node .clauseArgument [.node .itemCurly
    [.token .tokenLBrace ['{'], .token .tokenWord cols, .token .tokenRBrace ['}']]]],
   .node .itemEnd [.token .tokenCommandSym t!"tabular"]]

/-- C45: for every column specification of column characters, an empty table is converted to its header alone. -/
theorem C45_empty_table (cols : Text) (h : ∀ c ∈ cols, isColumnChar c) (n : Nat) (s : CState) (hl : s.label = none) :
    ∃ s', convert defaultSpec (n + 1) (.node .itemEnv (emptyTable cols)) s = .ok s' ∧
      s'.out = s.out ++ tableStart t!"table" cols ++ t!");" := by
  have hws : ∀ c ∈ cols, isWs c = false := by
    intro c hc
    rcases h c hc with h | h | h | h <;> subst h <;> decide
  have htrim : trim cols = cols := by
    unfold trim trimStart trimEnd
    have hd : ∀ l : Text, (∀ c ∈ l, isWs c = false) → l.dropWhile isWs = l := by
      intro l hl
      cases l with
      | nil => rfl
      | cons c l => rw [List.dropWhile_cons, if_neg (by rw [hl c List.mem_cons_self]; decide)]
    rw [hd cols hws, hd _ (by intro c hc; exact hws c (List.mem_reverse.mp hc)), List.reverse_reverse]
  have hs : defaultSpec (trim t!"tabular") = some (.env ⟨.fixedLen 1, .isTable, some t!"table"⟩) := by decide +kernel
  rw [convert_table defaultSpec n (emptyTable cols) s t!"tabular" _ rfl hs rfl]
  unfold convTable
  rw [show asNode (.node .itemEnv (emptyTable cols)) = .ok (emptyTable cols) from rfl, ok_bind]
  have ha : (Elem.node .itemEnv (emptyTable cols)).envArguments = [.node .clauseArgument [.node .itemCurly
    [.token .tokenLBrace ['{'], .token .tokenWord cols, .token .tokenRBrace ['}']]]] := rfl
  simp only [ha]
  have ht : (Elem.node .clauseArgument [.node .itemCurly
    [.token .tokenLBrace ['{'], .token .tokenWord cols, .token .tokenRBrace ['}']]]).text = '{' :: (cols ++ ['}']) := by
    simp [Elem.text, Elem.leaves, Elem.leaves.go]
  have hal := splitAlign_ok cols [] h
  rw [show (columnLetters []).length = 0 from rfl] at hal
  rw [ht, stripEnds_braces, ok_bind, htrim, hal, ok_bind]
  dsimp only
  rw [show (((List.range cols.length).filter fun i => decide (cols[i]? = some '|')).map
        (fun i => (columnLetters ([] ++ cols.take i)).length)) = barPositions cols from rfl,
    tableHeader_eq _ _ h]
  refine ⟨_, rfl, ?_⟩
  show (flushLabel _).out = _
  unfold flushLabel
  split
  · simp only [CState.write, CState.enterEnv, hl]
    rfl
  · simp only [CState.write, CState.enterEnv]
    rfl

/-- The header of `l|cr`. -/
example : tableStart t!"table" t!"l|cr" = t!"#table(stroke: none,\ncolumns: 3,\nalign: (left, center, right, ),\ntable.vline(stroke: .5pt, x: 1), \n" := by
  decide +kernel

/-! ### C47 -/

/-- C47: every cell of a table that is ended by `&` or `\\` is written as `[`, its converted content and `]`, in order; rules and space
before the content are outside of the brackets. -/
theorem C47_cells (spec : CommandSpec) (n : Nat) (cs : List Elem) (s s' : CState) (x : Place) (name cols : Text) (sh : EnvShape)
    (arg : Elem) (args : List Elem) (hx : At x s)
    (hn : (Elem.node .itemEnv cs).envName = some name) (hs : spec (trim name) = some (.env sh)) (hc : sh.ctx = .isTable)
    (ha : (Elem.node .itemEnv cs).envArguments = arg :: args) (ht : arg.text = '{' :: (cols ++ ['}']))
    (h : convert spec (n + 1) (.node .itemEnv cs) s = .ok s') :
    ∃ cells rest label,
      CellsText (Yields (convert spec n) ⟨x.mode, .table, x.lists⟩) (cellsOf (between (.node .itemEnv cs))).1 cells ∧
      RestText (Yields (convert spec n) ⟨x.mode, .table, x.lists⟩) (cellsOf (between (.node .itemEnv cs))).2 rest ∧
      LabelText x.mode label ∧
      s'.out = s.out ++ tableStart (sh.alias.getD (trim name)) (trim cols) ++ cells ++ rest ++ t!");" ++ label :=
  (table_exact spec n cs s s' x name cols sh arg args hx hn hs hc ha ht h).2

/-- C47, what holds: if only space and rules follow the last `&` or `\\`, all cells are closed. The other case is `C47_unclosed`. -/
theorem C47_closed (spec : CommandSpec) (n : Nat) (cs : List Elem) (s s' : CState) (x : Place) (name cols : Text) (sh : EnvShape)
    (arg : Elem) (args : List Elem) (hx : At x s)
    (hn : (Elem.node .itemEnv cs).envName = some name) (hs : spec (trim name) = some (.env sh)) (hc : sh.ctx = .isTable)
    (ha : (Elem.node .itemEnv cs).envArguments = arg :: args) (ht : arg.text = '{' :: (cols ++ ['}']))
    (h : convert spec (n + 1) (.node .itemEnv cs) s = .ok s')
    (hr : ∀ e ∈ (cellsOf (between (.node .itemEnv cs))).2, isLead e = true) :
    ∃ cells label,
      CellsText (Yields (convert spec n) ⟨x.mode, .table, x.lists⟩) (cellsOf (between (.node .itemEnv cs))).1 cells ∧
      LabelText x.mode label ∧
      s'.out = s.out ++ tableStart (sh.alias.getD (trim name)) (trim cols) ++ cells ++
        ((cellsOf (between (.node .itemEnv cs))).2.map ruleLine).flatten ++ t!");" ++ label := by
  obtain ⟨cells, rest, label, h1, h2, h3, h4⟩ := C47_cells spec n cs s s' x name cols sh arg args hx hn hs hc ha ht h
  refine ⟨cells, label, h1, h3, ?_⟩
  have hd : ∀ l : List Elem, (∀ e ∈ l, isLead e = true) → cellContent l = [] ∧ leadLines l = (l.map ruleLine).flatten := by
    intro l hl
    induction l with
    | nil => exact ⟨rfl, rfl⟩
    | cons e l ih =>
      obtain ⟨i1, i2⟩ := ih fun e he => hl e (List.mem_cons_of_mem _ he)
      have he := hl e List.mem_cons_self
      unfold cellContent at i1
      unfold leadLines at i2
      unfold cellContent leadLines
      refine ⟨?_, ?_⟩
      · rw [List.dropWhile_cons, if_pos he, i1]
      · rw [List.takeWhile_cons, if_pos he]; simp [i2]
  unfold RestText at h2
  rw [if_pos (hd _ hr).1, (hd _ hr).2] at h2
  rw [h4, h2]

/-- C47 fails otherwise: the last cell of a table without a final `\\` is opened and never closed. -/
theorem C47_unclosed (spec : CommandSpec) (n : Nat) (cs : List Elem) (s s' : CState) (x : Place) (name cols : Text) (sh : EnvShape)
    (arg : Elem) (args : List Elem) (hx : At x s)
    (hn : (Elem.node .itemEnv cs).envName = some name) (hs : spec (trim name) = some (.env sh)) (hc : sh.ctx = .isTable)
    (ha : (Elem.node .itemEnv cs).envArguments = arg :: args) (ht : arg.text = '{' :: (cols ++ ['}']))
    (h : convert spec (n + 1) (.node .itemEnv cs) s = .ok s')
    (hr : ¬ ∀ e ∈ (cellsOf (between (.node .itemEnv cs))).2, isLead e = true) :
    ∃ cells content label,
      CellsText (Yields (convert spec n) ⟨x.mode, .table, x.lists⟩) (cellsOf (between (.node .itemEnv cs))).1 cells ∧
      Yields (convert spec n) ⟨x.mode, .table, x.lists⟩ (cellContent (cellsOf (between (.node .itemEnv cs))).2) content ∧
      LabelText x.mode label ∧
      s'.out = s.out ++ tableStart (sh.alias.getD (trim name)) (trim cols) ++ cells ++
        leadLines (cellsOf (between (.node .itemEnv cs))).2 ++ t!"[" ++ content ++ t!");" ++ label := by
  obtain ⟨cells, rest, label, h1, h2, h3, h4⟩ := C47_cells spec n cs s s' x name cols sh arg args hx hn hs hc ha ht h
  have hd : ∀ l : List Elem, cellContent l = [] → ∀ e ∈ l, isLead e = true := by
    intro l hl
    induction l with
    | nil => simp
    | cons e l ih =>
      unfold cellContent at hl ih
      rw [List.dropWhile_cons] at hl
      split at hl
      · rename_i he
        intro d hm
        rcases List.mem_cons.mp hm with rfl | hm
        · exact he
        · exact ih hl d hm
      · cases hl
  unfold RestText at h2
  rw [if_neg fun hh => hr (hd _ hh)] at h2
  obtain ⟨o, ho, rfl⟩ := h2
  refine ⟨cells, o, label, h1, ho, h3, ?_⟩
  rw [h4]
  simp only [List.append_assoc]

/-- C47 fails: end to end, a table with one cell. -/
theorem C47_unclosed_example : convertInner 50 defaultSpec t!"\\begin{tabular}{c} a \\end{tabular}" .text none false =
    .ok t!"#table(stroke: none,\ncolumns: 1,\nalign: (center, ),\n\n[a );" := by decide +kernel

/-- The cells of a list are its parts between separators. -/
theorem cellsOf_flat (es : List Elem) : ((cellsOf es).1.map fun c => c.1 ++ [c.2]).flatten ++ (cellsOf es).2 = es ∧
    (∀ c ∈ (cellsOf es).1, isSeparator c.2 = true ∧ ∀ e ∈ c.1, isSeparator e = false) ∧ ∀ e ∈ (cellsOf es).2, isSeparator e = false := by
  induction es with
  | nil => exact ⟨rfl, by simp [cellsOf], by simp [cellsOf]⟩
  | cons e es ih =>
    obtain ⟨h1, h2, h3⟩ := ih
    rw [cellsOf]
    by_cases hs : isSeparator e = true
    · rw [if_pos hs]
      refine ⟨by simp [h1], ?_, h3⟩
      intro c hc
      rcases List.mem_cons.mp hc with rfl | hc
      · exact ⟨hs, by simp⟩
      · exact h2 c hc
    · rw [if_neg hs]
      have hs' : isSeparator e = false := by simpa using hs
      cases hc : (cellsOf es).1 with
      | nil =>
        rw [hc] at h1
        refine ⟨by simpa using h1, by simp, ?_⟩
        intro d hd
        rcases List.mem_cons.mp hd with rfl | hd
        · exact hs'
        · exact h3 d hd
      | cons p cells =>
        obtain ⟨c, sep⟩ := p
        rw [hc] at h1 h2
        refine ⟨by simpa using h1, ?_, h3⟩
        intro q hq
        rcases List.mem_cons.mp hq with rfl | hq
        · refine ⟨(h2 (c, sep) List.mem_cons_self).1, ?_⟩
          intro d hd
          rcases List.mem_cons.mp hd with rfl | hd
          · exact hs'
          · exact (h2 (c, sep) List.mem_cons_self).2 d hd
        · exact h2 q (List.mem_cons_of_mem _ hq)

/-- `\begin{tabular}{l|c}\hline a & \\ \hline\end{tabular}`. -/
def sampleTable : List Elem :=
  [.node .itemBegin [.token .tokenCommandSym t!"tabular", .node .clauseArgument [.node .itemCurly
    [.token .tokenLBrace ['{'], .token .tokenWord t!"l|c", .token .tokenRBrace ['}']]]],
   .node .itemCmd [.token .clauseCommandName t!"\\hline"], .token .tokenWhiteSpace [' '],
   .node .itemText [.token .tokenWord ['a']], .token .tokenAmpersand ['&'], .token .tokenWhiteSpace [' '],
   .token .itemNewLine t!"\\\\", .token .tokenWhiteSpace [' '], .node .itemCmd [.token .clauseCommandName t!"\\hline"],
   .node .itemEnd [.token .tokenCommandSym t!"tabular"]]

/-- The hypotheses of the theorems about tables are met. -/
example : convertTree defaultSpec .text (.node .itemEnv sampleTable) = .ok
    t!"#table(stroke: none,\ncolumns: 2,\nalign: (left, center, ),\ntable.vline(stroke: .5pt, x: 1), \ntable.hline(stroke: .5pt),\n[a], [],\ntable.hline(stroke: .5pt),\n);" := by
  decide +kernel

example : (Elem.node .itemEnv sampleTable).envName = some t!"tabular" ∧
    (∃ arg args, (Elem.node .itemEnv sampleTable).envArguments = arg :: args ∧ arg.text = '{' :: (t!"l|c" ++ ['}'])) ∧
    (∀ e ∈ (cellsOf (between (.node .itemEnv sampleTable))).2, isLead e = true) ∧
    (cellsOf (between (.node .itemEnv sampleTable))).1.length = 2 := by
  refine ⟨rfl, ⟨_, _, rfl, ?_⟩, ?_, ?_⟩
  · decide +kernel
  · decide +kernel
  · decide +kernel

end Mitex
