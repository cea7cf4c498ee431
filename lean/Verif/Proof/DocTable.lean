/-
Tables in documents (Spec/Document.lean): how the grammar reads them, and what the templates make of them.
-/
import Verif.Proof.DocImage

namespace Mitex
open Grammar (Item Items Row)

/-! ## Commands without arguments -/

/-- No bracket follows. -/
def NoBracket (k : List Tok) : Prop := ∀ t, k.head? = some t → t.1 ≠ .left .bracket

theorem fitsNothing_over {p : ArgPattern} {sc : Scope} (h : FitsNothing p) {k : Token} (hk : k ≠ .left .bracket) :
    Grammar.argsOver globPrefix sc p [] k = true := by
  unfold Grammar.argsOver
  have h1 : Grammar.argKindOf k ≠ .bracket := by
    unfold Grammar.argKindOf
    split
    · rename_i b
      cases b
      · exact fun h => (by cases h)
      · exact absurd rfl hk
      · exact fun h => (by cases h)
    · exact fun h => (by cases h)
  have h2 : Grammar.takes globPrefix p [] (Grammar.argKindOf k) = false := by
    cases h3 : Grammar.takes globPrefix p [] (Grammar.argKindOf k) with
    | false => rfl
    | true => exact absurd (h.2.2.2 _ h3) h1
  rw [h2]
  simp

theorem args_nothing {spec : CommandSpec} {sc : Scope} {p : ArgPattern} {ts : List Tok} (h : FitsNothing p) (hs : Soft ts) (hb : NoBracket ts) :
    ∀ bs : List Blank, Grammar.Args ⟨spec, globPrefix⟩ sc p [] (fillToks bs ++ ts) [] (fillToks bs) ts
  | [] => .over fun t ht => ⟨(hs t ht).1, (hs t ht).2, fitsNothing_over h (hb t ht)⟩
  | c :: bs => by
    have := Grammar.Args.blank (t := c.tok) (by cases c <;> rfl) (args_nothing (spec := spec) h hs hb bs (sc := sc))
    simpa [fillToks] using this

theorem Prose.noBracket {spec : CommandSpec} {x : Place} {rest : Text} (p : Prose) (h : p.Ok spec x rest) (u : Text) (hf : NotFirst (· = '[') (p.latex ++ u))
    (k : List Tok) : NoBracket (p.toks k) := by
  intro t ht
  cases p with
  | text is =>
    rw [Prose.Ok] at h
    rw [Prose.toks] at ht
    cases is with
    | nil => cases h.1
    | cons i is =>
      cases ht
      cases i with
      | word w => exact fun h => (by cases h)
      | comma => exact fun h => (by cases h)
      | blank b => cases h.1
  | sign c =>
    rw [Prose.Ok] at h
    rw [Prose.toks] at ht
    rw [Prose.latex] at hf
    cases ht
    have : ∀ c ∈ signs, signTok c = .left .bracket → c = '[' := by decide
    exact fun h1 => hf c rfl (this c h h1)
  | formula m f => rw [Prose.toks] at ht; cases m <;> (cases ht; exact fun h => (by cases h))
  | equations name args body => rw [Prose.toks, Atom.toks] at ht; cases ht; exact fun h => (by cases h)
  | _ => rw [Prose.toks] at ht; cases ht; exact fun h => (by cases h)

theorem Proses.noBracket {spec : CommandSpec} {x : Place} {rest : Text} (ps : Proses) (h : ps.Ok spec x rest) {u : Text}
    (hf : NotFirst (· = '[') (ps.latex ++ u)) {k : List Tok} (hk : NotFirst (· = '[') u → NoBracket k) : NoBracket (ps.toks k) := by
  cases ps with
  | nil => rw [Proses.toks]; exact hk (by simpa [Proses.latex] using hf)
  | cons p fill ps =>
    rw [Proses.Ok] at h
    rw [Proses.toks]
    rw [Proses.latex, List.append_assoc] at hf
    exact p.noBracket h.1 _ hf _

/-! ## Rules -/

def ruleElems : TableRules → List Elem
  | [] => []
  | (name, fill) :: rs => .node .itemCmd [leafOf (nameTok name)] :: ((fillToks fill).map leafOf ++ ruleElems rs)

theorem rules_soft {k : List Tok} (hs : Soft k) : ∀ rules : TableRules, Soft (rulesToks rules k)
  | [] => hs
  | (name, fill) :: rs => fun t ht => by rw [rulesToks] at ht; cases ht; exact ⟨rfl, fun h => (by cases h)⟩

theorem rules_take {rs : CommandSpec} {rest : Text} {k : List Tok} {sc : Scope} {stop : List Token} (hl : DocLets stop) (hs : Soft k)
    (hk : NotFirst (· = '[') rest → NoBracket k) : ∀ (rules : TableRules), RulesOk rs rest rules → ∀ r : Row, ∃ f l, ∀ r' ts',
    Items ⟨rs, globPrefix⟩ sc stop ⟨r.items ++ ruleElems rules, f, l⟩ k r' ts' → Items ⟨rs, globPrefix⟩ sc stop r (rulesToks rules k) r' ts'
  | [], h, r => ⟨r.first, r.last, fun r' ts' hi => by
      rw [rulesToks]
      rw [ruleElems, List.append_nil] at hi
      exact hi⟩
  | (name, fill) :: rules, h, r => by
    obtain ⟨h1, h2, h3, h4, h5, h6⟩ := h
    have hgen : Token.cmd .generic ∉ stop := hl (.cmd .generic) (show Token.cmd .generic ∈ docKinds by decide)
    obtain ⟨f, l, ih⟩ := rules_take (sc := sc) hl hs hk rules h6 ⟨r.items ++ .node .itemCmd [leafOf (nameTok name)] :: (fillToks fill).map leafOf, r.first,
      some (r.items.length : Int)⟩
    refine ⟨f, l, fun r' ts' hi => ?_⟩
    rw [rulesToks]
    have hi2 := ih r' ts' (by rw [ruleElems] at hi; simpa using hi)
    rcases h2 with ⟨sh, h7, h8⟩ | ⟨⟨p, ⟨sh, h7, h8⟩, h9⟩, h10⟩
    · have hi1 : Item ⟨rs, globPrefix⟩ sc false r (nameTok name :: (fillToks fill ++ rulesToks rules k)) true
          (r.add [.node .itemCmd [leafOf (nameTok name)]]) (fillToks fill ++ rulesToks rules k) := by
        refine .symbol rfl ?_
        rw [commandArgs_of h7 (by rw [h8]; exact fun h => (by cases h)), h8]
      refine .more hgen hi1 (parse_fill hl fill _ ?_)
      simpa [Row.add] using hi2
    · have hnb : NoBracket (rulesToks rules k) := by
        cases rules with
        | nil => rw [rulesToks]; exact hk (by simpa [rulesLatex] using h10)
        | cons q rules => intro t ht; obtain ⟨n', fl'⟩ := q; rw [rulesToks] at ht; cases ht; exact fun h => (by cases h)
      have hcmd : Grammar.commandArgs rs name = .right p := by
        rw [commandArgs_of h7 (by rw [h8]; intro h; cases h; exact h9.2.2.1 rfl), h8]
      have hi1 := Item.command (env := ⟨rs, globPrefix⟩) (sc := sc) (one := false) (r := r) (n := .generic) (name := name) rfl hcmd h9.1 h9.2.1
        (args_nothing (spec := rs) (sc := sc) h9 (rules_soft hs rules) hnb fill)
      refine .more (t := nameTok name) hgen hi1 ?_
      rw [show nameTok name = (Token.cmd .generic, '\\' :: name) from rfl] at hi2
      simpa [Row.add] using hi2

/-! ## Leads -/

def AllLead (es : List Elem) : Prop := ∀ e ∈ es, isLead e = true

def leadText (es : List Elem) : Text := (es.map ruleLine).flatten

theorem leadText_append (es fs : List Elem) : leadText (es ++ fs) = leadText es ++ leadText fs := by simp [leadText]

theorem fill_lead {fill : List Blank} (h : NoComment fill) : AllLead ((fillToks fill).map leafOf) ∧ leadText ((fillToks fill).map leafOf) = [] := by
  induction fill with
  | nil => exact ⟨fun e he => (by cases he), rfl⟩
  | cons c fill ih =>
    have ih := ih fun b hb => h b (List.mem_cons_of_mem _ hb)
    have hc : isLead (leafOf c.tok) = true ∧ ruleLine (leafOf c.tok) = [] := by
      cases c with
      | blanks w => exact ⟨rfl, rfl⟩
      | lines w => exact ⟨rfl, rfl⟩
      | comment w => exact absurd rfl (h _ List.mem_cons_self w)
    refine ⟨fun e he => ?_, ?_⟩
    · rcases List.mem_cons.mp (show e ∈ leafOf c.tok :: (fillToks fill).map leafOf from he) with rfl | he
      · exact hc.1
      · exact ih.1 e he
    · show leadText (leafOf c.tok :: (fillToks fill).map leafOf) = []
      unfold leadText at ih ⊢
      rw [List.map_cons, List.flatten_cons, hc.2, ih.2]
      rfl

theorem rule_lead {name : Text} (h : name ∈ ruleNames) : isLead (.node .itemCmd [leafOf (nameTok name)]) = true ∧
    ruleLine (.node .itemCmd [leafOf (nameTok name)]) =
      (if name = t!"toprule" ∨ name = t!"bottomrule" then t!"table.hline(stroke: 1pt),\n" else t!"table.hline(stroke: .5pt),\n") := by
  have : ∀ name ∈ ruleNames, isLead (.node .itemCmd [leafOf (nameTok name)]) = true ∧
    ruleLine (.node .itemCmd [leafOf (nameTok name)]) =
      (if name = t!"toprule" ∨ name = t!"bottomrule" then t!"table.hline(stroke: 1pt),\n" else t!"table.hline(stroke: .5pt),\n") := by decide +kernel
  exact this name h

theorem rules_lead {rs : CommandSpec} {rest : Text} : ∀ rules : TableRules, RulesOk rs rest rules → AllLead (ruleElems rules) ∧
    leadText (ruleElems rules) = rulesTypst rules
  | [], h => ⟨fun e he => (by cases he), rfl⟩
  | (name, fill) :: rules, h => by
    obtain ⟨h1, h2, h3, h4, h5, h6⟩ := h
    obtain ⟨a1, a2⟩ := rule_lead h1
    obtain ⟨b1, b2⟩ := fill_lead h5
    obtain ⟨c1, c2⟩ := rules_lead rules h6
    refine ⟨fun e he => ?_, ?_⟩
    · rw [ruleElems] at he
      rcases List.mem_cons.mp he with rfl | he
      · exact a1
      · rcases List.mem_append.mp he with he | he
        · exact b1 e he
        · exact c1 e he
    · rw [ruleElems, rulesTypst, ← c2]
      show leadText ([_] ++ (_ ++ _)) = _
      rw [leadText_append, leadText_append, b2, List.nil_append]
      congr 1
      show [ruleLine _].flatten = _
      rw [a2]
      simp

/-! ## Cells -/

theorem lead_notSeparator {e : Elem} (h : isLead e = true) : isSeparator e = false := by
  unfold isSeparator
  cases hk : e.kind <;> first
    | rfl
    | (unfold isLead isRule at h; rw [hk] at h; cases h)

/-- Elements between two separators. -/
def Content (es : List Elem) : Prop := (∀ e ∈ es, isSeparator e = false) ∧ ∀ e, es.head? = some e → isLead e = false

theorem tame_content {x : Place} {es : List Elem} (hx : x.env = .table) (ht : ∀ e ∈ es, Tame x e) (hs : ∀ e, es.head? = some e → Solid e) : Content es := by
  refine ⟨fun e he => ?_, fun e he => ?_⟩
  · have := (ht e he).2.2.1 hx
    unfold isSeparator
    exact decide_eq_false fun h => h.elim this.1 this.2
  · have h1 := ht e (List.mem_of_mem_head? he)
    have h2 := hs e he
    unfold isLead
    rw [Bool.or_eq_false_iff]
    refine ⟨?_, decide_eq_false fun h => h.elim h2.1 h2.2⟩
    unfold isRule
    rw [Bool.and_eq_false_iff]
    by_cases hk : e.kind = .itemCmd
    · obtain ⟨name, hn, hf⟩ := h1.2.2.2 hk
      right
      rw [hn]
      exact decide_eq_false fun h => hf.1 hx h.2
    · exact .inl (decide_eq_false hk)

theorem takeWhile_lead {l c : List Elem} (hl : AllLead l) (hc : ∀ e, c.head? = some e → isLead e = false) :
    (l ++ c).takeWhile isLead = l ∧ (l ++ c).dropWhile isLead = c := by
  induction l with
  | nil =>
    cases c with
    | nil => exact ⟨rfl, rfl⟩
    | cons e c =>
      have := hc e rfl
      simp [this]
  | cons e l ih =>
    have h1 := hl e List.mem_cons_self
    have := ih fun e he => hl e (List.mem_cons_of_mem _ he)
    simp [h1, this]

theorem cellsOf_none : ∀ {es : List Elem}, (∀ e ∈ es, isSeparator e = false) → cellsOf es = ([], es)
  | [], h => rfl
  | e :: es, h => by
    rw [cellsOf, h e List.mem_cons_self, cellsOf_none fun e he => h e (List.mem_cons_of_mem _ he)]
    rfl

theorem cellsOf_cons {sep : Elem} {rest : List Elem} (hs : isSeparator sep = true) : ∀ {es : List Elem}, (∀ e ∈ es, isSeparator e = false) →
    cellsOf (es ++ sep :: rest) = ((es, sep) :: (cellsOf rest).1, (cellsOf rest).2)
  | [], h => by rw [List.nil_append, cellsOf, if_pos hs]
  | e :: es, h => by
    rw [List.cons_append, cellsOf, h e List.mem_cons_self, cellsOf_cons hs fun e he => h e (List.mem_cons_of_mem _ he)]
    rfl

/-- What the elements of the cells become, after and before rules. -/
structure CellList (ps : CommandSpec) (y : Place) (es : List Elem) (b : Bool) (t : Text) (b' : Bool) : Prop where
  go : ∀ l0 l1, AllLead l0 → AllLead l1 → PrintedAll ps (cellsTemplate y (l0 ++ (es ++ l1))) (mem b) (leadText l0 ++ (t ++ leadText l1)) (mem b')

theorem CellList.nil {ps : CommandSpec} {y : Place} {b : Bool} : CellList ps y [] b [] b := by
  refine ⟨fun l0 l1 h0 h1 => ?_⟩
  rw [List.nil_append, List.nil_append, ← leadText_append]
  have hl : AllLead (l0 ++ l1) := fun e he => (List.mem_append.mp he).elim (h0 e) (h1 e)
  generalize l0 ++ l1 = l at hl
  have h2 := takeWhile_lead (l := l) (c := []) hl (fun e he => (by cases he))
  rw [List.append_nil] at h2
  unfold cellsTemplate
  rw [cellsOf_none fun e he => lead_notSeparator (hl e he)]
  have h3 : leadLines l = leadText l := by unfold leadLines leadText; rw [h2.1]
  have h4 : cellContent l = [] := h2.2
  dsimp only
  rw [h3, h4]
  have := PrintedAll.text (spec := ps) (leadText l) (PrintedAll.nil (mem b))
  rw [List.append_nil] at this
  exact this

theorem CellList.cons {ps : CommandSpec} {y : Place} {b b1 b' : Bool} {rl c fl es : List Elem} {sep : Elem} {t u : Text} (hr : AllLead rl)
    (hc : Content c) (hw : Writes ps y c b t b1) (hs : isSeparator sep = true) (hf : AllLead fl) (hf' : leadText fl = []) (h : CellList ps y es b1 u b') :
    CellList ps y (rl ++ (c ++ sep :: (fl ++ es))) b (leadText rl ++ (t!"[" ++ (t ++ (t!"]" ++ separatorText sep ++ u)))) b' := by
  refine ⟨fun l0 l1 h0 h1 => ?_⟩
  have h2 := h.go fl l1 hf h1
  rw [hf', List.nil_append] at h2
  have hl : AllLead (l0 ++ rl) := fun e he => (List.mem_append.mp he).elim (h0 e) (hr e)
  have h3 := takeWhile_lead (l := l0 ++ rl) hl hc.2
  have h4 : leadLines (l0 ++ rl ++ c) = leadText l0 ++ leadText rl := by unfold leadLines; rw [h3.1]; exact leadText_append _ _
  have h5 : cellContent (l0 ++ rl ++ c) = c := h3.2
  rw [show l0 ++ ((rl ++ (c ++ sep :: (fl ++ es))) ++ l1) = (l0 ++ rl ++ c) ++ sep :: (fl ++ (es ++ l1)) by simp]
  have h6 : cellsTemplate y ((l0 ++ rl ++ c) ++ sep :: (fl ++ (es ++ l1))) =
      ([Piece.text (leadText l0 ++ leadText rl ++ t!"[")] ++ each y c ++ [.text (t!"]" ++ separatorText sep)]) ++ cellsTemplate y (fl ++ (es ++ l1)) := by
    unfold cellsTemplate
    rw [cellsOf_cons hs fun e he => (List.mem_append.mp he).elim (fun he => lead_notSeparator (hl e he)) (hc.1 e), List.flatMap_cons]
    dsimp only
    rw [h4, h5]
    simp only [List.append_assoc]
  rw [h6]
  have h7 := PrintedAll.append (PrintedAll.append (PrintedAll.text (spec := ps) (leadText l0 ++ leadText rl ++ t!"[") (.nil _)) (PrintedAll.append hw
    (PrintedAll.text (t!"]" ++ separatorText sep) (.nil _)))) h2
  simpa using h7

/-- What `TableCells.parse` shows. -/
structure CellsTake (rs ps : CommandSpec) (y : Place) (cells : TableCells) : Prop where
  go : ∀ {k : List Tok} (b : Bool) (r : Row), Soft k → ∃ es f l, CellList ps y es b (cells.typst ps y) (cells.endsLine b) ∧
    (∀ e ∈ es, e.kind ≠ .itemBegin ∧ e.kind ≠ .itemEnd) ∧ ∀ r' ts',
      Items ⟨rs, globPrefix⟩ .environment (Grammar.enders .environment) ⟨r.items ++ es, f, l⟩ k r' ts' →
      Items ⟨rs, globPrefix⟩ .environment (Grammar.enders .environment) r (cells.toks k) r' ts'

theorem lead_kind {e : Elem} (h : isLead e = true) : e.kind ≠ .itemBegin ∧ e.kind ≠ .itemEnd := by
  unfold isLead isRule at h
  constructor
  · intro hk; rw [hk] at h; cases h
  · intro hk; rw [hk] at h; cases h

theorem cells_take {rs ps : CommandSpec} {y : Place} {rest : Text} {rules : TableRules} {qs : Proses} {ends : Bool} {fill : List Blank} {cells : TableCells}
    (hy : y.env = .table)
    (h1 : RulesOk rs (qs.latex ++ ((if ends then t!"\\\\" else t!"&") ++ (fillLatex fill ++ (cells.latex ++ rest)))) rules)
    {x : Place} (h2 : qs.Ok rs x ((if ends then t!"\\\\" else t!"&") ++ (fillLatex fill ++ (cells.latex ++ rest)))) (h3 : qs.primed false = true)
    (h4 : NoComment fill) (hq : TakesAll rs ps y qs) (hc : CellsTake rs ps y cells) : CellsTake rs ps y (.cons rules qs ends fill cells) := by
  refine ⟨fun {k} b r hs => ?_⟩
  have hsep : ∀ k', Halted ((if ends then newlineTok else ampTok) :: k') := by cases ends <;> exact fun k' => .cons rfl
  have hsoft : Soft (qs.toks ((if ends then newlineTok else ampTok) :: (fillToks fill ++ cells.toks k))) := qs.soft h2 (hsep _).soft
  obtain ⟨f1, l1, a1⟩ := rules_take (sc := .environment) docLets_environment hsoft (fun hf => qs.noBracket h2 hf fun _ => by
    intro t ht
    cases ends <;> (cases ht; exact fun h => (by cases h))) rules h1 r
  obtain ⟨a2, a3⟩ := rules_lead rules h1
  obtain ⟨f2, f3⟩ := fill_lead h4
  obtain ⟨r1, g1, b1, b2⟩ := hq.go (sc := .environment) docLets_environment (fun h => absurd h (by decide)) h3
    (Wrote.start (ps := ps) (x := y) (b0 := b) (g := false) (pre := r.items ++ ruleElems rules) (f := f1) (l := l1) (fun h => (by cases h))) (hsep (fillToks fill ++ cells.toks k))
  obtain ⟨es, c1, c2, c3, c4, -⟩ := b1.go
  have hitem : ∃ l, Item ⟨rs, globPrefix⟩ .environment false r1 ((if ends then newlineTok else ampTok) :: (fillToks fill ++ cells.toks k)) false
      ⟨r1.items ++ [leafOf (if ends then newlineTok else ampTok)], r1.first, l⟩ (fillToks fill ++ cells.toks k) := by
    cases ends <;> exact ⟨_, .single rfl⟩
  obtain ⟨l2, hitem⟩ := hitem
  obtain ⟨es', f', l', d1, d2, d3⟩ := hc.go (k := k) (qs.endsLine b) ⟨r1.items ++ leafOf (if ends then newlineTok else ampTok) :: (fillToks fill).map leafOf, r1.first, l2⟩ hs
  rw [List.nil_append] at c2
  refine ⟨ruleElems rules ++ (es ++ leafOf (if ends then newlineTok else ampTok) :: ((fillToks fill).map leafOf ++ es')), f', l', ?_, ?_, fun r' ts' hi => ?_⟩
  · rw [TableCells.typst, TableCells.endsLine]
    have := CellList.cons (sep := leafOf (if ends then newlineTok else ampTok)) a2 (tame_content hy c3 c4) c2.writes (by cases ends <;> rfl) f2 f3 d1
    rw [a3] at this
    have hst : separatorText (leafOf (if ends then newlineTok else ampTok)) = if ends then t!",\n" else t!", " := by cases ends <;> rfl
    rw [hst] at this
    simpa only [List.append_assoc] using this
  · intro e he
    rcases List.mem_append.mp he with he | he
    · exact lead_kind (a2 e he)
    · rcases List.mem_append.mp he with he | he
      · exact ⟨(c3 e he).1, (c3 e he).2.1⟩
      · rcases List.mem_cons.mp he with rfl | he
        · cases ends <;> exact ⟨fun h => (by cases h), fun h => (by cases h)⟩
        · rcases List.mem_append.mp he with he | he
          · exact lead_kind (f2 e he)
          · exact d2 e he
  · rw [TableCells.toks]
    refine a1 _ _ (b2 _ _ (.more ?_ hitem (parse_fill docLets_environment fill _ ?_)))
    · cases ends <;> (show _ ∉ _; decide)
    · have h9 := d3 r' ts' (by simpa [c1] using hi)
      simpa using h9

/-! ## Tables -/

theorem column_find {cols : Text} (h : ∀ c ∈ cols, isColumnChar c) : cols.find? (fun c => decide (¬ isColumnChar c)) = none := by
  rw [List.find?_eq_none]
  intro c hc
  simp [h c hc]

theorem column_black {cols : Text} (h : ∀ c ∈ cols, isColumnChar c) : ∀ c ∈ cols, isWs c = false := by
  intro c hc
  rcases h c hc with rfl | rfl | rfl | rfl <;> decide

/-- The arguments of the environment. -/
theorem env_arguments {name : Text} {args body : List Elem} (h : ∀ e ∈ args, e.isNode = true ∧ e.kind = .clauseArgument) :
    (Elem.node .itemEnv (.node .itemBegin (leafOf (.cmd .beginEnv, name) :: args) :: body)).envArguments = args := by
  show (Elem.node .itemBegin (leafOf (.cmd .beginEnv, name) :: args)).arguments = args
  unfold Elem.arguments Elem.childNodes
  show ((leafOf (.cmd .beginEnv, name) :: args).filter Elem.isNode).filter _ = args
  rw [List.filter_cons_of_neg (by exact Bool.false_ne_true), List.filter_eq_self.mpr fun e he => (h e he).1]
  refine List.filter_eq_self.mpr fun e he => ?_
  rw [(h e he).2]
  rfl

theorem table_writes {spec : CommandSpec} {env : LEnv} {n : Nat} {name cols : Text} {sh : EnvShape} {cs body : List Elem} {t : Text} {b' : Bool}
    (hn : EnvName name) (hs : spec name = some (.env sh)) (hc : sh.ctx = .isTable) (hcols : ∀ c ∈ cols, isColumnChar c)
    (hcs : Elem.leaves.go cs = [lf (.word, cols)]) (hk : ∀ e ∈ body, e.kind ≠ .itemBegin ∧ e.kind ≠ .itemEnd)
    (hb : PrintedAll spec (cellsTemplate ⟨.text, .table, n⟩ body) (mem false) t (mem b')) (b : Bool) :
    Printed spec ⟨.text, env, n⟩ (.node .itemEnv (.node .itemBegin (leafOf (.cmd .beginEnv, name) :: [.node .clauseArgument [curlyElem cs]]) ::
      (body ++ [.node .itemEnd [leafOf (.cmd .endEnv, name)]]))) (mem b) (tableStart (aliasOf spec name) cols ++ t ++ t!");") (mem b') := by
  have h0 := PrintedAll.append (PrintedAll.append (PrintedAll.text (spec := spec) (tableStart (aliasOf spec name) cols) (.nil _)) hb) (PrintedAll.text t!");" (.nil _))
  rw [List.append_nil, List.append_nil] at h0
  refine printed_of_all (fun h => (by cases h)) ?_ (putLabel_writes h0)
  have h1 : ∀ e, template spec ⟨.text, env, n⟩ (.node .itemEnv e) = environmentTemplate spec ⟨.text, env, n⟩ (.node .itemEnv e) := fun _ => rfl
  rw [h1]
  have hname : (Elem.node .itemEnv (.node .itemBegin (leafOf (.cmd .beginEnv, name) :: [.node .clauseArgument [curlyElem cs]]) ::
      (body ++ [.node .itemEnd [leafOf (.cmd .endEnv, name)]]))).envName = some name := rfl
  have hargs := env_arguments (name := name) (args := [.node .clauseArgument [curlyElem cs]]) (body := body ++ [.node .itemEnd [leafOf (.cmd .endEnv, name)]])
    (fun e he => by rw [List.mem_singleton.mp he]; exact ⟨rfl, rfl⟩)
  have hbetween := env_between (name := name) (args := [.node .clauseArgument [curlyElem cs]]) hk
  have harg : (Elem.node .clauseArgument [curlyElem cs]).text = '{' :: (cols ++ ['}']) := by
    rw [curlyArg_text (L := [(.word, cols)]) hcs]
    simp [toksText]
  unfold environmentTemplate
  rw [hname]
  show (match spec (trim name) with
    | some (.env sh) => _
    | _ => _) = _
  rw [hn.trim, hs]
  dsimp only
  have hal : sh.alias.getD name = aliasOf spec name := by unfold aliasOf; rw [hs]
  rw [hal, hc]
  dsimp only
  unfold tableTemplate
  rw [hargs, hbetween]
  show Except.map _ (orCrash (undelimited (Elem.node .clauseArgument [curlyElem cs]).text) >>= _) = _
  rw [harg, undelimited_wrap (by decide) (by decide)]
  show Except.map _ (match (trim cols).find? _ with
    | some c => _
    | none => _) = _
  rw [trim_black (column_black hcols), column_find hcols]
  rfl

theorem table_takes {rs ps : CommandSpec} {env : LEnv} {n : Nat} {name cols : Text} {fill : List Blank} {cells : TableCells} {rules : TableRules}
    {rest : Text} (hn : EnvName name) (hr : ∃ sh, rs name = some (.env sh) ∧ FitsKinds sh.args [.term])
    (hp : ∃ sh, ps name = some (.env sh) ∧ sh.ctx = .isTable) (hcols : ∀ c ∈ cols, isColumnChar c) (hf : NoComment fill)
    (hsoft : ∀ k, Soft k → Soft (cells.toks k))
    (hc : CellsTake rs ps ⟨.text, .table, n⟩ cells) (hrules : RulesOk rs (t!"\\end" ++ rest) rules) : Takes rs ps ⟨.text, env, n⟩ (.table name cols fill cells rules) := by
  refine ⟨?_⟩
  intro sc stop b0 g pre r tx b k fl hl hbr hpr hw hs hq
  obtain ⟨shr, hr1, hr2⟩ := hr
  obtain ⟨shp, hp1, hp2⟩ := hp
  have hend : Soft ((Token.cmd .endEnv, name) :: (fillToks fl ++ k)) := (Halted.cons rfl).soft
  have hk2 : Soft (cells.toks (rulesToks rules ((.cmd .endEnv, name) :: (fillToks fl ++ k)))) := hsoft _ (rules_soft hend rules)
  obtain ⟨cs, a1, a2⟩ := inert_argument (rs := rs) (sc := sc) (p := shr.args) (ks := []) (L := [(.word, cols)])
    (fun t ht => by rw [List.mem_singleton.mp ht]; exact .inl rfl) false (fun h => (by cases h)) hr2.2.2.1.1
    (args_fill (spec := rs) (sc := sc) hr2.2.2.1.2 hk2 fill)
  have henv : Grammar.environmentArgs rs name = some shr.args := by
    unfold Grammar.environmentArgs
    rw [hr1]
    exact if_neg (fun h => h.elim hr2.1 (fitsKinds_ne hr2.2.2.1 (by simp)))
  obtain ⟨es, f1, l1, c1, c2, c3⟩ := hc.go false ⟨.node .itemBegin (leafOf (.cmd .beginEnv, name) :: [.node .clauseArgument [curlyElem cs]]) :: (fillToks fill).map leafOf,
    some (1 + (fillToks fill).length), none⟩ (rules_soft hend rules)
  obtain ⟨f2, l2, d1⟩ := rules_take (sc := .environment) docLets_environment hend (fun _ t ht => by cases ht; exact fun h => (by cases h)) rules hrules
    ⟨.node .itemBegin (leafOf (.cmd .beginEnv, name) :: [.node .clauseArgument [curlyElem cs]]) :: (fillToks fill).map leafOf ++ es, f1, l1⟩
  obtain ⟨e1, e2⟩ := rules_lead rules hrules
  obtain ⟨g1, g2⟩ := fill_lead hf
  have hitems := c3 _ _ (d1 _ _ (.over (fun t ht => by cases ht; show Token.cmd .endEnv ∈ _; decide)))
  have hi := Item.environmentArgs (sc := sc) (one := false) (r := r) (x := name) henv hr2.2.1 a2 hitems
  rw [closing_eq] at hi
  have hbody := c1.go _ _ g1 e1
  rw [e2, g2, List.nil_append] at hbody
  have hpr := table_writes (spec := ps) (env := env) (n := n) (b := b) hn hp1 hp2 hcols a1 (fun e he => by
    rcases List.mem_append.mp he with he | he
    · exact lead_kind (g1 e he)
    · rcases List.mem_append.mp he with he | he
      · exact c2 e he
      · exact lead_kind (e1 e he)) hbody
  have hw2 := hw.put (gp := true) (f := r.first) hpr (.node (by decide)) (.node (by decide)) fl (fun _ => rfl) (.inr (.inr rfl))
  have htx : tableStart (aliasOf ps name) cols ++ (cells.typst ps ⟨.text, .table, n⟩ ++ rulesTypst rules) ++ t!");" =
      Prose.typst ps ⟨.text, env, n⟩ (.table name cols fill cells rules) := by
    rw [Prose.typst]
    simp [tablePlace]
  rw [htx] at hw2
  rw [Prose.endsLine]
  refine ⟨_, hw2, fun r' ts' h' => ?_⟩
  rw [Prose.toks]
  refine .more (t := (.cmd .beginEnv, name)) (hl (.cmd .beginEnv) (by decide)) hi (parse_fill hl fl _ ?_)
  simpa [Row.add] using h'

theorem TableCells.soft {spec : CommandSpec} {x : Place} {rest : Text} {k : List Tok} (cells : TableCells) (h : cells.Ok spec x rest) (hk : Soft k) :
    Soft (cells.toks k) := by
  cases cells with
  | nil => rw [TableCells.toks]; exact hk
  | cons rules qs ends fill cs =>
    rw [TableCells.Ok] at h
    rw [TableCells.toks]
    refine rules_soft (qs.soft h.2.1 ?_) rules
    cases ends <;> exact (Halted.cons rfl).soft

end Mitex
