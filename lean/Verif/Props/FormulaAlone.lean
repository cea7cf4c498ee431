/-
C77: a formula in a document is the formula converted alone.
-/
import Verif.Spec.FormulaAlone
import Verif.Proof.LocalFormula
import Verif.Props.Local

namespace Mitex
open Grammar (Row Reaches Document start)

namespace Local

def openTok : Marks → Tok
  | .dollar => (.dollar, t!"$")
  | .dollars => (.dollar, t!"$$")
  | .parens => (.cmd .beginMath, t!"\\(")
  | .brackets => (.cmd .beginMath, t!"\\[")

def closeTok : Marks → Tok
  | .dollar => (.dollar, t!"$")
  | .dollars => (.dollar, t!"$$")
  | .parens => (.cmd .endMath, t!"\\)")
  | .brackets => (.cmd .endMath, t!"\\]")

theorem open_leaf (m : Marks) : leafOf (openTok m) = m.opening := by cases m <;> rfl
theorem close_leaf (m : Marks) : leafOf (closeTok m) = m.closing := by cases m <;> rfl
theorem marks_group (m : Marks) : Grammar.grouping (openTok m).1 = some (m.scope, (closeTok m).1, .itemFormula, false) := by cases m <;> rfl
theorem marks_scope (m : Marks) : m.scope ≠ .environment := by cases m <;> decide

theorem formula_tokens {spec : CommandSpec} {m : Marks} {x : Text} {tx : List Tok} {B : List Elem} (h : FormulaText spec m x tx B) :
    tokensOf spec (m.left ++ x ++ m.right) = .ok (openTok m :: (tx ++ [closeTok m])) := by
  have hr : Tokenized spec m.right [closeTok m] := by
    cases m with
    | dollar => exact .cons _ _ _ _ _ (.dollar [] (fun c h => (by cases h))) .nil
    | dollars => exact .cons _ _ _ _ _ (.dollars []) .nil
    | parens => exact .cons _ _ _ _ _ (.endMath ')' [] (.inl rfl)) .nil
    | brackets => exact .cons _ _ _ _ _ (.endMath ']' [] (.inr rfl)) .nil
  have hj := tokenized_join ((C59_tokens _ _ _).1 h.tokens) hr h.named h.separate
  refine (C59_tokens _ _ _).2 ?_
  rw [List.append_assoc]
  cases m with
  | dollar => exact .cons _ _ _ _ _ (.dollar _ (h.single rfl)) hj
  | dollars => exact .cons _ _ _ _ _ (.dollars _) hj
  | parens => exact .cons _ _ _ _ _ (.beginMath '(' _ (.inl rfl)) hj
  | brackets => exact .cons _ _ _ _ _ (.beginMath '[' _ (.inr rfl)) hj

theorem formula_documents {spec : CommandSpec} {m : Marks} {x : Text} {tx : List Tok} {B : List Elem} (h : FormulaText spec m x tx B) :
    Document ⟨spec, globPrefix⟩ (openTok m :: (tx ++ [closeTok m])) (.node .scopeRoot [.node .itemFormula (m.opening :: (B ++ [m.closing]))]) ∧
    Document ⟨spec, globPrefix⟩ tx (.node .scopeRoot B) := by
  obtain ⟨toks, h1, h2⟩ := (C62_text ⟨spec, globPrefix⟩ 0 _ _).1 h.tree
  have ht := formula_tokens h
  rw [ht] at h1
  cases h1
  refine ⟨h2, ?_⟩
  rw [← open_leaf, ← close_leaf] at h2
  obtain ⟨r', hi, e⟩ := formula_inner (marks_group m) h2
  obtain ⟨B', e', hd⟩ := inner_document (marks_scope m) (by cases m <;> exact fun h => (by cases h)) hi h.given
  rw [e] at e'
  cases e'
  exact hd

theorem tree_ok (dflt : CommandSpec) (mode : Mode) (e : Elem) (out : Text) :
    convertTree dflt mode e = .ok out ↔ ∃ m', Printed dflt (Place.top mode) e ⟨none, true⟩ out m' := by
  have hx : At (Place.top mode) (CState.new mode) := ⟨rfl, rfl, rfl⟩
  unfold convertTree
  have hex := fun s' => C61_exact dflt e.depth (Place.top mode) e (CState.new mode) s' (Nat.le_refl _) hx
  constructor
  · intro h
    cases hc : convert dflt e.depth e (CState.new mode) with
    | error y => rw [hc] at h; cases h
    | ok s =>
      rw [hc] at h
      cases h
      obtain ⟨t, m', hp, rfl⟩ := (hex s).1 hc
      exact ⟨m', hp⟩
  · rintro ⟨m', hp⟩
    rw [(hex _).2 ⟨out, m', hp, rfl⟩]
    rfl

theorem tree_bad (dflt : CommandSpec) (mode : Mode) (e : Elem) (f : Stop) :
    convertTree dflt mode e = .error f ↔ Failed dflt (Place.top mode) e ⟨none, true⟩ f := by
  have hx : At (Place.top mode) (CState.new mode) := ⟨rfl, rfl, rfl⟩
  unfold convertTree
  have hex := C61_fails dflt e.depth (Place.top mode) e (CState.new mode) (Nat.le_refl _) hx f
  refine Iff.trans ?_ hex
  cases convert dflt e.depth e (CState.new mode) with
  | ok s => exact ⟨fun h => (by cases h), fun h => (by cases h)⟩
  | error y => exact ⟨fun h => (by cases h; rfl), fun h => (by cases h; rfl)⟩

theorem lastToken_end (k : Kind) (t : Text) : ∀ as : List Elem, Elem.lastToken.go (as ++ [.token k t]) = some (k, t)
  | [] => rfl
  | [a] => rfl
  | a :: b :: as => by
    rw [List.cons_append, List.cons_append, Elem.lastToken.go]
    exact lastToken_end k t (b :: as)

/-- What is written before and after a formula. -/
def before : Marks → Text
  | .dollar | .parens => t!"#math.equation(block: false, $"
  | .dollars | .brackets => t!"$ "

def after : Marks → Text
  | .dollar | .parens => t!"$);"
  | .dollars | .brackets => t!" $"

theorem marks_typst (m : Marks) (t : Text) : m.typst t = before m ++ t ++ after m := by cases m <;> rfl

theorem formula_template (spec : CommandSpec) (x : Place) (m : Marks) (B : List Elem) :
    template spec x (.node .itemFormula (m.opening :: (B ++ [m.closing]))) =
      .ok (inMode .text x [.text (before m)] ++ each { x with mode := .math } (m.opening :: (B ++ [m.closing])) ++ inMode .text x [.text (after m)]) := by
  have ht : ∀ e, template spec x (.node .itemFormula e) = formulaTemplate x (.node .itemFormula e) := fun _ => rfl
  rw [ht]
  unfold formulaTemplate
  have e1 : (Elem.node .itemFormula (m.opening :: (B ++ [m.closing]))).firstToken = m.opening.firstToken := by
    cases m <;> rfl
  have e2 : (Elem.node .itemFormula (m.opening :: (B ++ [m.closing]))).lastToken = m.closing.lastToken := by
    have : ∀ cs, (Elem.node .itemFormula cs).lastToken = Elem.lastToken.go cs := fun cs => by rw [Elem.lastToken]
    rw [this, ← List.cons_append]
    cases m <;> exact lastToken_end _ _ _
  have h1 : (Elem.node .itemFormula (m.opening :: (B ++ [m.closing]))).isValidFormula = true := by
    unfold Elem.isValidFormula
    rw [e1, e2]
    cases m <;> decide
  have h2 : (Elem.node .itemFormula (m.opening :: (B ++ [m.closing]))).isInline = decide (m = .dollar ∨ m = .parens) := by
    unfold Elem.isInline
    rw [e1]
    cases m <;> decide
  rw [if_pos h1, h2]
  cases m <;> rfl

end Local

/-- **C77.** The text between the marks of a formula has, as a document of its own, the same items as the formula. -/
theorem C77_tree (spec : CommandSpec) (m : Marks) (x : Text) (tx : List Tok) (B : List Elem) (h : FormulaText spec m x tx B) (fuel : Nat) :
    parse fuel ⟨spec, globPrefix⟩ false x = .ok (.node .scopeRoot B) :=
  (C62_text ⟨spec, globPrefix⟩ fuel x _).2 ⟨tx, h.tokens, (Local.formula_documents h).2⟩

/-- **C77.** A formula is converted, in a text, to what its items are converted to in math mode, between the marks of Typst; in math mode, just
to that; it fails if they fail, in the same way. -/
theorem C77_output (dflt : CommandSpec) (m : Marks) (B : List Elem) :
    convertTree dflt .text (.node .scopeRoot [.node .itemFormula (m.opening :: (B ++ [m.closing]))]) =
      (convertTree dflt .math (.node .scopeRoot B)).map m.typst ∧
    convertTree dflt .math (.node .scopeRoot [.node .itemFormula (m.opening :: (B ++ [m.closing]))]) =
      convertTree dflt .math (.node .scopeRoot B) := by
  have silent : ∀ (x : Place) (mem : Mem) (e : Elem), (e = m.opening ∨ e = m.closing) → Printed dflt x e mem [] { mem with skip := false } := by
    intro x mem e he
    have hk : isSilent e.kind = true ∧ e.kind ≠ .tokenWhiteSpace := by
      rcases he with rfl | rfl <;> cases m <;> exact ⟨rfl, fun h => (by cases h)⟩
    refine .mk (ps := []) ?_ ?_
    · unfold template; rw [if_pos hk.1]
    · rw [if_neg hk.2]; exact .nil _
  have goodAll : ∀ (x : Place) (u : Text) (m1 : Mem), PrintedAll dflt (each x B) ⟨none, false⟩ u m1 →
      PrintedAll dflt (each x (m.opening :: (B ++ [m.closing]))) ⟨none, false⟩ u { m1 with skip := false } := by
    intro x u m1 h
    have h1 := PrintedAll.part (silent x ⟨none, false⟩ _ (.inl rfl)) (PrintedAll.append h (.part (silent x m1 _ (.inr rfl)) (.nil _)))
    rw [List.append_nil, List.append_nil, List.nil_append] at h1
    have e : each x (m.opening :: (B ++ [m.closing])) = .part x m.opening :: (each x B ++ [.part x m.closing]) := by
      show Piece.part x m.opening :: each x (B ++ [m.closing]) = _
      rw [each_append]
      rfl
    rw [e]
    exact h1
  have badAll : ∀ (x : Place) (f : Stop), FailedAll dflt (each x B) ⟨none, false⟩ f →
      FailedAll dflt (each x (m.opening :: (B ++ [m.closing]))) ⟨none, false⟩ f := by
    intro x f h
    have e : each x (m.opening :: (B ++ [m.closing])) = .part x m.opening :: (each x B ++ [.part x m.closing]) := by
      show Piece.part x m.opening :: each x (B ++ [m.closing]) = _
      rw [each_append]
      rfl
    rw [e]
    exact .later (.part (silent x ⟨none, false⟩ _ (.inl rfl)) (.nil _)) (Local.failed_left h)
  have hk : (Elem.node .itemFormula (m.opening :: (B ++ [m.closing]))).kind ≠ .tokenWhiteSpace := fun h => (by cases h)
  constructor
  · cases hb : convertTree dflt .math (.node .scopeRoot B) with
    | ok u =>
      obtain ⟨m1, h1⟩ := (Local.tree_ok _ _ _ _).1 hb
      have h2 := goodAll _ _ _ (Local.root_printed.1 h1)
      refine (Local.tree_ok _ _ _ _).2 ⟨{ m1 with skip := false }, Local.root_printed.2 ?_⟩
      have h3 : Printed dflt (Place.top .text) (.node .itemFormula (m.opening :: (B ++ [m.closing]))) ⟨none, false⟩ (m.typst u) { m1 with skip := false } := by
        refine .mk (Local.formula_template _ _ _ _) ?_
        rw [if_neg hk, Local.marks_typst]
        have h4 := PrintedAll.text (spec := dflt) (Local.before m) (PrintedAll.append h2 (.text (Local.after m) (.nil _)))
        rw [List.append_nil, ← List.append_assoc] at h4
        exact h4
      have h5 := PrintedAll.part h3 (.nil _)
      rw [List.append_nil] at h5
      exact h5
    | error f =>
      have h1 := badAll _ _ (Local.root_failed.1 ((Local.tree_bad _ _ _ _).1 hb))
      refine (Local.tree_bad _ _ _ _).2 (Local.root_failed.2 (.part (.inside (Local.formula_template _ _ _ _) ?_)))
      rw [if_neg hk]
      refine .later (.text _ (.nil _)) ?_
      exact Local.failed_left h1
  · cases hb : convertTree dflt .math (.node .scopeRoot B) with
    | ok u =>
      obtain ⟨m1, h1⟩ := (Local.tree_ok _ _ _ _).1 hb
      have h2 := goodAll _ _ _ (Local.root_printed.1 h1)
      refine (Local.tree_ok _ _ _ _).2 ⟨{ m1 with skip := false }, Local.root_printed.2 ?_⟩
      have h3 : Printed dflt (Place.top .math) (.node .itemFormula (m.opening :: (B ++ [m.closing]))) ⟨none, false⟩ u { m1 with skip := false } := by
        refine .mk (Local.formula_template _ _ _ _) ?_
        rw [if_neg hk]
        show PrintedAll dflt ([] ++ each (Place.top .math) _ ++ []) _ _ _
        rw [List.append_nil, List.nil_append]
        exact h2
      have h5 := PrintedAll.part h3 (.nil _)
      rw [List.append_nil] at h5
      exact h5
    | error f =>
      have h1 := badAll _ _ (Local.root_failed.1 ((Local.tree_bad _ _ _ _).1 hb))
      refine (Local.tree_bad _ _ _ _).2 (Local.root_failed.2 (.part (.inside (Local.formula_template _ _ _ _) ?_)))
      rw [if_neg hk]
      show FailedAll dflt ([] ++ each (Place.top .math) _ ++ []) _ _
      rw [List.append_nil, List.nil_append]
      exact h1

namespace Local

theorem formula_parse {spec : CommandSpec} {m : Marks} {x : Text} {tx : List Tok} {B : List Elem} (h : FormulaText spec m x tx B) :
    parseToks ⟨spec, globPrefix⟩ (openTok m :: (tx ++ [closeTok m])) = .ok (.node .scopeRoot [.node .itemFormula (m.opening :: (B ++ [m.closing]))]) ∧
    parseToks ⟨spec, globPrefix⟩ tx = .ok (.node .scopeRoot B) := by
  obtain ⟨h1, h2⟩ := formula_documents h
  have d1 := (C28_delivered spec _ _ (formula_tokens h)).1
  have d2 := (C28_delivered spec _ _ h.tokens).1
  exact ⟨(C62_exact _ _ d1.1 d1.2 _).2 h1, (C62_exact _ _ d2.1 d2.2 _).2 h2⟩

end Local

/-- **C77.** Without macros: the marks around a formula change nothing in math mode. -/
theorem C77_no_macro (fuel : Nat) (dflt : CommandSpec) (spec : Option CommandSpec) (m : Marks) (x : Text) (tx : List Tok) (B : List Elem)
    (h : FormulaText (spec.getD dflt) m x tx B) :
    convertMathNoMacro fuel dflt (m.left ++ x ++ m.right) spec = convertMathNoMacro fuel dflt x spec := by
  obtain ⟨h1, h2⟩ := Local.formula_parse h
  have key : ∀ (s : Text) ts e, tokensOf (spec.getD dflt) s = .ok ts → parseToks ⟨spec.getD dflt, globPrefix⟩ ts = .ok e →
      convertMathNoMacro fuel dflt s spec = convertTree dflt .math e := by
    intro s ts e hs he
    unfold convertMathNoMacro convertInner parse
    rw [hs]
    show (parseToks _ ts >>= convertTree dflt .math) = _
    rw [he]
    rfl
  rw [key _ _ _ (Local.formula_tokens h) h1, key _ _ _ h.tokens h2]
  exact (C77_output dflt m B).2

/-- **C77.** With macros: a text that is one formula is converted by `convert_text` to what `convert_math` makes of the formula alone, between the
marks of Typst, and fails if that fails, in the same way; if no command of the formula is a macro, a definition or a conditional. -/
theorem C77_converts (dflt : CommandSpec) (spec : Option CommandSpec) (m : Marks) (x : Text) (tx : List Tok) (B : List Elem)
    (h : FormulaText (spec.getD dflt) m x tx B) (hp : ∀ t ∈ tx, Passive defaultMacros t) :
    ∃ fuel, ∀ F, fuel ≤ F →
      convertText F dflt (m.left ++ x ++ m.right) spec = (convertMath F dflt x spec).map m.typst ∧
      convertMath F dflt (m.left ++ x ++ m.right) spec = convertMath F dflt x spec := by
  have hm : ∀ t, t = Local.openTok m ∨ t = Local.closeTok m → Passive defaultMacros t := by
    rintro t (rfl | rfl) <;> cases m <;>
      exact ⟨fun i h => (by cases h), fun h => (by cases h), fun h => (by cases h), fun h => (by cases h), fun h => (by cases h)⟩
  obtain ⟨f1, e1⟩ := (C07_unbound_tokens_pass defaultMacros tx hp).expandAll
  obtain ⟨f2, e2⟩ := (C07_unbound_tokens_pass defaultMacros (Local.openTok m :: (tx ++ [Local.closeTok m])) (by
    intro t ht
    rcases List.mem_cons.1 ht with ht | ht
    · exact hm t (.inl ht)
    · rcases List.mem_append.1 ht with ht | ht
      · exact hp t ht
      · exact hm t (.inr (List.mem_singleton.1 ht)))).expandAll
  refine ⟨max f1 f2, fun F hF => ?_⟩
  have e1 := expandAll_mono e1 (show f1 ≤ F by omega)
  have e2 := expandAll_mono e2 (show f2 ≤ F by omega)
  have key : ∀ mode (s : Text) ts e, tokensOf (spec.getD dflt) s = .ok ts → expandAll F ts = .ok ts →
      parseToks ⟨spec.getD dflt, globPrefix⟩ ts = .ok e → convertInner F dflt s mode spec true = convertTree dflt mode e := by
    intro mode s ts e hs hx he
    unfold convertInner parse
    rw [hs]
    show ((expandAll F ts >>= parseToks _) >>= convertTree dflt mode) = _
    rw [hx]
    show (parseToks _ ts >>= convertTree dflt mode) = _
    rw [he]
    rfl
  obtain ⟨h1, h2⟩ := Local.formula_parse h
  unfold convertText convertMath
  rw [key _ _ _ _ (Local.formula_tokens h) e2 h1, key _ _ _ _ (Local.formula_tokens h) e2 h1, key _ _ _ _ h.tokens e1 h2]
  exact C77_output dflt m B

/-! ### An example -/

/-- Environments without arguments lack none. -/
theorem C77_given (env : PEnv) (S : Scope) (ts : List Tok) (h : ∀ x, (.cmd .beginEnv, x) ∈ ts → Grammar.environmentArgs env.spec x = none) :
    Grammar.ArgsGiven env S ts := by
  intro u x v p args blanks t w e hp _
  rw [h x (by rw [e]; exact List.mem_append_right _ (List.mem_cons_self ..))] at hp
  cases hp

namespace Local

/-- `\\sqrt{a}^2` -/
def exampleRoot : List Tok := [(.cmd .generic, t!"\\sqrt"), (.left .curly, t!"{"), (.word, t!"a"), (.right .curly, t!"}"), (.caret, t!"^"), (.word, t!"2")]

def exampleRootItems : List Elem := [.node .itemAttachComponent [.node .clauseArgument [.node .itemCmd [.token .clauseCommandName t!"\\sqrt",
  .node .clauseArgument [.node .itemCurly [.token .tokenLBrace t!"{", .node .itemText [.token .tokenWord t!"a"], .token .tokenRBrace t!"}"]]]],
  .token .tokenCaret t!"^", .token .tokenWord t!"2"]]

open Grammar (Item Items) in
theorem example_root : Document ⟨defaultSpec, globPrefix⟩ (openTok .parens :: (exampleRoot ++ [closeTok .parens]))
    (.node .scopeRoot [.node .itemFormula (Marks.parens.opening :: (exampleRootItems ++ [Marks.parens.closing]))]) := by
  have g : Items ⟨defaultSpec, globPrefix⟩ .curlyItem (Grammar.enders .curlyItem) ⟨[leafOf (.left .curly, t!"{")], some 1, none⟩
      [(.word, t!"a"), (.right .curly, t!"}"), (.caret, t!"^"), (.word, t!"2"), (.cmd .endMath, t!"\\)")]
      ⟨[leafOf (.left .curly, t!"{"), .node .itemText [.token .tokenWord t!"a"]], some 1, some 1⟩
      [(.right .curly, t!"}"), (.caret, t!"^"), (.word, t!"2"), (.cmd .endMath, t!"\\)")] := by
    refine .more (by decide) (.text (run := []) (.inr ⟨rfl, rfl⟩) (fun _ h => (by cases h)) (fun _ h => (by cases h; rfl))) ?_
    exact .over (fun _ h => (by cases h; decide))
  have a : Grammar.Args ⟨defaultSpec, globPrefix⟩ .cmdFormula (.glob t!"{,b}t") [] 
      [(.left .curly, t!"{"), (.word, t!"a"), (.right .curly, t!"}"), (.caret, t!"^"), (.word, t!"2"), (.cmd .endMath, t!"\\)")]
      [.node .clauseArgument [.node .itemCurly [.token .tokenLBrace t!"{", .node .itemText [.token .tokenWord t!"a"], .token .tokenRBrace t!"}"]]] []
      [(.caret, t!"^"), (.word, t!"2"), (.cmd .endMath, t!"\\)")] := by
    refine .group (b := .curly) rfl (by decide +kernel) g ?_
    exact .over (fun _ h => (by cases h; exact ⟨rfl, fun h => (by cases h), by decide +kernel⟩))
  have hc : Grammar.commandArgs defaultSpec t!"sqrt" = .right (.glob t!"{,b}t") := by decide +kernel
  have i : Items ⟨defaultSpec, globPrefix⟩ .cmdFormula (Grammar.enders .cmdFormula) ⟨[leafOf (openTok .parens)], some 1, none⟩
      (exampleRoot ++ [closeTok .parens]) ⟨leafOf (openTok .parens) :: exampleRootItems, some 1, some 1⟩ [closeTok .parens] := by
    refine .more (by decide) (.command rfl hc (fun h => (by cases h)) (fun h => (by cases h)) a) ?_
    refine .more (by decide) (.script (blanks := []) (.inr rfl) rfl (fun _ h => (by cases h)) (fun _ h => (by cases h; rfl)) .char) ?_
    exact .over (fun _ h => (by cases h; decide))
  exact ⟨_, .more (fun h => (by cases h)) (.group rfl i) (.over (fun _ h => (by cases h))), rfl⟩

end Local

/-- The hypotheses of `C77_converts` are met: a root with an exponent. -/
theorem C77_example : FormulaText defaultSpec .parens t!"\\sqrt{a}^2" Local.exampleRoot Local.exampleRootItems ∧
    (∀ t ∈ Local.exampleRoot, Passive defaultMacros t) ∧
    convertText 50 defaultSpec t!"\\(\\sqrt{a}^2\\)" none = .ok t!"#math.equation(block: false, $mitexsqrt(a )^(2 )$);" ∧
    convertMath 50 defaultSpec t!"\\sqrt{a}^2" none = .ok t!"mitexsqrt(a )^(2 )" := by
  refine ⟨⟨by decide +kernel, by decide +kernel, ?_, fun h => (by cases h), ?_, ?_⟩, ?_, by decide +kernel, by decide +kernel⟩
  · intro t ht
    cases ht
    intro c hc
    cases hc
    exact fun h => absurd h.2 (by decide)
  · exact (C62_text ⟨defaultSpec, globPrefix⟩ 0 _ _).2 ⟨_, by decide +kernel, Local.example_root⟩
  · apply C77_given
    intro x hx
    simp [Local.exampleRoot] at hx
  · intro t ht
    have hj : defaultMacros t!"sqrt" = none := Option.isNone_iff_eq_none.1 (by decide +kernel)
    have hn : ∀ (k : Token) (x : Text), (∀ n, k ≠ .cmd n) → Passive defaultMacros (k, x) := fun k x h =>
      ⟨fun i => h _, h _, h _, fun e => absurd e (h _), fun e => absurd e (h _)⟩
    simp only [Local.exampleRoot, List.mem_cons, List.not_mem_nil, or_false] at ht
    rcases ht with rfl | rfl | rfl | rfl | rfl | rfl
    · exact ⟨fun i h => (by cases h), fun h => (by cases h), fun h => (by cases h), fun _ => ⟨_, rfl, hj⟩, fun h => (by cases h)⟩
    all_goals exact hn _ _ fun n h => (by cases h)

/-- The conditions are needed: an environment that lacks its arguments takes, in a document, what ends the formula; a comment takes the closing
mark; a misplaced brace ends the formula. -/
theorem C77_limits :
    (convertText 50 defaultSpec t!"$\\begin{array}$x$\\end{array}$" none = .ok t!"#math.equation(block: false, $mitexarray(x )$);" ∧
      convertMath 50 defaultSpec t!"\\begin{array}$x$\\end{array}" none = .ok t!"mitexarray(arg0: x ,)") ∧
    (convertText 50 defaultSpec t!"$\\begin{array}\\end{array}$" none = .ok t!"#math.equation(block: false, $mitexarray()$);" ∧
      convertMath 50 defaultSpec t!"\\begin{array}\\end{array}" none = .error (.error t!"error unexpected: \"array\"")) ∧
    (convertText 50 defaultSpec t!"$a%x$" none = .error (.error t!"formula is not valid") ∧ convertMath 50 defaultSpec t!"a%x" none = .ok t!"a ") ∧
    (convertText 50 defaultSpec t!"$a}$" none = .error (.error t!"formula is not valid") ∧
      convertMath 50 defaultSpec t!"a}" none = .error (.error t!"error unexpected: \"}\"")) :=
  ⟨⟨by decide +kernel, by decide +kernel⟩, ⟨by decide +kernel, by decide +kernel⟩, ⟨by decide +kernel, by decide +kernel⟩,
    ⟨by decide +kernel, by decide +kernel⟩⟩

end Mitex
