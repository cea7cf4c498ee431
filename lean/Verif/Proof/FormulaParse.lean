/-
The grammar (Spec/Grammar.lean) assigns the trees of formulas to their tokens.
-/
import Verif.Proof.FormulaTree

namespace Mitex
open Grammar (Item Items Row)

/-- The tokens formulas are made of; a list of items of a formula ends at none of them. -/
def formulaKinds : List Token := [.word, .comma, .whitespace, .left .curly, .left .bracket, .left .paren, .right .paren, .tilde, .slash,
  .ditto, .semicolon, .asterisk, .atSign, .cmd .generic, .apostrophe, .caret, .underscore, .cmd .left, .cmd .beginEnv]

def Lets (stop : List Token) : Prop := ∀ k ∈ formulaKinds, k ∉ stop

theorem lets_root : Lets [] := fun k _ => by simp
theorem lets_curly : Lets (Grammar.enders .curlyItem) := by unfold Lets; decide
theorem lets_square : Lets (Grammar.enders .bracketItem) := by unfold Lets; decide
theorem lets_environment : Lets (Grammar.enders .environment) := by unfold Lets; decide
theorem lets_over : Lets (Grammar.greedyEnders .curlyItem) := by unfold Lets; decide
theorem lets_lr : Lets (Grammar.enders .lr) := by unfold Lets; decide
theorem lets_dollar : Lets (Grammar.enders .dollarFormula) := by unfold Lets; decide

/-! ## Blanks -/

theorem parse_blanks {env : PEnv} {sc : Scope} {stop : List Token} {r r' : Row} {ts ts' : List Tok} (n : Nat) (hl : Lets stop)
    (h : Items env sc stop ⟨r.items ++ blankElems n, r.first, r.last⟩ ts r' ts') : Items env sc stop r (blankToks n ++ ts) r' ts' := by
  unfold blankElems at h
  unfold blankToks at h ⊢
  split
  · next hn => rw [if_pos hn] at h; simpa using h
  · next hn =>
    rw [if_neg hn] at h
    exact .more (hl .whitespace (by decide)) (.single rfl) h

/-! ## Arguments -/

theorem takesExactly_over {p : ArgPattern} {sc : Scope} {ks : List ArgKind} (h : TakesExactly p ks []) (k : Token) :
    Grammar.argsOver globPrefix sc p ks k = true := by
  unfold Grammar.argsOver
  rw [h]
  simp

theorem args_over {spec : CommandSpec} {sc : Scope} {p : ArgPattern} {ks : List ArgKind} {ts : List Tok} (n : Nat) (h : TakesExactly p ks [])
    (hs : Soft ts) : Grammar.Args ⟨spec, globPrefix⟩ sc p ks (blankToks n ++ ts) [] (blankToks n) ts := by
  have h0 : Grammar.Args ⟨spec, globPrefix⟩ sc p ks ts [] [] ts :=
    .over fun t ht => ⟨(hs t ht).1, (hs t ht).2, takesExactly_over h t.1⟩
  unfold blankToks
  split
  · exact h0
  · have := Grammar.Args.blank (t := (.whitespace, spaces n)) rfl h0
    simpa using this

theorem closing_eq {k : Token} {x : Text} {ts : List Tok} : Grammar.closing k ((k, x) :: ts) = ([leafOf (k, x)], ts) := by
  unfold Grammar.closing
  simp

/-! ## Delimiters -/

theorem Delim.parse {spec : CommandSpec} {d : Delim} (hok : d.Ok spec) (t : Tok) {k : List Tok} (hk : NoVoid k) :
    Grammar.delimiter t (d.toks k) = (.node .clauseLR [leafOf t, d.elem], k) := by
  cases d with
  | sign c =>
    have h : ∀ c ∈ delimSigns, c = '(' ∨ c = ')' ∨ c = '[' ∨ c = ']' ∨ c = '/' := by decide
    rcases h c hok with rfl | rfl | rfl | rfl | rfl <;> rfl
  | char c =>
    obtain ⟨cs, ts', h1, h2⟩ := prepend_rest (c := c) hk
    show Grammar.delimiter t (prepend c k) = _
    rw [h1, ← h2]
    rfl
  | symbol name => rfl

/-! ## Single commands -/

theorem commandArgs_of {spec : CommandSpec} {name : Text} {sh : CmdShape} (h : spec name = some (.cmd sh)) (h0 : sh.args ≠ .right (.fixedLen 0)) :
    Grammar.commandArgs spec name = sh.args := by
  unfold Grammar.commandArgs
  rw [h]
  exact if_neg h0

theorem symbol_item {spec : CommandSpec} {sc : Scope} {one : Bool} {r : Row} {name : Text} {ts : List Tok} (h : SymbolOk spec name) :
    Item ⟨spec, globPrefix⟩ sc one r (nameTok name :: ts) true (r.add [.node .itemCmd [leafOf (nameTok name)]]) ts := by
  obtain ⟨-, sh, h1, h2⟩ := h
  refine .symbol rfl ?_
  rw [commandArgs_of h1 (by rw [h2]; exact fun h => (by cases h)), h2]

theorem fits_ne {p : ArgPattern} {args : Arguments} (h : TakesExactly p [] args.kinds) (h0 : args.kinds ≠ []) : p ≠ .fixedLen 0 := by
  rintro rfl
  cases hk : args.kinds with
  | nil => exact h0 hk
  | cons k ks =>
    rw [hk] at h
    have := h.1
    cases this

/-! ## Rows -/

/-- The last item of a row, as an operand. -/
theorem operand_last {r : Row} {e : Elem} {f : Option Int} :
    (Row.mk (r.items ++ [e]) f (some (r.items.length : Int))).operand (some (r.items.length : Int)) = some (r.items, [.node .clauseArgument [e]]) := by
  unfold Row.operand
  have h : (0 : Int) ≤ r.items.length ∧ (r.items.length : Int) ≤ (r.items ++ [e]).length := by
    constructor
    · omega
    · simp only [List.length_append, List.length_singleton]
      omega
  rw [show (Row.mk (r.items ++ [e]) f (some (r.items.length : Int))).items = r.items ++ [e] from rfl]
  dsimp only
  rw [if_pos h]
  simp

theorem swallow_nil (b : Bool) (e : Elem) : swallow b e [] = [e] := by
  unfold swallow
  split
  · cases e <;> simp
  · rfl

theorem blankElems_zero : blankElems 0 = [] := rfl

/-! ## Formulas -/

/-- After the item `e`, and the blanks. -/
theorem more_blanks {env : PEnv} {sc : Scope} {stop : List Token} {r r' : Row} {t : Tok} {e : Elem} {att : Bool} {l : Option Int}
    {rest ts ts' : List Tok} {n : Nat} (hl : Lets stop) (ht : t.1 ∉ stop)
    (hi : Item env sc false r (t :: rest) att ⟨r.items ++ [e], r.first, l⟩ (blankToks n ++ ts))
    (h : Items env sc stop ⟨r.items ++ (e :: blankElems n), r.first, if att then some (r.items.length : Int) else l⟩ ts r' ts') :
    Items env sc stop r (t :: rest) r' ts' := by
  refine .more ht hi (parse_blanks n hl ?_)
  cases att <;> simpa using h

theorem elemsWith_ne {a : Atom} (h : a.isText = false) (n : Nat) : swallow a.isText a.elem (blankElems n) = a.elem :: blankElems n := by
  rw [h]; rfl

/-- What `Atom.parse` shows. -/
structure AtomParses (spec : CommandSpec) (a : Atom) : Prop where
  go : ∀ {sc : Scope} {stop : List Token} {r : Row} {X : List Elem} {F : Option Int} {ts ts' : List Tok} (sp : Nat), Lets stop →
    (Token.right .bracket ∈ stop → a.hasBracket = false) → Soft ts → (a.isText = true → Halted ts) →
    (∀ l, (a.isLoose = false → l = some (r.items.length : Int)) →
      ∃ l', Items ⟨spec, globPrefix⟩ sc stop ⟨r.items ++ swallow a.isText a.elem (blankElems sp), r.first, l⟩ ts ⟨X, F, l'⟩ ts') →
    ∃ l', Items ⟨spec, globPrefix⟩ sc stop r (a.toks (blankToks sp ++ ts)) ⟨X, F, l'⟩ ts'

/-- An item that starts with a token and is not a text. -/
theorem parses_of_item {spec : CommandSpec} {a : Atom} {t : Tok} (hx : a.isText = false) (ht : t.1 ∈ formulaKinds)
    (h : ∀ {sc : Scope} {r : Row} {k : List Tok}, NoVoid k → ∃ rest, a.toks k = t :: rest ∧
      Item ⟨spec, globPrefix⟩ sc false r (t :: rest) true (r.add [a.elem]) k) : AtomParses spec a := by
  refine ⟨?_⟩
  intro sc stop r X F ts ts' sp hl hb hs hq hc
  obtain ⟨rest, h1, h2⟩ := @h sc r (blankToks sp ++ ts) (noVoid_blank hs.noVoid)
  obtain ⟨l', h3⟩ := hc (some r.items.length) (fun _ => rfl)
  rw [elemsWith_ne hx] at h3
  rw [h1]
  exact ⟨l', more_blanks hl (hl _ ht) h2 (by simpa using h3)⟩

/-- What `Formula.parse` and `Atoms.parse` show. -/
structure Parses (spec : CommandSpec) (toks : List Tok → List Tok) (elems : List Elem) (bracket : Bool) : Prop where
  go : ∀ {sc : Scope} {stop : List Token} {r : Row} {X : List Elem} {F : Option Int} {ts ts' : List Tok}, Lets stop →
    (Token.right .bracket ∈ stop → bracket = false) → Halted ts →
    (∀ l, ∃ l', Items ⟨spec, globPrefix⟩ sc stop ⟨r.items ++ elems, r.first, l⟩ ts ⟨X, F, l'⟩ ts') →
    ∃ l', Items ⟨spec, globPrefix⟩ sc stop r (toks ts) ⟨X, F, l'⟩ ts'

/-- A whole list of items. -/
theorem Parses.whole {spec : CommandSpec} {toks : List Tok → List Tok} {elems : List Elem} {b : Bool} (h : Parses spec toks elems b)
    {sc : Scope} {stop : List Token} {r : Row} {ts : List Tok} (hl : Lets stop) (hb : Token.right .bracket ∈ stop → b = false) (hq : Halted ts)
    (hs : ∀ t, ts.head? = some t → t.1 ∈ stop) :
    ∃ l', Items ⟨spec, globPrefix⟩ sc stop r (toks ts) ⟨r.items ++ elems, r.first, l'⟩ ts :=
  h.go hl hb hq fun l => ⟨l, .over hs⟩

theorem curly_item {spec : CommandSpec} {f : List Tok → List Tok} {es : List Elem} {b : Bool} (h : Parses spec f es b) {sc : Scope} {one : Bool}
    {r : Row} {k : List Tok} : Item ⟨spec, globPrefix⟩ sc one r (lcurly :: f (rcurly :: k)) true (r.add [curlyElem es]) k := by
  obtain ⟨l', hi⟩ := h.whole (sc := .curlyItem) (r := ⟨[leafOf lcurly], some 1, none⟩) (ts := rcurly :: k) lets_curly
    (fun h => absurd h (by decide)) (.cons rfl) (fun t ht => by cases ht; decide)
  have := Item.group (sc := sc) (one := one) (r := r) (k := .left .curly) (x := ['{']) rfl hi
  rw [show rcurly = (.right .curly, ['}']) from rfl, closing_eq] at this
  exact this

theorem argument {spec : CommandSpec} {f : List Tok → List Tok} {es : List Elem} {b : Bool} (h : Parses spec f es b) {sc : Scope}
    {p : ArgPattern} {ks : List ArgKind} {k ts' : List Tok} {args : List Elem} {blanks : List Tok} (square : Bool) (hb : square = true → b = false)
    (hs : square = true → Grammar.seesGroup p .bracket = true)
    (ht : Grammar.takes globPrefix p ks (if square then .bracket else .term) = true)
    (ha : Grammar.Args ⟨spec, globPrefix⟩ sc p (ks ++ [if square then .bracket else .term]) k args blanks ts') :
    Grammar.Args ⟨spec, globPrefix⟩ sc p ks ((if square then lsquare else lcurly) :: f ((if square then rsquare else rcurly) :: k))
      (.node .clauseArgument [if square then squareElem es else curlyElem es] :: args) blanks ts' := by
  cases square with
  | false =>
    obtain ⟨l', hi⟩ := h.whole (sc := .curlyItem) (r := ⟨[leafOf lcurly], some 1, none⟩) (ts := rcurly :: k) lets_curly
      (fun h => absurd h (by decide)) (.cons rfl) (fun t ht => by cases ht; decide)
    have := Grammar.Args.group (sc := sc) (p := p) (ks := ks) (b := .curly) (x := ['{']) (args := args) (blanks := blanks) (ts' := ts') rfl ht hi
      (by rw [show rcurly = (.right .curly, ['}']) from rfl]; exact (congrArg (fun z => Grammar.Args _ sc p _ z args blanks ts')
            (congrArg Prod.snd closing_eq)).mpr ha)
    rw [show rcurly = (.right .curly, ['}']) from rfl] at this
    have he : Grammar.closing (Grammar.argGrouping .curly).2.2.1 ((Token.right .curly, ['}']) :: k) = ([leafOf (Token.right .curly, ['}'])], k) := closing_eq
    rw [he] at this
    exact this
  | true =>
    obtain ⟨l', hi⟩ := h.whole (sc := .bracketItem) (r := ⟨[leafOf lsquare], some 1, none⟩) (ts := rsquare :: k) lets_square
      (fun _ => hb rfl) (.cons rfl) (fun t ht => by cases ht; decide)
    have := Grammar.Args.group (sc := sc) (p := p) (ks := ks) (b := .bracket) (x := ['[']) (args := args) (blanks := blanks) (ts' := ts') (hs rfl) ht hi
      (by rw [show rsquare = (.right .bracket, [']']) from rfl]; exact (congrArg (fun z => Grammar.Args _ sc p _ z args blanks ts')
            (congrArg Prod.snd closing_eq)).mpr ha)
    rw [show rsquare = (.right .bracket, [']']) from rfl] at this
    have he : Grammar.closing (Grammar.argGrouping .bracket).2.2.1 ((Token.right .bracket, [']']) :: k) = ([leafOf (Token.right .bracket, [']'])], k) := closing_eq
    rw [he] at this
    exact this

theorem over_item {spec : CommandSpec} {name : Text} {sh : CmdShape} (h1 : spec name = some (.cmd sh)) (h2 : sh.args = .infixGreedy)
    {f g : List Tok → List Tok} {es es' : List Elem} {b b' : Bool} (hf : Parses spec f es b) (hg : Parses spec g es' b') {sc : Scope} {r : Row}
    {k : List Tok} : Item ⟨spec, globPrefix⟩ sc false r (lcurly :: f (nameTok name :: g (rcurly :: k))) true
      (r.add [curlyElem [.node .itemCmd [.node .clauseArgument es, leafOf (nameTok name), .node .clauseArgument es']]]) k := by
  obtain ⟨l1, hr⟩ := hg.whole (sc := .curlyItem) (stop := Grammar.greedyEnders .curlyItem) (r := ⟨[], some 0, none⟩) (ts := rcurly :: k) lets_over
    (fun h => absurd h (by decide)) (.cons rfl) (fun t ht => by cases ht; decide)
  have hcmd : Grammar.commandArgs spec name = .infixGreedy := by
    rw [commandArgs_of h1 (by rw [h2]; intro h; cases h), h2]
  obtain ⟨l2, hi⟩ := hf.go (sc := .curlyItem) (stop := Grammar.enders .curlyItem) (r := ⟨[leafOf lcurly], some 1, none⟩)
    (X := [leafOf lcurly] ++ [.node .itemCmd ([.node .clauseArgument es] ++ [leafOf (nameTok name), .node .clauseArgument ([] ++ es')])])
    (F := none) (ts := nameTok name :: g (rcurly :: k)) (ts' := rcurly :: k) lets_curly (fun h => absurd h (by decide)) (.cons rfl) fun l => by
      have ho : (Row.mk ([leafOf lcurly] ++ es) (some 1) l).operand (some 1) = some ([leafOf lcurly], [.node .clauseArgument es]) := by
        unfold Row.operand
        simp
        omega
      have := Item.infix (env := ⟨spec, globPrefix⟩) (sc := .curlyItem) (one := false) (n := .generic) (name := name) rfl hcmd ho hr
      exact ⟨none, .more (lets_curly (.cmd .generic) (by decide)) this (.over fun t ht => by cases ht; decide)⟩
  have := Item.group (sc := sc) (one := false) (r := r) (k := .left .curly) (x := ['{']) rfl hi
  rw [show rcurly = (.right .curly, ['}']) from rfl, closing_eq] at this
  exact this

/-- The blanks before the first cell. -/
def Cells.lead : Cells → Nat
  | .last (.mk n _) => n
  | .cons (.mk n _) _ _ => n

/-- The cells without the blanks before the first. -/
def Cells.bare : Cells → Cells
  | .last (.mk _ as) => .last (.mk 0 as)
  | .cons (.mk _ as) e r => .cons (.mk 0 as) e r

theorem Cells.toks_lead (c : Cells) (k : List Tok) : c.toks k = blankToks c.lead ++ c.bare.toks k := by
  cases c with
  | last f => cases f; rw [Cells.bare, Cells.toks, Cells.toks, Formula.toks, Formula.toks]; rfl
  | cons f e r => cases f; rw [Cells.bare, Cells.toks, Cells.toks, Formula.toks, Formula.toks]; rfl

theorem Cells.elems_lead (c : Cells) : c.elems = blankElems c.lead ++ c.bare.elems := by
  cases c with
  | last f => cases f; rw [Cells.bare, Cells.elems, Cells.elems, Formula.elems, Formula.elems]; rfl
  | cons f e r => cases f; rw [Cells.bare, Cells.elems, Cells.elems, Formula.elems, Formula.elems]; simp [Cells.lead, blankElems_zero]

theorem Cells.soft {spec : CommandSpec} {c : Cells} (h : c.Ok spec) {k : List Tok} (hk : Halted k) : Soft (c.bare.toks k) := by
  cases c with
  | last f =>
    cases f with
    | mk n as =>
      rw [Cells.Ok, Formula.Ok] at h
      rw [Cells.bare, Cells.toks, Formula.toks]
      exact Atoms.soft h hk.soft
  | cons f e r =>
    cases f with
    | mk n as =>
      rw [Cells.Ok, Formula.Ok] at h
      rw [Cells.bare, Cells.toks, Formula.toks]
      refine Atoms.soft h.1 (Halted.soft ?_)
      cases e <;> exact .cons rfl

theorem Parses.blanks {spec : CommandSpec} {toks : List Tok → List Tok} {elems : List Elem} {b : Bool} (n : Nat) (h : Parses spec toks elems b) :
    Parses spec (fun k => blankToks n ++ toks k) (blankElems n ++ elems) b := by
  refine ⟨?_⟩
  intro sc stop r X F ts ts' hl hb hq hc
  obtain ⟨l', hi⟩ := h.go (r := ⟨r.items ++ blankElems n, r.first, r.last⟩) hl hb hq (by simpa using hc)
  exact ⟨l', parse_blanks n hl hi⟩

/-- What `Cells.parse` shows. -/
structure CellsParse (spec : CommandSpec) (toks : List Tok → List Tok) (elems : List Elem) : Prop where
  go : ∀ {sc : Scope} {r : Row} {X : List Elem} {F : Option Int} {ts ts' : List Tok}, Halted ts →
    (∀ l, ∃ l', Items ⟨spec, globPrefix⟩ sc (Grammar.enders .environment) ⟨r.items ++ elems, r.first, l⟩ ts ⟨X, F, l'⟩ ts') →
    ∃ l', Items ⟨spec, globPrefix⟩ sc (Grammar.enders .environment) r (toks ts) ⟨X, F, l'⟩ ts'

theorem CellsParse.whole {spec : CommandSpec} {toks : List Tok → List Tok} {elems : List Elem} (h : CellsParse spec toks elems)
    {sc : Scope} {r : Row} {ts : List Tok} (hq : Halted ts) (hs : ∀ t, ts.head? = some t → t.1 ∈ Grammar.enders .environment) :
    ∃ l', Items ⟨spec, globPrefix⟩ sc (Grammar.enders .environment) r (toks ts) ⟨r.items ++ elems, r.first, l'⟩ ts :=
  h.go hq fun l => ⟨l, .over hs⟩

theorem CellsParse.blanks {spec : CommandSpec} {toks : List Tok → List Tok} {elems : List Elem} (n : Nat) (h : CellsParse spec toks elems) :
    CellsParse spec (fun k => blankToks n ++ toks k) (blankElems n ++ elems) := by
  refine ⟨?_⟩
  intro sc r X F ts ts' hq hc
  obtain ⟨l', hi⟩ := h.go (r := ⟨r.items ++ blankElems n, r.first, r.last⟩) hq (by simpa using hc)
  exact ⟨l', parse_blanks n lets_environment hi⟩

theorem text_parses {spec : CommandSpec} {ps : List TextPart} (hok : RunOk ps) : AtomParses spec (.text ps) := by
  refine ⟨?_⟩
  intro sc stop r X F ts ts' sp hl hb hs hq hc
  obtain ⟨l', h3⟩ := hc (some r.items.length) (fun _ => rfl)
  refine ⟨l', ?_⟩
  rw [Atom.toks]
  obtain ⟨h0, h1⟩ := hok
  cases ps with
  | nil => exact h0.elim
  | cons p ps =>
    have hrun : ∀ t ∈ ps.map TextPart.tok ++ blankToks sp, Grammar.isTextPart t.1 = true := by
      intro t ht
      rcases List.mem_append.mp ht with ht | ht
      · obtain ⟨q, -, rfl⟩ := List.mem_map.mp ht
        cases q <;> rfl
      · unfold blankToks at ht
        split at ht
        · cases ht
        · rw [List.mem_singleton.mp ht]; rfl
    have hp : p.tok.1 = .comma ∨ p.tok.1 = .word ∧ false = false := by
      cases p with
      | word w => exact .inr ⟨rfl, rfl⟩
      | comma => exact .inl rfl
      | blank n => exact absurd rfl (h1 n)
    have hin : p.tok.1 ∈ formulaKinds := by
      rcases hp with h | ⟨h, -⟩ <;> rw [h] <;> decide
    have hi := Item.text (env := ⟨spec, globPrefix⟩) (sc := sc) (one := false) (r := r) (k := p.tok.1) (x := p.tok.2) hp hrun (hq rfl)
    refine .more (t := p.tok) (hl _ hin) (by simpa using hi) ?_
    simpa [Row.add, swallow, Atom.isText, Atom.elem, textElem, blankElems, Function.comp_def] using h3

theorem sign_parses {spec : CommandSpec} {c : Char} (hok : c ∈ signs) : AtomParses spec (.sign c) := by
  refine ⟨?_⟩
  intro sc stop r X F ts ts' sp hl hb hs hq hc
  have hk := sign_kinds c hok
  have hstop : signTok c ∉ stop := by
    by_cases h : c = ']'
    · subst h
      exact fun h0 => absurd (hb h0) (by decide)
    · have : ∀ c ∈ signs, c ≠ ']' → signTok c ∈ formulaKinds := by decide
      exact hl _ (this c hok h)
  rw [Atom.toks]
  by_cases hl' : c = '*' ∨ c = '@'
  · obtain ⟨l', h3⟩ := hc r.last (fun h => by simp [Atom.isLoose, hl'] at h)
    have hi := Item.single (env := ⟨spec, globPrefix⟩) (sc := sc) (one := false) (r := r) (x := [c]) (ts := blankToks sp ++ ts) hk.2.2.2
    refine ⟨l', more_blanks hl hstop hi ?_⟩
    rw [elemsWith_ne rfl, Atom.elem] at h3
    simpa [hl'] using h3
  · obtain ⟨l', h3⟩ := hc (some r.items.length) (fun _ => rfl)
    have hi := Item.single (env := ⟨spec, globPrefix⟩) (sc := sc) (one := false) (r := r) (x := [c]) (ts := blankToks sp ++ ts) hk.2.2.2
    refine ⟨l', more_blanks hl hstop hi ?_⟩
    rw [elemsWith_ne rfl, Atom.elem] at h3
    simpa [hl'] using h3

/-- A base, and something attached to it. -/
theorem attach_parses {spec : CommandSpec} {a base : Atom} {t : Tok} {rest : List Tok → List Tok} (hx : a.isText = false)
    (hbase : AtomParses spec base) (hloose : base.isLoose = false) (hbr : base.hasBracket = a.hasBracket)
    (htoks : ∀ k, a.toks k = base.toks (t :: rest k)) (ht : t.1 ∈ formulaKinds) (hh : Grammar.isTextPart t.1 = false)
    (h : ∀ {sc : Scope} {r : Row} {k : List Tok}, NoVoid k →
      Item ⟨spec, globPrefix⟩ sc false ⟨r.items ++ [base.elem], r.first, some (r.items.length : Int)⟩ (t :: rest k) false
        ⟨r.items ++ [a.elem], r.first, some (r.items.length : Int)⟩ k) : AtomParses spec a := by
  refine ⟨?_⟩
  intro sc stop r X F ts ts' sp hl hb hs hq hc
  rw [htoks]
  have hhalt : Halted (t :: rest (blankToks sp ++ ts)) := .cons (x := t.2) hh
  have := hbase.go (sc := sc) (stop := stop) (r := r) (X := X) (F := F) (ts := t :: rest (blankToks sp ++ ts)) (ts' := ts') 0 hl
    (by rw [hbr]; exact hb) hhalt.soft (fun _ => hhalt) ?_
  · simpa [blankToks] using this
  · intro l hlast
    rw [blankElems_zero, swallow_nil, hlast hloose]
    obtain ⟨l', h3⟩ := hc (some r.items.length) (fun _ => rfl)
    rw [elemsWith_ne hx] at h3
    refine ⟨l', .more (hl _ ht) (h (noVoid_blank hs.noVoid)) (parse_blanks sp hl ?_)⟩
    simpa using h3

theorem script_item {spec : CommandSpec} {sc : Scope} {r : Row} {base e : Elem} {super : Bool} {ts k : List Tok} (hs : Soft ts)
    (hi : ∀ r : Row, Item ⟨spec, globPrefix⟩ sc true r ts true (r.add [e]) k) :
    Item ⟨spec, globPrefix⟩ sc false ⟨r.items ++ [base], r.first, some (r.items.length : Int)⟩ (markTok super :: ts) false
      ⟨r.items ++ [.node .itemAttachComponent [.node .clauseArgument [base], leafOf (markTok super), e]], r.first, some (r.items.length : Int)⟩ k := by
  have hm : (markTok super).1 = .underscore ∨ (markTok super).1 = .caret := by cases super <;> simp [markTok]
  have := Item.script (env := ⟨spec, globPrefix⟩) (sc := sc) (one := false) (k := (markTok super).1) (x := (markTok super).2) (blanks := [])
    (r := ⟨r.items ++ [base], r.first, some (r.items.length : Int)⟩) hm operand_last (fun t ht => by cases ht) (fun t ht => (hs t ht).1) (hi _)
  have he : ∀ (o : Option Int) (n : Int), (o.map (· - n)).map (· + n) = o := by
    intro o n
    cases o with
    | none => rfl
    | some i => simp
  simpa [Row.enter, Row.leave, Row.add, he, Function.comp_def] using this

theorem environment_item {spec : CommandSpec} {name : Text} {args : Arguments} {body : Cells} {sh : EnvShape}
    (hs : spec name = some (.env sh)) (hf : if args.kinds = [] then sh.args = .none else FitsWith sh.args args) (hbody : body.Ok spec)
    (hcells : CellsParse spec body.bare.toks body.bare.elems) (hnil : args.kinds = [] → args = .nil)
    (hargs : ∀ {sc : Scope} {p : ArgPattern} {ts : List Tok} (n : Nat), FitsWith p args → Soft ts →
      Grammar.Args ⟨spec, globPrefix⟩ sc p [] (args.toks (blankToks n ++ ts)) args.elems (blankToks n) ts)
    {sc : Scope} {r : Row} {k : List Tok} :
    ∃ l, Item ⟨spec, globPrefix⟩ sc false r ((.cmd .beginEnv, name) :: args.toks (body.toks ((.cmd .endEnv, name) :: k))) true
      ⟨r.items ++ [(Atom.environment name args body).elem], r.first, l⟩ k := by
  have hend : Halted ((Token.cmd .endEnv, name) :: k) := .cons rfl
  have hstop : ∀ t, ((Token.cmd .endEnv, name) :: k).head? = some t → t.1 ∈ Grammar.enders .environment := by
    intro t ht
    cases ht
    show Token.cmd .endEnv ∈ _
    decide
  rw [body.toks_lead, Atom.elem, body.elems_lead]
  by_cases h0 : args.kinds = []
  · rw [if_pos h0] at hf
    obtain rfl := hnil h0
    rw [Arguments.toks, Arguments.elems]
    have henv : Grammar.environmentArgs spec name = none := by
      unfold Grammar.environmentArgs
      rw [hs]
      exact if_pos (.inl hf)
    obtain ⟨l', hi⟩ := (hcells.blanks body.lead).whole (sc := .environment) (r := ⟨[.node .itemBegin [leafOf (.cmd .beginEnv, name)]], some 1, none⟩)
      hend hstop
    have := Item.environment (sc := sc) (one := false) (r := r) (x := name) henv hi
    rw [closing_eq] at this
    exact ⟨_, by simpa [Row.add] using this⟩
  · rw [if_neg h0] at hf
    have henv : Grammar.environmentArgs spec name = some sh.args := by
      unfold Grammar.environmentArgs
      rw [hs]
      dsimp only
      rw [if_neg]
      rintro (h | h)
      · exact hf.1 h
      · exact fits_ne hf.2.2.1 h0 h
    have ha := hargs (sc := sc) body.lead hf (body.soft hbody hend)
    obtain ⟨l', hi⟩ := hcells.whole (sc := .environment)
      (r := ⟨.node .itemBegin (leafOf (.cmd .beginEnv, name) :: args.elems) :: (blankToks body.lead).map leafOf, some (1 + (blankToks body.lead).length), none⟩)
      hend hstop
    have := Item.environmentArgs (sc := sc) (one := false) (r := r) henv hf.2.1 ha hi
    rw [closing_eq] at this
    exact ⟨_, by simpa [Row.add, blankElems] using this⟩

theorem Arguments.none_left {spec : CommandSpec} (as : Arguments) (h : as.Ok spec) (hk : as.kinds = []) : as = .nil := by
  cases as with
  | nil => rfl
  | cons _ _ _ => cases hk
  | bare _ _ => cases hk
  | symbol _ _ => cases hk
  | spaced n as => rw [Arguments.Ok] at h; exact absurd hk h.2.1

theorem Arguments.elems_ne {spec : CommandSpec} : ∀ {as : Arguments}, as.Ok spec → as.kinds ≠ [] → as.elems ≠ []
  | .nil, _, hk => absurd rfl hk
  | .cons _ _ _, _, _ => by rw [Arguments.elems]; exact List.cons_ne_nil _ _
  | .bare _ _, _, _ => by rw [Arguments.elems]; exact List.cons_ne_nil _ _
  | .symbol _ _, _, _ => by rw [Arguments.elems]; exact List.cons_ne_nil _ _
  | .spaced n as, h, _ => by
    rw [Arguments.Ok] at h
    rw [Arguments.elems]
    exact Arguments.elems_ne h.2.2 h.2.1

theorem prepend_noVoid (c : Char) (ts : List Tok) : NoVoid (prepend c ts) := by
  intro t ht
  unfold prepend at ht
  split at ht <;> · cases ht; exact fun h => by cases h

theorem Arguments.noVoid {spec : CommandSpec} : ∀ (as : Arguments), as.Ok spec → ∀ {k : List Tok}, NoVoid k → NoVoid (as.toks k)
  | .nil, _, k, h => by rw [Arguments.toks]; exact h
  | .cons square f as, _, k, h => by
    rw [Arguments.toks]
    intro t ht
    cases ht
    cases square <;> exact fun h => by cases h
  | .bare c as, _, k, h => by rw [Arguments.toks]; exact prepend_noVoid c _
  | .symbol name as, _, k, h => by rw [Arguments.toks]; intro t ht; cases ht; exact fun h => by cases h
  | .spaced n as, hok, k, h => by
    rw [Arguments.Ok] at hok
    rw [Arguments.toks]
    exact noVoid_blank (as.noVoid hok.2.2 h)

mutual
theorem Atom.parse {spec : CommandSpec} : ∀ (a : Atom), a.Ok spec → AtomParses spec a
  | .text ps, hok => by
    rw [Atom.Ok] at hok
    exact text_parses hok
  | .sign c, hok => by
    rw [Atom.Ok] at hok
    exact sign_parses hok
  | .symbol name, hok => by
    rw [Atom.Ok] at hok
    refine parses_of_item (t := nameTok name) rfl (show Token.cmd .generic ∈ formulaKinds from by decide) fun {sc r k} _ => ⟨k, by rw [Atom.toks], ?_⟩
    rw [Atom.elem]
    exact symbol_item hok
  | .group f, hok => by
    rw [Atom.Ok] at hok
    have := Formula.parse f hok
    refine parses_of_item (t := lcurly) rfl (by decide) fun {sc r k} _ => ⟨_, by rw [Atom.toks], ?_⟩
    rw [Atom.elem]
    exact curly_item this
  | .command name args, hok => by
    rw [Atom.Ok] at hok
    obtain ⟨-, h1, h2, ⟨sh, p, h3, h4, h5⟩, -⟩ := hok
    refine ⟨?_⟩
    intro sc stop r X F ts ts' sp hl hb hs hq hc
    obtain ⟨l', h6⟩ := hc (some r.items.length) (fun _ => rfl)
    rw [Atom.toks]
    have ha := Arguments.parse args h1 (sc := sc) (p := p) (ks := []) sp h5.2.2.1 (fun h => h5.2.2.2 h) hs
    have hcmd : Grammar.commandArgs spec name = .right p := by
      rw [commandArgs_of h3 (by rw [h4]; intro h; cases h; exact fits_ne h5.2.2.1 h2 rfl), h4]
    have hi := Item.command (env := ⟨spec, globPrefix⟩) (sc := sc) (one := false) (r := r) (n := .generic) (name := name) rfl hcmd h5.1 h5.2.1 ha
    refine ⟨l', .more (hl (.cmd .generic) (show Token.cmd .generic ∈ formulaKinds from by decide)) hi ?_⟩
    rw [elemsWith_ne rfl, Atom.elem] at h6
    exact h6
  | .textCommand name ps, hok => by
    rw [Atom.Ok] at hok
    obtain ⟨-, h1, ⟨sh, h3, h4⟩, -⟩ := hok
    have hp : Parses spec (fun k => ps.map TextPart.tok ++ k) [textElem ps] false := by
      refine ⟨?_⟩
      intro sc stop r X F ts ts' hl hb hq hc
      have := (text_parses (spec := spec) h1).go (sc := sc) (stop := stop) (r := r) (X := X) (F := F) (ts := ts) (ts' := ts') 0 hl (fun _ => rfl)
        hq.soft (fun _ => hq) (fun l _ => by
          rw [blankElems_zero, swallow_nil, Atom.elem]
          exact hc l)
      rw [Atom.toks] at this
      exact this
    refine ⟨?_⟩
    intro sc stop r X F ts ts' sp hl hb hs hq hc
    obtain ⟨l', h6⟩ := hc (some r.items.length) (fun _ => rfl)
    rw [Atom.toks]
    have hover : TakesExactly (.fixedLen 1) [.term] [] := fun k => rfl
    have ha := argument (p := .fixedLen 1) (ks := []) hp false (fun h => by cases h) (fun h => by cases h) rfl
      (args_over (spec := spec) (sc := sc) sp hover hs)
    have hcmd : Grammar.commandArgs spec name = .right (.fixedLen 1) := by
      rw [commandArgs_of h3 (by rw [h4]; intro h; cases h), h4]
    have hi := Item.command (env := ⟨spec, globPrefix⟩) (sc := sc) (one := false) (r := r) (n := .generic) (name := name) rfl hcmd
      (fun h => by cases h) (fun h => by cases h) ha
    refine ⟨l', .more (hl (.cmd .generic) (show Token.cmd .generic ∈ formulaKinds from by decide)) hi ?_⟩
    rw [elemsWith_ne rfl, Atom.elem] at h6
    exact h6
  | .postfix base name, hok => by
    rw [Atom.Ok] at hok
    obtain ⟨h1, h2, -, ⟨sh, h3, h4⟩, -⟩ := hok
    have hcmd : Grammar.commandArgs spec name = .left1 := by
      rw [commandArgs_of h3 (by rw [h4]; intro h; cases h), h4]
    refine attach_parses (t := nameTok name) (rest := fun k => k) rfl (Atom.parse base h1) h2 rfl (fun k => by rw [Atom.toks])
      (show Token.cmd .generic ∈ formulaKinds from by decide) rfl fun {sc r k} _ => ?_
    have := Item.postfix (env := ⟨spec, globPrefix⟩) (sc := sc) (one := false) (n := .generic) (name := name) (ts := k)
      (r := ⟨r.items ++ [base.elem], r.first, some (r.items.length : Int)⟩) rfl hcmd operand_last
    rw [Atom.elem]
    exact this
  | .prime base, hok => by
    rw [Atom.Ok] at hok
    refine attach_parses (t := aposTok) (rest := fun k => k) rfl (Atom.parse base hok.1) hok.2 rfl (fun k => by rw [Atom.toks]; rfl)
      (by decide) rfl fun {sc r k} _ => ?_
    have := Item.prime (env := ⟨spec, globPrefix⟩) (sc := sc) (one := false) (x := ['\'']) (ts := k)
      (r := ⟨r.items ++ [base.elem], r.first, some (r.items.length : Int)⟩) (fun h => by cases h) operand_last
    rw [Atom.elem]
    exact this
  | .script base super s, hok => by
    rw [Atom.Ok] at hok
    refine attach_parses (t := markTok super) (rest := fun k => s.toks k) rfl (Atom.parse base hok.1) hok.2.1 rfl (fun k => by rw [Atom.toks])
      (by cases super <;> decide) (by cases super <;> rfl) fun {sc r k} hk => ?_
    rw [Atom.elem]
    exact script_item (Script.parse s hok.2.2 hk (sc := sc) (r := r)).1 fun r => (Script.parse s hok.2.2 hk (sc := sc) (r := r)).2
  | .delimited l f r, hok => by
    rw [Atom.Ok] at hok
    obtain ⟨h1, h2, h3, -⟩ := hok
    have hf := Formula.parse f h2
    refine parses_of_item (t := leftTok) rfl (by decide) fun {sc r' k} hk => ⟨_, by rw [Atom.toks], ?_⟩
    have hv : NoVoid (f.toks (rightTok :: r.toks k)) := by
      cases f with
      | mk n as =>
        rw [Formula.Ok] at h2
        rw [Formula.toks]
        exact noVoid_blank (as.soft h2 (Halted.soft (.cons rfl))).noVoid
    have hd := Delim.parse h1 leftTok hv
    obtain ⟨l', hi⟩ := hf.whole (sc := .lr) (r := ⟨[.node .clauseLR [leafOf leftTok, l.elem]], some 1, none⟩) (ts := rightTok :: r.toks k)
      lets_lr (fun h => absurd h (by decide)) (.cons rfl) (fun t ht => by cases ht; decide)
    have hi' : Items ⟨spec, globPrefix⟩ .lr (Grammar.enders .lr) ⟨[(Grammar.delimiter (.cmd .left, t!"\\left") (l.toks (f.toks (rightTok :: r.toks k)))).1], some 1, none⟩
        (Grammar.delimiter (.cmd .left, t!"\\left") (l.toks (f.toks (rightTok :: r.toks k)))).2
        ⟨.node .clauseLR [leafOf leftTok, l.elem] :: f.elems, some 1, l'⟩ (rightTok :: r.toks k) := by
      rw [show ((Token.cmd .left, t!"\\left") : Tok) = leftTok from rfl, hd]
      exact hi
    have := Item.delimited (sc := sc) (one := false) (r := r') hi'
    have hr : Grammar.rightDelimiter (rightTok :: r.toks k) = ([.node .clauseLR [leafOf rightTok, r.elem]], k) := by
      show ([(Grammar.delimiter rightTok (r.toks k)).1], (Grammar.delimiter rightTok (r.toks k)).2) = _
      rw [Delim.parse h3 rightTok hk]
    rw [hr] at this
    rw [Atom.elem]
    exact this
  | .over l name r, hok => by
    rw [Atom.Ok] at hok
    obtain ⟨h1, h2, -, ⟨sh, h3, h4⟩, -⟩ := hok
    refine parses_of_item (t := lcurly) rfl (show Token.left .curly ∈ formulaKinds from by decide) fun {sc r0 k} _ =>
      ⟨l.toks (nameTok name :: r.toks (rcurly :: k)), by rw [Atom.toks], ?_⟩
    rw [Atom.elem]
    exact over_item h3 h4 (Formula.parse l h1) (Formula.parse r h2)
  | .environment name args body, hok => by
    rw [Atom.Ok] at hok
    obtain ⟨-, -, ⟨h1, -⟩, h2, sh, h3, -, h4⟩ := hok
    have hcells := Cells.parse body h2
    refine ⟨?_⟩
    intro sc stop r X F ts ts' sp hl hb hs hq hc
    obtain ⟨l', h6⟩ := hc (some r.items.length) (fun _ => rfl)
    rw [Atom.toks]
    obtain ⟨l, hi⟩ := environment_item h3 h4 h2 hcells (args.none_left h1)
      (fun {sc p ts} n hf hs => Arguments.parse args h1 (sc := sc) n hf.2.2.1 hf.2.2.2 hs) (sc := sc) (r := r) (k := blankToks sp ++ ts)
    refine ⟨l', more_blanks hl (hl (.cmd .beginEnv) (by decide)) hi ?_⟩
    rw [elemsWith_ne rfl] at h6
    exact h6
theorem Script.parse {spec : CommandSpec} : ∀ (s : Script), s.Ok spec → ∀ {k : List Tok}, NoVoid k → ∀ {sc : Scope} {r : Row},
    Soft (s.toks k) ∧ Item ⟨spec, globPrefix⟩ sc true r (s.toks k) true (r.add [s.elem]) k
  | .braces f, hok, k, hk, sc, r => by
    rw [Script.Ok] at hok
    have := Formula.parse f hok
    rw [Script.toks, Script.elem]
    exact ⟨Halted.soft (.cons rfl), curly_item this⟩
  | .char c, hok, k, hk, sc, r => by
    rw [Script.toks, Script.elem]
    obtain ⟨cs, ts', h1, h2⟩ := prepend_rest (c := c) hk
    rw [h1]
    refine ⟨fun t ht => by cases ht; exact ⟨rfl, fun h => by cases h⟩, ?_⟩
    rw [← h2]
    exact .char
  | .symbol name, hok, k, hk, sc, r => by
    rw [Script.Ok] at hok
    rw [Script.toks, Script.elem]
    exact ⟨Halted.soft (.cons rfl), symbol_item hok⟩
theorem Formula.parse {spec : CommandSpec} : ∀ (f : Formula), f.Ok spec → Parses spec f.toks f.elems f.hasBracket
  | .mk lead as, hok => by
    rw [Formula.Ok] at hok
    have := (Atoms.parse as hok).blanks lead
    refine ⟨?_⟩
    intro sc stop r X F ts ts' hl hb hq hc
    rw [Formula.toks]
    rw [Formula.elems] at hc
    exact this.go hl hb hq hc
theorem Atoms.parse {spec : CommandSpec} : ∀ (as : Atoms), as.Ok spec → Parses spec as.toks as.elems as.hasBracket
  | .nil, hok => by
    refine ⟨?_⟩
    intro sc stop r X F ts ts' hl hb hq hc
    rw [Atoms.toks]
    rw [Atoms.elems] at hc
    simpa using hc r.last
  | .cons a sp as, hok => by
    rw [Atoms.Ok] at hok
    obtain ⟨h1, h2, h3, -⟩ := hok
    have ha := Atom.parse a h1
    have has := Atoms.parse as h2
    refine ⟨?_⟩
    intro sc stop r X F ts ts' hl hb hq hc
    rw [Atoms.toks]
    rw [Atoms.elems] at hc
    refine ha.go sp hl (fun h => (Bool.or_eq_false_iff.mp (hb h)).1) (as.soft h2 hq.soft) (fun ht => as.halted h2 (h3 ht) hq) fun l _ => ?_
    exact has.go (r := ⟨r.items ++ swallow a.isText a.elem (blankElems sp), r.first, l⟩) hl (fun h => (Bool.or_eq_false_iff.mp (hb h)).2) hq
      (by simpa using hc)
theorem Arguments.parse {spec : CommandSpec} : ∀ (as : Arguments), as.Ok spec → ∀ {sc : Scope} {p : ArgPattern} {ks : List ArgKind}
    {ts : List Tok} (n : Nat), TakesExactly p ks as.kinds → (ArgKind.bracket ∈ as.kinds → Grammar.seesGroup p .bracket = true) → Soft ts →
    Grammar.Args ⟨spec, globPrefix⟩ sc p ks (as.toks (blankToks n ++ ts)) as.elems (blankToks n) ts
  | .nil, hok, sc, p, ks, ts, n, ht, hb, hs => by
    rw [Arguments.toks, Arguments.elems]
    exact args_over n ht hs
  | .cons square f as, hok, sc, p, ks, ts, n, ht, hb, hs => by
    rw [Arguments.Ok] at hok
    obtain ⟨h1, h2, h3⟩ := hok
    rw [Arguments.toks, Arguments.elems]
    refine argument (Formula.parse f h1) square h2 (fun h => hb ?_) ht.1 (Arguments.parse as h3 n ht.2 (fun h => hb ?_) hs)
    · subst h; exact List.mem_cons_self
    · exact List.mem_cons_of_mem _ h
  | .bare c as, hok, sc, p, ks, ts, n, ht, hb, hs => by
    rw [Arguments.Ok] at hok
    rw [Arguments.toks, Arguments.elems]
    obtain ⟨cs, ts', h1, h2⟩ := prepend_rest (c := c) (as.noVoid hok.2 (noVoid_blank (n := n) hs.noVoid))
    rw [h1]
    refine .char ht.1 ?_
    rw [h2]
    exact Arguments.parse as hok.2 n ht.2 (fun h => hb (List.mem_cons_of_mem _ h)) hs
  | .symbol name as, hok, sc, p, ks, ts, n, ht, hb, hs => by
    rw [Arguments.Ok] at hok
    rw [Arguments.toks, Arguments.elems]
    refine .item (k := .cmd .generic) ⟨fun h => (by cases h), fun b h => (by cases h), rfl⟩ ?_ (symbol_item (one := false) hok.1)
      (Arguments.parse as hok.2.1 n ht.2 (fun h => hb (List.mem_cons_of_mem _ h)) hs)
    unfold Grammar.argsOver
    rw [Bool.or_eq_false_iff]
    refine ⟨?_, ?_⟩
    · cases sc <;> decide
    · rw [Bool.not_eq_false']
      exact ht.1
  | .spaced m as, hok, sc, p, ks, ts, n, ht, hb, hs => by
    rw [Arguments.Ok] at hok
    rw [Arguments.toks, Arguments.elems]
    have h0 := Arguments.parse as hok.2.2 (sc := sc) (p := p) (ks := ks) n ht hb hs
    unfold blankToks
    split
    · exact h0
    · have := Grammar.Args.blank (t := (.whitespace, spaces m)) rfl h0
      rwa [if_neg (by have := Arguments.elems_ne hok.2.2 hok.2.1; simpa using this)] at this
theorem Cells.parse {spec : CommandSpec} : ∀ (c : Cells), c.Ok spec → CellsParse spec c.bare.toks c.bare.elems
  | .last (.mk n as), hok => by
    rw [Cells.Ok, Formula.Ok] at hok
    have := Atoms.parse as hok
    refine ⟨?_⟩
    intro sc r X F ts ts' hq hc
    rw [Cells.bare, Cells.elems, Formula.elems] at hc
    rw [Cells.bare, Cells.toks, Formula.toks]
    exact this.go lets_environment (fun h => absurd h (by decide)) hq hc
  | .cons (.mk n as) endsRow c, hok => by
    rw [Cells.Ok, Formula.Ok] at hok
    have h1 := Atoms.parse as hok.1
    have h2 := (Cells.parse c hok.2).blanks c.lead
    refine ⟨?_⟩
    intro sc r X F ts ts' hq hc
    rw [Cells.bare, Cells.elems, Formula.elems, blankElems_zero, List.nil_append, c.elems_lead] at hc
    rw [Cells.bare, Cells.toks, Formula.toks, c.toks_lead]
    have hsep : (sepTok endsRow).1 ∉ Grammar.enders .environment ∧ Grammar.isTextPart (sepTok endsRow).1 = false ∧
        Grammar.single (sepTok endsRow).1 = some false := by cases endsRow <;> decide
    refine h1.go lets_environment (fun h => absurd h (by decide)) (.cons (x := (sepTok endsRow).2) hsep.2.1) fun l => ?_
    obtain ⟨l', hi⟩ := h2.go (r := ⟨r.items ++ as.elems ++ [leafOf (sepTok endsRow)], r.first, l⟩) hq (by simpa using hc)
    exact ⟨l', .more hsep.1 (.single hsep.2.2) hi⟩
end

end Mitex
