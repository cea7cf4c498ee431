/-
C37, C43, C44, C49: global properties of the converter.
-/
import Verif.Proof.ConvFrame
import Verif.Proof.ConvRel
import Verif.Props.Parser

namespace Mitex

/-! ### C37 -/

/-- C37: a successful conversion of any element leaves mode, environment and indentation as they were, and has only
appended to the output. -/
theorem C37_restores (spec : CommandSpec) (n : Nat) (e : Elem) (s s' : CState) (h : convert spec n e s = .ok s') :
    s'.mode = s.mode ∧ s'.env = s.env ∧ s'.indent = s.indent ∧ ∃ o, s'.out = s.out ++ o :=
  convert_framed spec n e s s' h

/-- The conversion of a text with the standard specification, in a given state. -/
def convertIn (input : Text) (s : CState) : Res (Elem × CState) := do
  let tree ← parse 50 ⟨defaultSpec, globPrefix⟩ false input
  let s ← convert defaultSpec tree.depth tree s
  .ok (tree, s)

theorem convertIn_ok {input : Text} {s : CState} {r : Elem × CState} (h : convertIn input s = .ok r) :
    parse 50 ⟨defaultSpec, globPrefix⟩ false input = .ok r.1 ∧ convert defaultSpec r.1.depth r.1 s = .ok r.2 := by
  unfold convertIn at h
  cases ht : parse 50 ⟨defaultSpec, globPrefix⟩ false input with
  | error x => rw [ht] at h; cases h
  | ok tree =>
    rw [ht, ok_bind] at h
    cases hc : convert defaultSpec tree.depth tree s with
    | error x => rw [hc] at h; cases h
    | ok s' => rw [hc, ok_bind] at h; cases h; exact ⟨rfl, hc⟩

/-- The hypothesis of C37 is met by a conversion that enters list, math and matrix environments and formulas. -/
example : ∃ tree s', parse 50 ⟨defaultSpec, globPrefix⟩ false
      t!"\\begin{itemize}\\item $\\begin{matrix}a&b\\end{matrix}$\\end{itemize}" = .ok tree ∧
    convert defaultSpec tree.depth tree ⟨.text, .enumerate, 4, none, false, t!"x"⟩ = .ok s' := by
  have h : (convertIn t!"\\begin{itemize}\\item $\\begin{matrix}a&b\\end{matrix}$\\end{itemize}"
      ⟨.text, .enumerate, 4, none, false, t!"x"⟩).toBool = true := by decide +kernel
  obtain ⟨r, h1⟩ := ok_of h
  exact ⟨r.1, r.2, (convertIn_ok h1).1, (convertIn_ok h1).2⟩

/-! ### C49 -/

theorem RR.eq_of {α : Type} {r r' : Res α} (h : RR Eq r r') : r = r' ∧ r ≠ .error .fuel := by
  cases r with
  | error x => cases r' with
    | error y => exact ⟨by rw [h.1], fun e => h.2 (by cases e; rfl)⟩
    | ok b => exact h.elim
  | ok a => cases r' with
    | error y => exact h.elim
    | ok b => exact ⟨congrArg _ h, fun e => (by cases e)⟩

theorem RelS_eq {s s' : CState} (h : RelS Eq s s') : s = s' := by
  obtain ⟨h1, h2, h3, h4, h5, h6⟩ := h
  cases s; cases s'
  simp_all

theorem RelS.refl_eq (s : CState) : RelS Eq s s := ⟨rfl, rfl, rfl, rfl, rfl, rfl⟩

theorem appends_eq : Appends Eq := fun _ _ _ h => by rw [h]

theorem convert_same (spec : CommandSpec) {n m : Nat} {e e' : Elem} (h : Same e e') (hn : e.depth ≤ n) (hm : e'.depth ≤ m)
    (s : CState) : convert spec n e s = convert spec m e' s ∧ convert spec n e s ≠ .error .fuel :=
  RR.eq_of ((convert_rel spec appends_eq n m e e' s s ⟨h, hn, hm⟩ (RelS.refl_eq s)).mono fun _ _ h => RelS_eq h)

/-- C49: converting any tree terminates: the recursion is never deeper than the tree, whatever the state. -/
theorem C49_terminates (spec : CommandSpec) (n : Nat) (e : Elem) (s : CState) (h : e.depth ≤ n) :
    convert spec n e s ≠ .error .fuel :=
  (convert_same spec (Same.refl e) h h s).2

/-- C49: the result does not depend on the bound on the recursion. -/
theorem C49_fuel_irrelevant (spec : CommandSpec) (n m : Nat) (e : Elem) (s : CState) (hn : e.depth ≤ n) (hm : e.depth ≤ m) :
    convert spec n e s = convert spec m e s :=
  (convert_same spec (Same.refl e) hn hm s).1

/-- C49: converting a tree yields the complete output, or an error message, or a panic; never a partial output. -/
theorem C49_outcome (spec : CommandSpec) (m : Mode) (e : Elem) :
    (∃ s, convert spec e.depth e (CState.new m) = .ok s ∧ convertTree spec m e = .ok s.out) ∨
    (∃ msg, convertTree spec m e = .error (.error msg)) ∨ convertTree spec m e = .error .panic := by
  unfold convertTree
  have hf := C49_terminates spec e.depth e (CState.new m) (Nat.le_refl _)
  cases h : convert spec e.depth e (CState.new m) with
  | ok s => exact Or.inl ⟨s, rfl, rfl⟩
  | error x =>
    cases x with
    | panic => exact Or.inr (Or.inr rfl)
    | fuel => exact absurd h hf
    | error msg => exact Or.inr (Or.inl ⟨msg, rfl⟩)

/-- C49: what is written does not depend on what was written before. -/
theorem C49_output_independent (spec : CommandSpec) (n : Nat) (e : Elem) (s : CState) (h : e.depth ≤ n) (p : Text) :
    convert spec n e { s with out := p ++ s.out } =
      (convert spec n e s).map fun s' => { s' with out := p ++ s'.out } := by
  have hP : Appends fun a b => b = p ++ a := fun a b t h => by rw [h, List.append_assoc]
  have := convert_rel spec hP n n e e s { s with out := p ++ s.out } ⟨Same.refl e, h, h⟩ ⟨rfl, rfl, rfl, rfl, rfl, rfl⟩
  cases h1 : convert spec n e s with
  | error x =>
    rw [h1] at this
    cases h2 : convert spec n e { s with out := p ++ s.out } with
    | error y => rw [h2] at this; rw [this.1]; rfl
    | ok b => rw [h2] at this; exact this.elim
  | ok a =>
    rw [h1] at this
    cases h2 : convert spec n e { s with out := p ++ s.out } with
    | error y => rw [h2] at this; exact this.elim
    | ok b =>
      rw [h2] at this
      obtain ⟨k1, k2, k3, k4, k5, k6⟩ := this
      cases a; cases b
      simp_all [Except.map]

/-! ### C43 -/

/-- C43: the texts of comments do not influence the result of a conversion (outside of the parts that are copied
verbatim, such as labels). -/
theorem C43_comments (spec : CommandSpec) (m : Mode) (e e' : Elem) (h : Same e e') :
    convertTree spec m e = convertTree spec m e' := by
  unfold convertTree
  rw [(convert_same spec h (Nat.le_refl _) (Nat.le_refl _) (CState.new m)).1]

/-- C43: a comment leaves the state as it is, but for the flag that drops leading whitespace. -/
theorem C43_comment_silent (spec : CommandSpec) (n : Nat) (s : CState) (t : Text) (cs : List Elem) :
    convert spec (n + 1) (.token .tokenComment t) s = .ok { s with skip := false } ∧
    convert spec (n + 1) (.node .itemBlockComment cs) s = .ok { s with skip := false } := ⟨rfl, rfl⟩

/-- The hypothesis of `C43_comments` is met by different trees: a group with a line comment and a block comment. -/
example : Same
    (.node .scopeRoot [.token .tokenWord ['a'], .token .tokenComment t!"% x", .node .itemCurly [
      .token .tokenLBrace ['{'], .node .itemBlockComment [.token .tokenWord ['b']], .token .tokenRBrace ['}']]])
    (.node .scopeRoot [.token .tokenWord ['a'], .token .tokenComment t!"% $y$", .node .itemCurly [
      .token .tokenLBrace ['{'], .node .itemBlockComment [], .token .tokenRBrace ['}']]]) := by
  refine .node _ (.cons (.token _ _) (.cons (.comment _ _) (.cons (.node _ ?_ rfl ?_) .nil))) rfl ?_
  · exact .cons (.token _ _) (.cons (.block _ _) (.cons (.token _ _) .nil))
  · intro h; cases h
  · intro h; cases h

/-- C43: verbatim parts are an exception: a comment in a label is part of the label. -/
theorem C43_label_comment :
    convertInner 50 defaultSpec t!"\\label{a%b\n}" .text none false = .ok t!"<a%b>" ∧
    convertInner 50 defaultSpec t!"\\label{a%c\n}" .text none false = .ok t!"<a%c>" :=
  ⟨by decide +kernel, by decide +kernel⟩

/-! ### C44 -/

/-- Matching delimiters of a formula: the opening and the closing token, and whether it is a display formula. -/
inductive Delims : Elem → Elem → Bool → Prop
  | dollar : Delims (.token .tokenDollar ['$']) (.token .tokenDollar ['$']) false
  | dollars : Delims (.token .tokenDollar ['$', '$']) (.token .tokenDollar ['$', '$']) true
  | paren : Delims (.token .tokenBeginMath ['\\', '(']) (.token .tokenEndMath ['\\', ')']) false
  | bracket : Delims (.token .tokenBeginMath ['\\', '[']) (.token .tokenEndMath ['\\', ']']) true

/-- What is written before and after the body of a formula, in the given mode. -/
def wrapper (m : Mode) (display : Bool) : Text × Text :=
  match m, display with
  | .text, false => (t!"#math.equation(block: false, $", t!"$);")
  | .text, true => (t!"$ ", t!" $")
  | .math, _ => ([], [])

theorem convList_append (C : ConvFn) (as bs : List Elem) (s : CState) :
    convList C (as ++ bs) s = convList C as s >>= convList C bs := by
  induction as generalizing s with
  | nil => rfl
  | cons a as ih =>
    rw [List.cons_append, convList, convList]
    cases h : C a s with
    | error x => rfl
    | ok b => exact ih b

/-- Converting a list of elements does not depend on what was written before. -/
theorem convList_out (spec : CommandSpec) (n : Nat) (es : List Elem) (s : CState) (h : ∀ e ∈ es, e.depth ≤ n) (p : Text) :
    convList (convert spec n) es { s with out := p ++ s.out } =
      (convList (convert spec n) es s).map fun s' => { s' with out := p ++ s'.out } := by
  induction es generalizing s with
  | nil => rfl
  | cons e es ih =>
    rw [convList, convList, C49_output_independent spec n e s (h e List.mem_cons_self) p]
    cases convert spec n e s with
    | error x => rfl
    | ok a => exact ih a fun x hx => h x (List.mem_cons_of_mem _ hx)

theorem last_snoc (as : List Elem) (e : Elem) : Elem.lastToken.go (as ++ [e]) = e.lastToken := by
  induction as with
  | nil => simp [Elem.lastToken.go]
  | cons a as ih =>
    cases as with
    | nil => simp [Elem.lastToken.go]
    | cons b bs =>
      rw [List.cons_append, List.cons_append, Elem.lastToken.go]
      exact ih

/-- C44: a well-delimited formula is converted as its body in math mode, wrapped once according to the mode it occurs in. -/
theorem C44_formula (spec : CommandSpec) (n : Nat) (s : CState) (o c : Elem) (body : List Elem) (d : Bool)
    (hd : Delims o c d) (hn : (Elem.node .itemFormula (o :: body ++ [c])).depth ≤ n + 2) :
    convert spec (n + 2) (.node .itemFormula (o :: body ++ [c])) s =
      (body.foldlM (fun s e => convert spec (n + 1) e s) { s with mode := .math, skip := false, out := [] }).map fun b =>
        { b with mode := s.mode, skip := false,
                 out := s.out ++ (wrapper s.mode d).1 ++ b.out ++ (wrapper s.mode d).2 } := by
  have hdep : ∀ e ∈ body, e.depth ≤ n + 1 := by
    intro e he
    rw [Elem.depth] at hn
    refine depth_go_le (n := n + 1) (cs := o :: body ++ [c]) (by omega) e ?_
    simp [he]
  have hvalid : (Elem.node .itemFormula (o :: body ++ [c])).isValidFormula = true := by
    unfold Elem.isValidFormula
    rw [List.cons_append, Elem.firstToken, Elem.lastToken, ← List.cons_append, last_snoc]
    cases hd <;> rfl
  have hinl : (Elem.node .itemFormula (o :: body ++ [c])).isInline = !d := by
    unfold Elem.isInline
    rw [List.cons_append, Elem.firstToken]
    cases hd <;> rfl
  have ho : ∀ s, convert spec (n + 1) o s = .ok { s with skip := false } := by
    intro s; cases hd <;> rfl
  have hc : ∀ s, convert spec (n + 1) c s = .ok { s with skip := false } := by
    intro s; cases hd <;> rfl
  have hcs : ∀ t : CState, convList (convert spec (n + 1)) (o :: body ++ [c]) t =
      (convList (convert spec (n + 1)) body { t with skip := false, out := [] }).map
        fun b => { b with skip := false, out := t.out ++ b.out } := by
    intro t
    rw [convList_append, convList, ho, ok_bind]
    have := convList_out spec (n + 1) body { t with skip := false, out := [] } hdep t.out
    simp only [List.append_nil] at this
    rw [show ({ t with skip := false } : CState) = { t with skip := false, out := t.out } from rfl, this]
    cases convList (convert spec (n + 1)) body { t with skip := false, out := [] } with
    | error x => rfl
    | ok b => show convList (convert spec (n + 1)) [c] _ = _; rw [convList, hc]; rfl
  show convFormula (convert spec (n + 1)) _ { s with skip := false } = _
  unfold convFormula
  simp only [asNode, ok_bind, hvalid, hinl, Bool.not_true, Bool.false_eq_true, if_false]
  rw [hcs, ← convList_fold]
  cases hm : s.mode <;> cases d <;>
    simp only [CState.setMode, CState.write, wrapper, hm, Bool.not_true, Bool.not_false, if_true, if_false,
      Bool.false_eq_true, reduceCtorEq, List.append_nil, List.append_assoc, List.nil_append] <;>
    (cases convList (convert spec (n + 1)) body _ with
     | error x => rfl
     | ok b => simp [Except.map, bind, Except.bind])

/-- C44: a formula whose first and last token are not matching delimiters is an error. -/
theorem C44_invalid (spec : CommandSpec) (n : Nat) (s : CState) (cs : List Elem)
    (h : ∀ k t k' t' d, (Elem.node .itemFormula cs).firstToken = some (k, t) →
      (Elem.node .itemFormula cs).lastToken = some (k', t') → ¬ Delims (.token k t) (.token k' t') d) :
    convert spec (n + 1) (.node .itemFormula cs) s = .error (.error t!"formula is not valid") := by
  show convFormula (convert spec n) (.node .itemFormula cs) { s with skip := false } = _
  unfold convFormula
  have hv : (Elem.node .itemFormula cs).isValidFormula = false := by
    cases hv : (Elem.node .itemFormula cs).isValidFormula with
    | false => rfl
    | true =>
      exfalso
      unfold Elem.isValidFormula at hv
      split at hv
      · rename_i k t k' t' h1 h2
        have hd := fun d => h k t k' t' d h1 h2
        split at hv
        · rename_i hk
          obtain ⟨rfl, rfl⟩ := hk
          simp only [Bool.or_eq_true, Bool.and_eq_true, decide_eq_true_eq] at hv
          rcases hv with ⟨rfl, rfl⟩ | ⟨rfl, rfl⟩
          · exact hd _ .dollar
          · exact hd _ .dollars
        · split at hv
          · rename_i hk
            obtain ⟨rfl, rfl⟩ := hk
            simp only [Bool.or_eq_true, Bool.and_eq_true, decide_eq_true_eq] at hv
            rcases hv with ⟨rfl, rfl⟩ | ⟨rfl, rfl⟩
            · exact hd _ .paren
            · exact hd _ .bracket
          · cases hv
      · cases hv
  simp only [asNode, ok_bind, hv, Bool.not_false, if_true]
  rfl

/-- The hypotheses are met: an inline formula with a word, and a formula without its end. -/
example : Delims (.token .tokenDollar ['$']) (.token .tokenDollar ['$']) false ∧
    (Elem.node .itemFormula (.token .tokenDollar ['$'] :: [.token .tokenWord t!"ab"] ++
      [.token .tokenDollar ['$']])).depth ≤ 2 ∧
    (convert defaultSpec 2 (.node .itemFormula (.token .tokenDollar ['$'] :: [.token .tokenWord t!"ab"] ++
      [.token .tokenDollar ['$']])) (CState.new .text)).map CState.out =
      .ok t!"#math.equation(block: false, $a b $);" := ⟨.dollar, by decide, by decide +kernel⟩

example : ∀ k t k' t' d, (Elem.node .itemFormula [.token .tokenDollar ['$'], .token .tokenWord ['a']]).firstToken = some (k, t) →
      (Elem.node .itemFormula [.token .tokenDollar ['$'], .token .tokenWord ['a']]).lastToken = some (k', t') →
      ¬ Delims (.token k t) (.token k' t') d := by
  intro k t k' t' d h1 h2 hd
  simp [Elem.firstToken] at h1
  simp [Elem.lastToken, Elem.lastToken.go] at h2
  obtain ⟨rfl, rfl⟩ := h1
  obtain ⟨rfl, rfl⟩ := h2
  cases hd

end Mitex
