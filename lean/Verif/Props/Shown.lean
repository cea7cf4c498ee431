/-
C83: the words of a document stand in the output, in the order of the source.
-/
import Verif.Proof.ShownAll
import Verif.Props.Ast
import Verif.Props.Nesting

namespace Mitex
namespace Shown

theorem parse_known {fuel : Nat} {env : PEnv} {macros : Bool} {s : Text} {tree : Elem} (h : parse fuel env macros s = .ok tree) :
    Fine env.spec env.glob tree := by
  have h1 : ∀ e ∈ tree.descendants, e.kind = .scopeRoot ∨ Shape ⟨env.spec, env.glob⟩ e := by
    have main : ∀ toks, WordsOk toks → CmdsOk toks → parseToks env toks = .ok tree → ∀ e ∈ tree.descendants, e.kind = .scopeRoot ∨ Shape ⟨env.spec, env.glob⟩ e := by
      intro toks hw hc hp e he
      rcases C31_shapes env toks hw hc tree hp e he with rfl | h
      · obtain ⟨cs, rfl, _⟩ := C31_root env toks hw hc e hp
        exact .inl rfl
      · exact .inr h
    unfold parse at h
    cases ht : tokensOf env.spec s with
    | error e => rw [ht] at h; cases h
    | ok toks =>
      simp only [ht, ok_bind] at h
      have hd := C28_delivered env.spec s toks ht
      cases macros with
      | false => exact main toks hd.1.1 hd.1.2 h
      | true =>
        rw [if_pos rfl] at h
        cases he : expandAll fuel toks with
        | error e => rw [he] at h; cases h
        | ok outs =>
          simp only [he, ok_bind] at h
          exact main outs (hd.2 fuel outs he).1 (hd.2 fuel outs he).2 h
  obtain ⟨h2, _⟩ := parse_parts (Q := fun _ _ => True) trivial (fun _ _ _ _ _ _ => trivial) h
  refine Forall_of_descendants _ tree fun e he => ⟨h1 e he, Mitex.parse_good h he, ?_⟩
  exact (Forall_self (Forall_sub _ _ _ h2 he)).1

end Shown

/-- **C83.** In every successful conversion, in text or in math mode, with or without macros, the characters of the words of the document that
are shown (`shown`) stand in the output, in the order of the source. -/
theorem C83_words (fuel : Nat) (dflt : CommandSpec) (input : Text) (m : Mode) (spec : Option CommandSpec) (macros : Bool) (tree : Elem) (out : Text)
    (hs : spec.getD dflt = dflt) (hp : parse fuel ⟨dflt, globPrefix⟩ macros input = .ok tree)
    (hc : convertInner fuel dflt input m spec macros = .ok out) : (shown dflt tree).Sublist out := by
  obtain ⟨m', hpr⟩ := (C61_document fuel dflt input m spec macros tree (by rw [hs]; exact hp) out).1 hc
  exact Shown.printed_keeps hpr (Shown.parse_known hp)

/-! ### Texts -/

/-- The tokens that reach the parser: those of the text, after the expansion of macros. -/
def parserTokens (fuel : Nat) (spec : CommandSpec) (macros : Bool) (input : Text) : Res (List Tok) := do
  let ts ← tokensOf spec input
  if macros then expandAll fuel ts else .ok ts

namespace Shown

/-- The words of some leaves. -/
def leafWords (lv : List (Kind × Text)) : Text := lv.flatMap fun l => if l.1 = .tokenWord then spokenWord l.2 else []

theorem leafWords_append (a b : List (Kind × Text)) : leafWords (a ++ b) = leafWords a ++ leafWords b := List.flatMap_append ..

theorem spoken_cons (t : Tok) (ts : List Tok) : spoken (t :: ts) = (if t.1 = .word then spokenWord t.2 else []) ++ spoken ts := List.flatMap_cons ..

theorem spoken_append (a b : List Tok) : spoken (a ++ b) = spoken a ++ spoken b := List.flatMap_append ..

theorem spoken_leaf (t : Tok) : (if t.1 = .word then spokenWord t.2 else []).Sublist (if t.1.kind = .tokenWord then spokenWord t.2 else []) := by
  by_cases h : t.1 = .word
  · rw [if_pos h, if_pos (by rw [h]; rfl)]; exact List.Sublist.refl _
  · rw [if_neg h]; exact List.nil_sublist _

theorem leaf_spoken (ts : List Tok) : (spoken ts).Sublist (leafWords (ts.map fun t => (t.1.kind, t.2))) := by
  induction ts with
  | nil => exact List.Sublist.refl _
  | cons t ts ih =>
    rw [List.map_cons, spoken_cons]
    unfold leafWords at ih ⊢
    rw [List.flatMap_cons]
    exact (spoken_leaf t).append ih

theorem reads_words {ts rest : List Tok} {lv : List (Kind × Text)} (h : Reads ts rest lv) : rest = [] → (spoken ts).Sublist (leafWords lv) := by
  induction h with
  | done ts => intro h; rw [h]; exact List.Sublist.refl _
  | keep t _ ih =>
    intro h
    rw [spoken_cons]
    exact (spoken_leaf t).append (ih h)
  | sym x _ ih =>
    intro h
    rw [spoken_cons, if_neg (by simp), List.nil_append]
    exact (ih h).trans (List.sublist_append_right _ _)
  | trivia t ht _ ih =>
    intro h
    rw [spoken_cons, if_neg, List.nil_append]
    · exact ih h
    · intro h0
      rw [h0] at ht
      cases ht
  | @char c w ts rest lv hw _ ih =>
    intro h
    have ih := ih h
    rw [spoken_cons] at ih ⊢
    rw [if_pos rfl] at ih ⊢
    have he : spokenWord (c :: w) = spokenWord [c] ++ spokenWord w := by
      unfold spokenWord; rw [← List.filter_append]; rfl
    show (spokenWord (c :: w) ++ _).Sublist (spokenWord [c] ++ leafWords lv)
    rw [he, List.append_assoc]
    exact (List.Sublist.refl _).append ih
  | cond t fi ht hb hf _ ih =>
    intro h
    rw [leafWords_append, spoken_cons, spoken_append, spoken_cons, if_neg, if_neg, List.nil_append, List.nil_append]
    · exact (leaf_spoken _).append (ih h)
    · rw [hf]; exact fun h => (by cases h)
    · rcases ht with ht | ht <;> rw [ht] <;> exact fun h => (by cases h)
  | condOpen t ht hb =>
    intro _
    rw [spoken_cons, if_neg, List.nil_append]
    · exact leaf_spoken _
    · rcases ht with ht | ht <;> rw [ht] <;> exact fun h => (by cases h)

/-- Nothing is hidden in the element or left out of it. -/
def Open (spec : CommandSpec) (e : Elem) : Prop :=
  e.isNode = true → isHidden spec e = false ∧ ∀ c ∈ e.children, leftOut spec e c = true → leafWords c.leaves = []

theorem parts_open {spec : CommandSpec} (out : Elem → Bool) : ∀ cs : List Elem, (∀ c ∈ cs, shown spec c = leafWords c.leaves) →
    (∀ c ∈ cs, out c = true → leafWords c.leaves = []) → shownParts spec out cs = leafWords (Elem.leaves.go cs)
  | [], _, _ => by simp [shownParts, Elem.leaves.go, leafWords]
  | c :: cs, h1, h2 => by
    rw [shownParts, Elem.leaves.go, leafWords_append,
      parts_open out cs (fun d hd => h1 d (List.mem_cons_of_mem _ hd)) (fun d hd => h2 d (List.mem_cons_of_mem _ hd))]
    cases ho : out c with
    | true => rw [h2 c List.mem_cons_self ho]; rfl
    | false => rw [h1 c List.mem_cons_self]; rfl

theorem open_all {spec : CommandSpec} {e : Elem} : e.Forall (Open spec) → shown spec e = leafWords e.leaves := by
  induction e using Elem.ind with
  | ht k t =>
    intro _
    rw [shown, Elem.leaves]
    simp [leafWords]
  | hn k cs ih =>
    intro h
    obtain ⟨h1, h2⟩ := (Forall_node _ _ _).1 h
    obtain ⟨h3, h4⟩ := h1 rfl
    rw [shown, if_neg (by rw [h3]; simp), leaves_node]
    exact parts_open _ cs (fun c hc => ih c hc (h2 c hc)) h4

/-- A token is as it should be. -/
def Tells (spec : CommandSpec) (n : CommandName) (t : Text) : Prop := Speaks spec (.cmd n, t)

theorem tells_open {spec : CommandSpec} {g : GlobFn} {e : Elem} (hk : Known spec g e) (hc : ∀ c ∈ e.children, Known spec g c ∧ PartsIn (Tells spec) c)
    (hq : PartsIn (Tells spec) e) : Open spec e := by
  intro hnode
  cases e with
  | token k t => cases hnode
  | node k cs =>
    refine ⟨?_, ?_⟩
    · unfold isHidden
      rw [Bool.or_eq_false_iff, Bool.and_eq_false_iff]
      refine ⟨decide_eq_false fun h => ?_, ?_⟩
      · have h : k = .itemBlockComment := h
        subst h
        obtain ⟨t, ht⟩ := hq.2
        exact ht
      · by_cases h : k = .itemCmd
        · subst h
          refine .inr ?_
          unfold bareName Elem.cmdName
          cases hf : (Elem.node Kind.itemCmd cs).children.find? (fun c => !c.isNode && decide (c.kind = .clauseCommandName)) with
          | none => rfl
          | some d =>
            have hd := List.mem_of_find?_eq_some hf
            have hd' := List.find?_some hf
            cases d with
            | node k' cs' => simp [Elem.isNode] at hd'
            | token k' t =>
              have hk' : k' = .clauseCommandName := of_decide_eq_true hd'
              subst hk'
              obtain ⟨n, hn, ht⟩ := hq.2 t hd
              have htail : unspoken spec t.tail = false := by
                unfold Tells Speaks at ht
                revert hn ht
                cases n with
                | cif i => cases i <;> (intro hn ht; first | exact ht | exact ht.elim)
                | beginEnv => intro hn; cases hn
                | _ => intro hn ht; exact ht
              show (afterBackslash t).any (unspoken spec) = false
              unfold afterBackslash
              cases t with
              | nil => rfl
              | cons c r =>
                dsimp only
                split
                · exact htail
                · rfl
        · exact .inl (decide_eq_false h)
    · intro c hcm hout
      unfold leftOut at hout
      rw [Bool.and_eq_true] at hout
      have hkind : k = .itemEnv := of_decide_eq_true hout.1
      subst hkind
      obtain ⟨name, args, mid, closing, hd⟩ := hk.2.1
      have hp := hd.parts
      cases hp
      have hname : (Elem.node .itemEnv (.node .itemBegin (.token .tokenCommandSym name :: args) :: mid ++
          (closing.map fun n => Elem.node .itemEnd [.token .tokenCommandSym n]).toList)).envName = some name := by
        rw [List.cons_append]
        unfold Elem.envName
        simp [Elem.envBegin, Elem.childNodes, Elem.children, Elem.isNode, Elem.kind, Elem.beginName, Elem.firstToken]
      rw [hname] at hout
      have hbk := hc (.node .itemBegin (.token .tokenCommandSym name :: args)) List.mem_cons_self
      have htell : Tells spec .beginEnv name := by
        obtain ⟨x, as, he, hq⟩ := hbk.2.2
        cases he
        exact hq
      have hfig : isFigureEnv spec name = false := by
        rcases htell with h | h
        · unfold isMathEnv at h
          unfold isFigureEnv
          split at h
          · rename_i sh hs
            rw [hs]
            refine decide_eq_false fun h0 => ?_
            have h := of_decide_eq_true h
            rw [h0] at h
            rcases h with h | h | h <;> cases h
          · cases h
        · exact h.1
      have h2 := hout.2
      simp only [Option.any_some, hfig, Bool.false_and, Bool.or_false, Bool.and_eq_true, Bool.not_eq_true', decide_eq_true_eq] at h2
      have hcb : c = .node .itemBegin (.token .tokenCommandSym name :: args) := by
        rcases List.mem_append.1 (show c ∈ _ :: mid ++ _ from hcm) with h | h
        · rcases List.mem_cons.1 h with h | h
          · exact h
          · exact absurd h2.1 (hd.inner c h).1
        · cases closing with
          | none => cases h
          | some n =>
            have h := List.mem_singleton.1 h
            rw [h] at h2
            exact absurd h2.1 (by simp [Elem.kind])
      have hargs : args = [] := by
        rcases hbk.1.1 with h | h
        · cases h
        · obtain ⟨n, as, he, hm⟩ := h
          cases he
          rcases htell with h | h
          · rw [h] at h2; cases h2.2
          · dsimp only at hm
            split at hm
            · exact hm
            · rename_i p hp
              unfold getEnv at hp
              cases hs : spec name with
              | none => rw [hs] at hp; cases hp
              | some sh =>
                cases sh with
                | cmd sh => rw [hs] at hp; cases hp
                | env sh =>
                  rw [hs] at hp
                  have hp : sh.args = p := Option.some.inj hp
                  rcases h.2 sh hs with h | h
                  · rw [← hp, h] at hm; exact hm
                  · rw [← hp, h] at hm; exact List.eq_nil_of_length_eq_zero (Nat.le_zero.1 hm.1)
      rw [hcb, hargs]
      rfl

theorem known_all {spec : CommandSpec} {g : GlobFn} {e : Elem} : Fine spec g e → e.Forall (PartsIn (Tells spec)) → e.Forall (Open spec) := by
  induction e using Elem.ind with
  | ht k t => intro _ _; exact (Forall_token _ _ _).2 fun h => (by cases h)
  | hn k cs ih =>
    intro h1 h2
    obtain ⟨a1, a2⟩ := (Forall_node _ _ _).1 h1
    obtain ⟨b1, b2⟩ := (Forall_node _ _ _).1 h2
    refine (Forall_node _ _ _).2 ⟨tells_open a1 (fun c hc => ⟨Forall_self (a2 c hc), Forall_self (b2 c hc)⟩) b1, fun c hc => ih c hc (a2 c hc) (b2 c hc)⟩

/-- The tokens that reach the parser are well formed. -/
theorem delivered_fine {fuel : Nat} {spec : CommandSpec} {macros : Bool} {s : Text} {ts : List Tok} (h : parserTokens fuel spec macros s = .ok ts) :
    FineToks (fun _ _ => True) ts ∧ WordsOk ts ∧ CmdsOk ts := by
  unfold parserTokens at h
  cases ht : tokensOf spec s with
  | error e => rw [ht] at h; cases h
  | ok toks =>
    simp only [ht, ok_bind] at h
    have hf : FineToks (fun _ _ => True) toks := fun t hm => shape_fine (tokensOf_shape ht t hm) fun _ _ => trivial
    have hd := C28_delivered spec s toks ht
    cases macros with
    | false => cases h; exact ⟨hf, hd.1⟩
    | true =>
      rw [if_pos rfl] at h
      refine ⟨?_, hd.2 fuel ts h⟩
      unfold expandAll at h
      split at h
      · cases h
      · rename_i e c hr
        cases h
        exact ((engRun_inv (tokInv_fine (Q := fun _ _ => True) trivial) fuel (e := Eng.new) (defaultTable_inv _) (c := ⟨toks, []⟩)
          ⟨hf, fun _ h => (by cases h)⟩).1 e c hr).2.2

end Shown

/-- **C83**, texts: if none of the tokens that reach the parser hides words (`Speaks`), then all characters of all words of the text (after the
expansion of macros) stand in the output, in the order of the source. -/
theorem C83_text (fuel : Nat) (dflt : CommandSpec) (input : Text) (m : Mode) (spec : Option CommandSpec) (macros : Bool) (ts : List Tok) (out : Text)
    (hs : spec.getD dflt = dflt) (ht : parserTokens fuel dflt macros input = .ok ts) (hh : ∀ t ∈ ts, Speaks dflt t)
    (hc : convertInner fuel dflt input m spec macros = .ok out) : (spoken ts).Sublist out := by
  have hp : ∃ tree, parse fuel ⟨dflt, globPrefix⟩ macros input = .ok tree ∧ parseToks ⟨dflt, globPrefix⟩ ts = .ok tree := by
    have he : parse fuel ⟨dflt, globPrefix⟩ macros input = parseToks ⟨dflt, globPrefix⟩ ts := by
      unfold parserTokens at ht
      unfold parse
      cases h0 : tokensOf dflt input with
      | error e => rw [h0] at ht; cases ht
      | ok toks =>
        simp only [h0, ok_bind] at ht ⊢
        cases macros with
        | false => cases ht; rfl
        | true =>
          rw [if_pos rfl] at ht ⊢
          rw [ht, ok_bind]
    unfold convertInner at hc
    rw [hs] at hc
    cases h1 : parse fuel ⟨dflt, globPrefix⟩ macros input with
    | error e => rw [h1] at hc; cases hc
    | ok tree => exact ⟨tree, rfl, by rw [← he, h1]⟩
  obtain ⟨tree, hp, hpt⟩ := hp
  obtain ⟨hf, hw, hcm⟩ := Shown.delivered_fine ht
  have hdoc := (C62_exact ⟨dflt, globPrefix⟩ ts hw hcm tree).1 hpt
  have hf2 : FineToks (Shown.Tells dflt) ts := fun t hm => ⟨(hf t hm).copied, (hf t hm).left, (hf t hm).right, (hf t hm).hash, fun n hn => by
    have := hh t hm
    obtain ⟨k, x⟩ := t
    have hn : k = .cmd n := hn
    subst hn
    exact this⟩
  have hparts := (document_parts hdoc hf2).1
  have hopen := Shown.known_all (Shown.parse_known hp) hparts
  have h1 := C83_words fuel dflt input m spec macros tree out hs hp hc
  rw [Shown.open_all hopen] at h1
  exact (Shown.reads_words (C30_reads _ ts hw hcm tree hpt) rfl).trans h1

/-! ### Concrete cases -/

/-- A test for tokens. -/
def speaksB (spec : CommandSpec) (t : Tok) : Bool :=
  match t.1 with
  | .cmd (.cif .ifFalse) => false
  | .cmd .beginEnv => isMathEnv spec t.2 || (!isFigureEnv spec t.2 && match spec t.2 with
      | some (.env sh) => decide (sh.args = .none)
      | _ => true)
  | .cmd _ => !unspoken spec t.2.tail
  | _ => true

theorem speaksB_sound {spec : CommandSpec} {t : Tok} (h : speaksB spec t = true) : Speaks spec t := by
  obtain ⟨k, x⟩ := t
  unfold speaksB at h
  unfold Speaks
  cases k with
  | cmd n =>
    cases n with
    | cif i => cases i <;> first | (cases h; done) | exact (by simpa using h)
    | beginEnv =>
      rcases (Bool.or_eq_true _ _).mp h with h | h
      · exact .inl h
      · rw [Bool.and_eq_true, Bool.not_eq_true'] at h
        refine .inr ⟨h.1, fun sh hs => .inl ?_⟩
        have h2 := h.2
        dsimp only at h2 hs
        rw [hs] at h2
        exact of_decide_eq_true h2
    | _ => exact (by simpa using h)
  | _ => trivial

/-- A fraction, scripts, an empty delimiter, a macro and a matrix. -/
def shownFormula : Text :=
  t!"\\newcommand{\\half}[1]{\\frac{#1}{2}}\\frac{ab}{c_1^2} + \\left. x \\right|_{y=0} \\half{w} \\begin{pmatrix} 1 & 2 \\\\ 3 & 4 \\end{pmatrix}"

theorem C83_example : ∃ ts out, parserTokens 200 defaultSpec true shownFormula = .ok ts ∧ (∀ t ∈ ts, Speaks defaultSpec t) ∧
    spoken ts = t!"abc12+x|y=0w21234" ∧ convertMath 200 defaultSpec shownFormula none = .ok out ∧ (spoken ts).Sublist out := by
  obtain ⟨ts, ht⟩ := ok_of (r := parserTokens 200 defaultSpec true shownFormula) (by decide +kernel)
  obtain ⟨out, hc⟩ := ok_of (r := convertMath 200 defaultSpec shownFormula none) (by decide +kernel)
  have h1 : (parserTokens 200 defaultSpec true shownFormula).map (fun ts => ts.all (speaksB defaultSpec)) = .ok true := by decide +kernel
  have h2 : (parserTokens 200 defaultSpec true shownFormula).map spoken = .ok t!"abc12+x|y=0w21234" := by decide +kernel
  rw [ht] at h1 h2
  have h1 : ∀ t ∈ ts, Speaks defaultSpec t := fun t hm => speaksB_sound (List.all_eq_true.1 (Except.ok.inj h1) t hm)
  exact ⟨ts, out, ht, h1, Except.ok.inj h2, hc, C83_text 200 defaultSpec shownFormula .math none true ts out rfl ht h1 hc⟩

/-- A heading, a formula, a list, a table and a label. -/
def shownText : Text :=
  t!"\\section{One} Text $x+1$ \\begin{itemize} \\item a1 \\item b2 \\end{itemize} \\textbf{bold} \\label{foo} \\begin{tabular}{cc} u & v \\\\ \\end{tabular}"

theorem C83_example_text : ∃ tree out, parse 200 ⟨defaultSpec, globPrefix⟩ true shownText = .ok tree ∧
    shown defaultSpec tree = t!"OneTextx+1a1b2bolduv" ∧ convertText 200 defaultSpec shownText none = .ok out ∧ (shown defaultSpec tree).Sublist out := by
  obtain ⟨tree, ht⟩ := ok_of (r := parse 200 ⟨defaultSpec, globPrefix⟩ true shownText) (by decide +kernel)
  obtain ⟨out, hc⟩ := ok_of (r := convertText 200 defaultSpec shownText none) (by decide +kernel)
  have h2 : (parse 200 ⟨defaultSpec, globPrefix⟩ true shownText).map (shown defaultSpec) = .ok t!"OneTextx+1a1b2bolduv" := by decide +kernel
  rw [ht] at h2
  exact ⟨tree, out, ht, Except.ok.inj h2, hc, C83_words 200 defaultSpec shownText .text none true tree out rfl ht hc⟩

/-- A heading, a formula and a list: nothing is hidden. -/
def spokenText : Text :=
  t!"\\section{One} Text $x_1+1$ \\begin{itemize} \\item a1 \\item b2 \\end{itemize} \\textbf{bold} \\textcolor{red}{z}"

theorem C83_example_list : ∃ ts out, parserTokens 200 defaultSpec true spokenText = .ok ts ∧ (∀ t ∈ ts, Speaks defaultSpec t) ∧
    spoken ts = t!"OneTextx1+1a1b2boldredz" ∧ convertText 200 defaultSpec spokenText none = .ok out ∧ (spoken ts).Sublist out := by
  obtain ⟨ts, ht⟩ := ok_of (r := parserTokens 200 defaultSpec true spokenText) (by decide +kernel)
  obtain ⟨out, hc⟩ := ok_of (r := convertText 200 defaultSpec spokenText none) (by decide +kernel)
  have h1 : (parserTokens 200 defaultSpec true spokenText).map (fun ts => ts.all (speaksB defaultSpec)) = .ok true := by decide +kernel
  have h2 : (parserTokens 200 defaultSpec true spokenText).map spoken = .ok t!"OneTextx1+1a1b2boldredz" := by decide +kernel
  rw [ht] at h1 h2
  have h1 : ∀ t ∈ ts, Speaks defaultSpec t := fun t hm => speaksB_sound (List.all_eq_true.1 (Except.ok.inj h1) t hm)
  exact ⟨ts, out, ht, h1, Except.ok.inj h2, hc, C83_text 200 defaultSpec spokenText .text none true ts out rfl ht h1 hc⟩

/-! What is left out need not be in the output, or not in order: comments, the caption of a figure. -/

/-- All words of the text are in the output, in their order. -/
def saysAll (s : Text) : Res Bool := do
  let w ← (parserTokens 200 defaultSpec true s).map spoken
  let o ← convertText 200 defaultSpec s none
  .ok (decide (w.Sublist o))

example : saysAll t!"\\iffalse q\\fi" = .ok false ∧ saysAll t!"\\begin{figure}ab\\caption{cd}ef\\end{figure}" = .ok false := by decide +kernel

end Mitex
