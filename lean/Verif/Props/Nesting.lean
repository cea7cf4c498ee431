/-
C70: the output is well nested.
-/
import Verif.Proof.NestingGrammar
import Verif.Props.Template
import Verif.Props.Grammar
import Verif.Props.NoPanic
import Verif.Proof.FormulaPrint

namespace Mitex

/-! ### The tokens -/

theorem tokInv_fine {Q : CommandName → Text → Prop} (hq : Q .endIf t!"\\fi") : TokInv (TokFine Q) where
  err t := ⟨⟨fun h => absurd h (by simp [Token.kind]), fun h => absurd h (by simp [Token.kind])⟩, fun h => (by cases h), fun h => (by cases h), fun h => (by cases h), fun n h => (by cases h)⟩
  fi := ⟨⟨fun h => absurd h (by decide), fun h => absurd h (by decide)⟩, fun h => (by cases h), fun h => (by cases h), fun h => (by cases h), fun n h => (by cases h; exact hq)⟩
  char w c h hc := h.sub fun d hd => by rw [List.mem_singleton.1 hd]; exact hc
  suf a b h _ := h.sub fun c hc => List.mem_append_right _ hc
  leak := Or.inl fun d h _ _ hh => by
    refine ⟨⟨fun _ => ?_, fun h => absurd h (by show Kind.tokenWord ∉ _; decide)⟩, fun h => (by cases h), fun h => (by cases h), fun h => (by cases h), fun n h => (by cases h)⟩
    have : h = t!"#" := hh.hash rfl
    rw [this]
    show Without ('\\' :: marks) t!"#"
    decide

theorem specials_marks {c : Char} (h : c ∉ specials) : c ∉ '\\' :: marks := by
  have : ∀ d ∈ '\\' :: marks, d ∈ specials := by decide
  exact fun hc => h (this c hc)

theorem shape_fine {Q : CommandName → Text → Prop} {t : Tok} (h : TokShape t.1 t.2) (hq : ∀ n, t.1 = .cmd n → Q n t.2) : TokFine Q t := by
  obtain ⟨k, x⟩ := t
  refine ⟨?_, ?_, ?_, ?_, hq⟩
  · show CopiedOk k.kind x
    refine ⟨fun hk => ?_, fun hk => ?_⟩
    · cases k with
      | word => exact fun c hc => specials_marks (h.2 c hc).2
      | whitespace =>
        intro c hc hm
        have := (h.2 c hc).1
        have hb : ∀ d ∈ '\\' :: marks, isWs d = false := by decide
        rw [hb c hm] at this
        cases this
      | lineBreak =>
        intro c hc hm
        have hb : ∀ d ∈ '\\' :: marks, ¬ (d = '\n' ∨ d = '\r') := by decide
        exact hb c hm (h.2 c hc)
      | underscore => have h : x = _ := h; subst h; decide
      | caret => have h : x = _ := h; subst h; decide
      | macroArg d => exact absurd h (by simp [TokShape])
      | left b => cases b <;> simp [Token.kind] at hk
      | right b => cases b <;> simp [Token.kind] at hk
      | cmd n => cases n <;> simp [Token.kind] at hk
      | _ => simp [Token.kind] at hk
    · cases k with
      | whitespace =>
        intro c hc
        cases hi : inWord c with
        | false => rfl
        | true => exact absurd (h.2 c hc).1 (by rw [inWord_ws hi]; decide)
      | lineBreak =>
        intro c hc
        rcases h.2 c hc with rfl | rfl <;> decide
      | underscore => have h : x = _ := h; subst h; decide
      | caret => have h : x = _ := h; subst h; decide
      | macroArg d => exact absurd h (by simp [TokShape])
      | left b => cases b <;> simp [Token.kind] at hk
      | right b => cases b <;> simp [Token.kind] at hk
      | cmd n => cases n <;> simp [Token.kind] at hk
      | _ => simp [Token.kind] at hk
  · intro hk
    have hk : k = _ := hk
    subst hk
    exact h
  · intro hk
    have hk : k = _ := hk
    subst hk
    exact h
  · intro hk
    have hk : k = _ := hk
    subst hk
    exact h

/-- The elements of a parsed text. -/
theorem parse_parts {Q : CommandName → Text → Prop} (hq : Q .endIf t!"\\fi") {fuel : Nat} {env : PEnv} {macros : Bool} {s : Text} {tree : Elem}
    (ht : ∀ toks, tokensOf env.spec s = .ok toks → ∀ t ∈ toks, ∀ n, t.1 = .cmd n → Q n t.2)
    (h : parse fuel env macros s = .ok tree) : tree.Forall (PartsIn Q) ∧ Whole tree := by
  have hf : ∀ toks, tokensOf env.spec s = .ok toks → FineToks Q toks := fun toks he t hm => shape_fine (tokensOf_shape he t hm) (ht toks he t hm)
  cases macros with
  | false =>
    obtain ⟨toks, h1, h2⟩ := (C62_text env fuel s tree).1 h
    exact document_parts h2 (hf toks h1)
  | true =>
    obtain ⟨toks, outs, h1, h2, h3⟩ := (C62_text_macro env fuel s tree).1 h
    refine document_parts h3 ?_
    unfold expandAll at h2
    split at h2
    · cases h2
    · rename_i e c hr
      cases h2
      exact ((engRun_inv (tokInv_fine hq) fuel (e := Eng.new) (defaultTable_inv _) (c := ⟨toks, []⟩) ⟨hf toks h1, fun _ h => (by cases h)⟩).1 e c hr).2.2

theorem Forall_mono {p q : Elem → Prop} (h : ∀ e, p e → q e) (e : Elem) : e.Forall p → e.Forall q := by
  induction e using Elem.ind with
  | ht k t => intro hp; exact (Forall_token _ _ _).2 (h _ ((Forall_token _ _ _).1 hp))
  | hn k cs ih =>
    intro hp
    obtain ⟨h1, h2⟩ := (Forall_node _ _ _).1 hp
    exact (Forall_node _ _ _).2 ⟨h _ h1, fun c hc => ih c hc (h2 c hc)⟩

/-- The output, wherever it stands. -/
theorem output_nest (fuel : Nat) (dflt : CommandSpec) (input : Text) (m : Mode) (spec : Option CommandSpec) (macros : Bool) (tree : Elem) (out : Text)
    (hp : parse fuel ⟨spec.getD dflt, globPrefix⟩ macros input = .ok tree)
    (hn : NamesNeutral dflt) (ht : ∀ d ∈ tree.descendants, Tidy dflt d)
    (hc : convertInner fuel dflt input m spec macros = .ok out) {st : List Char} (hs : Clear m st) : nest st out = some st := by
  obtain ⟨h1, hw⟩ := parse_parts (Q := fun _ _ => True) trivial (fun _ _ _ _ _ _ => trivial) hp
  obtain ⟨m', hpr⟩ := (C61_document fuel dflt input m spec macros tree hp out).1 hc
  have hprop : Proper dflt tree := by
    have h2 := Forall_of_descendants _ tree ht
    unfold Proper
    clear hp hpr hw hc ht
    induction tree using Elem.ind with
    | ht k t => exact (Forall_token _ _ _).2 ⟨((Forall_token _ _ _).1 h1).1, (Forall_token _ _ _).1 h2⟩
    | hn k cs ih =>
      obtain ⟨a1, a2⟩ := (Forall_node _ _ _).1 h1
      obtain ⟨b1, b2⟩ := (Forall_node _ _ _).1 h2
      exact (Forall_node _ _ _).2 ⟨⟨a1.1, b1⟩, fun c hc => ih c hc (a2 c hc) (b2 c hc)⟩
  exact printed_nest (templates_run hn) hpr hprop (fun l hl => (by cases hl)) hw hs

/-- Whatever the input, if the names written for commands are neutral, every `\left` has its `\right`, the tables are complete, and what is
copied from the input (labels, names and options of images, models of colors, Typst code) contains no marks, all brackets, quotes and dollar signs
of the Typst text are closed, in the right order. -/
theorem C70_nested (fuel : Nat) (dflt : CommandSpec) (input : Text) (m : Mode) (spec : Option CommandSpec) (macros : Bool) (tree : Elem) (out : Text)
    (hp : parse fuel ⟨spec.getD dflt, globPrefix⟩ macros input = .ok tree)
    (hn : NamesNeutral dflt) (ht : ∀ d ∈ tree.descendants, Tidy dflt d)
    (hc : convertInner fuel dflt input m spec macros = .ok out) : WellNested out :=
  output_nest fuel dflt input m spec macros tree out hp hn ht hc ⟨by simp, by simp, fun _ => ⟨by simp, by simp⟩⟩


/-! ### The default specification -/

/-- The check of one entry. -/
def entryNeutral (e : Text × SpecItem) : Bool :=
  match e.2 with
  | .cmd sh =>
    if sh.args = .right .none ∧ ¬ isColorCommand e.1 then decide (nestIn false [] (sh.alias.getD e.1 ++ t!" ") = some [])
    else decide (nestIn false [] (sh.alias.getD e.1) = some [])
  | .env sh => decide (nestIn false [] (sh.alias.getD e.1) = some [])

theorem get_entry {β : Type} {m : HMap β} {n : Text} {v : β} (h : m.get n = some v) : (n, v) ∈ m := by
  induction m with
  | nil => cases h
  | cons e m ih =>
    obtain ⟨k, w⟩ := e
    unfold HMap.get at h
    rw [List.lookup_cons] at h
    split at h
    · rename_i he
      cases h
      rw [show n = k from by simpa using he]
      exact List.mem_cons_self
    · exact List.mem_cons_of_mem _ (ih h)

/-- The names written for the commands and environments of the default specification are neutral. -/
theorem C70_default : NamesNeutral defaultSpec := by
  have hall : defaultItems.all entryNeutral = true := by decide +kernel
  rw [List.all_eq_true] at hall
  constructor
  · intro name sh h
    have := hall _ (get_entry h)
    unfold entryNeutral at this
    simp only at this
    split
    · rename_i hc
      rw [if_pos hc] at this
      exact .of_check (of_decide_eq_true this)
    · rename_i hc
      rw [if_neg hc] at this
      exact .of_check (of_decide_eq_true this)
  · intro name sh h
    have := hall _ (get_entry h)
    exact .of_check (of_decide_eq_true this)


/-! ### Texts without certain words -/

/-- The commands and environments after which something is copied or may be left open. -/
def risky : List Text :=
  [t!"\\left", t!"\\iftypst", t!"\\label", t!"\\includegraphics", t!"\\color", t!"\\textcolor", t!"\\colorbox", t!"tabular"]

/-- A token that is none of the words. -/
def Harmless (n : CommandName) (t : Text) : Prop := TokShape (.cmd n) t ∧ t ∉ risky

/-- The only table of the default specification. -/
theorem table_name {n : Text} {sh : EnvShape} (h : defaultSpec n = some (.env sh)) (ht : sh.ctx = .isTable) : n = t!"tabular" := by
  have hall : defaultItems.all (fun e => match e.2 with | .env sh => decide (sh.ctx = .isTable → e.1 = t!"tabular") | .cmd _ => true) = true := by
    decide +kernel
  rw [List.all_eq_true] at hall
  have := hall _ (get_entry h)
  exact of_decide_eq_true this ht

theorem harmless_tidy {e : Elem} (h : e.Forall (PartsIn Harmless)) : Tidy defaultSpec e := by
  have hself : PartsIn Harmless e := by
    cases e with
    | token k t => exact (Forall_token _ _ _).1 h
    | node k cs => exact ((Forall_node _ _ _).1 h).1
  have hname : ∀ full, e.kind = .itemCmd → e.cmdName = some full → ∃ n, Harmless n full ∧ full.head? = some '\\' := by
    intro full hk hf
    cases e with
    | token k t => cases hf
    | node k cs =>
      have hk : k = .itemCmd := hk
      subst hk
      unfold Elem.cmdName at hf
      cases hx : (Elem.node Kind.itemCmd cs).children.find? fun c => !c.isNode && decide (c.kind = .clauseCommandName) with
      | none => rw [hx] at hf; cases hf
      | some c =>
        rw [hx] at hf
        cases hf
        have hm := List.mem_of_find?_eq_some hx
        rcases hself.1 c hm with ⟨t, rfl⟩ | ⟨ds, rfl⟩
        · obtain ⟨n, _, hq⟩ := hself.2 _ hm
          exact ⟨n, hq, rfl⟩
        · have := List.find?_some hx
          cases this
  have hbare : ∀ name, e.kind = .itemCmd → bareName e = some name → '\\' :: name ∉ risky := by
    intro name hk hb
    unfold bareName at hb
    cases hf : e.cmdName with
    | none => rw [hf] at hb; cases hb
    | some full =>
      rw [hf] at hb
      obtain ⟨n, hq, hh⟩ := hname full hk hf
      cases full with
      | nil => cases hh
      | cons c t =>
        cases hh
        have : '\\' :: t = '\\' :: name := afterBackslash_name (show afterBackslash ('\\' :: t) = some name from hb) rfl
        rw [← this]
        exact hq.2
  constructor
  · intro hk
    cases e with
    | token k t => exact absurd hk hself.2.1
    | node k cs =>
      have hk : k = .itemLR := hk
      subst hk
      have hq : Harmless .left t!"\\left" := hself.2
      exact absurd (by decide) hq.2
  · intro hk
    cases e with
    | token k t => exact absurd hk hself.2.2
    | node k cs =>
      have hk : k = .itemTypstCode := hk
      subst hk
      obtain ⟨t, hq⟩ := hself.2
      have : t = t!"\\iftypst" := hq.1
      rw [this] at hq
      exact absurd (by decide) hq.2
  · intro hk hb
    exact absurd (by decide) (hbare _ hk hb)
  · intro hk hb
    exact absurd (by decide) (hbare _ hk hb)
  · intro hk full hf name hb hcol
    rcases hcol with rfl | rfl | rfl
    · exact absurd (by decide) (hbare _ hk hb)
    · exact absurd (by decide) (hbare _ hk hb)
    · exact absurd (by decide) (hbare _ hk hb)
  · intro hk n hn sh hs ht
    exfalso
    have htab := table_name hs ht
    unfold Elem.envName at hn
    cases hb : e.envBegin with
    | none => rw [hb] at hn; cases hn
    | some b =>
      rw [hb] at hn
      have hb' := hb
      unfold Elem.envBegin at hb'
      have hbk : b.kind = .itemBegin := of_decide_eq_true (List.find?_some (p := fun c => decide (Elem.kind c = Kind.itemBegin)) hb')
      have hmem : b ∈ e.children := (List.mem_filter.1 (List.mem_of_find?_eq_some hb')).1
      have hbn := (List.mem_filter.1 (List.mem_of_find?_eq_some hb')).2
      cases e with
      | token k t => cases hmem
      | node k cs =>
        have hpb := ((Forall_node _ _ _).1 h).2 b hmem
        cases b with
        | token k t => cases hbn
        | node k' bs =>
          have hbk : k' = .itemBegin := hbk
          subst hbk
          obtain ⟨x, as, he, hq⟩ := ((Forall_node _ _ _).1 hpb).1.2
          rw [he] at hn
          have hx : n = x := by
            have : some x = some n := hn
            cases this; rfl
          rw [hx] at htab
          rw [EnvName.trim hq.1] at htab
          rw [htab] at hq
          exact absurd (by decide) hq.2

/-- A text with none of these commands and environments becomes a well-nested Typst text, if it is converted at all: `\left`, `\iftypst`, `\label`,
`\includegraphics`, `\color`, `\textcolor`, `\colorbox`, `tabular`. -/
theorem C70_tokens (fuel : Nat) (input : Text) (m : Mode) (spec : Option CommandSpec) (macros : Bool) (out : Text)
    (hw : ∀ toks, tokensOf (spec.getD defaultSpec) input = .ok toks → ∀ t ∈ toks, t.2 ∉ risky)
    (hc : convertInner fuel defaultSpec input m spec macros = .ok out) : WellNested out := by
  cases hp : parse fuel ⟨spec.getD defaultSpec, globPrefix⟩ macros input with
  | error x =>
    unfold convertInner at hc
    rw [hp] at hc
    cases hc
  | ok tree =>
    obtain ⟨h1, _⟩ := parse_parts (Q := Harmless) ⟨rfl, by decide⟩
      (fun toks he t ht n hk => ⟨hk ▸ tokensOf_shape he t ht, hw toks he t ht⟩) hp
    refine C70_nested fuel defaultSpec input m spec macros tree out hp C70_default (fun d hd => ?_) hc
    exact harmless_tidy (Forall_sub _ _ _ h1 hd)

theorem span_infix {spec : CommandSpec} {s : Text} {toks : List Tok} (h : tokensOf spec s = .ok toks) : ∀ t ∈ toks, t.2 <:+: s := by
  obtain ⟨spans, h1, h2, h3⟩ := tokensOf_spec h
  intro t ht
  obtain ⟨i, hi, rfl⟩ := List.getElem_of_mem ht
  have hsp := h3 i toks[i].1 toks[i].2 (spans[i]'(by omega)) (List.getElem?_eq_getElem hi) (List.getElem?_eq_getElem (by omega))
  have hspan : spans[i]'(by omega) <:+: s := by
    rw [← h2]
    have hm : spans[i]'(by omega) ∈ spans := List.getElem_mem _
    obtain ⟨a, b, e⟩ := List.append_of_mem hm
    generalize spans[i]'(by omega) = u at e
    rw [e]
    exact ⟨a.flatten, b.flatten, by simp⟩
  refine List.IsInfix.trans ?_ hspan
  have := hsp.2.1
  unfold SpanOf at this
  split at this
  · obtain ⟨a, b, e⟩ := this; exact ⟨_, b, e.symm⟩
  · obtain ⟨a, b, e⟩ := this; exact ⟨_, b, e.symm⟩
  · rw [this]
    exact List.infix_refl _

/-- In particular every text that contains none of these words. -/
theorem C70_words (fuel : Nat) (input : Text) (m : Mode) (spec : Option CommandSpec) (macros : Bool) (out : Text)
    (hw : ∀ w ∈ risky, ¬ w <:+: input) (hc : convertInner fuel defaultSpec input m spec macros = .ok out) : WellNested out :=
  C70_tokens fuel input m spec macros out (fun _ he t ht hr => hw _ hr (span_infix he t ht)) hc

/-! ### Examples -/

/-- A check for `Tidy`. -/
def tidyCheck (spec : CommandSpec) (e : Elem) : Bool :=
  match e.kind with
  | .itemLR =>
    match e.children with
    | _ :: es => decide (es.getLast?.map Elem.kind = some .clauseLR)
    | [] => false
  | .itemTypstCode => decide (nestIn false [] e.text = some [])
  | .itemCmd =>
    match e.cmdName, bareName e with
    | some full, some name =>
      (decide (name ≠ t!"label") || e.arguments.all fun a => (undelimited a.text).all fun l => decide (Without ('\\' :: marks) l)) &&
      (decide (name ≠ t!"includegraphics") || e.arguments.all fun a => (undelimited a.text).all fun l =>
        a.childNodes.head?.all fun c => (decide (c.kind ≠ .itemBracket) || decide (Without marks l)) &&
          (decide (c.kind ≠ .itemCurly) || decide (Without ['\\', '"'] l))) &&
      (decide (¬ isColorCommand name) || (colorModel full e).all fun m => decide (Without ('\\' :: marks) m))
    | _, _ => true
  | .itemEnv =>
    match e.envName with
    | some n =>
      match spec (trim n) with
      | some (.env sh) => decide (sh.ctx ≠ .isTable) || (cellContent (cellsOf (between e)).2).isEmpty
      | _ => true
    | none => true
  | _ => true

theorem tidyCheck_sound {spec : CommandSpec} {e : Elem} (h : tidyCheck spec e = true) : Tidy spec e := by
  constructor
  · intro hk
    unfold tidyCheck at h
    rw [hk] at h
    simp only at h
    split at h
    · rename_i l es hc
      have h := of_decide_eq_true h
      cases hg : es.getLast? with
      | none => rw [hg] at h; cases h
      | some r =>
        rw [hg] at h
        obtain ⟨ini, rfl⟩ := List.getLast?_eq_some_iff.1 hg
        exact ⟨l, ini, r, hc, by simpa using h⟩
    · cases h
  · intro hk
    unfold tidyCheck at h
    rw [hk] at h
    exact .of_check (of_decide_eq_true h)
  all_goals (intro hk; unfold tidyCheck at h; rw [hk] at h; simp only at h)
  · intro hb a ha l hl
    cases hf : e.cmdName with
    | none => unfold bareName at hb; rw [hf] at hb; cases hb
    | some full =>
      rw [hf, hb] at h
      simp only [Bool.and_eq_true, ne_eq, decide_not, decide_true, Bool.not_true, Bool.false_or] at h
      have h := List.all_eq_true.1 h.1.1 a (List.mem_of_mem_head? ha)
      rw [Option.mem_def] at hl
      rw [hl] at h
      exact of_decide_eq_true h
  · intro hb a ha l hl
    cases hf : e.cmdName with
    | none => unfold bareName at hb; rw [hf] at hb; cases hb
    | some full =>
      rw [hf, hb] at h
      simp only [Bool.and_eq_true, ne_eq, decide_not, decide_true, Bool.not_true, Bool.false_or] at h
      have h := List.all_eq_true.1 h.1.2 a ha
      rw [Option.mem_def] at hl
      rw [hl] at h
      constructor
      · intro c hc hk
        rw [Option.mem_def] at hc
        rw [hc] at h
        simp only [Option.all_some, Bool.and_eq_true, hk, decide_true, Bool.not_true, Bool.false_or] at h
        exact of_decide_eq_true h.1
      · intro c hc hk
        rw [Option.mem_def] at hc
        rw [hc] at h
        simp only [Option.all_some, Bool.and_eq_true, hk, decide_true, Bool.not_true, Bool.false_or] at h
        exact of_decide_eq_true h.2
  · intro full hf name hb hcol m hm
    rw [Option.mem_def] at hf hb hm
    rw [hf, hb] at h
    simp only [Bool.and_eq_true, hcol, not_true_eq_false, decide_false, Bool.false_or, hm, Option.all_some] at h
    exact of_decide_eq_true h.2
  · intro n hn sh hs ht
    rw [Option.mem_def] at hn
    rw [hn] at h
    simp only [hs, ht, ne_eq, not_true_eq_false, decide_false, Bool.false_or, List.isEmpty_iff] at h
    exact h

/-- The tree of a text passes the check. -/
def tidyText (s : Text) : Bool :=
  match parse 200 ⟨defaultSpec, globPrefix⟩ true s with
  | .ok tree => tree.descendants.all (tidyCheck defaultSpec)
  | .error _ => false

theorem tidyText_sound {s : Text} (h : tidyText s = true) :
    ∃ tree, parse 200 ⟨defaultSpec, globPrefix⟩ true s = .ok tree ∧ ∀ d ∈ tree.descendants, Tidy defaultSpec d := by
  unfold tidyText at h
  split at h
  · rename_i tree hp
    exact ⟨tree, hp, fun d hd => tidyCheck_sound (List.all_eq_true.1 h d hd)⟩
  · cases h

/-- Delimiters, a table, a label, a color, an image. -/
def nestedText : Text :=
  t!"$\\left[x\\right)$ \\begin{tabular}{c}(a\\\\\\end{tabular}\\label{f:g}\\textcolor{red}{[}\\includegraphics[width=.5\\textwidth]{a b}"

example : ∃ tree, parse 200 ⟨(none : Option CommandSpec).getD defaultSpec, globPrefix⟩ true nestedText = .ok tree ∧
    ∀ d ∈ tree.descendants, Tidy defaultSpec d := tidyText_sound (by decide +kernel)

example : ∃ out, convertText 200 defaultSpec nestedText none = .ok out ∧ WellNested out := by
  obtain ⟨tree, h1, h2⟩ := tidyText_sound (s := nestedText) (by decide +kernel)
  obtain ⟨out, h⟩ := ok_of (r := convertText 200 defaultSpec nestedText none) (by decide +kernel)
  exact ⟨out, h, C70_nested 200 defaultSpec nestedText .text none true tree out h1 C70_default h2 h⟩

/-- A macro, brackets that are not closed, a formula, a list. -/
def openText : Text :=
  t!"\\newcommand{\\half}[1]{\\frac{#1}{2}}A [b) \"c: $x_1 \\leftarrow \\half{(y]}$\n\\begin{itemize}\\item \\textbf{d} \\$\\end{itemize}"

example : ∀ toks, tokensOf defaultSpec openText = .ok toks → ∀ t ∈ toks, t.2 ∉ risky := by
  intro toks h
  have : (tokensOf defaultSpec openText).map (fun ts => decide (∀ t ∈ ts, t.2 ∉ risky)) = .ok true := by decide +kernel
  rw [h] at this
  exact of_decide_eq_true (Except.ok.inj this)

example : convertText 200 defaultSpec openText none =
    .ok t!"A \\[b\\) \\\"c: #math.equation(block: false, $x _(1 ) <-  frac(\\(y \\],2 )$);\n\n-  #strong[d]; dollar " := by decide +kernel

/-! What the hypotheses exclude is not well nested: an open delimiter, an open table cell, a bracket in a label. -/

example : (convertText 200 defaultSpec t!"$\\left(x$" none).map (fun o => decide (WellNested o)) = .ok false ∧
    (convertText 200 defaultSpec t!"\\begin{tabular}{c}a\\end{tabular}" none).map (fun o => decide (WellNested o)) = .ok false ∧
    (convertText 200 defaultSpec t!"\\label{a[b}" none).map (fun o => decide (WellNested o)) = .ok false := by decide +kernel

end Mitex
