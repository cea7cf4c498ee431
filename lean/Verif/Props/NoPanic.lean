/-
C46: conversion does not crash.
-/
import Verif.Proof.NoPanic
import Verif.Props.Parser
import Verif.Props.ParserTree
import Verif.Props.ConvParts

namespace Mitex

/-! ### The trees that parsing produces -/

theorem Forall_of_descendants (p : Elem → Prop) (e : Elem) : (∀ d ∈ e.descendants, p d) → e.Forall p := by
  induction e using Elem.ind with
  | ht k t => intro h; exact (Forall_token _ _ _).2 (h _ (by rw [Elem.descendants]; exact List.mem_singleton.2 rfl))
  | hn k cs ih =>
    intro h
    refine (Forall_node _ _ _).2 ⟨h _ ((descendants_node _ _ _).2 (Or.inl rfl)), fun c hc => ih c hc fun d hd => ?_⟩
    exact h d ((descendants_node _ _ _).2 (Or.inr ⟨c, hc, hd⟩))

/-- `\left` tokens carry their backslash. -/
def LeftsOk (toks : List Tok) : Prop := ∀ t ∈ toks, t.1 = .cmd .left → t.2.head? = some '\\'

theorem heads_ok {toks : List Tok} (hc : CmdsOk toks) (hl : LeftsOk toks) : ∀ t ∈ toks, HeadOk t := by
  rintro t ht (h | h)
  · exact hl t ht h
  · exact hc t ht .right h rfl

theorem shape_sane {env : PEnv} {spec : CommandSpec} (hg : GreedyAgree env.spec spec) {e : Elem} (hs : e.Forall (Shape env))
    (hl : Local e) (ha : ArgsPresent spec e) : Sane spec e := by
  cases e with
  | token k t => exact (Forall_token _ _ _).1 hs
  | node k cs =>
    have hsh := Forall_self hs
    refine ⟨?_, hl.1, ?_, ?_, ?_, ha⟩
    · intro hk
      revert hsh
      simp only [leafKinds] at hk
      cases k <;> first | (exact absurd hk (by decide)) | (intro h; exact h)
    · rintro rfl
      obtain ⟨pre, name, post, rfl, hp, hq, hm⟩ := CmdChildren.parts hsh
      have hname : (Elem.node .itemCmd (pre ++ .token .clauseCommandName ('\\' :: name) :: post)).cmdName = some ('\\' :: name) := by
        unfold Elem.cmdName
        simp only [Elem.children]
        rw [find_name hp]
        rfl
      refine ⟨name, hname, ?_, ?_⟩
      · intro sh h1 h2
        obtain ⟨sh', h3, h4⟩ := hg.1 name sh h1 h2
        rw [h3] at hm
        simp only [Option.map_some, h4] at hm
        obtain ⟨rfl, hm1, hm2⟩ := hm
        cases post with
        | nil => cases hm1
        | cons a as =>
          obtain ⟨acs, rfl⟩ := hm2 a List.mem_cons_self
          refine ⟨.clauseArgument, acs, as.filter fun c => decide (c.kind ≠ .clauseCommandName), ?_, rfl⟩
          simp [Elem.kind]
      · rintro rfl
        obtain ⟨sh', h3, h4⟩ := hg.2
        rw [h3] at hm
        simp only [Option.map_some, h4] at hm
        obtain ⟨rfl, hm1, hm2⟩ := hm
        rw [arguments_skip hp hq]
        cases post with
        | nil => cases hm1
        | cons a as => simp
    · rintro rfl
      obtain ⟨name, args, hcs⟩ := hl.2 rfl
      obtain ⟨name', args', hcs', hargs⟩ := hsh
      subst hcs
      cases hcs'
      refine ⟨name, args, rfl, fun a hm t ht => ?_⟩
      obtain ⟨k, t', e1, e2, _⟩ := hargs a hm
      rw [ht] at e1
      cases e1
      exact e2 rfl
    · rintro rfl
      obtain ⟨name, args, rest, rfl, _⟩ := env_parts hs
      exact ⟨name, rfl⟩

theorem root_local {cs : List Elem} (h : Neat (.node .scopeRoot cs)) : Local (.node .scopeRoot cs) := Forall_self h.2

theorem tree_sound {env : PEnv} {spec : CommandSpec} {toks : List Tok} (hw : WordsOk toks) (hc : CmdsOk toks) (hl : LeftsOk toks)
    (hg : GreedyAgree env.spec spec) {tree : Elem} (h : parseToks env toks = .ok tree)
    (ha : ∀ d ∈ tree.descendants, ArgsPresent spec d) : Sound spec tree := by
  obtain ⟨cs, rfl, hs, _⟩ := parse_tree hw hc h
  have hn := parse_neat env toks (heads_ok hc hl) _ h
  refine .of_node (Forall_of_descendants _ _ fun d hd => ?_)
  have hld : Local d := Forall_self (Forall_sub _ _ d hn.2 hd)
  rcases (descendants_node _ _ _).1 hd with rfl | ⟨c, hcm, hd'⟩
  · exact ⟨by decide, hld.1, fun h => (by cases h), fun h => (by cases h), fun h => (by cases h), ha _ hd⟩
  · exact shape_sane hg (Forall_sub _ c d (hs c hcm) hd') hld (ha d hd)

/-! ### C46 -/

/-- C46, the part that holds: converting a parsed document never crashes, in either mode and for every specification, if
the arguments that the converter insists on are present (`ArgsPresent`: for `\label`, `\includegraphics`, `\caption` in figures
and tables) and the specification used for parsing agrees with the one used for conversion on the greedy commands.
Missing: both conditions are necessary, see `C46_needed` and the crashes below. -/
theorem C46_no_panic (env : PEnv) (spec : CommandSpec) (m : Mode) (toks : List Tok) (hw : WordsOk toks) (hc : CmdsOk toks)
    (hl : LeftsOk toks) (hg : GreedyAgree env.spec spec) (tree : Elem) (h : parseToks env toks = .ok tree)
    (ha : ∀ d ∈ tree.descendants, ArgsPresent spec d) :
    (∃ out, convertTree spec m tree = .ok out) ∨ ∃ msg, convertTree spec m tree = .error (.error msg) := by
  have hnp : convert spec tree.depth tree (CState.new m) ≠ .error .panic :=
    (convert_np spec tree.depth).2 tree _ (tree_sound hw hc hl hg h ha) (fun h => (by cases h))
  rcases C49_outcome spec m tree with ⟨s, _, h2⟩ | h | h
  · exact Or.inl ⟨_, h2⟩
  · exact Or.inr h
  · exfalso
    unfold convertTree at h
    split at h
    · rename_i x hx
      cases h
      exact hnp hx
    · cases h

theorem takeBytes_some {n : Nat} {s p : Text} (h : takeBytes n s = some p) : ∃ r, s = p ++ r ∧ byteLen p = n := by
  induction s generalizing n p with
  | nil =>
    cases n with
    | zero => cases h; exact ⟨[], rfl, rfl⟩
    | succ n => cases h
  | cons c s ih =>
    cases n with
    | zero => cases h; exact ⟨c :: s, rfl, rfl⟩
    | succ n =>
      rw [takeBytes] at h
      split at h
      · obtain ⟨q, hq, rfl⟩ := Option.map_eq_some_iff.1 h
        obtain ⟨r, rfl, h2⟩ := ih hq
        exact ⟨r, rfl, by rw [byteLen, h2]; omega⟩
      · cases h

theorem one_char {t : Text} (h : byteLen t = 1) : ∃ c, t = [c] ∧ utf8Len c = 1 := by
  cases t with
  | nil => cases h
  | cons c t =>
    rw [byteLen] at h
    have := utf8Len_pos c
    cases t with
    | nil => exact ⟨c, rfl, by rw [byteLen] at h; omega⟩
    | cons d t => have := utf8Len_pos d; rw [byteLen] at h; omega

theorem stripEnds_delimited {t u : Text} (h : stripEnds t = .ok u) : Delimited t := by
  unfold stripEnds at h
  split at h
  · cases h
  · rename_i hl
    split at h
    · cases h
    · rename_i p hp
      split at h
      · cases h
      · rename_i q hq
        cases h
        obtain ⟨r, e1, e2⟩ := takeBytes_some hp
        obtain ⟨a, e3, e4⟩ := dropBytes_some hq
        obtain ⟨c, rfl, hc⟩ := one_char e4
        subst e3
        have e5 : byteLen r = 1 := by
          have := congrArg byteLen e1
          rw [byteLen_append'] at this
          omega
        obtain ⟨d, rfl, hd⟩ := one_char e5
        exact ⟨c, u, d, e1, hc, hd⟩

theorem cmdNameOf_of {e : Elem} {n : Text} (h : e.cmdName = some n) : cmdNameOf e = .ok n := by
  unfold cmdNameOf
  cases e with
  | token k t => cases h
  | node k cs => rw [h]

theorem findCaption_needs {es : List Elem} {cap r : Option Elem} (h : findCaption es cap = .ok r) :
    ∀ c ∈ es, isCommand t!"\\caption" c = true → c.arguments ≠ [] := by
  induction es generalizing cap with
  | nil => intro c hc; cases hc
  | cons e es ih =>
    rw [findCaption] at h
    intro c hc hx
    cases hna : isNamedArg e with
    | error x => rw [hna] at h; cases h
    | ok na =>
      rw [hna, ok_bind] at h
      rcases List.mem_cons.1 hc with rfl | hc
      · unfold isCommand at hx
        simp only [Bool.and_eq_true, decide_eq_true_eq] at hx
        have hname : cmdNameOf c = .ok t!"\\caption" := cmdNameOf_of hx.2
        have hd : dropOne t!"\\caption" = .ok t!"caption" := by decide +kernel
        have : na = true := by
          unfold isNamedArg at hna
          rw [if_pos hx.1, hname, ok_bind] at hna
          cases hna
          decide
        subst this
        rw [if_pos rfl, hname, ok_bind, hd, ok_bind, if_pos rfl] at h
        intro h0
        rw [h0] at h
        cases h
      · cases na with
        | false => exact ih h c hc hx
        | true =>
          rw [if_pos rfl] at h
          cases h1 : cmdNameOf e with
          | error x => rw [h1] at h; cases h
          | ok full =>
            rw [h1, ok_bind] at h
            cases h2 : dropOne full with
            | error x => rw [h2] at h; cases h
            | ok name =>
              rw [h2, ok_bind] at h
              split at h
              · cases h3 : e.arguments with
                | nil => rw [h3] at h; cases h
                | cons a as => rw [h3] at h; exact ih h c hc hx
              · exact ih h c hc hx

/-- C46: the first condition of `C46_no_panic` is needed.  In every conversion that succeeds, each converted `\label` has a
delimited argument, each converted `\includegraphics` has a curly one, each caption of a converted figure has an argument,
and each converted table has its delimited column specification. -/
theorem C46_needed (spec : CommandSpec) (m : Mode) (e : Elem) (out : Text) (h : convertTree spec m e = .ok out)
    (y : Place) (c : Elem) (hc : Converted spec (Place.top m) e y c) :
    (isCommand t!"\\label" c = true → ∃ a as, c.arguments = a :: as ∧ Delimited a.text) ∧
    (isCommand t!"\\includegraphics" c = true → ∃ a ∈ c.arguments, Delimited a.text ∧ ∃ d ds, a.childNodes = d :: ds ∧ d.kind = .itemCurly) ∧
    (∀ n sh, c.kind = .itemEnv → c.envName = some n → getEnv spec (trim n) = some sh →
      (sh.ctx = .isFigure → ∀ d ∈ c.children, isCommand t!"\\caption" d = true → d.arguments ≠ []) ∧
      (sh.ctx = .isTable → ∃ a as, c.envArguments = a :: as ∧ Delimited a.text)) := by
  obtain ⟨n, s1, s2, _, h2, _⟩ := tree_converted h hc
  cases n with
  | zero => cases h2
  | succ n =>
    have h2 : convKind spec (convert spec n) c (if c.kind = .tokenWhiteSpace then s1 else { s1 with skip := false }) = .ok s2 := h2
    generalize (if c.kind = .tokenWhiteSpace then s1 else { s1 with skip := false }) = t at h2
    unfold convKind at h2
    refine ⟨fun hx => ?_, fun hx => ?_, fun nm sh hk hn hsh => ?_⟩
    · unfold isCommand at hx
      simp only [Bool.and_eq_true, decide_eq_true_eq] at hx
      rw [hx.1] at h2
      dsimp only at h2
      have hname : cmdNameOf c = .ok t!"\\label" := cmdNameOf_of hx.2
      have hd : dropOne t!"\\label" = .ok t!"label" := by decide +kernel
      unfold convCmd at h2
      rw [hname, ok_bind, hd, ok_bind, if_neg (by decide), if_pos rfl] at h2
      unfold convLabel at h2
      split at h2
      · cases h2
      · rename_i a as ha
        refine ⟨a, as, ha, ?_⟩
        cases hs : stripEnds a.text with
        | error x => rw [hs] at h2; cases h2
        | ok u => exact stripEnds_delimited hs
    · unfold isCommand at hx
      simp only [Bool.and_eq_true, decide_eq_true_eq] at hx
      rw [hx.1] at h2
      dsimp only at h2
      have hname : cmdNameOf c = .ok t!"\\includegraphics" := cmdNameOf_of hx.2
      have hd : dropOne t!"\\includegraphics" = .ok t!"includegraphics" := by decide +kernel
      unfold convCmd at h2
      rw [hname, ok_bind, hd, ok_bind, if_neg (by decide), if_neg (by decide), if_pos rfl] at h2
      unfold convImage at h2
      cases h3 : findArg .itemBracket c.arguments with
      | error x => rw [h3] at h2; cases h2
      | ok o =>
        rw [h3, ok_bind] at h2
        cases h4 : findArg .itemCurly c.arguments with
        | error x => rw [h4] at h2; cases h2
        | ok r =>
          rw [h4, ok_bind] at h2
          cases r with
          | none => cases h2
          | some a =>
            dsimp only at h2
            cases hs : stripEnds a.text with
            | error x => rw [hs] at h2; cases h2
            | ok u =>
              have : ∀ (as : List Elem), findArg .itemCurly as = .ok (some a) →
                  a ∈ as ∧ ∃ d ds, a.childNodes = d :: ds ∧ d.kind = .itemCurly := by
                intro as
                induction as with
                | nil => intro h; cases h
                | cons b as ih =>
                  intro h
                  rw [findArg] at h
                  split at h
                  · cases h
                  · rename_i d ds hd
                    split at h
                    · rename_i hk; cases h; exact ⟨List.mem_cons_self, d, ds, hd, hk⟩
                    · exact ⟨List.mem_cons_of_mem _ (ih h).1, (ih h).2⟩
              exact ⟨a, (this _ h4).1, stripEnds_delimited hs, (this _ h4).2⟩
    · rw [hk] at h2
      dsimp only at h2
      cases c with
      | token k x => cases h2
      | node k cs =>
        unfold convEnv at h2
        dsimp only at h2
        rw [hn] at h2
        dsimp only at h2
        rw [hsh] at h2
        dsimp only at h2
        refine ⟨fun hf => ?_, fun ht => ?_⟩
        · rw [hf] at h2
          rw [if_neg (by decide)] at h2
          unfold convEnvKind at h2
          rw [if_neg (by decide)] at h2
          dsimp only [CtxFeature.env] at h2
          unfold convFigure asNode at h2
          dsimp only at h2
          rw [ok_bind] at h2
          cases hfc : findCaption cs none with
          | error x => rw [hfc] at h2; cases h2
          | ok r => exact findCaption_needs hfc
        · rw [ht] at h2
          rw [if_neg (by decide)] at h2
          unfold convEnvKind at h2
          rw [if_neg (by decide)] at h2
          dsimp only [CtxFeature.env] at h2
          unfold convTable asNode at h2
          dsimp only at h2
          rw [ok_bind] at h2
          cases ha : (Elem.node k cs).envArguments with
          | nil => rw [ha] at h2; cases h2
          | cons a as =>
            rw [ha] at h2
            dsimp only at h2
            refine ⟨a, as, rfl, ?_⟩
            cases hs : stripEnds a.text with
            | error x => rw [hs] at h2; cases h2
            | ok u => exact stripEnds_delimited hs

/-- The tokens of a text, and the tokens delivered by the macro engine, meet the hypotheses. -/
theorem C46_delivered (spec : CommandSpec) (s : Text) (toks : List Tok) (h : tokensOf spec s = .ok toks) :
    LeftsOk toks ∧ ∀ fuel outs, expandAll fuel toks = .ok outs → LeftsOk outs := by
  have hd : ∀ t ∈ toks, t.1 = .cmd .left → t.2.head? = some '\\' := by
    intro t ht hk
    have hs := tokensOf_shape h t ht
    rw [hk] at hs
    exact cmd_head hs (by decide) (by decide)
  refine ⟨hd, fun fuel outs ho => ?_⟩
  have inv : TokInv fun t => t.1 = .cmd .left → t.2.head? = some '\\' := {
    err := fun t h => (by cases h)
    fi := fun h => (by cases h)
    char := fun w c _ _ h => (by cases h)
    suf := fun a b _ _ h => (by cases h)
    leak := Or.inl fun d _ _ _ _ h => (by cases h) }
  unfold expandAll at ho
  split at ho
  · cases ho
  · rename_i e c hr
    cases ho
    have := (engRun_inv inv fuel (e := Eng.new) (defaultTable_inv _) (c := ⟨toks, []⟩)
      ⟨hd, fun _ h => (by cases h)⟩).1 e c hr
    exact this.2.2

/-- No command token of the list needs an argument: `\label`, `\includegraphics`, `\caption`, begin of a table. -/
def NoFragile (spec : CommandSpec) (toks : List Tok) : Prop :=
  ∀ t ∈ toks, ∀ c, t.1 = .cmd c → t.2 ∉ [t!"\\label", t!"\\includegraphics", t!"\\caption"] ∧
    ∀ sh, getEnv spec (trim t.2) = some sh → sh.ctx ≠ .isTable

theorem leaves_go_mem {cs : List Elem} {c : Elem} (h : c ∈ cs) {l : Kind × Text} (hl : l ∈ c.leaves) : l ∈ Elem.leaves.go cs := by
  induction cs with
  | nil => cases h
  | cons a as ih =>
    rw [Elem.leaves.go]
    rcases List.mem_cons.1 h with rfl | h
    · exact List.mem_append_left _ hl
    · exact List.mem_append_right _ (ih h)

theorem leaves_child {e c : Elem} (h : c ∈ e.children) {l : Kind × Text} (hl : l ∈ c.leaves) : l ∈ e.leaves := by
  cases e with
  | token => cases h
  | node k cs => rw [Elem.leaves]; exact leaves_go_mem h hl

theorem leaves_descendant {e d : Elem} (h : d ∈ e.descendants) {l : Kind × Text} (hl : l ∈ d.leaves) : l ∈ e.leaves := by
  induction e using Elem.ind with
  | ht k t => rw [Elem.descendants, List.mem_singleton] at h; rw [← h]; exact hl
  | hn k cs ih =>
    rcases (descendants_node _ _ _).1 h with rfl | ⟨c, hc, hd⟩
    · exact hl
    · exact leaves_child (e := .node k cs) hc (ih c hc hd)

theorem firstToken_leaf {e : Elem} {l : Kind × Text} (h : e.firstToken = some l) : l ∈ e.leaves := by
  induction e using Elem.ind with
  | ht k t => rw [Elem.firstToken] at h; cases h; exact List.mem_singleton.2 rfl
  | hn k cs ih =>
    cases cs with
    | nil => cases h
    | cons c cs =>
      rw [Elem.firstToken] at h
      exact leaves_child (e := .node k (c :: cs)) List.mem_cons_self (ih c List.mem_cons_self h)

theorem cmdName_leaf {e : Elem} {n : Text} (h : e.cmdName = some n) : (.clauseCommandName, n) ∈ e.leaves := by
  unfold Elem.cmdName at h
  obtain ⟨c, hc, hn⟩ := Option.map_eq_some_iff.1 h
  have hm := List.mem_of_find?_eq_some hc
  have hp := List.find?_some hc
  cases c with
  | node => cases hp
  | token k t =>
    simp only [Elem.isNode, Elem.kind, Bool.not_false, Bool.true_and] at hp
    have hk := of_decide_eq_true hp
    subst hk
    cases hn
    exact leaves_child hm (List.mem_singleton.2 rfl)

theorem envName_leaf {e : Elem} {n : Text} (h : e.envName = some n) : (.tokenCommandSym, n) ∈ e.leaves := by
  unfold Elem.envName at h
  obtain ⟨b, hb, hn⟩ := Option.bind_eq_some_iff.1 h
  have hm := (List.mem_filter.1 (List.mem_of_find?_eq_some hb)).1
  refine leaves_child hm (firstToken_leaf ?_)
  unfold Elem.beginName at hn
  split at hn
  · rename_i t ht; cases hn; exact ht
  · cases hn

theorem reads_leaf {ts rest : List Tok} {lv : List (Kind × Text)} (h : Reads ts rest lv) {k : Kind} {x : Text} (hl : (k, x) ∈ lv)
    (hk : k ≠ .tokenWord) : ∃ t ∈ ts, t.2 = x ∧ (t.1.kind = k ∨ t.1 = .cmd .generic) := by
  induction h with
  | done => cases hl
  | keep t _ ih =>
    rcases List.mem_cons.1 hl with e | hl
    · cases e; exact ⟨t, List.mem_cons_self, rfl, Or.inl rfl⟩
    · obtain ⟨t', h1, h2⟩ := ih hl; exact ⟨t', List.mem_cons_of_mem _ h1, h2⟩
  | sym y _ ih =>
    rcases List.mem_cons.1 hl with e | hl
    · cases e; exact ⟨_, List.mem_cons_self, rfl, Or.inr rfl⟩
    · obtain ⟨t', h1, h2⟩ := ih hl; exact ⟨t', List.mem_cons_of_mem _ h1, h2⟩
  | trivia t _ _ ih => obtain ⟨t', h1, h2⟩ := ih hl; exact ⟨t', List.mem_cons_of_mem _ h1, h2⟩
  | char c _ _ ih =>
    rcases List.mem_cons.1 hl with e | hl
    · cases e; exact absurd rfl hk
    · obtain ⟨t', h1, h2, h3⟩ := ih hl
      rcases List.mem_cons.1 h1 with rfl | h1
      · rcases h3 with h3 | h3
        · exact absurd h3.symm hk
        · cases h3
      · exact ⟨t', List.mem_cons_of_mem _ h1, h2, h3⟩
  | cond t fi _ _ _ _ ih =>
    rcases List.mem_append.1 hl with hl | hl
    · obtain ⟨t', h1, h2⟩ := List.mem_map.1 hl
      cases h2
      exact ⟨t', List.mem_cons_of_mem _ (List.mem_append_left _ h1), rfl, Or.inl rfl⟩
    · obtain ⟨t', h1, h2⟩ := ih hl
      exact ⟨t', List.mem_cons_of_mem _ (List.mem_append_right _ (List.mem_cons_of_mem _ h1)), h2⟩
  | condOpen t _ _ =>
    obtain ⟨t', h1, h2⟩ := List.mem_map.1 hl
    cases h2
    exact ⟨t', List.mem_cons_of_mem _ h1, rfl, Or.inl rfl⟩

theorem kind_cmd {t : Token} (h : t.kind = .clauseCommandName ∨ t.kind = .tokenCommandSym) : ∃ c, t = .cmd c := by
  cases t with
  | cmd c => exact ⟨c, rfl⟩
  | left b => cases b <;> rcases h with h | h <;> cases h
  | right b => cases b <;> rcases h with h | h <;> cases h
  | _ => rcases h with h | h <;> cases h

theorem descendants_trans {e d c : Elem} (h : d ∈ e.descendants) (h' : c ∈ d.descendants) : c ∈ e.descendants := by
  induction e using Elem.ind with
  | ht k t => rw [Elem.descendants, List.mem_singleton] at h; rw [← h]; exact h'
  | hn k cs ih =>
    rcases (descendants_node _ _ _).1 h with rfl | ⟨a, ha, hd⟩
    · exact h'
    · exact (descendants_node _ _ _).2 (Or.inr ⟨a, ha, ih a ha hd⟩)

theorem fragile_absent {env : PEnv} {spec : CommandSpec} {toks : List Tok} (hw : WordsOk toks) (hc : CmdsOk toks)
    (hf : NoFragile spec toks) {tree : Elem} (h : parseToks env toks = .ok tree) : ∀ d ∈ tree.descendants, ArgsPresent spec d := by
  obtain ⟨cs, rfl, _, hr, _⟩ := parse_tree hw hc h
  have tok : ∀ k x, k = .clauseCommandName ∨ k = .tokenCommandSym → (k, x) ∈ Elem.leaves.go cs → ∃ t ∈ toks, ∃ c, t.1 = .cmd c ∧ t.2 = x := by
    intro k x hk hl
    obtain ⟨t, h1, h2, h3⟩ := reads_leaf hr hl (by rcases hk with rfl | rfl <;> decide)
    refine ⟨t, h1, ?_⟩
    rcases h3 with h3 | h3
    · obtain ⟨c, hc⟩ := kind_cmd (t := t.1) (by rw [h3]; exact hk)
      exact ⟨c, hc, h2⟩
    · exact ⟨_, h3, h2⟩
  have name : ∀ d ∈ (Elem.node .scopeRoot cs).descendants, ∀ x, isCommand x d = true →
      x ∉ [t!"\\label", t!"\\includegraphics", t!"\\caption"] := by
    intro d hd x hx
    unfold isCommand at hx
    simp only [Bool.and_eq_true, decide_eq_true_eq] at hx
    have := leaves_descendant hd (cmdName_leaf hx.2)
    rw [Elem.leaves] at this
    obtain ⟨t, h1, c, h2, h3⟩ := tok _ _ (Or.inl rfl) this
    rw [← h3]
    exact (hf t h1 c h2).1
  intro d hd
  refine ⟨fun hx => ?_, fun hx => ?_, fun n sh _ hn hsh => ⟨fun _ c hcc hx => ?_, fun hs => ?_⟩⟩
  · exact absurd (List.mem_cons_self) (name d hd _ hx)
  · exact absurd (List.mem_cons_of_mem _ List.mem_cons_self) (name d hd _ hx)
  · have hcd : c ∈ (Elem.node .scopeRoot cs).descendants := by
      have : c ∈ d.descendants := by
        cases d with
        | token => cases hcc
        | node k ds =>
          refine (descendants_node _ _ _).2 (Or.inr ⟨c, hcc, ?_⟩)
          cases c with
          | token => rw [Elem.descendants]; exact List.mem_singleton.2 rfl
          | node => exact (descendants_node _ _ _).2 (Or.inl rfl)
      exact descendants_trans hd this
    exact absurd (List.mem_cons_of_mem _ (List.mem_cons_of_mem _ List.mem_cons_self)) (name c hcd _ hx)
  · have := leaves_descendant hd (envName_leaf hn)
    rw [Elem.leaves] at this
    obtain ⟨t, h1, c, h2, h3⟩ := tok _ _ (Or.inr rfl) this
    exact absurd hs ((hf t h1 c h2).2 sh (by rw [h3]; exact hsh))

/-- C46 on tokens: a token list without `\label`, `\includegraphics`, `\caption` and tables, in which no `_` or `^` is
directly followed by a command taking the preceding item, is parsed and converted without a crash. -/
theorem C46_tokens (env : PEnv) (spec : CommandSpec) (m : Mode) (toks : List Tok) (hw : WordsOk toks) (hc : CmdsOk toks)
    (hl : LeftsOk toks) (hg : GreedyAgree env.spec spec) (he : EnvsOk env.spec) (hs : ScriptSafe env.spec toks)
    (hf : NoFragile spec toks) :
    ∃ tree, parseToks env toks = .ok tree ∧
      ((∃ out, convertTree spec m tree = .ok out) ∨ ∃ msg, convertTree spec m tree = .error (.error msg)) := by
  obtain ⟨tree, h⟩ := C29_total env toks hw hc he hs
  exact ⟨tree, h, C46_no_panic env spec m toks hw hc hl hg tree h (fragile_absent hw hc hf h)⟩

theorem greedyAgree_default : GreedyAgree defaultSpec defaultSpec := by
  refine ⟨fun name sh h1 h2 => ⟨sh, h1, h2⟩, ?_⟩
  have : ((getCmd defaultSpec t!"color").any fun sh => decide (sh.args = .right .greedy)) = true := by decide +kernel
  cases h : getCmd defaultSpec t!"color" with
  | none => rw [h] at this; cases this
  | some sh => rw [h] at this; exact ⟨sh, rfl, of_decide_eq_true this⟩

/-- C46 for documents, with the standard specification: text and math conversion, with and without macros, return an output
or an error message if lexing and macro expansion succeed and the tokens after expansion are harmless. -/
theorem C46_documents (s : Text) (m : Mode) (withMacro : Bool) (fuel : Nat) (toks outs : List Tok)
    (ht : tokensOf defaultSpec s = .ok toks) (ho : (if withMacro then expandAll fuel toks else .ok toks) = .ok outs)
    (hs : ScriptSafe defaultSpec outs) (hf : NoFragile defaultSpec outs) :
    (∃ out, convertInner fuel defaultSpec s m none withMacro = .ok out) ∨
    ∃ msg, convertInner fuel defaultSpec s m none withMacro = .error (.error msg) := by
  have hd : (WordsOk outs ∧ CmdsOk outs) ∧ LeftsOk outs := by
    cases withMacro with
    | true => exact ⟨(C28_delivered _ s toks ht).2 fuel outs ho, (C46_delivered _ s toks ht).2 fuel outs ho⟩
    | false => cases ho; exact ⟨(C28_delivered _ s toks ht).1, (C46_delivered _ s toks ht).1⟩
  obtain ⟨tree, h1, h2⟩ := C46_tokens ⟨defaultSpec, globPrefix⟩ defaultSpec m outs hd.1.1 hd.1.2 hd.2 greedyAgree_default
    defaultSpec_envs hs hf
  have : convertInner fuel defaultSpec s m none withMacro = convertTree defaultSpec m tree := by
    unfold convertInner parse
    simp only [Option.getD_none, ht, ok_bind]
    cases withMacro with
    | true => simp only [if_true] at ho ⊢; rw [ho, ok_bind, h1, ok_bind]
    | false => simp only [Bool.false_eq_true, if_false] at ho ⊢; cases ho; rw [h1, ok_bind]
  rw [this]
  exact h2

/-! ### Crashes -/

/-- Is it a crash? -/
def crashes {α : Type} (r : Res α) : Bool :=
  match r with
  | .error .panic => true
  | _ => false

/-- C46: the property fails as such.  `\label`, `\includegraphics`, `\caption` and tables without the argument they
expect (missing, not in braces, or cut off by the end of the text) crash the conversion. -/
theorem C46_crashes : ∀ s ∈ [t!"\\label", t!"\\label x", t!"\\label{", t!"\\includegraphics", t!"\\includegraphics x",
      t!"\\includegraphics[x]", t!"\\begin{figure}\\caption\\end{figure}", t!"\\begin{tabular}x\\end{tabular}", t!"\\begin{tabular}"],
    convertMathNoMacro 50 defaultSpec s none = .error .panic := by
  intro s hs
  have key : ([t!"\\label", t!"\\label x", t!"\\label{", t!"\\includegraphics", t!"\\includegraphics x",
      t!"\\includegraphics[x]", t!"\\begin{figure}\\caption\\end{figure}", t!"\\begin{tabular}x\\end{tabular}", t!"\\begin{tabular}"].all
      fun s => crashes (convertMathNoMacro 50 defaultSpec s none)) = true := by decide +kernel
  exact panic_of (List.all_eq_true.1 key s hs)

/-- A specification without entries. -/
def emptySpec : CommandSpec := fun _ => none

/-- C46: the second condition of `C46_no_panic` is needed.  With a custom specification, which the converter ignores (C48),
greedy commands that it does not list crash the conversion. -/
theorem C46_custom_spec_panics : ∀ s ∈ [t!"\\displaystyle x", t!"\\color x"],
    convertMathNoMacro 50 defaultSpec s (some emptySpec) = .error .panic := by
  intro s hs
  have key : ([t!"\\displaystyle x", t!"\\color x"].all
      fun s => crashes (convertMathNoMacro 50 defaultSpec s (some emptySpec))) = true := by decide +kernel
  exact panic_of (List.all_eq_true.1 key s hs)

/-! ### The hypotheses are met -/

instance (t : Text) : Decidable (Delimited t) :=
  if h : ∃ a ∈ t.head?, ∃ b ∈ t.tail.getLast?, utf8Len a = 1 ∧ utf8Len b = 1 then
    .isTrue (by
      obtain ⟨a, ha, b, hb, h1, h2⟩ := h
      cases t with
      | nil => cases ha
      | cons x t =>
        cases ha
        obtain ⟨i, rfl⟩ := List.getLast?_eq_some_iff.1 hb
        exact ⟨a, i, b, rfl, h1, h2⟩)
  else .isFalse (by
    rintro ⟨a, i, b, rfl, h1, h2⟩
    exact h ⟨a, rfl, b, by simp, h1, h2⟩)

/-- A check for `ArgsPresent`. -/
def argsPresentB (spec : CommandSpec) (e : Elem) : Bool :=
  (!isCommand t!"\\label" e || (e.arguments.head?.any fun a => decide (Delimited a.text))) &&
  (!isCommand t!"\\includegraphics" e ||
    ((e.arguments.all fun a => decide (Delimited a.text) && !a.childNodes.isEmpty) &&
      e.arguments.any fun a => a.childNodes.head?.any fun c => decide (c.kind = .itemCurly))) &&
  match e.envName.bind fun n => getEnv spec (trim n) with
  | some sh =>
    (!decide (sh.ctx = .isFigure) || e.children.all fun c => !isCommand t!"\\caption" c || !c.arguments.isEmpty) &&
    (!decide (sh.ctx = .isTable) || (e.envArguments.head?.any fun a => decide (Delimited a.text)))
  | none => true

theorem argsPresentB_spec {spec : CommandSpec} {e : Elem} (h : argsPresentB spec e = true) : ArgsPresent spec e := by
  unfold argsPresentB at h
  rw [Bool.and_eq_true, Bool.and_eq_true] at h
  obtain ⟨⟨h1, h2⟩, h3⟩ := h
  refine ⟨fun hx => ?_, fun hx => ?_, fun n sh _ hn hsh => ?_⟩
  · rw [hx] at h1
    simp only [Bool.not_true, Bool.false_or] at h1
    cases ha : e.arguments with
    | nil => rw [ha] at h1; cases h1
    | cons a as => rw [ha] at h1; exact ⟨a, as, rfl, of_decide_eq_true h1⟩
  · rw [hx] at h2
    simp only [Bool.not_true, Bool.false_or, Bool.and_eq_true, List.all_eq_true, List.any_eq_true] at h2
    refine ⟨fun a ha => ⟨of_decide_eq_true (h2.1 a ha).1, fun h0 => ?_⟩, ?_⟩
    · have := (h2.1 a ha).2
      rw [h0] at this
      cases this
    · obtain ⟨a, ha, hc⟩ := h2.2
      cases hn : a.childNodes with
      | nil => rw [hn] at hc; cases hc
      | cons c cs => rw [hn] at hc; exact ⟨a, ha, c, cs, hn, of_decide_eq_true hc⟩
  · rw [hn] at h3
    simp only [Option.bind_some, hsh, Bool.and_eq_true, Bool.or_eq_true, Bool.not_eq_true', decide_eq_false_iff_not, List.all_eq_true] at h3
    refine ⟨fun hf c hc hx h0 => ?_, fun ht => ?_⟩
    · rcases h3.1 with h | h
      · exact h hf
      · have := h c hc
        rw [hx, h0] at this
        rcases this with h | h <;> cases h
    · rcases h3.2 with h | h
      · exact absurd ht h
      · cases ha : e.envArguments with
        | nil => rw [ha] at h; cases h
        | cons a as => rw [ha] at h; exact ⟨a, as, rfl, of_decide_eq_true h⟩

/-- A check for `ScriptSafe`. -/
def scriptSafeB (spec : CommandSpec) : List Tok → Bool
  | [] => true
  | t :: ts => (!(decide (t.1 = .underscore) || decide (t.1 = .caret)) ||
      match ts.dropWhile (fun t => t.1.isTrivia) with
      | (.cmd _, '\\' :: x) :: _ => (getCmd spec x).all fun sh => decide (sh.args ≠ .left1 ∧ sh.args ≠ .infixGreedy)
      | _ => true) && scriptSafeB spec ts

theorem scriptSafeB_spec {spec : CommandSpec} {ts : List Tok} (h : scriptSafeB spec ts = true) : ScriptSafe spec ts := by
  induction ts with
  | nil => trivial
  | cons t ts ih =>
    rw [scriptSafeB, Bool.and_eq_true] at h
    refine ⟨fun ht c x rest hd _ sh hsh => ?_, ih h.2⟩
    have h1 := h.1
    rw [hd] at h1
    simp only [hsh, Option.all_some, Bool.or_eq_true, Bool.not_eq_true', Bool.or_eq_false_iff, decide_eq_false_iff_not, decide_eq_true_eq] at h1
    rcases h1 with h1 | h1
    · rcases ht with ht | ht
      · exact absurd ht h1.1
      · exact absurd ht h1.2
    · exact h1

/-- A check for `NoFragile`. -/
def noFragileB (spec : CommandSpec) (ts : List Tok) : Bool :=
  ts.all fun t => match t.1 with
    | .cmd _ => decide (t.2 ∉ [t!"\\label", t!"\\includegraphics", t!"\\caption"]) &&
        (getEnv spec (trim t.2)).all fun sh => decide (sh.ctx ≠ .isTable)
    | _ => true

theorem noFragileB_spec {spec : CommandSpec} {ts : List Tok} (h : noFragileB spec ts = true) : NoFragile spec ts := by
  intro t ht c hc
  have := List.all_eq_true.1 h t ht
  rw [hc] at this
  simp only [Bool.and_eq_true, decide_eq_true_eq] at this
  refine ⟨this.1, fun sh hsh => ?_⟩
  have h2 := this.2
  rw [hsh] at h2
  exact of_decide_eq_true h2

/-- Checks a result. -/
def resAll {α : Type} (p : α → Bool) : Res α → Bool
  | .ok a => p a
  | .error _ => false

theorem resAll_spec {α : Type} {p : α → Bool} {r : Res α} (h : resAll p r = true) : ∃ a, r = .ok a ∧ p a = true := by
  cases r with
  | ok a => exact ⟨a, rfl, h⟩
  | error x => cases h

/-- A document with scripts, groups, a fraction, a matrix and an unknown command. -/
def harmless : Text := t!"x_{i}^2 + \\frac ab \\left( \\begin{matrix} 1 & \\sqrt[3]{y} \\\\ \\unknown \\end{matrix} \\right) \\item"

example : ∃ toks, tokensOf defaultSpec harmless = .ok toks ∧ ScriptSafe defaultSpec toks ∧ NoFragile defaultSpec toks := by
  have : resAll (fun toks => scriptSafeB defaultSpec toks && noFragileB defaultSpec toks) (tokensOf defaultSpec harmless) = true := by
    decide +kernel
  obtain ⟨toks, h1, h2⟩ := resAll_spec this
  rw [Bool.and_eq_true] at h2
  exact ⟨toks, h1, scriptSafeB_spec h2.1, noFragileB_spec h2.2⟩

/-- A document with a label, an image, a figure with a caption and a table. -/
def delicate : Text := t!"\\label{a}\\includegraphics[width=1cm]{f}\\begin{figure}\\caption{c}\\begin{tabular}{l|r}1&2\\\\\\end{tabular}\\end{figure}"

example : ∃ toks tree, tokensOf defaultSpec delicate = .ok toks ∧ parseToks ⟨defaultSpec, globPrefix⟩ toks = .ok tree ∧
    ∀ d ∈ tree.descendants, ArgsPresent defaultSpec d := by
  have : resAll (fun toks => resAll (fun tree => tree.descendants.all (argsPresentB defaultSpec)) (parseToks ⟨defaultSpec, globPrefix⟩ toks))
      (tokensOf defaultSpec delicate) = true := by decide +kernel
  obtain ⟨toks, h1, h2⟩ := resAll_spec this
  obtain ⟨tree, h3, h4⟩ := resAll_spec h2
  exact ⟨toks, tree, h1, h3, fun d hd => argsPresentB_spec (List.all_eq_true.1 h4 d hd)⟩

end Mitex
