/-
C84: what blanks and comments say does not matter for the syntax, and what comments say does not matter at all.
-/
import Verif.Proof.BlankTree
import Verif.Proof.LocalClosed
import Verif.Proof.BlankMacro
import Verif.Props.Expansion
import Verif.Props.Program
import Verif.Props.Grammar
import Verif.Props.Convert
import Verif.Props.Shown
import Verif.Model.StandardSpec

namespace Mitex

/-- No comment stands within a part of the document that is read as it is (labels, image names, column specifications, …). -/
def NoneQuoted (e : Elem) : Prop := e.Forall fun x => ∀ p ∈ verbatim x, ∀ l ∈ p, l.1 ≠ .tokenComment

/-- The tokens are the same but for the texts of comments. -/
def SameButComments : List Tok → List Tok → Prop := Both (AlikeTok fun k _ _ => k = .tokenComment)

namespace Blank

variable {Q : Kind → Text → Text → Prop}

theorem words_alike {ts ts' : List Tok} (ht : Both (AlikeTok Q) ts ts') (h : WordsOk ts) : WordsOk ts' := by
  intro b hb hk
  obtain ⟨a, ha, al⟩ := ht.mem_right b hb
  obtain ⟨k, x⟩ := a
  have h1 : k = .word := al.1.trans hk
  subst h1
  have := tok_eq al rfl
  subst this
  exact h _ ha rfl

theorem cmds_alike {ts ts' : List Tok} (ht : Both (AlikeTok Q) ts ts') (h : CmdsOk ts) : CmdsOk ts' := by
  intro b hb c hk hc
  obtain ⟨a, ha, al⟩ := ht.mem_right b hb
  obtain ⟨k, x⟩ := a
  have h1 : k = .cmd c := al.1.trans hk
  subst h1
  have := tok_eq al command_nonblank
  subst this
  exact h _ ha c rfl hc

theorem tok_symm {t t' : Tok} (h : AlikeTok Q t t') : AlikeTok (fun k a b => Q k b a) t' t :=
  ⟨h.1.symm, h.2.imp Eq.symm fun k => ⟨h.1 ▸ k.1, h.1 ▸ k.2⟩⟩

end Blank

/-- **C84**, syntax: if two token lists are the same but for the texts of blanks and comments, then their syntax trees have the same shape, and
differ in those texts only; and if there is no tree for one of them, there is none for the other.  (`Q` relates the texts.) -/
theorem C84_syntax (env : PEnv) (Q : Kind → Text → Text → Prop) (ts ts' : List Tok) (hw : WordsOk ts) (hc : CmdsOk ts)
    (ht : Both (AlikeTok Q) ts ts') :
    (∃ e e', parseToks env ts = .ok e ∧ parseToks env ts' = .ok e' ∧ Alike Q e e') ∨
    (parseToks env ts = .error .panic ∧ parseToks env ts' = .error .panic) := by
  have hw' := Blank.words_alike ht hw
  have hc' := Blank.cmds_alike ht hc
  cases h : parseToks env ts with
  | ok e =>
    obtain ⟨e', h1, h2⟩ := Blank.document_alike ((C62_exact env ts hw hc e).1 h) ht
    exact .inl ⟨e, e', rfl, (C62_exact env ts' hw' hc' e').2 h1, h2⟩
  | error x =>
    refine .inr ⟨by rw [(C29_only_panic env ts hw hc x h).1], ?_⟩
    cases h' : parseToks env ts' with
    | ok e' =>
      obtain ⟨e, h1, _⟩ := Blank.document_alike ((C62_exact env ts' hw' hc' e').1 h') (ht.symm fun _ _ => Blank.tok_symm)
      rw [(C62_exact env ts hw hc e).2 h1] at h
      cases h
    | error x' => rw [(C29_only_panic env ts' hw' hc' x' h').1]

namespace Blank

theorem argsOfKinds_isArg {ks : List ArgKind} {as : List Elem} (h : ArgsOfKinds ks as) : ∀ a ∈ as, IsArg a := by
  induction h with
  | nil => exact fun _ h => (by cases h)
  | @cons k ks a as h hs ih =>
    intro x hx
    rcases List.mem_cons.1 hx with rfl | hx
    · cases k
      · exact h
      · obtain ⟨cs, rfl⟩ := h; exact ⟨_, rfl⟩
      · obtain ⟨cs, rfl⟩ := h; exact ⟨_, rfl⟩
    · exact ih x hx

/-- Command nodes have no block comments as children. -/
theorem commands_plain {env : PEnv} {ts : List Tok} (hw : WordsOk ts) (hc : CmdsOk ts) {tree : Elem} (h : parseToks env ts = .ok tree) :
    tree.Forall fun x => x.kind = .itemCmd → x.children.filter isBlock = [] := by
  refine Forall_of_descendants _ tree fun e he hk => ?_
  rcases C31_shapes env ts hw hc tree h e he with rfl | hs
  · obtain ⟨cs, rfl, _⟩ := C31_root env ts hw hc e h
    cases hk
  · cases e with
    | token k t => rfl
    | node k cs =>
      have hk : k = .itemCmd := hk
      subst hk
      have arg : ∀ a, IsArg a → isBlock a = false := by
        rintro a ⟨as, rfl⟩
        rfl
      have args : ∀ as : List Elem, (∀ a ∈ as, IsArg a) → as.filter isBlock = [] := fun as h =>
        List.filter_eq_nil_iff.2 fun a ha => by rw [arg a (h a ha)]; exact fun h => (by cases h)
      obtain ⟨pre, name, post, rfl, hm⟩ := (hs : CmdChildren env cs)
      show (pre ++ .token .clauseCommandName ('\\' :: name) :: post).filter isBlock = []
      have hpre : pre.filter isBlock = [] ∧ post.filter isBlock = [] := by
        split at hm
        · rw [hm.1, hm.2]; exact ⟨rfl, rfl⟩
        · rename_i p _
          rw [hm.1]
          refine ⟨rfl, args post ?_⟩
          have h2 := hm.2
          unfold ArgsFit at h2
          cases p with
          | none => dsimp only at h2; rw [h2]; exact fun _ h => (by cases h)
          | fixedLen n => exact h2.2
          | rangeLen m n => exact h2.2
          | greedy => exact h2.2
          | glob re =>
            obtain ⟨kinds, hk, _⟩ := h2
            exact argsOfKinds_isArg hk
        · rw [hm.2.2]; exact ⟨args pre hm.2.1, rfl⟩
        · exact ⟨args pre hm.2.1, args post hm.2.2.2⟩
      rw [List.filter_append, hpre.1, List.filter_cons_of_neg (by exact fun h => (by cases h)), hpre.2]
      rfl

theorem Forall_and {p q : Elem → Prop} (e : Elem) (h : e.Forall p) (k : e.Forall q) : e.Forall fun x => p x ∧ q x :=
  Forall_of_descendants _ e fun x hx => ⟨Forall_self (Forall_sub _ _ _ h hx), Forall_self (Forall_sub _ _ _ k hx)⟩

/-- The parse of a text is that of the tokens that reach the parser. -/
theorem parse_tokens (fuel : Nat) (env : PEnv) (macros : Bool) (s : Text) :
    parse fuel env macros s = (parserTokens fuel env.spec macros s).bind (parseToks env) := by
  unfold parse parserTokens
  cases tokensOf env.spec s with
  | error e => rfl
  | ok ts => cases macros <;> rfl

end Blank

/-- **C84**, comments: if the tokens of two texts (after the expansion of macros) are the same but for the texts of comments, and no comment stands in
a part that is read as it is, then the two texts are converted to the same output; and if one fails, so does the other, with the same message. -/
theorem C84_comments (fuel : Nat) (dflt : CommandSpec) (m : Mode) (spec : Option CommandSpec) (macros : Bool) (input input' : Text) (ts ts' : List Tok)
    (h : parserTokens fuel (spec.getD dflt) macros input = .ok ts) (h' : parserTokens fuel (spec.getD dflt) macros input' = .ok ts')
    (ht : SameButComments ts ts') (hq : ∀ tree, parse fuel ⟨spec.getD dflt, globPrefix⟩ macros input = .ok tree → NoneQuoted tree) :
    convertInner fuel dflt input m spec macros = convertInner fuel dflt input' m spec macros := by
  obtain ⟨_, hw, hc⟩ := Shown.delivered_fine h
  have e1 := Blank.parse_tokens fuel ⟨spec.getD dflt, globPrefix⟩ macros input
  have e2 := Blank.parse_tokens fuel ⟨spec.getD dflt, globPrefix⟩ macros input'
  rw [show parserTokens fuel (PEnv.spec ⟨spec.getD dflt, globPrefix⟩) macros input = .ok ts from h] at e1
  rw [show parserTokens fuel (PEnv.spec ⟨spec.getD dflt, globPrefix⟩) macros input' = .ok ts' from h'] at e2
  have e1 : parse fuel ⟨spec.getD dflt, globPrefix⟩ macros input = parseToks ⟨spec.getD dflt, globPrefix⟩ ts := e1
  have e2 : parse fuel ⟨spec.getD dflt, globPrefix⟩ macros input' = parseToks ⟨spec.getD dflt, globPrefix⟩ ts' := e2
  unfold convertInner
  rcases C84_syntax ⟨spec.getD dflt, globPrefix⟩ _ ts ts' hw hc ht with ⟨e, e', k, k', ha⟩ | ⟨k, k'⟩
  · rw [e1, e2, k, k']
    have hq := hq e (e1.trans k)
    exact C43_comments dflt m e e' (Blank.alike_same e ha (Blank.Forall_and e hq (Blank.commands_plain hw hc k)))
  · rw [e1, e2, k, k']

/-! ### Macros -/

/-- **C84**, macros: the expansion of macros does not look at the texts of blanks and comments: if the tokens of two texts are the same but for
those texts, then (with enough fuel) the results of the expansion are, or both end in a panic, or neither ends. -/
theorem C84_expansion (spec : CommandSpec) (Q : Kind → Text → Text → Prop) (s s' : Text) (ts ts' : List Tok)
    (h : tokensOf spec s = .ok ts) (h' : tokensOf spec s' = .ok ts') (ht : Both (AlikeTok Q) ts ts') :
    ∃ N, ∀ F, N ≤ F →
      (∃ o o', expandAll F ts = .ok o ∧ expandAll F ts' = .ok o' ∧ Both (AlikeTok Q) o o') ∨
      (expandAll F ts = .error .panic ∧ expandAll F ts' = .error .panic) ∨
      (expandAll F ts = .error .fuel ∧ expandAll F ts' = .error .fuel) := by
  have he : Blank.EngAlike Q atStart atStart := ⟨Blank.table_refl _, rfl⟩
  obtain ⟨hout, hlast⟩ := C65_outcome spec s ts h
  rcases hout with ⟨outs, hx⟩ | hx | hx
  · obtain ⟨outs', hx', ho⟩ := Blank.expands_alike hx he ht
    obtain ⟨n, hn⟩ := (C65_exact spec s ts h outs).2 hx
    obtain ⟨n', hn'⟩ := (C65_exact spec s' ts' h' outs').2 hx'
    exact ⟨n + n', fun F hF => .inl ⟨_, _, expandAll_mono hn (by omega), expandAll_mono hn' (by omega), ho⟩⟩
  · have hx' := Blank.collapses_alike hx he ht
    have stop : ∀ {u : Text} {us : List Tok}, tokensOf spec u = .ok us → Collapses atStart us → ∃ n, ∀ F, n ≤ F → expandAll F us = .error .panic := by
      intro u us hu hc
      obtain ⟨n, hn⟩ := hc.run (start_ok hu) []
      refine ⟨n, fun F hF => ?_⟩
      obtain ⟨k, rfl⟩ := Nat.exists_eq_add_of_le hF
      have := engRun_stop_mono n _ _ _ hn (fun h => (by cases h)) k
      simp only [expandAll]
      rw [show Eng.new = atStart from rfl, Nat.add_comm, this]
    obtain ⟨n, hn⟩ := stop h hx
    obtain ⟨n', hn'⟩ := stop h' hx'
    exact ⟨n + n', fun F hF => .inr (.inl ⟨hn F (by omega), hn' F (by omega)⟩)⟩
  · have hx' : ∀ n, Lasts n atStart ts' := fun n => Blank.lasts_alike (hx n) he ht
    exact ⟨0, fun F _ => .inr (.inr ⟨hlast.1 hx F, (C65_outcome spec s' ts' h').2.1 hx' F⟩)⟩

/-- **C84**, comments, with macros: if the tokens of two texts are the same but for the texts of comments, and (after the expansion of macros) no
comment stands in a part that is read as it is, then the two texts are converted to the same output, or fail with the same message. -/
theorem C84_comments_macro (dflt : CommandSpec) (m : Mode) (spec : Option CommandSpec) (macros : Bool) (input input' : Text) (ts ts' : List Tok)
    (h : tokensOf (spec.getD dflt) input = .ok ts) (h' : tokensOf (spec.getD dflt) input' = .ok ts') (ht : SameButComments ts ts') :
    ∃ N, ∀ F, N ≤ F → (∀ tree, parse F ⟨spec.getD dflt, globPrefix⟩ macros input = .ok tree → NoneQuoted tree) →
    convertInner F dflt input m spec macros = convertInner F dflt input' m spec macros := by
  cases macros with
  | false =>
    refine ⟨0, fun F _ hq => C84_comments F dflt m spec false input input' ts ts' ?_ ?_ ht hq⟩
    · unfold parserTokens; rw [h]; rfl
    · unfold parserTokens; rw [h']; rfl
  | true =>
    obtain ⟨N, hN⟩ := C84_expansion (spec.getD dflt) _ input input' ts ts' h h' ht
    refine ⟨N, fun F hF hq => ?_⟩
    have e1 : parserTokens F (spec.getD dflt) true input = expandAll F ts := by unfold parserTokens; rw [h]; rfl
    have e2 : parserTokens F (spec.getD dflt) true input' = expandAll F ts' := by unfold parserTokens; rw [h']; rfl
    rcases hN F hF with ⟨o, o', k1, k2, k3⟩ | ⟨k1, k2⟩ | ⟨k1, k2⟩
    · exact C84_comments F dflt m spec true input input' o o' (e1.trans k1) (e2.trans k2) k3 hq
    · unfold convertInner
      rw [Blank.parse_tokens, Blank.parse_tokens, show parserTokens F (PEnv.spec ⟨spec.getD dflt, globPrefix⟩) true input = .error .panic from e1.trans k1,
        show parserTokens F (PEnv.spec ⟨spec.getD dflt, globPrefix⟩) true input' = .error .panic from e2.trans k2]
    · unfold convertInner
      rw [Blank.parse_tokens, Blank.parse_tokens, show parserTokens F (PEnv.spec ⟨spec.getD dflt, globPrefix⟩) true input = .error .fuel from e1.trans k1,
        show parserTokens F (PEnv.spec ⟨spec.getD dflt, globPrefix⟩) true input' = .error .fuel from e2.trans k2]

/-! ### Texts -/

/-- `a` can be followed by a comment: its tokens are those it has alone, whatever comment follows. -/
structure BeforeComment (spec : CommandSpec) (a : Text) (ta : List Tok) : Prop where
  tokens : tokensOf spec a = .ok ta
  whole : ∀ t ∈ ta, t.1 ≠ .cmd .errorBeginEnv ∧ t.1 ≠ .cmd .errorEndEnv
  ends : ∀ t, ta.getLast? = some t → t.1 ≠ .lineComment ∧ t.2 ≠ ['\\']

/-- A comment, from after the percent sign to the end of the line; `b` is what follows. -/
structure CommentLine (c b : Text) : Prop where
  line : ∀ x ∈ c, x ≠ '\n' ∧ x ≠ '\r'
  ends : ∀ x, b.head? = some x → x = '\n' ∨ x = '\r'

/-- **C84**, tokens of a text with a comment. -/
theorem C84_tokens (spec : CommandSpec) (a c b : Text) (ta tb : List Tok) (ha : BeforeComment spec a ta) (hb : tokensOf spec b = .ok tb)
    (hc : CommentLine c b) : tokensOf spec (a ++ '%' :: c ++ b) = .ok (ta ++ (.lineComment, '%' :: c) :: tb) := by
  refine (C59_tokens ..).2 ?_
  rw [List.append_assoc]
  refine Local.tokenized_join ((C59_tokens ..).1 ha.tokens) (.cons _ _ _ b _ (.comment c b hc.line ?_) ((C59_tokens ..).1 hb)) ha.whole ?_
  · intro x hx hn
    rcases hc.ends x hx with rfl | rfl
    · exact hn.1 rfl
    · exact hn.2 rfl
  · intro t ht
    obtain ⟨h1, h2⟩ := ha.ends t ht
    obtain ⟨k, x⟩ := t
    have key : ∀ p : Char → Prop, ¬ p '%' → NoMore p ('%' :: c ++ b) := by
      intro p hp y hy
      cases hy
      exact hp
    cases k with
    | lineBreak => exact key _ (by decide)
    | whitespace => exact key _ (by decide)
    | word => exact key _ (by decide)
    | lineComment => exact absurd rfl h1
    | dollar => exact key _ (by decide)
    | cmd n => cases n <;> first | exact trivial | exact ⟨h2, key _ (by decide)⟩
    | _ => exact trivial

/-- **C84**, texts: what a comment says does not matter, whatever it is: `a % c` and `a % c'`, followed by the same `b`, are converted to the same
output, with or without macros. -/
theorem C84_text (dflt : CommandSpec) (m : Mode) (spec : Option CommandSpec) (macros : Bool) (a c c' b : Text) (ta tb : List Tok)
    (ha : BeforeComment (spec.getD dflt) a ta) (hb : tokensOf (spec.getD dflt) b = .ok tb) (hc : CommentLine c b) (hc' : CommentLine c' b) :
    ∃ N, ∀ F, N ≤ F → (∀ tree, parse F ⟨spec.getD dflt, globPrefix⟩ macros (a ++ '%' :: c ++ b) = .ok tree → NoneQuoted tree) →
    convertInner F dflt (a ++ '%' :: c ++ b) m spec macros = convertInner F dflt (a ++ '%' :: c' ++ b) m spec macros := by
  refine C84_comments_macro dflt m spec macros _ _ _ _ (C84_tokens _ a c b ta tb ha hb hc) (C84_tokens _ a c' b ta tb ha hb hc') ?_
  exact (Both.refl Blank.tok_refl ta).append (.cons ⟨rfl, .inr ⟨List.mem_cons_of_mem _ (List.mem_cons_of_mem _ (List.mem_cons_self ..)), rfl⟩⟩ (Both.refl Blank.tok_refl tb))

/-! ### A concrete case -/

namespace Blank

/-- A macro, a list, and the start of a macro argument within a formula. -/
def before : Text := t!"\\newcommand{\\half}[1]{\\frac{#1}{2}}\\begin{itemize} \\item $\\half{x"
/-- The rest of it. -/
def after : Text := t!"\n}$ \\end{itemize}"

/-- A test for trees. -/
def noneQuotedB (e : Elem) : Bool := e.descendants.all fun x => (verbatim x).all fun p => p.all fun l => decide (l.1 ≠ .tokenComment)

theorem noneQuotedB_sound {e : Elem} (h : noneQuotedB e = true) : NoneQuoted e := by
  refine Forall_of_descendants _ e fun x hx p hp l hl => ?_
  have h1 := List.all_eq_true.1 (List.all_eq_true.1 (List.all_eq_true.1 h x hx) p hp) l hl
  exact of_decide_eq_true h1

end Blank

/-- A comment in the argument of a macro, with braces and a conditional in it: the hypotheses of C84 hold, and the output does not depend on it. -/
theorem C84_example :
    (∃ ta tb tree, BeforeComment defaultSpec Blank.before ta ∧ tokensOf defaultSpec Blank.after = .ok tb ∧
      CommentLine t!" {to do" Blank.after ∧ CommentLine t!" \\fi }" Blank.after ∧
      parse 200 ⟨defaultSpec, globPrefix⟩ true (Blank.before ++ '%' :: t!" {to do" ++ Blank.after) = .ok tree ∧ NoneQuoted tree) ∧
    convertText 200 defaultSpec (Blank.before ++ '%' :: t!" {to do" ++ Blank.after) none = .ok t!" \n-  #math.equation(block: false, $frac(x \n  ,2 )$); " ∧
    convertText 200 defaultSpec (Blank.before ++ '%' :: t!" \\fi }" ++ Blank.after) none = .ok t!" \n-  #math.equation(block: false, $frac(x \n  ,2 )$); " := by
  refine ⟨?_, by decide +kernel, by decide +kernel⟩
  obtain ⟨ta, ha⟩ := ok_of (r := tokensOf defaultSpec Blank.before) (by decide +kernel)
  obtain ⟨tb, hb⟩ := ok_of (r := tokensOf defaultSpec Blank.after) (by decide +kernel)
  obtain ⟨tree, ht⟩ := ok_of (r := parse 200 ⟨defaultSpec, globPrefix⟩ true (Blank.before ++ '%' :: t!" {to do" ++ Blank.after)) (by decide +kernel)
  have h1 : (tokensOf defaultSpec Blank.before).map (fun ta => ta.all fun t => decide (t.1 ≠ .cmd .errorBeginEnv ∧ t.1 ≠ .cmd .errorEndEnv)) = .ok true := by
    decide +kernel
  have h2 : (tokensOf defaultSpec Blank.before).map (fun ta => ta.getLast?) = .ok (some (.word, ['x'])) := by decide +kernel
  have h3 : (parse 200 ⟨defaultSpec, globPrefix⟩ true (Blank.before ++ '%' :: t!" {to do" ++ Blank.after)).map Blank.noneQuotedB = .ok true := by decide +kernel
  rw [ha] at h1 h2
  rw [ht] at h3
  refine ⟨ta, tb, tree, ⟨ha, fun t hm => of_decide_eq_true (List.all_eq_true.1 (Except.ok.inj h1) t hm), fun t hl => ?_⟩, hb,
    ⟨by decide +kernel, fun x hx => ?_⟩, ⟨by decide +kernel, fun x hx => ?_⟩, ht, Blank.noneQuotedB_sound (Except.ok.inj h3)⟩
  · have h2 : ta.getLast? = some (.word, ['x']) := Except.ok.inj h2
    rw [hl] at h2
    cases h2
    exact ⟨fun h => (by cases h), fun h => (by cases h)⟩
  · cases hx; exact .inl rfl
  · cases hx; exact .inl rfl

end Mitex
