/-
C85: only the white space of the output depends on the white space of the source.
-/
import Verif.Proof.RespacedAll
import Verif.Props.Blank
import Verif.Props.Template
import Verif.Proof.AgreeLex

namespace Mitex
namespace Respace

theorem parts_same {as bs : List (List (Kind × Text))} (h : Both (Both (Blank.LeafAlike SpaceOrComment)) as bs)
    (hn : ∀ p ∈ as, ∀ l ∈ p, l.1 ∉ blankLeaves) : as = bs := by
  have leaf : ∀ {as bs : List (Kind × Text)}, Both (Blank.LeafAlike SpaceOrComment) as bs → (∀ l ∈ as, l.1 ∉ blankLeaves) → as = bs := by
    intro as bs h hn
    induction h with
    | nil => rfl
    | @cons a b _ _ h hs ih =>
      rw [ih fun l hl => hn l (List.mem_cons_of_mem _ hl)]
      rcases h.2 with h2 | ⟨h2, _⟩
      · rw [show a = b from Prod.ext h.1 h2]
      · exact absurd h2 (hn _ (List.mem_cons_self ..))
  induction h with
  | nil => rfl
  | cons h hs ih => rw [leaf h (hn _ (List.mem_cons_self ..)), ih fun p hp => hn p (List.mem_cons_of_mem _ hp)]

/-- Trees of alike tokens. -/
theorem outcome {dflt : CommandSpec} {m : Mode} {fuel : Nat} {spec : Option CommandSpec} {macros : Bool} {input input' : Text} {tree tree' : Elem}
    (hp : parse fuel ⟨spec.getD dflt, globPrefix⟩ macros input = .ok tree) (hp' : parse fuel ⟨spec.getD dflt, globPrefix⟩ macros input' = .ok tree')
    (h : Kept tree tree') : SameOutcome (convertInner fuel dflt input m spec macros) (convertInner fuel dflt input' m spec macros) := by
  cases hr : convertInner fuel dflt input m spec macros with
  | ok out =>
    obtain ⟨m', h1⟩ := (C61_document fuel dflt input m spec macros tree hp out).1 hr
    obtain ⟨out', h2, h3⟩ := printed_both h1 h
    rw [(C61_document fuel dflt input' m spec macros tree' hp' out').2 ⟨m', h2⟩]
    exact .ok h3
  | error f =>
    have h1 := (C61_document_fails fuel dflt input m spec macros tree hp f).1 hr
    rw [(C61_document_fails fuel dflt input' m spec macros tree' hp' f).2 (failed_both h1 h)]
    exact .error f

end Respace

/-- **C85**, no quoted blanks: if no blank stands within a part that is read as it is, then those parts do not depend on the blanks. -/
theorem C85_unquoted (tree tree' : Elem) (h : Alike SpaceOrComment tree tree') (hq : NoSpaceQuoted tree) : SameVerbatim tree tree' := by
  have key : ∀ e : Elem, ∀ ⦃e'⦄, Alike SpaceOrComment e e' → NoSpaceQuoted e → e.descendants.map verbatim = e'.descendants.map verbatim := by
    intro e
    induction e using Elem.ind with
    | ht k t =>
      intro e' h hq
      have h1 : verbatim (.token k t) = verbatim e' := Respace.parts_same (Blank.alike_verbatim h) (Forall_self hq)
      cases h with
      | @token _ _ t' _ => exact congrArg (fun x => [x]) h1
    | hn k cs ih =>
      intro e' h hq
      obtain ⟨h0, h2⟩ := (Forall_node _ k cs).1 hq
      have h1 : verbatim (.node k cs) = verbatim e' := Respace.parts_same (Blank.alike_verbatim h) h0
      cases h with
      | @node _ _ cs' h =>
        show verbatim (.node k cs) :: (Elem.descendants.go cs).map verbatim = verbatim (.node k cs') :: (Elem.descendants.go cs').map verbatim
        rw [h1]
        congr 1
        clear h0 h1 hq
        induction h with
        | nil => rfl
        | @cons a b as bs h hs ihs =>
          show (a.descendants ++ Elem.descendants.go as).map verbatim = (b.descendants ++ Elem.descendants.go bs).map verbatim
          rw [List.map_append, List.map_append, ih a (List.mem_cons_self ..) h (h2 a (List.mem_cons_self ..)),
            ihs (fun c hc => ih c (List.mem_cons_of_mem _ hc)) fun c hc => h2 c (List.mem_cons_of_mem _ hc)]
  exact key tree h hq

/-- **C85**: if the tokens of two texts (after the expansion of macros) are the same but for the texts of blanks, ends of lines and comments, and the
parts that are read as they are, are the same in both, then the outputs are the same but for stretches of white space; and if one text is refused
or makes the converter crash, so does the other, with the same message. -/
theorem C85_spacing (fuel : Nat) (dflt : CommandSpec) (m : Mode) (spec : Option CommandSpec) (macros : Bool) (input input' : Text) (ts ts' : List Tok)
    (h : parserTokens fuel (spec.getD dflt) macros input = .ok ts) (h' : parserTokens fuel (spec.getD dflt) macros input' = .ok ts')
    (ht : SameButSpace ts ts')
    (hq : ∀ tree tree', parse fuel ⟨spec.getD dflt, globPrefix⟩ macros input = .ok tree →
      parse fuel ⟨spec.getD dflt, globPrefix⟩ macros input' = .ok tree' → Alike SpaceOrComment tree tree' → SameVerbatim tree tree') :
    SameOutcome (convertInner fuel dflt input m spec macros) (convertInner fuel dflt input' m spec macros) := by
  obtain ⟨_, hw, hc⟩ := Shown.delivered_fine h
  have e1 := Blank.parse_tokens fuel ⟨spec.getD dflt, globPrefix⟩ macros input
  have e2 := Blank.parse_tokens fuel ⟨spec.getD dflt, globPrefix⟩ macros input'
  rw [show parserTokens fuel (PEnv.spec ⟨spec.getD dflt, globPrefix⟩) macros input = .ok ts from h] at e1
  rw [show parserTokens fuel (PEnv.spec ⟨spec.getD dflt, globPrefix⟩) macros input' = .ok ts' from h'] at e2
  have e1 : parse fuel ⟨spec.getD dflt, globPrefix⟩ macros input = parseToks ⟨spec.getD dflt, globPrefix⟩ ts := e1
  have e2 : parse fuel ⟨spec.getD dflt, globPrefix⟩ macros input' = parseToks ⟨spec.getD dflt, globPrefix⟩ ts' := e2
  rcases C84_syntax ⟨spec.getD dflt, globPrefix⟩ _ ts ts' hw hc ht with ⟨e, e', k, k', ha⟩ | ⟨k, k'⟩
  · exact Respace.outcome (e1.trans k) (e2.trans k') (Respace.kept_of e ha (hq e e' (e1.trans k) (e2.trans k') ha))
  · unfold convertInner
    rw [e1, e2, k, k']
    exact .error _

/-- **C85**, words: then the outputs are equal if white space is left out of them. -/
theorem C85_words (t t' : Text) (h : Respaced t t') : t.filter (fun c => !isWs c) = t'.filter (fun c => !isWs c) := by
  have gone : ∀ w, Space w → w.filter (fun c => !isWs c) = [] := fun w hw => List.filter_eq_nil_iff.2 fun c hc => by rw [hw.2 c hc]; decide
  induction h with
  | nil => rfl
  | char c _ ih => rw [List.filter_cons, List.filter_cons, ih]
  | space hw hw' _ ih => rw [List.filter_append, List.filter_append, gone _ hw, gone _ hw', ih]

namespace Respace

theorem starts {t t' : Text} (h : Respaced t t') : t.head?.any isWs = t'.head?.any isWs := by
  have first : ∀ w s, Space w → (w ++ s).head?.any isWs = true := by
    intro w s hw
    cases w with
    | nil => exact absurd rfl hw.1
    | cons c w => exact hw.2 c (List.mem_cons_self ..)
  cases h with
  | nil => rfl
  | char c h => rfl
  | space hw hw' h => rw [first _ _ hw, first _ _ hw']

theorem squeezed_space (w s : Text) (hw : Space w) : squeezed (w ++ s) = if s.head?.any isWs then squeezed s else ' ' :: squeezed s := by
  obtain ⟨h1, h2⟩ := hw
  induction w with
  | nil => exact absurd rfl h1
  | cons c w ih =>
    rw [List.cons_append, squeezed, if_pos (h2 c (List.mem_cons_self ..))]
    cases w with
    | nil => rfl
    | cons d w =>
      rw [if_pos (show ((d :: w) ++ s).head?.any isWs = true from h2 d (List.mem_cons_of_mem _ (List.mem_cons_self ..)))]
      exact ih (List.cons_ne_nil _ _) fun c hc => h2 c (List.mem_cons_of_mem _ hc)

theorem nameChar_ws (c : Char) (h : NameChar c) (hw : isWs c = true) : False := by
  have := Agree.nameChar_facts h
  rw [this.2] at hw
  cases hw

end Respace

/-- **C85**, gaps: then the outputs are equal if every stretch of white space is written as one space: words are neither joined nor split. -/
theorem C85_gaps (t t' : Text) (h : Respaced t t') : squeezed t = squeezed t' := by
  induction h with
  | nil => rfl
  | char c h ih => rw [squeezed, squeezed, ih, Respace.starts h]
  | space hw hw' h ih => rw [Respace.squeezed_space _ _ hw, Respace.squeezed_space _ _ hw', ih, Respace.starts h]

/-- **C85**, with macros: the tokens compared are those of the two texts, before macros are expanded. -/
theorem C85_spacing_macro (dflt : CommandSpec) (m : Mode) (spec : Option CommandSpec) (macros : Bool) (input input' : Text) (ts ts' : List Tok)
    (h : tokensOf (spec.getD dflt) input = .ok ts) (h' : tokensOf (spec.getD dflt) input' = .ok ts') (ht : SameButSpace ts ts') :
    ∃ N, ∀ F, N ≤ F →
      (∀ tree tree', parse F ⟨spec.getD dflt, globPrefix⟩ macros input = .ok tree →
        parse F ⟨spec.getD dflt, globPrefix⟩ macros input' = .ok tree' → Alike SpaceOrComment tree tree' → SameVerbatim tree tree') →
      SameOutcome (convertInner F dflt input m spec macros) (convertInner F dflt input' m spec macros) := by
  cases macros with
  | false =>
    refine ⟨0, fun F _ hq => C85_spacing F dflt m spec false input input' ts ts' ?_ ?_ ht hq⟩
    · unfold parserTokens; rw [h]; rfl
    · unfold parserTokens; rw [h']; rfl
  | true =>
    obtain ⟨N, hN⟩ := C84_expansion (spec.getD dflt) _ input input' ts ts' h h' ht
    refine ⟨N, fun F hF hq => ?_⟩
    have e1 : parserTokens F (spec.getD dflt) true input = expandAll F ts := by unfold parserTokens; rw [h]; rfl
    have e2 : parserTokens F (spec.getD dflt) true input' = expandAll F ts' := by unfold parserTokens; rw [h']; rfl
    rcases hN F hF with ⟨o, o', k1, k2, k3⟩ | ⟨k1, k2⟩ | ⟨k1, k2⟩
    · exact C85_spacing F dflt m spec true input input' o o' (e1.trans k1) (e2.trans k2) k3 hq
    · unfold convertInner
      rw [Blank.parse_tokens, Blank.parse_tokens, show parserTokens F (PEnv.spec ⟨spec.getD dflt, globPrefix⟩) true input = .error .panic from e1.trans k1,
        show parserTokens F (PEnv.spec ⟨spec.getD dflt, globPrefix⟩) true input' = .error .panic from e2.trans k2]
      exact .error _
    · unfold convertInner
      rw [Blank.parse_tokens, Blank.parse_tokens, show parserTokens F (PEnv.spec ⟨spec.getD dflt, globPrefix⟩) true input = .error .fuel from e1.trans k1,
        show parserTokens F (PEnv.spec ⟨spec.getD dflt, globPrefix⟩) true input' = .error .fuel from e2.trans k2]
      exact .error _

/-! ### Texts -/

/-- `a` can be followed by a blank: it does not end with a blank, within a comment, or with a lone backslash. -/
structure BeforeBlank (spec : CommandSpec) (a : Text) (ta : List Tok) : Prop where
  tokens : tokensOf spec a = .ok ta
  whole : ∀ t ∈ ta, t.1 ≠ .cmd .errorBeginEnv ∧ t.1 ≠ .cmd .errorEndEnv
  ends : ∀ t, ta.getLast? = some t → t.1 ≠ .lineComment ∧ t.1 ≠ .whitespace ∧ t.2 ≠ ['\\']

/-- A blank within a line, and what follows it. -/
structure BlankThen (w b : Text) : Prop where
  some : w ≠ []
  blank : ∀ c ∈ w, isWs c = true ∧ c ≠ '\n' ∧ c ≠ '\r'
  ends : ∀ c, b.head? = Option.some c → ¬ (isWs c = true ∧ c ≠ '\n' ∧ c ≠ '\r')

/-- **C85**, tokens of a text with a blank. -/
theorem C85_tokens (spec : CommandSpec) (a w b : Text) (ta tb : List Tok) (ha : BeforeBlank spec a ta) (hb : tokensOf spec b = .ok tb)
    (hw : BlankThen w b) : tokensOf spec (a ++ (w ++ b)) = .ok (ta ++ (.whitespace, w) :: tb) := by
  refine (C59_tokens ..).2 ?_
  refine Local.tokenized_join ((C59_tokens ..).1 ha.tokens) (.cons _ _ _ b _ (.whitespace w b hw.some hw.blank hw.ends) ((C59_tokens ..).1 hb)) ha.whole ?_
  intro t ht
  obtain ⟨h1, h2, h3⟩ := ha.ends t ht
  obtain ⟨k, x⟩ := t
  have key : ∀ p : Char → Prop, (∀ c, isWs c = true → c ≠ '\n' → c ≠ '\r' → ¬ p c) → NoMore p (w ++ b) := by
    intro p hp y hy
    cases hc : w with
    | nil => exact absurd hc hw.some
    | cons c v =>
      rw [hc] at hy
      have hy : some c = some y := hy
      obtain ⟨q1, q2, q3⟩ := hw.blank y (by rw [hc, Option.some.inj hy]; exact List.mem_cons_self)
      exact hp y q1 q2 q3
  have name : NoMore (fun c => NameChar c ∨ c = '*') (w ++ b) := by
    refine key _ fun c h1 _ _ h => ?_
    rcases h with h | rfl
    · exact Respace.nameChar_ws c h h1
    · revert h1; decide
  cases k with
  | lineBreak => exact key _ fun c _ h1 h2 h => h.elim h1 h2
  | whitespace => exact absurd rfl h2
  | word => exact key _ fun c h1 _ _ h => by rw [h.1] at h1; cases h1
  | lineComment => exact absurd rfl h1
  | dollar => exact key _ fun c h1 _ _ h => by subst h; revert h1; decide
  | cmd n => cases n <;> first | exact trivial | exact ⟨h3, name⟩
  | _ => exact trivial

/-- **C85**, texts: how long a blank is, and what it is made of, matters only for the white space of the output. -/
theorem C85_text (dflt : CommandSpec) (m : Mode) (spec : Option CommandSpec) (macros : Bool) (a w w' b : Text) (ta tb : List Tok)
    (ha : BeforeBlank (spec.getD dflt) a ta) (hb : tokensOf (spec.getD dflt) b = .ok tb) (hw : BlankThen w b) (hw' : BlankThen w' b) :
    ∃ N, ∀ F, N ≤ F →
      (∀ tree tree', parse F ⟨spec.getD dflt, globPrefix⟩ macros (a ++ (w ++ b)) = .ok tree →
        parse F ⟨spec.getD dflt, globPrefix⟩ macros (a ++ (w' ++ b)) = .ok tree' → Alike SpaceOrComment tree tree' → SameVerbatim tree tree') →
      SameOutcome (convertInner F dflt (a ++ (w ++ b)) m spec macros) (convertInner F dflt (a ++ (w' ++ b)) m spec macros) := by
  refine C85_spacing_macro dflt m spec macros _ _ _ _ (C85_tokens _ a w b ta tb ha hb hw) (C85_tokens _ a w' b ta tb ha hb hw') ?_
  refine (Both.refl Blank.tok_refl ta).append (.cons ⟨rfl, .inr ⟨?_, .inr ⟨⟨hw.some, fun c hc => (hw.blank c hc).1⟩, hw'.some, fun c hc => (hw'.blank c hc).1⟩⟩⟩
    (Both.refl Blank.tok_refl tb))
  exact List.mem_cons_self

/-! ### A concrete case -/

namespace Respace

/-- The rest of the formula that starts in `Blank.before`. -/
def after : Text := t!"y}$ \\end{itemize}"

end Respace

/-- A blank in the argument of a macro, in a formula, in a list: the hypotheses of C85 hold, and one blank, or several with a tabulator, give the same
output but for that blank. -/
theorem C85_example :
    (∃ ta tb, BeforeBlank defaultSpec Blank.before ta ∧ tokensOf defaultSpec Respace.after = .ok tb ∧
      BlankThen t!" " Respace.after ∧ BlankThen t!" \t  " Respace.after) ∧
    (∃ tree tree', parse 200 ⟨defaultSpec, globPrefix⟩ true (Blank.before ++ (t!" " ++ Respace.after)) = .ok tree ∧
      parse 200 ⟨defaultSpec, globPrefix⟩ true (Blank.before ++ (t!" \t  " ++ Respace.after)) = .ok tree' ∧ SameVerbatim tree tree') ∧
    convertText 200 defaultSpec (Blank.before ++ (t!" " ++ Respace.after)) none = .ok t!" \n-  #math.equation(block: false, $frac(x  y ,2 )$); " ∧
    convertText 200 defaultSpec (Blank.before ++ (t!" \t  " ++ Respace.after)) none =
      .ok t!" \n-  #math.equation(block: false, $frac(x  \t  y ,2 )$); " := by
  refine ⟨?_, ?_, by decide +kernel, by decide +kernel⟩
  · obtain ⟨ta, ha⟩ := ok_of (r := tokensOf defaultSpec Blank.before) (by decide +kernel)
    obtain ⟨tb, hb⟩ := ok_of (r := tokensOf defaultSpec Respace.after) (by decide +kernel)
    have h1 : (tokensOf defaultSpec Blank.before).map (fun ta => ta.all fun t => decide (t.1 ≠ .cmd .errorBeginEnv ∧ t.1 ≠ .cmd .errorEndEnv)) = .ok true := by
      decide +kernel
    have h2 : (tokensOf defaultSpec Blank.before).map (fun ta => ta.getLast?) = .ok (some (.word, ['x'])) := by decide +kernel
    rw [ha] at h1 h2
    refine ⟨ta, tb, ⟨ha, fun t hm => of_decide_eq_true (List.all_eq_true.1 (Except.ok.inj h1) t hm), fun t hl => ?_⟩, hb,
      ⟨by decide, by decide, fun x hx => ?_⟩, ⟨by decide, by decide, fun x hx => ?_⟩⟩
    · have h2 : ta.getLast? = some (.word, ['x']) := Except.ok.inj h2
      rw [hl] at h2
      cases h2
      exact ⟨fun h => (by cases h), fun h => (by cases h), fun h => (by cases h)⟩
    · cases hx; decide
    · cases hx; decide
  · obtain ⟨tree, ht⟩ := ok_of (r := parse 200 ⟨defaultSpec, globPrefix⟩ true (Blank.before ++ (t!" " ++ Respace.after))) (by decide +kernel)
    obtain ⟨tree', ht'⟩ := ok_of (r := parse 200 ⟨defaultSpec, globPrefix⟩ true (Blank.before ++ (t!" \t  " ++ Respace.after))) (by decide +kernel)
    have h1 : (parse 200 ⟨defaultSpec, globPrefix⟩ true (Blank.before ++ (t!" " ++ Respace.after))).bind (fun e =>
        (parse 200 ⟨defaultSpec, globPrefix⟩ true (Blank.before ++ (t!" \t  " ++ Respace.after))).map fun e' =>
          decide (e.descendants.map verbatim = e'.descendants.map verbatim)) = .ok true := by decide +kernel
    rw [ht, ht'] at h1
    have h1 : decide (tree.descendants.map verbatim = tree'.descendants.map verbatim) = true := Except.ok.inj h1
    have h2 : tree.descendants.map verbatim = tree'.descendants.map verbatim := of_decide_eq_true h1
    exact ⟨tree, tree', ht, ht', h2⟩

end Mitex
