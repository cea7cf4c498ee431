/-
C92: braces that are not needed make no difference in formulas.
-/
import Verif.Spec.Braces
import Verif.Props.Formula

namespace Mitex

namespace Braces

theorem followedBy_typst (spec : CommandSpec) (n : Nat) (as : Atoms) : ∀ (a : Atom) (sp : Nat) (xs : Atoms),
    (Atoms.followedBy n as (.cons a sp xs)).typst spec = (Atoms.cons a sp xs).typst spec ++ spaces n ++ as.typst spec
  | a, sp, .nil => by simp [Atoms.followedBy, Atoms.typst, spaces, List.replicate_append_replicate]
  | a, sp, .cons b sp' xs => by
    rw [Atoms.followedBy, Atoms.typst, followedBy_typst spec n as b sp' xs, Atoms.typst.eq_2 spec a]
    simp only [List.append_assoc]

theorem followedBy_latex (n : Nat) (as : Atoms) : ∀ (a : Atom) (sp : Nat) (xs : Atoms),
    (Atoms.followedBy n as (.cons a sp xs)).latex = (Atoms.cons a sp xs).latex ++ (spaces n ++ as.latex)
  | a, sp, .nil => by simp [Atoms.followedBy, Atoms.latex, spaces, List.append_assoc]; rw [← List.append_assoc, List.replicate_append_replicate]
  | a, sp, .cons b sp' xs => by
    rw [Atoms.followedBy, Atoms.latex, followedBy_latex n as b sp' xs, Atoms.latex.eq_2 a]
    simp only [List.append_assoc]

theorem followedBy_cons (n : Nat) (as : Atoms) (a : Atom) (sp : Nat) (xs : Atoms) :
    ∃ sp' ys, Atoms.followedBy n as (.cons a sp xs) = .cons a sp' ys := by
  cases xs with
  | nil => exact ⟨_, _, rfl⟩
  | cons b sp' xs => exact ⟨_, _, rfl⟩

theorem gap_typst (n : Nat) : partsTypst .math (wordGap n) = spaces n := by
  cases n <;> simp [wordGap, partsTypst, TextPart.typst, spaces]

theorem gap_latex (n : Nat) : partsLatex (wordGap n) = spaces n := by
  cases n <;> simp [wordGap, partsLatex, TextPart.latex, spaces]

theorem after_typst (spec : CommandSpec) (ps : List TextPart) : ∀ a : Atom, a.joins = true →
    (a.after ps).typst spec = partsTypst .math ps ++ a.typst spec
  | .text qs, _ => by simp [Atom.after, Atom.typst, partsTypst]
  | .prime base, h => by
    simp [Atom.after, Atom.typst, after_typst spec ps base (by simpa [Atom.joins] using h)]
  | .script base super s, h => by
    simp [Atom.after, Atom.typst, after_typst spec ps base (by simpa [Atom.joins] using h)]
  | .postfix _ _, h | .sign _, h | .symbol _, h | .group _, h | .command _ _, h | .textCommand _ _, h | .delimited _ _ _, h | .over _ _ _, h | .environment _ _ _, h => by
    simp [Atom.joins] at h

theorem after_latex (ps : List TextPart) : ∀ a : Atom, a.joins = true → (a.after ps).latex = partsLatex ps ++ a.latex
  | .text qs, _ => by simp [Atom.after, Atom.latex, partsLatex]
  | .prime base, h => by
    simp [Atom.after, Atom.latex, after_latex ps base (by simpa [Atom.joins] using h)]
  | .script base super s, h => by
    simp [Atom.after, Atom.latex, after_latex ps base (by simpa [Atom.joins] using h)]
  | .postfix _ _, h | .sign _, h | .symbol _, h | .group _, h | .command _ _, h | .textCommand _ _, h | .delimited _ _ _, h | .over _ _ _, h | .environment _ _ _, h => by
    simp [Atom.joins] at h

/-- A formula with braces less has the same Typst text. -/
theorem drops_typst (spec : CommandSpec) {f g : Formula} (h : f.Drops g) : f.typst spec = g.typst spec ∧ f.grouped spec = g.grouped spec := by
  refine @Formula.Drops.rec
    (fun a b _ => a.typst spec = b.typst spec)
    (fun s t _ => s.typst spec = t.typst spec)
    (fun f g _ => f.typst spec = g.typst spec ∧ f.grouped spec = g.grouped spec)
    (fun as bs _ => as.typst spec = bs.typst spec ∧ as ≠ .nil ∧ bs ≠ .nil)
    (fun as bs _ => as.typst spec = bs.typst spec)
    (fun r r' _ => ∀ name, r.typst spec name = r'.typst spec name)
    ?_ ?_ ?_ ?_ ?_ ?_ ?_ ?_ ?_ ?_ ?_ ?_ ?_ ?_ ?_ ?_ ?_ ?_ ?_ ?_ ?_ ?_ ?_ ?_ ?_ ?_ ?_ ?_ ?_ ?_ ?_ ?_ f g h
  · intro a; simp [Atom.typst, Formula.grouped, Atoms.typst, spaces]
  · intro ps v w qs; simp [Atom.typst, partsTypst, TextPart.typst]
  · intro f g _ h; simp [Atom.typst, h.2]
  · intro name as bs _ h; simp [Atom.typst, h]
  · intro a b name _ h; simp [Atom.typst, h]
  · intro a b _ h; simp [Atom.typst, h]
  · intro a b super s _ h; simp [Atom.typst, h]
  · intro a super s t _ h; simp [Atom.typst, h]
  · intro l r f g _ h; simp [Atom.typst, h.1]
  · intro l l' r name _ h; simp [Atom.typst, h.1]
  · intro l r r' name _ h; simp [Atom.typst, h.1]
  · intro name as bs body _ h; simp [Atom.typst, h]
  · intro name as r r' _ h; simp [Atom.typst, h]
  · intro c; simp [Script.typst, Formula.grouped, Atom.typst, Atoms.typst, partsTypst, TextPart.typst, spaces]
  · intro name; simp [Script.typst, Formula.grouped, Atom.typst, Atoms.typst, spaces]
  · intro f g _ h; simp [Script.typst, h.2]
  · intro n as bs _ h
    refine ⟨by simp [Formula.typst, h.1], ?_⟩
    cases as with
    | nil => exact absurd rfl h.2.1
    | cons a sp as => cases bs with
      | nil => exact absurd rfl h.2.2
      | cons b sp' bs => have := h.1; simp only [Atoms.typst] at this; simp [Formula.grouped, this]
  · intro a n xs sp as
    refine ⟨?_, by simp, ?_⟩
    · rw [followedBy_typst]; simp [Atoms.typst, Atom.typst, Formula.grouped, spaces]
    · obtain ⟨sp', ys, e⟩ := followedBy_cons sp as a n xs
      rw [e]; simp
  · intro ps n a sp as ha
    refine ⟨?_, by simp, by simp⟩
    simp only [Atoms.typst]
    rw [after_typst spec _ a ha]
    have : partsTypst .math (ps ++ wordGap n) = partsTypst .math ps ++ spaces n := by
      rw [← gap_typst n]; simp [partsTypst]
    rw [this]; simp [Atom.typst, List.append_assoc]
  · intro a b sp as _ h; exact ⟨by simp [Atoms.typst, h], by simp, by simp⟩
  · intro a sp as bs _ h; exact ⟨by simp [Atoms.typst, h.1], by simp, by simp⟩
  · intro square f g as _ h; cases square <;> simp [Arguments.typst, h.1, h.2]
  · intro square f as bs _ h; simp [Arguments.typst, h]
  · intro c as; simp [Arguments.typst, Formula.grouped, Atom.typst, Atoms.typst, partsTypst, TextPart.typst, spaces]
  · intro name as; simp [Arguments.typst, Formula.grouped, Atom.typst, Atoms.typst, spaces]
  · intro n as; simp [Arguments.typst]
  · intro c as bs _ h; simp [Arguments.typst, h]
  · intro name as bs _ h; simp [Arguments.typst, h]
  · intro n as bs _ h; simp [Arguments.typst, h]
  · intro f g _ h name; simp [Cells.typst, h.1]
  · intro f g e r _ h name; simp [Cells.typst, h.1]
  · intro f e r r' _ h name; simp [Cells.typst, h name]

/-- A text without its braces and blanks. -/
def bare (s : Text) : Text := s.filter fun c => c ≠ '{' ∧ c ≠ '}' ∧ c ≠ ' '

theorem bare_append (s t : Text) : bare (s ++ t) = bare s ++ bare t := by simp [bare]

/-- A character, unless it is a brace or a blank. -/
def lone (c : Char) : Text := if c ≠ '{' ∧ c ≠ '}' ∧ c ≠ ' ' then [c] else []

theorem bare_cons (c : Char) (t : Text) : bare (c :: t) = lone c ++ bare t := by
  rw [bare, List.filter_cons, lone]
  by_cases h : c ≠ '{' ∧ c ≠ '}' ∧ c ≠ ' '
  · rw [if_pos (decide_eq_true h), if_pos h]; rfl
  · rw [if_neg (by simpa using h), if_neg h]; rfl

theorem bare_nil : bare [] = [] := rfl

theorem bare_spaces (n : Nat) : bare (spaces n) = [] := by
  induction n with
  | zero => rfl
  | succ n ih => show bare (' ' :: spaces n) = []; rw [bare_cons, ih]; decide

theorem bare_brace : lone '{' = [] ∧ lone '}' = [] := by decide

/-- And its LaTeX text differs in braces and blanks only. -/
theorem drops_latex {f g : Formula} (h : f.Drops g) : bare f.latex = bare g.latex := by
  refine @Formula.Drops.rec
    (fun a b _ => bare a.latex = bare b.latex)
    (fun s t _ => bare s.latex = bare t.latex)
    (fun f g _ => bare f.latex = bare g.latex)
    (fun as bs _ => bare as.latex = bare bs.latex)
    (fun as bs _ => bare as.latex = bare bs.latex)
    (fun r r' _ => bare r.latex = bare r'.latex)
    ?_ ?_ ?_ ?_ ?_ ?_ ?_ ?_ ?_ ?_ ?_ ?_ ?_ ?_ ?_ ?_ ?_ ?_ ?_ ?_ ?_ ?_ ?_ ?_ ?_ ?_ ?_ ?_ ?_ ?_ ?_ ?_ f g h
  · intro a
    simp only [Atom.latex, Formula.latex, Atoms.latex, spaces, List.replicate_zero, List.nil_append, List.append_nil, bare_cons, bare_append, bare_brace, bare_nil]
  · intro ps v w qs; simp [Atom.latex, partsLatex, TextPart.latex]
  · intro f g _ h; simp only [Atom.latex, bare_cons, bare_append, h]
  · intro name as bs _ h; simp only [Atom.latex, bare_cons, bare_append, h]
  · intro a b name _ h; simp only [Atom.latex, bare_append, h]
  · intro a b _ h; simp only [Atom.latex, bare_append, h]
  · intro a b super s _ h; simp only [Atom.latex, bare_append, h]
  · intro a super s t _ h; simp only [Atom.latex, bare_append, bare_cons, h]
  · intro l r f g _ h; simp only [Atom.latex, bare_append, h]
  · intro l l' r name _ h; simp only [Atom.latex, bare_append, bare_cons, h]
  · intro l r r' name _ h; simp only [Atom.latex, bare_append, bare_cons, h]
  · intro name as bs body _ h; simp only [Atom.latex, bare_append, bare_cons, h]
  · intro name as r r' _ h; simp only [Atom.latex, bare_append, bare_cons, h]
  · intro c
    simp only [Script.latex, Formula.latex, Atoms.latex, Atom.latex, partsLatex, TextPart.latex, List.flatMap_cons, List.flatMap_nil, spaces,
      List.replicate_zero, List.nil_append, List.append_nil, bare_cons, bare_append, bare_brace, bare_nil]
  · intro name
    simp only [Script.latex, Formula.latex, Atoms.latex, Atom.latex, spaces,
      List.replicate_zero, List.nil_append, List.append_nil, bare_cons, bare_append, bare_brace, bare_nil]
  · intro f g _ h; simp only [Script.latex, bare_cons, bare_append, h]
  · intro n as bs _ h; simp only [Formula.latex, bare_append, h]
  · intro a n xs sp as
    rw [followedBy_latex, Atoms.latex, Atom.latex, Formula.latex]
    simp only [spaces, List.replicate_zero, List.nil_append, List.append_nil, List.append_assoc, bare_cons, bare_append, bare_brace, bare_nil]
  · intro ps n a sp as ha
    have : partsLatex (ps ++ wordGap n) = partsLatex ps ++ spaces n := by
      rw [← gap_latex n]; simp [partsLatex]
    simp only [Atoms.latex, after_latex _ a ha, this, Atom.latex, List.append_assoc]
  · intro a b sp as _ h; simp only [Atoms.latex, bare_append, h]
  · intro a sp as bs _ h; simp only [Atoms.latex, bare_append, h]
  · intro square f g as _ h; simp only [Arguments.latex, bare_cons, bare_append, h]
  · intro square f as bs _ h; simp only [Arguments.latex, bare_cons, bare_append, h]
  · intro c as
    simp only [Arguments.latex, Formula.latex, Atoms.latex, Atom.latex, partsLatex, TextPart.latex, List.flatMap_cons, List.flatMap_nil, spaces,
      List.replicate_zero, List.nil_append, List.append_nil, bare_cons, bare_append, bare_brace, bare_nil, Bool.false_eq_true, if_false]
  · intro name as
    simp only [Arguments.latex, Formula.latex, Atoms.latex, Atom.latex, spaces, List.replicate_zero, List.nil_append, List.append_nil, List.append_assoc,
      List.cons_append, bare_cons, bare_append, bare_brace, bare_nil, Bool.false_eq_true, if_false]
  · intro n as; simp only [Arguments.latex, bare_append, bare_spaces, List.nil_append]
  · intro c as bs _ h; simp only [Arguments.latex, bare_cons, h]
  · intro name as bs _ h; simp only [Arguments.latex, bare_cons, bare_append, h]
  · intro n as bs _ h; simp only [Arguments.latex, bare_append, h]
  · intro f g _ h; simpa only [Cells.latex] using h
  · intro f g e r _ h; simp only [Cells.latex, bare_append, h]
  · intro f e r r' _ h; simp only [Cells.latex, bare_append, h]

/-- A formula of one part. -/
def one (a : Atom) : Formula := .mk 0 (.cons a 0 .nil)

theorem same_typst (spec : CommandSpec) {f g : Formula} (h : f.SameButBraces g) : f.typst spec = g.typst spec := by
  induction h with
  | refl => rfl
  | drop _ hd ih => exact ih.trans (drops_typst spec hd).1
  | add _ hd ih => exact ih.trans (drops_typst spec hd).1.symm

end Braces

/-- **C92.** Two formulas that differ in unneeded braces only are converted alike, however many braces there are and however deep they
stand. -/
theorem C92_braces (dflt : CommandSpec) (spec : Option CommandSpec) {f g : Formula} (h : f.SameButBraces g)
    (hf : f.Ok dflt ∧ f.Ok (spec.getD dflt)) (hg : g.Ok dflt ∧ g.Ok (spec.getD dflt)) :
    ∃ s, (∃ fuel, convertMath fuel dflt f.latex spec = .ok s) ∧ ∃ fuel, convertMath fuel dflt g.latex spec = .ok s :=
  ⟨f.typst dflt, C67_formula dflt f spec hf.1 hf.2, by rw [Braces.same_typst dflt h]; exact C67_formula dflt g spec hg.1 hg.2⟩

/-- **C92.** The same without macros. -/
theorem C92_no_macro (fuel : Nat) (dflt : CommandSpec) (spec : Option CommandSpec) {f g : Formula} (h : f.SameButBraces g)
    (hf : f.Ok dflt ∧ f.Ok (spec.getD dflt)) (hg : g.Ok dflt ∧ g.Ok (spec.getD dflt)) :
    convertMathNoMacro fuel dflt f.latex spec = convertMathNoMacro fuel dflt g.latex spec := by
  rw [C67_formula_no_macro fuel dflt f spec hf.1 hf.2, C67_formula_no_macro fuel dflt g spec hg.1 hg.2, Braces.same_typst dflt h]

/-- **C92.** Such formulas are the same text but for braces and blanks: this is what `SameButBraces` means. -/
theorem C92_only_braces {f g : Formula} (h : f.SameButBraces g) :
    (f.latex.filter fun c => c ≠ '{' ∧ c ≠ '}' ∧ c ≠ ' ') = g.latex.filter fun c => c ≠ '{' ∧ c ≠ '}' ∧ c ≠ ' ' := by
  have : Braces.bare f.latex = Braces.bare g.latex := by
    induction h with
    | refl => rfl
    | drop _ hd ih => exact ih.trans (Braces.drops_latex hd)
    | add _ hd ih => exact ih.trans (Braces.drops_latex hd).symm
  exact this

/-- **C92.** `\frac{a}{b}`, `\frac ab` and `\frac a b`: a command with two arguments, each of one character, may be written in all of these ways. -/
theorem C92_two_characters (fuel : Nat) (dflt : CommandSpec) (name : Text) (a b : Char) (n m : Nat)
    (h1 : (Braces.one (.command name (.cons false (Braces.one (lettersOf [a])) (.cons false (Braces.one (lettersOf [b])) .nil)))).Ok dflt)
    (h2 : (Braces.one (.command name (.spaced n (.bare a (.spaced m (.bare b .nil)))))).Ok dflt) :
    convertMathNoMacro fuel dflt ('\\' :: (name ++ '{' :: a :: '}' :: '{' :: [b, '}'])) none =
      convertMathNoMacro fuel dflt ('\\' :: (name ++ (spaces n ++ a :: (spaces m ++ [b])))) none := by
  have h0 := Formula.SameButBraces.refl (Braces.one (.command name (.spaced n (.bare a (.spaced m (.bare b .nil))))))
  have h3 := h0.drop (.mk (.first (.command (.blanks n _))))
  have h4 := h3.drop (.mk (.first (.command (.afterChar (.blanks m _)))))
  have h5 := h4.add (.mk (.first (.command (.afterChar (.char b .nil)))))
  have h6 := h5.add (.mk (.first (.command (.char a _))))
  have := C92_no_macro fuel dflt none h6 ⟨h2, h2⟩ ⟨h1, h1⟩
  simpa [Braces.one, Formula.latex, Atoms.latex, Atom.latex, Arguments.latex, lettersOf, partsLatex, TextPart.latex, spaces] using this.symm

example (fuel : Nat) : convertMathNoMacro fuel defaultSpec t!"\\frac{1}{2}" none = convertMathNoMacro fuel defaultSpec t!"\\frac 1 2" none :=
  C92_two_characters fuel defaultSpec t!"frac" '1' '2' 1 1 (Check.formula_ok (by decide +kernel)) (Check.formula_ok (by decide +kernel))

example (fuel : Nat) : convertMathNoMacro fuel defaultSpec t!"\\frac{1}{2}" none = convertMathNoMacro fuel defaultSpec t!"\\frac12" none :=
  C92_two_characters fuel defaultSpec t!"frac" '1' '2' 0 0 (Check.formula_ok (by decide +kernel)) (Check.formula_ok (by decide +kernel))

/-! ## An example: `{x}^{2}+\frac{{a}b}{c}_{\alpha}` and `x^2+\frac{ab}{c}_\alpha` -/

namespace Braces

/-- `{x}^{2}+\frac{{a}b}{c}_{\alpha}` -/
def braced : Formula := .mk 0 (.cons (.script (.group (one (lettersOf t!"x"))) true (.braces (one (lettersOf t!"2")))) 0
  (.cons (lettersOf t!"+") 0 (.cons (.script (.command t!"frac"
    (.cons false (.mk 0 (.cons (.group (one (lettersOf t!"a"))) 0 (.cons (lettersOf t!"b") 0 .nil)))
      (.cons false (one (lettersOf t!"c")) .nil))) false (.braces (one (.symbol t!"alpha")))) 0 .nil)))

/-- `x^2+\frac{ab}{c}_\alpha` -/
def plain : Formula := .mk 0 (.cons (.script (lettersOf t!"x") true (.char '2')) 0
  (.cons (lettersOf t!"+") 0 (.cons (.script (.command t!"frac"
    (.cons false (one (lettersOf t!"ab")) (.cons false (one (lettersOf t!"c")) .nil))) false (.symbol t!"alpha")) 0 .nil)))

theorem braced_plain : braced.SameButBraces plain := by
  have h0 := Formula.SameButBraces.refl braced
  have h1 := h0.drop (.mk (.first (.base (.braces _))))
  have h2 := h1.drop (.mk (.first (.script (.char _))))
  have h3 := h2.drop (.mk (.later (.later (.first (.script (.symbol _))))))
  have h4 := h3.drop (.mk (.later (.later (.first (.base (.command (.first (.mk (.braces (lettersOf t!"a") 0 .nil 0 (.cons (lettersOf t!"b") 0 .nil))))))))))
  have h5 := h4.drop (.mk (.later (.later (.first (.base (.command (.first (.mk (.text [.word t!"a"] 0 (lettersOf t!"b") 0 .nil rfl)))))))))
  have h6 := h5.drop (.mk (.later (.later (.first (.base (.command (.first (.mk (.first (.word [] t!"a" t!"b" []))))))))))
  exact h6

example : braced.latex = t!"{x}^{2}+\\frac{{a}b}{c}_{\\alpha}" := by decide +kernel
example : plain.latex = t!"x^2+\\frac{ab}{c}_\\alpha" := by decide +kernel
example : plain.typst defaultSpec = t!"x ^(2 )+ frac(a b ,c )_(alpha )" := by decide +kernel

theorem braced_ok : braced.Ok defaultSpec := Check.formula_ok (by decide +kernel)
theorem plain_ok : plain.Ok defaultSpec := Check.formula_ok (by decide +kernel)

end Braces

/-- **C92.** Concretely: both become `x ^(2 )+ frac(a b ,c )_(alpha )`. -/
theorem C92_example (fuel : Nat) :
    convertMathNoMacro fuel defaultSpec t!"{x}^{2}+\\frac{{a}b}{c}_{\\alpha}" none =
      convertMathNoMacro fuel defaultSpec t!"x^2+\\frac{ab}{c}_\\alpha" none := by
  have h := C92_no_macro fuel defaultSpec none Braces.braced_plain ⟨Braces.braced_ok, Braces.braced_ok⟩ ⟨Braces.plain_ok, Braces.plain_ok⟩
  rwa [show Braces.braced.latex = t!"{x}^{2}+\\frac{{a}b}{c}_{\\alpha}" by decide +kernel,
    show Braces.plain.latex = t!"x^2+\\frac{ab}{c}_\\alpha" by decide +kernel] at h

/-- **C92.** Braces that are needed: those around an empty formula (which leave a placeholder), and, before `\limits`, those which say where
its argument starts. -/
theorem C92_needed (fuel : Nat) :
    convertMathNoMacro fuel defaultSpec t!"{}" none = .ok t!"zws " ∧ convertMathNoMacro fuel defaultSpec [] none = .ok [] ∧
    convertMathNoMacro fuel defaultSpec t!"a{b}\\limits" none = .ok t!"a limits(b )" ∧
    convertMathNoMacro fuel defaultSpec t!"ab\\limits" none = .ok t!"limits(a b )" := by
  have run : ∀ (f : Formula) (l t : Text), f.latex = l → f.typst defaultSpec = t → f.Ok defaultSpec →
      convertMathNoMacro fuel defaultSpec l none = .ok t := fun f l t hl ht h => by
    rw [← hl, ← ht]; exact C67_formula_no_macro fuel defaultSpec f none h h
  exact ⟨run (Braces.one (.group (.mk 0 .nil))) _ _ (by decide +kernel) (by decide +kernel) (Check.formula_ok (by decide +kernel)),
    run (.mk 0 .nil) _ _ (by decide +kernel) (by decide +kernel) (Check.formula_ok (by decide +kernel)),
    run (.mk 0 (.cons (lettersOf t!"a") 0 (.cons (.postfix (.group (Braces.one (lettersOf t!"b"))) t!"limits") 0 .nil))) _ _
      (by decide +kernel) (by decide +kernel) (Check.formula_ok (by decide +kernel)),
    run (Braces.one (.postfix (lettersOf t!"ab") t!"limits")) _ _ (by decide +kernel) (by decide +kernel) (Check.formula_ok (by decide +kernel))⟩

/-- **C92.** And some are dropped that would be needed in Typst: there the exponent of `a b ^(2 )` belongs to `b` alone (defect 41). -/
theorem C92_base_lost (fuel : Nat) :
    convertMathNoMacro fuel defaultSpec t!"{ab}^2" none = .ok t!"a b ^(2 )" ∧
    convertMathNoMacro fuel defaultSpec t!"{x^a}^b" none = .ok t!"x ^(a )^(b )" := by
  have run : ∀ (f : Formula) (l t : Text), f.latex = l → f.typst defaultSpec = t → f.Ok defaultSpec →
      convertMathNoMacro fuel defaultSpec l none = .ok t := fun f l t hl ht h => by
    rw [← hl, ← ht]; exact C67_formula_no_macro fuel defaultSpec f none h h
  exact ⟨run (Braces.one (.script (.group (Braces.one (lettersOf t!"ab"))) true (.char '2'))) _ _
      (by decide +kernel) (by decide +kernel) (Check.formula_ok (by decide +kernel)),
    run (Braces.one (.script (.group (Braces.one (.script (lettersOf t!"x") true (.char 'a')))) true (.char 'b'))) _ _
      (by decide +kernel) (by decide +kernel) (Check.formula_ok (by decide +kernel))⟩

end Mitex
