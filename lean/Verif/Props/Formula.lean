/-
C67: formulas, nested without bound, become what is written for them.
-/
import Verif.Proof.FormulaMacro
import Verif.Proof.FormulaParse
import Verif.Proof.FormulaPrint
import Verif.Proof.FormulaCheck
import Verif.Props.EndToEnd
import Verif.Model.StandardSpec

namespace Mitex

/-- A formula denotes the tree of its parts. -/
theorem Formula.denotes {spec : CommandSpec} {f : Formula} (h : f.Ok spec) (macros : Bool) :
    Denotes spec macros f.latex (.node .scopeRoot f.elems) := by
  have hl := f.lex h (rest := []) .nil (fun c hc => by cases hc)
  rw [List.append_nil] at hl
  refine ⟨f.toks [], ⟨f.toks [], hl, ?_⟩, ?_⟩
  · cases macros
    · exact rfl
    · exact (f.calm h (k := []) (fun t ht => by cases ht)).expands
  · obtain ⟨l', hi⟩ := (f.parse h).whole (sc := .root) (stop := []) (r := ⟨[], some 0, none⟩) (ts := []) lets_root (fun h => by cases h)
      (fun t ht => by cases ht) (fun t ht => by cases ht)
    exact ⟨_, hi, rfl⟩

/-- And the tree is printed as the Typst text. -/
theorem Formula.printed {dflt : CommandSpec} {f : Formula} (h : f.Ok dflt) :
    Printed dflt (Place.top .math) (.node .scopeRoot f.elems) ⟨none, true⟩ (f.typst dflt) ⟨none, false⟩ :=
  .mk (ps := each (Place.top .math) f.elems) rfl ((f.shows h _).go _ rfl)

/-- **C67.** `convert_math` takes every formula of `Spec/Formula` to the Typst text written for it.  The formula has to be one of both the
specification given (which directs the reading) and the default specification (which directs the printing, C48). -/
theorem C67_formula (dflt : CommandSpec) (f : Formula) (spec : Option CommandSpec) (h : f.Ok dflt) (hs : f.Ok (spec.getD dflt)) :
    ∃ fuel, convertMath fuel dflt f.latex spec = .ok (f.typst dflt) :=
  (C66_converts dflt f.latex spec (f.typst dflt)).2.mpr ⟨_, _, f.denotes hs true, f.printed h⟩

/-- **C67.** The same without macro expansion. -/
theorem C67_formula_no_macro (fuel : Nat) (dflt : CommandSpec) (f : Formula) (spec : Option CommandSpec) (h : f.Ok dflt)
    (hs : f.Ok (spec.getD dflt)) : convertMathNoMacro fuel dflt f.latex spec = .ok (f.typst dflt) :=
  (C66_no_macro fuel dflt f.latex spec _).mpr (.printed (f.denotes hs false) (f.printed h))

/-! ## An example: the solutions of a quadratic equation, and a matrix -/

/-- Letters. -/
def lettersOf (w : Text) : Atom := .text [.word w]

/-- `\frac{-b\pm \sqrt{b^2-4ac}}{2a}`. -/
def quadratic : Formula := .mk 0 (.cons (.command t!"frac" (.cons false (.mk 0 (.cons (lettersOf t!"-b") 0 (.cons (.symbol t!"pm") 1
    (.cons (.command t!"sqrt" (.cons false (.mk 0 (.cons (.script (lettersOf t!"b") true (.char '2')) 0 (.cons (lettersOf t!"-4ac") 0 .nil))) .nil)) 0 .nil))))
  (.cons false (.mk 0 (.cons (lettersOf t!"2a") 0 .nil)) .nil))) 0 .nil)

/-- `\lim\limits_{x\to 0} \begin{pmatrix} a' & \left|x\right) \\ {} & \text{no}\end{pmatrix}`. -/
def limitOfMatrix : Formula := .mk 0 (.cons (.script (.postfix (.symbol t!"lim") t!"limits") false
    (.braces (.mk 0 (.cons (lettersOf t!"x") 0 (.cons (.symbol t!"to") 1 (.cons (lettersOf t!"0") 0 .nil)))))) 1
  (.cons (.environment t!"pmatrix" .nil (.cons (.mk 1 (.cons (.prime (lettersOf t!"a")) 1 .nil)) false
    (.cons (.mk 1 (.cons (.delimited (.char '|') (.mk 0 (.cons (lettersOf t!"x") 0 .nil)) (.sign ')')) 1 .nil)) true
    (.cons (.mk 1 (.cons (.group (.mk 0 .nil)) 1 .nil)) false
    (.last (.mk 1 (.cons (.textCommand t!"text" [.word t!"no"]) 0 .nil))))))) 0 .nil))

example : quadratic.latex = t!"\\frac{-b\\pm \\sqrt{b^2-4ac}}{2a}" := by decide +kernel
example : quadratic.typst defaultSpec = t!"frac(- b plus.minus  mitexsqrt(b ^(2 )- 4 a c ),2 a )" := by decide +kernel
example : limitOfMatrix.latex =
  t!"\\lim\\limits_{x\\to 0} \\begin{pmatrix} a' & \\left|x\\right) \\\\ {} & \\text{no}\\end{pmatrix}" := by decide +kernel
example : limitOfMatrix.typst defaultSpec = t!"limits(lim )_(x ->  0 ) pmatrix( a ' zws , lr(|  x \\) ) zws ; zws  zws , #textmath[no];)" := by decide +kernel

/-- Both are formulas of the default specification: so they are converted as the lines above say. -/
theorem quadratic_ok : quadratic.Ok defaultSpec := Check.formula_ok (by decide +kernel)

theorem limitOfMatrix_ok : limitOfMatrix.Ok defaultSpec := Check.formula_ok (by decide +kernel)

example : ∃ fuel, convertMath fuel defaultSpec quadratic.latex none = .ok (quadratic.typst defaultSpec) :=
  C67_formula defaultSpec quadratic none quadratic_ok quadratic_ok

/-- `\frac12+\sqrt 2\in\mathbb R`: arguments without braces. -/
def bareArguments : Formula := .mk 0 (.cons (.command t!"frac" (.bare '1' (.bare '2' .nil))) 0 (.cons (lettersOf t!"+") 0
  (.cons (.command t!"sqrt" (.spaced 1 (.bare '2' .nil))) 0 (.cons (.symbol t!"in") 0 (.cons (.command t!"mathbb" (.spaced 1 (.bare 'R' .nil))) 0 .nil)))))

example : bareArguments.latex = t!"\\frac12+\\sqrt 2\\in\\mathbb R" := by decide +kernel
example : bareArguments.typst defaultSpec = t!"frac(1 ,2 )+ mitexsqrt(2 )in bb(R )" := by decide +kernel

theorem bareArguments_ok : bareArguments.Ok defaultSpec := Check.formula_ok (by decide +kernel)

/-- `\hat\alpha_1=\frac\pi2\dot\beta`: symbols as arguments without braces. -/
def symbolArguments : Formula := .mk 0 (.cons (.script (.command t!"hat" (.symbol t!"alpha" .nil)) false (.char '1')) 0 (.cons (lettersOf t!"=") 0
  (.cons (.command t!"frac" (.symbol t!"pi" (.bare '2' .nil))) 0 (.cons (.command t!"dot" (.symbol t!"beta" .nil)) 0 .nil))))

example : symbolArguments.latex = t!"\\hat\\alpha_1=\\frac\\pi2\\dot\\beta" := by decide +kernel
example : symbolArguments.typst defaultSpec = t!"hat(alpha )_(1 )= frac(pi ,2 )dot(beta )" := by decide +kernel

theorem symbolArguments_ok : symbolArguments.Ok defaultSpec := Check.formula_ok (by decide +kernel)

/-- `{n \choose k}={a\over{b\over c}}`: commands between their arguments. -/
def fractions : Formula := .mk 0 (.cons (.over (.mk 0 (.cons (lettersOf t!"n") 1 .nil)) t!"choose" (.mk 1 (.cons (lettersOf t!"k") 0 .nil))) 0
  (.cons (lettersOf t!"=") 0 (.cons (.over (.mk 0 (.cons (lettersOf t!"a") 0 .nil)) t!"over" (.mk 0 (.cons
    (.over (.mk 0 (.cons (lettersOf t!"b") 0 .nil)) t!"over" (.mk 1 (.cons (lettersOf t!"c") 0 .nil))) 0 .nil))) 0 .nil)))

example : fractions.latex = t!"{n \\choose k}={a\\over{b\\over c}}" := by decide +kernel
example : fractions.typst defaultSpec = t!"binom(n  , k )= frac(a ,frac(b , c ))" := by decide +kernel

theorem fractions_ok : fractions.Ok defaultSpec := Check.formula_ok (by decide +kernel)

/-- Nesting without bound: `n` fractions in each other. -/
def tower : Nat → Formula
  | 0 => .mk 0 (.cons (lettersOf t!"x") 0 .nil)
  | n + 1 => .mk 0 (.cons (.command t!"frac" (.cons false (.mk 0 (.cons (lettersOf t!"1") 0 .nil)) (.cons false (tower n) .nil))) 0 .nil)

example : (tower 2).latex = t!"\\frac{1}{\\frac{1}{x}}" := by decide +kernel

theorem tower_ok (n : Nat) : (tower n).Ok defaultSpec := by
  have h1 : (tower 1).Ok defaultSpec := Check.formula_ok (by decide +kernel)
  induction n with
  | zero => exact Check.formula_ok (by decide +kernel)
  | succ n ih =>
    have h2 := h1
    rw [tower, Formula.Ok, Atoms.Ok, Atom.Ok, Arguments.Ok, Arguments.Ok] at h2 ⊢
    exact ⟨⟨h2.1.1, ⟨h2.1.2.1.1, h2.1.2.1.2.1, ih, fun h => (by cases h), h2.1.2.1.2.2.2.2⟩, h2.1.2.2⟩, h2.2⟩

end Mitex
