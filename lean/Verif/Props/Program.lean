/-
C71: texts with macros mean what textual substitution says they mean.
-/
import Verif.Proof.Program
import Verif.Proof.ProgramCheck
import Verif.Props.EndToEnd
import Verif.Props.Document
import Verif.Props.Formula

namespace Mitex
open Program

theorem expandAll_mono {fuel F : Nat} {A o : List Tok} (h : expandAll fuel A = .ok o) (hF : fuel ≤ F) : expandAll F A = .ok o := by
  obtain ⟨k, rfl⟩ := Nat.exists_eq_add_of_le hF
  unfold expandAll at h ⊢
  split at h
  · cases h
  · rename_i e c hr
    rw [engRun_mono hr k]; exact h

theorem program_defined (ps : List Part) (h : WellFormed ps) : ∃ m, Delivers defaultMacros (programText ps) (programValue [] ps) m :=
  program_delivers ps [] defaultMacros h trivial (fun _ _ => rfl)

/-- **C71.** The lexer hands the tokens of the meaning of a well-formed program to the parser, whatever the size of its
pages, and nothing else. -/
theorem C71_value (ps : List Part) (h : WellFormed ps) (cap : Nat) (hcap : 0 < cap) :
    ∃ fuel, ∀ F, fuel ≤ F → ∃ l, MacroLexer.new cap F (programText ps) = .ok l ∧
      ∀ n, (programValue [] ps).length ≤ n → l.drain cap F n = .ok (programValue [] ps) := by
  obtain ⟨m, hd⟩ := program_defined ps h
  exact hd.lexer cap hcap

/-- **C71.** The meaning is final: no token of it is expanded again. -/
theorem C71_final (ps : List Part) (h : WellFormed ps) :
    ∃ fuel, ∀ F, fuel ≤ F → expandAll F (programValue [] ps) = .ok (programValue [] ps) := by
  obtain ⟨fuel, hf⟩ := (C07_unbound_tokens_pass defaultMacros _ (program_final ps [] h trivial)).expandAll
  exact ⟨fuel, fun F hF => expandAll_mono hf hF⟩

/-- **C71.** A text with macros and the text a reader would get by substituting by hand convert to the same answer, with
and without macro expansion of the latter. -/
theorem C71_converts (dflt : CommandSpec) (spec : Option CommandSpec) (ps : List Part) (h : WellFormed ps) (input plain : Text)
    (hi : tokensOf (spec.getD dflt) input = .ok (programText ps)) (hp : tokensOf (spec.getD dflt) plain = .ok (programValue [] ps)) :
    ∃ fuel, ∀ F, fuel ≤ F →
      convertText F dflt input spec = convertText F dflt plain spec ∧
      convertMath F dflt input spec = convertMath F dflt plain spec ∧
      convertMath F dflt input spec = convertMathNoMacro F dflt plain spec ∧
      convertText F dflt input spec ≠ .error .fuel ∧ convertMath F dflt input spec ≠ .error .fuel := by
  obtain ⟨m, hd⟩ := program_defined ps h
  obtain ⟨f1, h1⟩ := hd.expandAll
  obtain ⟨f2, h2⟩ := C71_final ps h
  have hw := (C28_delivered _ _ _ hp).1
  refine ⟨max f1 f2, fun F hF => ?_⟩
  have e1 := expandAll_mono h1 (show f1 ≤ F by omega)
  have e2 := h2 F (by omega)
  have p1 : parse F ⟨spec.getD dflt, globPrefix⟩ true input = parseToks ⟨spec.getD dflt, globPrefix⟩ (programValue [] ps) := by
    unfold parse; rw [hi]
    show (expandAll F _ >>= parseToks _) = _
    rw [e1]; rfl
  have p2 : parse F ⟨spec.getD dflt, globPrefix⟩ true plain = parseToks ⟨spec.getD dflt, globPrefix⟩ (programValue [] ps) := by
    unfold parse; rw [hp]
    show (expandAll F _ >>= parseToks _) = _
    rw [e2]; rfl
  have p3 : parse F ⟨spec.getD dflt, globPrefix⟩ false plain = parseToks ⟨spec.getD dflt, globPrefix⟩ (programValue [] ps) := by
    unfold parse; rw [hp]; rfl
  have hfuel : ∀ md, (parseToks ⟨spec.getD dflt, globPrefix⟩ (programValue [] ps) >>= convertTree dflt md) ≠ .error .fuel := by
    intro md
    cases hx : parseToks ⟨spec.getD dflt, globPrefix⟩ (programValue [] ps) with
    | error x =>
      intro he
      have : x = .fuel := by simpa using (show (Except.error x : Res Text) = .error .fuel from he)
      subst this
      exact C28_terminates _ _ hw.1 hw.2 hx
    | ok e =>
      show convertTree dflt md e ≠ _
      rcases C49_outcome dflt md e with ⟨s, -, hs⟩ | ⟨msg, hs⟩ | hs <;> rw [hs] <;> simp
  unfold convertText convertMath convertMathNoMacro convertInner
  rw [p1, p2, p3]
  exact ⟨rfl, rfl, rfl, hfuel _, hfuel _⟩

/-- **C71.** If what a program means is a formula, its conversion is the conversion of the formula. -/
theorem C71_formula (dflt : CommandSpec) (spec : Option CommandSpec) (ps : List Part) (h : WellFormed ps) (input : Text) (f : Formula)
    (hi : tokensOf (spec.getD dflt) input = .ok (programText ps)) (hp : tokensOf (spec.getD dflt) f.latex = .ok (programValue [] ps))
    (hf : f.Ok dflt) (hs : f.Ok (spec.getD dflt)) :
    ∃ fuel, ∀ F, fuel ≤ F → convertMath F dflt input spec = .ok (f.typst dflt) := by
  obtain ⟨fuel, hc⟩ := C71_converts dflt spec ps h input f.latex hi hp
  exact ⟨fuel, fun F hF => (hc F hF).2.2.1.trans (C67_formula_no_macro F dflt f spec hf hs)⟩

/-! ### An example -/

/-- A token of the source. -/
private def word (w : Text) : Src := .tok (.word, w)
private def space : Src := .tok (.whitespace, [' '])
private def cmd (n : Text) : Src := .tok (cmdTok n)

/-- Definitions of two commands, the second uses the first, and of an environment. -/
def sampleDefs : List Part :=
  [.define (.cmd t!"disc" 1 [.param 1 [], .tok (.caret, ['^']), word t!"2-4ac"]),
   .define (.cmd t!"solve" 2 [cmd t!"frac", .group [.param 1 [], cmd t!"pm", space, cmd t!"sqrt", .group [.call t!"disc" [[.param 1 []]]]],
     .group [.param 2 []]]),
   .define (.env t!"pair" 1 [.tok (beginTok t!"matrix"), .param 1 [], .tok (.ampersand, ['&'])] [.tok (endTok t!"matrix")])]

/-- A program that uses them. -/
def sampleProgram : List Part := sampleDefs ++
  [.run [.ifTrue [.env t!"pair" [[word t!"x"]] [.call t!"solve" [[word t!"b"], [word t!"2a"]]]] [(.whitespace, [' ']), (.word, t!"y"), cmdTok t!"disc"]]]

/-- The program as a user writes it. -/
def sampleText : Text :=
  t!"\\newcommand{\\disc}[1]{#1^2-4ac}\\newcommand{\\solve}[2]{\\frac{#1\\pm \\sqrt{\\disc{#1}}}{#2}}\\newenvironment{pair}[1]{\\begin{matrix}#1&}{\\end{matrix}}\\iftrue\\begin{pair}{x}\\solve{b}{2a}\\end{pair}\\else y\\disc\\fi"

/-- The same written out by hand. -/
def samplePlain : Text := t!"\\begin{matrix}x&\\frac{b\\pm \\sqrt{b^2-4ac}}{2a}\\end{matrix}"

theorem sampleProgram_wellFormed : WellFormed sampleProgram := wellFormed_of_check (by decide +kernel)

example : tokensOf defaultSpec sampleText = .ok (programText sampleProgram) := by decide +kernel
example : tokensOf defaultSpec samplePlain = .ok (programValue [] sampleProgram) := by decide +kernel

/-- So both are converted to the same, by the theorem. -/
example : ∃ fuel, ∀ F, fuel ≤ F → convertMath F defaultSpec sampleText none = convertMathNoMacro F defaultSpec samplePlain none := by
  obtain ⟨fuel, h⟩ := C71_converts defaultSpec none sampleProgram sampleProgram_wellFormed sampleText samplePlain (by decide +kernel) (by decide +kernel)
  exact ⟨fuel, fun F hF => (h F hF).2.2.1⟩

/-- `\newcommand{\disc}[1]{#1^2-4ac}` and a use of it, for the formula of `quadratic`. -/
def quadraticProgram : List Part :=
  [.define (.cmd t!"disc" 1 [.param 1 [], .tok (.caret, ['^']), word t!"2-4ac"]),
   .run [cmd t!"frac", .group [word t!"-b", cmd t!"pm", space, cmd t!"sqrt", .group [.call t!"disc" [[word t!"b"]]]], .group [word t!"2a"]]]

example : ∃ fuel, ∀ F, fuel ≤ F → convertMath F defaultSpec t!"\\newcommand{\\disc}[1]{#1^2-4ac}\\frac{-b\\pm \\sqrt{\\disc{b}}}{2a}" none
    = .ok (quadratic.typst defaultSpec) :=
  C71_formula defaultSpec none quadraticProgram (wellFormed_of_check (by decide +kernel)) _ quadratic (by decide +kernel) (by decide +kernel)
    quadratic_ok quadratic_ok

/-- Calls of calls without bound: `\newcommand{\dup}[1]{#1#1}`, and `n` nested uses. -/
def dups : Nat → Src
  | 0 => word t!"x"
  | n + 1 => .call t!"dup" [[dups n]]

def doubling (n : Nat) : List Part := [.define (.cmd t!"dup" 1 [.param 1 [], .param 1 []]), .run [dups n]]

theorem dups_ok (n : Nat) : (dups n).Ok [t!"dup"] [.cmd t!"dup" 1 [.param 1 [], .param 1 []]] 0 false := by
  induction n with
  | zero => exact Src.check_sound _ (by decide +kernel)
  | succ n ih => rw [dups, Src.Ok]; exact ⟨rfl, ⟨ih, trivial⟩, trivial⟩

theorem dups_value (n : Nat) : (dups n).value (meaning [.cmd t!"dup" 1 [.param 1 [], .param 1 []]]) [] = List.replicate (2 ^ n) (.word, t!"x") := by
  induction n with
  | zero => rfl
  | succ n ih =>
    rw [dups, Src.value, valueEach, valueAll, valueAll, valueEach, ih]
    simp [meaning, valueAll, Src.value, Program.wordOf, Nat.pow_succ, Nat.mul_two, List.replicate_append_replicate]

theorem doubling_length (n : Nat) : (programText (doubling n)).length = 3 * n + 14 := by
  have : ∀ n, ((dups n).tokens asMark).length = 3 * n + 1 := by
    intro n
    induction n with
    | zero => rfl
    | succ n ih => simp [dups, Src.tokens, bracedAll, tokensAll, ih]; omega
  simp [doubling, programText, text, tokensAll, this, Def.text, countText, Src.tokens, asMark]

/-- **C71.** The exponential growth of macros: a text of `3 n + 14` tokens is handed to the parser as `2 ^ n` words. -/
theorem C71_growth (n : Nat) : (programText (doubling n)).length = 3 * n + 14 ∧ ∃ fuel, ∀ F, fuel ≤ F → expandAll F (programText (doubling n)) = .ok (List.replicate (2 ^ n) (.word, t!"x")) := by
  have hw : WellFormed (doubling n) := by
    show ProgramOk [t!"dup"] [] (doubling n)
    refine ⟨⟨by decide +kernel, by decide +kernel, by decide +kernel, by decide +kernel, by decide +kernel, ?_⟩, ?_, trivial⟩
    · exact checkAll_sound _ (by decide +kernel)
    · refine ⟨?_, trivial⟩
      have h := dups_ok n
      cases n with
      | zero => exact Src.check_sound _ (by decide +kernel)
      | succ n => rw [dups, Src.Ok] at h ⊢; exact h
  obtain ⟨m, hd⟩ := program_defined (doubling n) hw
  obtain ⟨f, hf⟩ := hd.expandAll
  have hv : programValue [] (doubling n) = List.replicate (2 ^ n) (.word, t!"x") := by
    simp only [doubling, programValue, valueAll, List.append_nil]; exact dups_value n
  rw [hv] at hf
  exact ⟨doubling_length n, f, fun F hF => expandAll_mono hf hF⟩

end Mitex
