/-
C86: the layout of the source does not matter but for the white space of the output.
-/
import Verif.Proof.LayoutLex
import Verif.Props.Respaced
import Verif.Props.Rules

namespace Mitex

/-- **C86**, tokens: texts that differ in layout only have tokens that differ in white space (and in comments) only. -/
theorem C86_tokens (spec : CommandSpec) (s s' : Text) (h : SameLines s s') (hp : PlainClauses s) (hp' : PlainClauses s') :
    ∃ ts ts', tokensOf spec s = .ok ts ∧ tokensOf spec s' = .ok ts' ∧ SameButSpace ts ts' := by
  rcases C59_outcome spec s with ⟨ts, h1, _⟩ | ⟨h1, _⟩
  · obtain ⟨ts', h2, h3⟩ := Layout.tokenized h1 h hp hp'
    exact ⟨ts, ts', (C59_tokens ..).2 h1, (C59_tokens ..).2 h2, h3⟩
  · exact (Layout.not_stuck h1 hp).elim

/-- **C86**: if two texts differ in layout only (the lengths and characters of blanks and of line ends), then (given enough fuel) the outputs are the same
but for stretches of white space, or both fail in the same way; provided the blanks within the parts that are read as they are, are the same. -/
theorem C86_layout (dflt : CommandSpec) (m : Mode) (spec : Option CommandSpec) (macros : Bool) (s s' : Text) (h : SameLines s s')
    (hp : PlainClauses s) (hp' : PlainClauses s') :
    ∃ N, ∀ F, N ≤ F →
      (∀ tree tree', parse F ⟨spec.getD dflt, globPrefix⟩ macros s = .ok tree →
        parse F ⟨spec.getD dflt, globPrefix⟩ macros s' = .ok tree' → Alike SpaceOrComment tree tree' → SameVerbatim tree tree') →
      SameOutcome (convertInner F dflt s m spec macros) (convertInner F dflt s' m spec macros) := by
  obtain ⟨ts, ts', h1, h2, h3⟩ := C86_tokens (spec.getD dflt) s s' h hp hp'
  exact C85_spacing_macro dflt m spec macros s s' ts ts' h1 h2 h3

namespace Layout

theorem sameChar_percent {s s' : Text} (h : SameLines s s') (hn : '%' ∉ s) : '%' ∉ s' := by
  intro hc
  obtain ⟨d, hd, hs⟩ := mem h _ hc
  have := of_black (p := (· = '%')) (fun c h => by subst h; decide) _ _ hs rfl
  exact hn (this ▸ hd)

theorem spaces_percent {sp : Text} {k : Nat} (h : Spaces sp k) (hn : '%' ∉ sp) : k = 0 := by
  induction h with
  | nil => rfl
  | blank _ _ ih => exact ih fun h => hn (List.mem_cons_of_mem _ h)
  | comment => exact absurd (by simp) hn

end Layout

/-- **C86**, comments: a text without comments has none between `\begin` and the name. -/
theorem C86_no_comments (s : Text) (h : '%' ∉ s) : PlainClauses s := by
  intro p b after _ hs
  have ha : '%' ∉ after := fun k => h (by rw [hs]; exact List.mem_append_right _ k)
  refine ⟨fun sp k r hk hr => Layout.spaces_percent hk fun hm => ha ?_, fun sp name sp' k r _ _ hk hr => Layout.spaces_percent hk fun hm => ha ?_⟩
  · rw [hr]; simp [hm]
  · rw [hr]; simp [hm]

/-- **C86**, without comments: no hypothesis on the text but that it has no percent sign, and the blanks in the parts read as they are. -/
theorem C86_plain (dflt : CommandSpec) (m : Mode) (spec : Option CommandSpec) (macros : Bool) (s s' : Text) (h : SameLines s s') (hn : '%' ∉ s) :
    ∃ N, ∀ F, N ≤ F → (∀ tree, parse F ⟨spec.getD dflt, globPrefix⟩ macros s = .ok tree → NoSpaceQuoted tree) →
      SameOutcome (convertInner F dflt s m spec macros) (convertInner F dflt s' m spec macros) := by
  obtain ⟨N, hN⟩ := C86_layout dflt m spec macros s s' h (C86_no_comments s hn) (C86_no_comments s' (Layout.sameChar_percent h hn))
  exact ⟨N, fun F hF hq => hN F hF fun tree tree' h1 _ h2 => C85_unquoted tree tree' h2 (hq tree h1)⟩

/-- **C86**, line ends: a text with line ends as on Windows differs in layout only. -/
theorem C86_crlf (s : Text) : SameLines s (crlf s) := by
  induction s with
  | nil => exact .nil
  | cons c s ih =>
    unfold crlf
    rw [List.flatMap_cons]
    by_cases h : c = '\n'
    · subst h
      exact .ends (w := ['\n']) (w' := ['\r', '\n']) ⟨List.cons_ne_nil _ _, List.cons_ne_nil _ _⟩ (by decide) ih
    · rw [if_neg h]
      by_cases h1 : isWs c = true
      · by_cases h2 : isNl c = true
        · exact .ends (w := [c]) (w' := [c]) ⟨List.cons_ne_nil _ _, List.cons_ne_nil _ _⟩ (by simp [h2]) ih
        · exact .blanks (w := [c]) (w' := [c]) ⟨List.cons_ne_nil _ _, List.cons_ne_nil _ _⟩ (by simp [isBlankChar, h1, h2]) ih
      · exact .char (by simpa using h1) ih

/-- **C86**, blanks: so does a text in which blanks have been replaced by blanks: a tabulator by a space, say. -/
theorem C86_blanks (f : Char → Text) (hf : ∀ c, f c ≠ [] ∧ (isBlankChar c = false → f c = [c]) ∧ (isBlankChar c = true → ∀ d ∈ f c, isBlankChar d = true))
    (s : Text) : SameLines s (s.flatMap f) := by
  induction s with
  | nil => exact .nil
  | cons c s ih =>
    rw [List.flatMap_cons]
    obtain ⟨h1, h2, h3⟩ := hf c
    by_cases h : isBlankChar c = true
    · refine .blanks (w := [c]) ⟨List.cons_ne_nil _ _, h1⟩ (fun d hd => ?_) ih
      rcases List.mem_append.1 hd with hd | hd
      · cases List.mem_singleton.1 hd; exact h
      · exact h3 h d hd
    · have h : isBlankChar c = false := by simpa using h
      rw [h2 h]
      by_cases h4 : isWs c = true
      · have h5 : isNl c = true := by unfold isBlankChar at h; rw [h4] at h; simpa using h
        exact .ends (w := [c]) (w' := [c]) ⟨List.cons_ne_nil _ _, List.cons_ne_nil _ _⟩ (by simp [h5]) ih
      · exact .char (by simpa using h4) ih

/-- **C86**, Windows: if a text without comments is converted, so is the text with line ends as on Windows, to the same output but for white space. -/
theorem C86_windows (dflt : CommandSpec) (m : Mode) (spec : Option CommandSpec) (macros : Bool) (s : Text) (hn : '%' ∉ s) :
    ∃ N, ∀ F, N ≤ F → (∀ tree, parse F ⟨spec.getD dflt, globPrefix⟩ macros s = .ok tree → NoSpaceQuoted tree) →
      ((∃ out out', convertInner F dflt s m spec macros = .ok out ∧ convertInner F dflt (crlf s) m spec macros = .ok out' ∧ squeezed out = squeezed out') ∨
      ∃ f, convertInner F dflt s m spec macros = .error f ∧ convertInner F dflt (crlf s) m spec macros = .error f) := by
  obtain ⟨N, hN⟩ := C86_plain dflt m spec macros s (crlf s) (C86_crlf s) hn
  refine ⟨N, fun F hF hq => ?_⟩
  have h := hN F hF hq
  generalize hr : convertInner F dflt s m spec macros = r at h ⊢
  generalize hr' : convertInner F dflt (crlf s) m spec macros = r' at h ⊢
  cases h with
  | ok h => exact .inl ⟨_, _, rfl, rfl, C85_gaps _ _ h⟩
  | error f => exact .inr ⟨f, rfl, rfl⟩

/-! ### A concrete case -/

namespace Layout

/-- A document with a macro, a table and a formula, over several lines. -/
def sample : Text := t!"\\newcommand{\\half}[1]{\\frac{#1}{2}}\n\n\\begin{tabular}{l|r}\n  a & $\\half{x y}$ \\\\\n\tb\n\\end{tabular}\n"

/-- A test for trees. -/
def noSpaceQuotedB (e : Elem) : Bool := e.descendants.all fun x => (verbatim x).all fun p => p.all fun l => decide (l.1 ∉ blankLeaves)

theorem noSpaceQuotedB_sound {e : Elem} (h : noSpaceQuotedB e = true) : NoSpaceQuoted e := by
  refine Forall_of_descendants _ e fun x hx p hp l hl => ?_
  have h1 := List.all_eq_true.1 (List.all_eq_true.1 (List.all_eq_true.1 h x hx) p hp) l hl
  exact of_decide_eq_true h1

end Layout

/-- A document with a macro, a table and a formula: the hypotheses of C86 hold, and the outputs for `\n` and for `\r\n` are the same, up to white space. -/
theorem C86_example :
    '%' ∉ Layout.sample ∧ crlf Layout.sample ≠ Layout.sample ∧
    (∃ tree, parse 200 ⟨defaultSpec, globPrefix⟩ true Layout.sample = .ok tree ∧ NoSpaceQuoted tree) ∧
    (convertText 200 defaultSpec Layout.sample none).map squeezed =
      .ok t!" #table(stroke: none, columns: 2, align: (left, right, ), table.vline(stroke: .5pt, x: 1), [a ], [#math.equation(block: false, $frac(x y ,2 )$); ], [b ); " ∧
    (convertText 200 defaultSpec (crlf Layout.sample) none).map squeezed =
      .ok t!" #table(stroke: none, columns: 2, align: (left, right, ), table.vline(stroke: .5pt, x: 1), [a ], [#math.equation(block: false, $frac(x y ,2 )$); ], [b ); " := by
  refine ⟨by decide +kernel, by decide +kernel, ?_, by decide +kernel, by decide +kernel⟩
  obtain ⟨tree, ht⟩ := ok_of (r := parse 200 ⟨defaultSpec, globPrefix⟩ true Layout.sample) (by decide +kernel)
  have h1 : (parse 200 ⟨defaultSpec, globPrefix⟩ true Layout.sample).map Layout.noSpaceQuotedB = .ok true := by decide +kernel
  rw [ht] at h1
  exact ⟨tree, ht, Layout.noSpaceQuotedB_sound (Except.ok.inj h1)⟩

end Mitex
