/-
C81: a converted formula is one Typst formula.
-/
import Verif.Spec.OneFormula
import Verif.Props.Nesting

namespace Mitex

/-- In the formula of a dollar sign, the same marks are open as in the formula that must not be closed. -/
theorem enclosed_step {a s : List Char} {c : Char} (h : nestStep (a ++ ['F']) c = some s) :
    ∃ b, s = b ++ ['F'] ∧ nestStep (a ++ ['$']) c = some (b ++ ['$']) := by
  cases a with
  | nil =>
    rw [List.nil_append, nestStep_clear (m := .math) ⟨by simp, by simp, fun h => (by cases h)⟩] at h
    rw [List.nil_append, nestStep_clear (m := .math) ⟨by simp, by simp, fun h => (by cases h)⟩]
    by_cases h1 : c = '\\'
    · simp only [h1, if_true] at h ⊢; cases h; exact ⟨['\\'], rfl, rfl⟩
    by_cases h2 : c = '"'
    · rw [if_neg h1, if_pos h2] at h; rw [if_neg h1, if_pos h2]; cases h; exact ⟨['"'], rfl, rfl⟩
    by_cases h3 : c = '('
    · rw [if_neg h1, if_neg h2, if_pos h3] at h; rw [if_neg h1, if_neg h2, if_pos h3]; cases h; exact ⟨[')'], rfl, rfl⟩
    by_cases h4 : c = '['
    · rw [if_neg h1, if_neg h2, if_neg h3, if_pos h4] at h; rw [if_neg h1, if_neg h2, if_neg h3, if_pos h4]; cases h; exact ⟨[']'], rfl, rfl⟩
    by_cases h5 : c = '$'
    · rw [if_neg h1, if_neg h2, if_neg h3, if_neg h4, if_pos h5] at h; simp at h
    rw [if_neg h1, if_neg h2, if_neg h3, if_neg h4, if_neg h5] at h ⊢
    by_cases h6 : c = ')' ∨ c = ']'
    · rw [if_pos h6] at h
      rcases h6 with rfl | rfl <;> simp at h
    · rw [if_neg h6] at h ⊢
      cases h
      exact ⟨[], rfl, rfl⟩
  | cons d a =>
    by_cases hd1 : d = '\\'
    · subst hd1; cases h; exact ⟨a, rfl, rfl⟩
    by_cases hd2 : d = '"'
    · subst hd2
      have e : ∀ a : List Char, nestStep ('"' :: a) c = if c = '"' then some a else if c = '\\' then some ('\\' :: '"' :: a) else some ('"' :: a) := fun _ => rfl
      rw [List.cons_append, e] at h
      rw [List.cons_append, e]
      by_cases h1 : c = '"'
      · rw [if_pos h1] at h ⊢; cases h; exact ⟨a, rfl, rfl⟩
      · rw [if_neg h1] at h ⊢
        by_cases h2 : c = '\\'
        · rw [if_pos h2] at h ⊢; cases h; exact ⟨'\\' :: '"' :: a, rfl, rfl⟩
        · rw [if_neg h2] at h ⊢; cases h; exact ⟨'"' :: a, rfl, rfl⟩
    have hx : ∀ a : List Char, Clear .math (d :: a) := fun a => ⟨by simpa using hd1, by simpa using hd2, fun h => (by cases h)⟩
    rw [List.cons_append, nestStep_clear (hx _)] at h
    rw [List.cons_append, nestStep_clear (hx _)]
    simp only [List.head?_cons, List.tail_cons, Option.some.injEq] at h ⊢
    by_cases h1 : c = '\\'
    · rw [if_pos h1] at h ⊢; cases h; exact ⟨'\\' :: d :: a, rfl, rfl⟩
    rw [if_neg h1] at h ⊢
    by_cases h2 : c = '"'
    · rw [if_pos h2] at h ⊢; cases h; exact ⟨'"' :: d :: a, rfl, rfl⟩
    rw [if_neg h2] at h ⊢
    by_cases h3 : c = '('
    · rw [if_pos h3] at h ⊢; cases h; exact ⟨')' :: d :: a, rfl, rfl⟩
    rw [if_neg h3] at h ⊢
    by_cases h4 : c = '['
    · rw [if_pos h4] at h ⊢; cases h; exact ⟨']' :: d :: a, rfl, rfl⟩
    rw [if_neg h4] at h ⊢
    by_cases h5 : c = '$'
    · rw [if_pos h5] at h ⊢
      by_cases h6 : d = '$'
      · rw [if_pos h6] at h ⊢; cases h; exact ⟨a, rfl, rfl⟩
      rw [if_neg h6] at h ⊢
      by_cases h7 : d = 'F'
      · rw [if_pos h7] at h; cases h
      · rw [if_neg h7] at h ⊢; cases h; exact ⟨'$' :: d :: a, rfl, rfl⟩
    rw [if_neg h5] at h ⊢
    by_cases h6 : c = ')' ∨ c = ']'
    · rw [if_pos h6] at h ⊢
      by_cases h7 : d = c
      · rw [if_pos h7] at h ⊢; cases h; exact ⟨a, rfl, rfl⟩
      · rw [if_neg h7] at h; cases h
    · rw [if_neg h6] at h ⊢; cases h; exact ⟨d :: a, rfl, rfl⟩

theorem enclosed {t : Text} : ∀ {a s : List Char}, nest (a ++ ['F']) t = some s →
    (∃ b, s = b ++ ['F'] ∧ nest (a ++ ['$']) t = some (b ++ ['$'])) ∧
    ∀ p, p <+: t → ∃ b, nest (a ++ ['$']) p = some (b ++ ['$']) := by
  induction t with
  | nil =>
    intro a s h
    cases h
    refine ⟨⟨a, rfl, rfl⟩, fun p hp => ?_⟩
    rw [List.prefix_nil.1 hp]
    exact ⟨a, rfl⟩
  | cons c t ih =>
    intro a s h
    rw [nest_cons] at h
    cases hs : nestStep (a ++ ['F']) c with
    | none => rw [hs] at h; cases h
    | some s1 =>
      rw [hs, Option.bind_some] at h
      obtain ⟨b, rfl, h2⟩ := enclosed_step hs
      obtain ⟨⟨b', e, h3⟩, h4⟩ := ih h
      refine ⟨⟨b', e, by rw [nest_cons, h2, Option.bind_some, h3]⟩, fun p hp => ?_⟩
      cases p with
      | nil => exact ⟨a, rfl⟩
      | cons d p =>
        obtain ⟨rfl, hp'⟩ := List.cons_prefix_cons.1 hp
        obtain ⟨b2, h5⟩ := h4 p hp'
        exact ⟨b2, by rw [nest_cons, h2, Option.bind_some, h5]⟩

theorem oneFormula_of {t : Text} (h : nest ['F'] t = some ['F']) : OneFormula t := by
  obtain ⟨⟨b, e, h1⟩, h2⟩ := enclosed (a := []) h
  have hb : b = [] := List.append_cancel_right (as := b) (bs := ['F']) (cs := []) e.symm
  subst hb
  have hopen : ∀ q : Text, nest [] ('$' :: q) = nest ['$'] q := fun q => rfl
  constructor
  · unfold WellNested
    rw [List.cons_append, hopen]
    exact nest_step h1 rfl
  · intro p hp hne hw
    cases p with
    | nil => exact absurd rfl hne
    | cons d q =>
      rw [List.cons_append] at hp
      obtain ⟨rfl, hq⟩ := List.cons_prefix_cons.1 hp
      unfold WellNested at hw
      rw [hopen] at hw
      rw [List.cons_append]
      congr 1
      rcases List.prefix_concat_iff.1 hq with hq | hq
      · exact hq
      · obtain ⟨b, h3⟩ := h2 q hq
        rw [List.nil_append, hw] at h3
        simp at h3

/-- **C81.** Whatever the input, if the names written for commands are neutral, every `\left` has its `\right`, the tables are complete, and
what is copied from the input contains no marks, the result of converting a formula is, between two dollar signs, one formula of Typst: no
dollar sign of the result closes the formula around it. -/
theorem C81_one_formula (fuel : Nat) (dflt : CommandSpec) (input : Text) (spec : Option CommandSpec) (macros : Bool) (tree : Elem) (out : Text)
    (hp : parse fuel ⟨spec.getD dflt, globPrefix⟩ macros input = .ok tree)
    (hn : NamesNeutral dflt) (ht : ∀ d ∈ tree.descendants, Tidy dflt d)
    (hc : convertInner fuel dflt input .math spec macros = .ok out) : OneFormula out :=
  oneFormula_of (output_nest fuel dflt input .math spec macros tree out hp hn ht hc ⟨by simp, by simp, fun h => (by cases h)⟩)

/-- C81 with the default specification, for a text with none of these commands and environments: `\left`, `\iftypst`, `\label`,
`\includegraphics`, `\color`, `\textcolor`, `\colorbox`, `tabular`. -/
theorem C81_tokens (fuel : Nat) (input : Text) (spec : Option CommandSpec) (macros : Bool) (out : Text)
    (hw : ∀ toks, tokensOf (spec.getD defaultSpec) input = .ok toks → ∀ t ∈ toks, t.2 ∉ risky)
    (hc : convertInner fuel defaultSpec input .math spec macros = .ok out) : OneFormula out := by
  cases hp : parse fuel ⟨spec.getD defaultSpec, globPrefix⟩ macros input with
  | error x =>
    unfold convertInner at hc
    rw [hp] at hc
    cases hc
  | ok tree =>
    obtain ⟨h1, _⟩ := parse_parts (Q := Harmless) ⟨rfl, by decide⟩
      (fun toks he t ht n hk => ⟨hk ▸ tokensOf_shape he t ht, hw toks he t ht⟩) hp
    refine C81_one_formula fuel defaultSpec input spec macros tree out hp C70_default (fun d hd => ?_) hc
    exact harmless_tidy (Forall_sub _ _ _ h1 hd)

/-- C81: in particular every text that contains none of these words. -/
theorem C81_words (fuel : Nat) (input : Text) (spec : Option CommandSpec) (macros : Bool) (out : Text)
    (hw : ∀ w ∈ risky, ¬ w <:+: input) (hc : convertInner fuel defaultSpec input .math spec macros = .ok out) : OneFormula out :=
  C81_tokens fuel input spec macros out (fun _ he t ht hr => hw _ hr (span_infix he t ht)) hc

/-! ### Examples -/

/-- Formulas in text in a formula, in a heading, and under a color. -/
def deepText : Text := t!"a $b$ \\text{x \\$ $y \\text{$z$}$} \\textcolor{red}{c\\left(d\\right)} \\section{$$e$$}"

/-- C81 on a formula with formulas in it, at several depths. -/
theorem C81_example :
    convertMath 200 defaultSpec deepText none =
      .ok t!"a  b  #textmath[x dollar  #math.equation(block: false, $y  #textmath[#math.equation(block: false, $z $);];$);]; #colortext(none, [red])[$c lr(\\( d \\) )$] #heading(level: 1)[$ e  $];" ∧
    ∃ out, convertMath 200 defaultSpec deepText none = .ok out ∧ OneFormula out := by
  refine ⟨by decide +kernel, ?_⟩
  obtain ⟨tree, h1, h2⟩ := tidyText_sound (s := deepText) (by decide +kernel)
  obtain ⟨out, h⟩ := ok_of (r := convertMath 200 defaultSpec deepText none) (by decide +kernel)
  exact ⟨out, h, C81_one_formula 200 defaultSpec deepText none true tree out h1 C70_default h2 h⟩

/-- A dollar sign outside of brackets would end the formula. -/
example : WellNested t!"$x$" ∧ ¬ OneFormula t!"$x$" := by
  refine ⟨by decide, fun h => ?_⟩
  have := h.2 t!"$$" ⟨t!"x$$", rfl⟩ (by decide) (by decide)
  revert this
  decide

end Mitex
