/-
C61: the exact output of the converter.
-/
import Verif.Proof.Template
import Verif.Props.Convert
import Verif.Model.StandardSpec

namespace Mitex

/-- C61: with the templates of `Spec/Template.lean`, the result of converting an element is settled: in the place `x`, with the waiting
label and the skip flag as memory, conversion succeeds with the state `s'` if and only if the templates print a text for the element,
and then exactly this text is appended to the output, exactly the memory is changed as the templates say, and nothing else changes. -/
theorem C61_exact (spec : CommandSpec) (n : Nat) (x : Place) (e : Elem) (s s' : CState) (hn : e.depth ≤ n) (hx : At x s) :
    convert spec n e s = .ok s' ↔
      ∃ t m', Printed spec x e ⟨s.label, s.skip⟩ t m' ∧ s' = { s with out := s.out ++ t, label := m'.label, skip := m'.skip } := by
  constructor
  · intro h
    have ha := convert_faithful spec n x e s hx
    rw [h] at ha
    cases hr : render spec n x e s.mem with
    | error => rw [hr] at ha; exact ha.elim
    | ok p =>
      obtain ⟨t, m'⟩ := p
      rw [hr] at ha
      exact ⟨t, m', render_printed spec n x e _ t m' hr, ha⟩
  · rintro ⟨t, m', h, rfl⟩
    obtain ⟨k, hk⟩ := printed_render h
    have hk := hk (max k n) (by omega)
    rw [C49_fuel_irrelevant spec n (max k n) e s hn (by omega)]
    have ha := convert_faithful spec (max k n) x e s hx
    rw [show s.mem = ⟨s.label, s.skip⟩ from rfl, hk] at ha
    cases hc : convert spec (max k n) e s with
    | error => rw [hc] at ha; exact ha.elim
    | ok s2 =>
      rw [hc] at ha
      exact congrArg Except.ok ha

/-- C61, failures: conversion fails, with this message or with a crash, if and only if the templates say so. -/
theorem C61_fails (spec : CommandSpec) (n : Nat) (x : Place) (e : Elem) (s : CState) (hn : e.depth ≤ n) (hx : At x s) (f : Stop) :
    convert spec n e s = .error f ↔ Failed spec x e ⟨s.label, s.skip⟩ f := by
  constructor
  · intro h
    have hf : f ≠ .fuel := fun h0 => C49_terminates spec n e s hn (h0 ▸ h)
    have ha := convert_faithful spec n x e s hx
    rw [h] at ha
    cases hr : render spec n x e s.mem with
    | ok p => rw [hr] at ha; exact ha.elim
    | error y =>
      rw [hr] at ha
      rcases ha with h0 | h0
      · exact absurd h0 hf
      · subst h0; exact render_failed spec n x e _ f hr hf
  · intro h
    obtain ⟨k, hk⟩ := failed_render h
    have hk := hk (max k n) (by omega)
    rw [C49_fuel_irrelevant spec n (max k n) e s hn (by omega)]
    have ha := convert_faithful spec (max k n) x e s hx
    rw [show s.mem = ⟨s.label, s.skip⟩ from rfl, hk] at ha
    cases hc : convert spec (max k n) e s with
    | ok => rw [hc] at ha; exact ha.elim
    | error y =>
      rw [hc] at ha
      rcases ha with h0 | h0
      · exact absurd (h0 ▸ hc) (C49_terminates spec (max k n) e s (by omega))
      · rw [h0]

/-- C61: for every element, place and memory the templates print a text, or fail, and not both; there is only one text and one
failure, and a failure is a message or a crash. -/
theorem C61_outcome (spec : CommandSpec) (x : Place) (e : Elem) (m : Mem) :
    ((∃ t m', Printed spec x e m t m') ∨ ∃ f, Failed spec x e m f) ∧
    (∀ t m' f, Printed spec x e m t m' → ¬ Failed spec x e m f) ∧
    (∀ f f', Failed spec x e m f → Failed spec x e m f' → f = f') ∧
    (∀ f, Failed spec x e m f → f = .panic ∨ ∃ msg, f = .error msg) := by
  have hx : At x ⟨x.mode, x.env, 2 * x.lists, m.label, m.skip, []⟩ := ⟨rfl, rfl, rfl⟩
  have hp := fun s' => C61_exact spec e.depth x e _ s' (Nat.le_refl _) hx
  have hf := fun f => C61_fails spec e.depth x e _ (Nat.le_refl _) hx f
  refine ⟨?_, ?_, ?_, ?_⟩
  · cases hc : convert spec e.depth e ⟨x.mode, x.env, 2 * x.lists, m.label, m.skip, []⟩ with
    | ok s' => obtain ⟨t, m', h, _⟩ := (hp s').mp hc; exact Or.inl ⟨t, m', h⟩
    | error f => exact Or.inr ⟨f, (hf f).mp hc⟩
  · intro t m' f h1 h2
    have h1 := (hp _).mpr ⟨t, m', h1, rfl⟩
    rw [(hf f).mpr h2] at h1
    cases h1
  · intro f f' h1 h2
    have h1 := (hf f).mpr h1
    rw [(hf f').mpr h2] at h1
    cases h1
    rfl
  · intro f h
    cases f with
    | fuel => exact absurd ((hf _).mpr h) (C49_terminates spec e.depth e _ (Nat.le_refl _))
    | panic => exact Or.inl rfl
    | error msg => exact Or.inr ⟨msg, rfl⟩

/-- C61: the templates are not ambiguous. -/
theorem C61_unambiguous (spec : CommandSpec) (x : Place) (e : Elem) (m m1 m2 : Mem) (t1 t2 : Text)
    (h1 : Printed spec x e m t1 m1) (h2 : Printed spec x e m t2 m2) : t1 = t2 ∧ m1 = m2 := by
  obtain ⟨k1, h1⟩ := printed_render h1
  obtain ⟨k2, h2⟩ := printed_render h2
  have h1 := h1 (max k1 k2) (by omega)
  rw [h2 (max k1 k2) (by omega)] at h1
  cases h1
  exact ⟨rfl, rfl⟩

/-- C61 for whole documents: once the source is parsed, the output is the text the templates print for the tree. -/
theorem C61_document (fuel : Nat) (dflt : CommandSpec) (input : Text) (m : Mode) (spec : Option CommandSpec) (withMacro : Bool)
    (tree : Elem) (hp : parse fuel ⟨spec.getD dflt, globPrefix⟩ withMacro input = .ok tree) (out : Text) :
    convertInner fuel dflt input m spec withMacro = .ok out ↔
      ∃ m', Printed dflt (Place.top m) tree ⟨none, true⟩ out m' := by
  unfold convertInner
  rw [hp]
  show convertTree dflt m tree = .ok out ↔ _
  unfold convertTree
  have hx : At (Place.top m) (CState.new m) := ⟨rfl, rfl, rfl⟩
  have hex := fun s' => C61_exact dflt tree.depth (Place.top m) tree (CState.new m) s' (Nat.le_refl _) hx
  constructor
  · intro h
    cases hc : convert dflt tree.depth tree (CState.new m) with
    | error => rw [hc] at h; cases h
    | ok s =>
      rw [hc] at h
      cases h
      obtain ⟨t, m', h1, h2⟩ := (hex s).mp hc
      refine ⟨m', ?_⟩
      rw [h2]
      exact h1
  · rintro ⟨m', h⟩
    rw [(hex _).mpr ⟨out, m', h, rfl⟩]
    rfl

/-- C61 for whole documents, failures: once the source is parsed, the caller gets an error message, or a crash, if and only if the
templates fail with it. -/
theorem C61_document_fails (fuel : Nat) (dflt : CommandSpec) (input : Text) (m : Mode) (spec : Option CommandSpec) (withMacro : Bool)
    (tree : Elem) (hp : parse fuel ⟨spec.getD dflt, globPrefix⟩ withMacro input = .ok tree) (f : Stop) :
    convertInner fuel dflt input m spec withMacro = .error f ↔ Failed dflt (Place.top m) tree ⟨none, true⟩ f := by
  unfold convertInner
  rw [hp]
  show convertTree dflt m tree = .error f ↔ _
  unfold convertTree
  have hx : At (Place.top m) (CState.new m) := ⟨rfl, rfl, rfl⟩
  rw [show (⟨none, true⟩ : Mem) = ⟨(CState.new m).label, (CState.new m).skip⟩ from rfl,
    ← C61_fails dflt tree.depth (Place.top m) tree (CState.new m) (Nat.le_refl _) hx f]
  cases convert dflt tree.depth tree (CState.new m) with
  | ok s => exact ⟨fun h => (by cases h), fun h => (by cases h)⟩
  | error y => exact ⟨fun h => (by cases h; rfl), fun h => (by cases h; rfl)⟩

/-! ### What that means for some constructs -/

theorem PrintedAll.two {spec : CommandSpec} {x : Place} {a b : Elem} {tn : Text} {m m1 m2 : Mem} {ta tb : Text}
    (ha : Printed spec x a m ta m1) (hb : Printed spec x b m1 tb m2) (hk : a.kind = .clauseArgument) :
    PrintedAll spec (.text tn :: ([.text t!"("] ++ commaList .clauseArgument x [a, b] ++ [.text t!")"])) m
      (tn ++ (t!"(" ++ (ta ++ (t!"," ++ (tb ++ (t!")" ++ [])))))) m2 := by
  rw [commaList, if_pos hk]
  exact .text _ (.text _ (.part ha (.text _ (.part hb (.text _ (.nil _))))))

/-- C61: in a formula a command with two arguments, such as `\frac`, becomes the call `name(first,second)` of the function of the
specification, with the conversions of the arguments. -/
theorem C61_two_arguments (spec : CommandSpec) (env : LEnv) (lists : Nat) (name : Text) (sh : CmdShape) (nm : Elem) (a b : Elem)
    (m m1 m2 : Mem) (ta tb : Text)
    (hk : nm.kind = .clauseCommandName) (hn : (Elem.node .itemCmd [nm, a, b]).cmdName = some ('\\' :: name))
    (hs : spec name = some (.cmd sh)) (hsh : sh.args = .right (.fixedLen 2))
    (hord : name ∉ [t!"item", t!"label", t!"includegraphics", t!"color", t!"textcolor", t!"colorbox"])
    (hh : (sh.alias.getD name).head? ≠ some '#') (hsub : sh.alias.getD name ≠ t!"substack")
    (ha : a.kind = .clauseArgument) (hb : b.kind = .clauseArgument)
    (pa : Printed spec ⟨.math, env, lists⟩ a { m with skip := false } ta m1) (pb : Printed spec ⟨.math, env, lists⟩ b m1 tb m2) :
    Printed spec ⟨.math, env, lists⟩ (.node .itemCmd [nm, a, b]) m
      (sh.alias.getD name ++ t!"(" ++ ta ++ t!"," ++ tb ++ t!")") m2 := by
  simp only [List.mem_cons, List.not_mem_nil, or_false, not_or] at hord
  obtain ⟨h1, h2, h3, h4, h5, h6⟩ := hord
  have hw : writtenName .math name sh = sh.alias.getD name := by
    unfold writtenName
    rw [if_neg (fun h => (by cases h.1)), if_neg (fun h => (by cases h.1))]
    cases sh.alias <;> rfl
  have ht : template spec ⟨.math, env, lists⟩ (.node .itemCmd [nm, a, b])
      = .ok (.text (sh.alias.getD name) :: ([.text t!"("] ++ commaList .clauseArgument ⟨.math, env, lists⟩ [a, b] ++ [.text t!")"])) := by
    show commandTemplate spec _ _ = _
    unfold commandTemplate
    have hb' : bareName (.node .itemCmd [nm, a, b]) = some name := by
      unfold bareName
      rw [hn]
      rfl
    rw [hn, hb']
    dsimp only
    rw [if_neg h1, if_neg h2, if_neg h3, if_neg (fun h => h.elim h4 (fun h => h.elim h5 h6))]
    unfold normalTemplate
    rw [hs]
    dsimp only
    rw [hw, if_neg hsub]
    have hf : (Elem.node .itemCmd [nm, a, b]).children.filter (fun c => decide (c.kind ≠ .clauseCommandName)) = [a, b] := by
      show [nm, a, b].filter _ = _
      simp [hk, ha, hb]
    rw [hf]
    unfold argumentsTemplate
    rw [hsh]
    dsimp only
    rw [if_pos ⟨rfl, hh⟩]
    rfl
  have := PrintedAll.two (tn := sh.alias.getD name) pa pb ha
  refine .mk ht ?_
  rw [if_neg (fun h => (by cases h))]
  simpa using this

/-- C61: in a formula a base with a subscript or superscript becomes `base_(script)`: the script is one argument of the mark. -/
theorem C61_script (spec : CommandSpec) (env : LEnv) (lists : Nat) (base script : Elem) (k : Kind) (u : Text) (m m1 m2 : Mem)
    (tb ts : Text) (hk : k = .tokenUnderscore ∨ k = .tokenCaret) (hbase : base.isNode = true)
    (pb : Printed spec ⟨.math, env, lists⟩ base { m with skip := false } tb m1) (ps : Printed spec ⟨.math, env, lists⟩ script m1 ts m2) :
    Printed spec ⟨.math, env, lists⟩ (.node .itemAttachComponent [base, .token k u, script]) m (tb ++ u ++ t!"(" ++ ts ++ t!")") m2 := by
  have hm : isScriptMark (.token k u) = true := by
    rcases hk with rfl | rfl <;> rfl
  have hb : isScriptMark base = false := by
    unfold isScriptMark
    rw [hbase]
    rfl
  have hsp : isSpaceToken base = false := by
    unfold isSpaceToken
    rw [hbase]
    rfl
  have ht : template spec ⟨.math, env, lists⟩ (.node .itemAttachComponent [base, .token k u, script])
      = .ok [.part ⟨.math, env, lists⟩ base, .text (u ++ t!"("), .part ⟨.math, env, lists⟩ script, .text t!")"] := by
    show Except.ok (if Mode.math = Mode.math then scriptTemplate _ [base, .token k u, script] else _) = _
    rw [if_pos rfl]
    unfold scriptTemplate
    have h1 : [base, .token k u, script].takeWhile (fun c => !isScriptMark c) = [base] := by simp [List.takeWhile, hb, hm]
    have h2 : [base, .token k u, script].dropWhile (fun c => !isScriptMark c) = [.token k u, script] := by simp [List.dropWhile, hb, hm]
    rw [h1, h2]
    have htx : (Elem.token k u).text = u := by
      simp [Elem.text, Elem.leaves]
    simp [hsp, each, htx]
  refine .mk ht ?_
  rw [if_neg (fun h => (by cases h))]
  have := PrintedAll.part (spec := spec) pb (.text (u ++ t!"(") (.part ps (.text t!")" (.nil m2))))
  simpa using this

/-- A braced argument of one word. -/
abbrev braced (w : Text) : Elem :=
  .node .clauseArgument [.node .itemCurly [.token .tokenLBrace t!"{", .node .itemText [.token .tokenWord w], .token .tokenRBrace t!"}"]]

/-- The tree of `\frac{a}{b}`. -/
abbrev fracAB : Elem := .node .itemCmd [.token .clauseCommandName t!"\\frac", braced t!"a", braced t!"b"]

theorem printed_of (spec : CommandSpec) (x : Place) (e : Elem) (s s' : CState) (hx : At x s) (h : convert spec e.depth e s = .ok s')
    (t : Text) (ho : s'.out = s.out ++ t) : Printed spec x e ⟨s.label, s.skip⟩ t ⟨s'.label, s'.skip⟩ := by
  obtain ⟨u, m', h1, h2⟩ := (C61_exact spec e.depth x e s s' (Nat.le_refl _) hx).mp h
  have : s'.out = s.out ++ u := by rw [h2]
  rw [ho] at this
  rw [List.append_cancel_left this]
  rw [h2]
  exact h1

/-- The case is not vacuous: `\frac{a}{b}` is parsed to this tree, all hypotheses of `C61_two_arguments` hold, and the result is the one of
the converter; also a matrix and a figure. -/
example : convertInner 50 defaultSpec t!"\\frac{a}{b}" .math none false = convertTree defaultSpec .math (.node .scopeRoot [fracAB]) := by
  decide +kernel

example : fracAB.cmdName = some ('\\' :: t!"frac") ∧ defaultSpec t!"frac" = some (.cmd ⟨.right (.fixedLen 2), Option.none⟩)
    ∧ Printed defaultSpec ⟨.math, .none, 0⟩ fracAB ⟨Option.none, true⟩ (t!"frac(" ++ t!"a " ++ t!"," ++ t!"b " ++ t!")") ⟨Option.none, false⟩ := by
  refine ⟨by decide +kernel, by decide +kernel, ?_⟩
  have pa := printed_of defaultSpec ⟨.math, .none, 0⟩ (braced t!"a") ⟨.math, .none, 0, Option.none, false, []⟩
    ⟨.math, .none, 0, Option.none, false, t!"a "⟩ ⟨rfl, rfl, rfl⟩ rfl t!"a " rfl
  have pb := printed_of defaultSpec ⟨.math, .none, 0⟩ (braced t!"b") ⟨.math, .none, 0, Option.none, false, []⟩
    ⟨.math, .none, 0, Option.none, false, t!"b "⟩ ⟨rfl, rfl, rfl⟩ rfl t!"b " rfl
  exact C61_two_arguments defaultSpec .none 0 t!"frac" ⟨.right (.fixedLen 2), Option.none⟩ (.token .clauseCommandName t!"\\frac")
    (braced t!"a") (braced t!"b") ⟨Option.none, true⟩ _ _ t!"a " t!"b " rfl (by decide +kernel) (by decide +kernel) rfl (by decide) (by decide) (by decide)
    rfl rfl pa pb

/-- Failures exist: an unknown command is refused with its name (although the first formula is fine), a label without its argument is
a crash. -/
example : ∃ tree, parse 50 ⟨defaultSpec, globPrefix⟩ false t!"$x$ \\nonsense" = .ok tree ∧
    Failed defaultSpec (Place.top .text) tree ⟨none, true⟩ (.error t!"unknown command: \\nonsense") := by
  obtain ⟨tree, ht⟩ := ok_of (r := parse 50 ⟨defaultSpec, globPrefix⟩ false t!"$x$ \\nonsense") (by decide +kernel)
  exact ⟨tree, ht, (C61_document_fails 50 defaultSpec _ .text none false tree ht _).mp (by decide +kernel)⟩

example : ∃ tree, parse 50 ⟨defaultSpec, globPrefix⟩ false t!"a \\label" = .ok tree ∧
    Failed defaultSpec (Place.top .text) tree ⟨none, true⟩ .panic := by
  obtain ⟨tree, ht⟩ := ok_of (r := parse 50 ⟨defaultSpec, globPrefix⟩ false t!"a \\label") (by decide +kernel)
  exact ⟨tree, ht, (C61_document_fails 50 defaultSpec _ .text none false tree ht _).mp (by decide +kernel)⟩

example : convertInner 50 defaultSpec t!"\\begin{pmatrix}a&b\\\\c\\end{pmatrix}" .math none false
    = .ok t!"pmatrix(a zws ,b zws ;c )" := by decide +kernel

end Mitex
