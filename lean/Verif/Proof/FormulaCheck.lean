/-
A checker for the formulas of Spec/Formula.lean, for the examples.
-/
import Verif.Spec.Formula

namespace Mitex
namespace Check

instance (c : Char) : Decidable (WordChar c) := by unfold WordChar; infer_instance
instance (name : Text) : Decidable (Lettered name) := by unfold Lettered; infer_instance

/-- The name of a command: letters, letters with a star, or a single character. -/
def plainName (name : Text) : Bool :=
  (decide (name ≠ [] ∧ Lettered name ∧ name ≠ t!"begin" ∧ name ≠ t!"end" ∧ ∀ p ∈ builtinCommands, p.1 ≠ name) ||
   decide (name.getLast? = some '*' ∧ name.dropLast ≠ [] ∧ Lettered name.dropLast) ||
   match name with
   | [c] => decide (isWs c = false ∧ ¬ NameChar c ∧ c ∉ ['\\', '(', ')', '[', ']'])
   | _ => false) && (defaultMacros name).isNone && decide (name ∉ specialCommands)

theorem plainName_ok {name : Text} (h : plainName name = true) : PlainName name := by
  unfold plainName at h
  simp only [Bool.and_eq_true, Bool.or_eq_true, decide_eq_true_eq] at h
  obtain ⟨⟨h, hm⟩, hs⟩ := h
  refine ⟨?_, Option.isNone_iff_eq_none.mp hm, hs⟩
  rcases h with (h | h) | h
  · exact .inl ⟨h.1, h.2.1, h.2.2.1, h.2.2.2.1, fun b hb => h.2.2.2.2 _ hb rfl⟩
  · refine .inr (.inl ⟨name.dropLast, ?_, h.2⟩)
    obtain ⟨ys, hy⟩ := List.getLast?_eq_some_iff.mp h.1
    subst hy
    simp
  · split at h
    · next c => exact .inr (.inr ⟨c, rfl, of_decide_eq_true h⟩)
    · cases h

def symbol (spec : CommandSpec) (name : Text) : Bool :=
  plainName name && match spec name with
    | some (.cmd sh) => decide (sh.args = .right .none)
    | _ => false

theorem symbol_ok {spec : CommandSpec} {name : Text} (h : symbol spec name = true) : SymbolOk spec name := by
  unfold symbol at h
  rw [Bool.and_eq_true] at h
  refine ⟨plainName_ok h.1, ?_⟩
  have := h.2
  split at this
  · next sh hsh => exact ⟨sh, hsh, of_decide_eq_true this⟩
  · cases this

def kinds : List ArgKind := [.term, .bracket, .paren]

theorem kinds_all (k : ArgKind) : k ∈ kinds := by cases k <;> decide

def takesExactly (p : ArgPattern) : List ArgKind → List ArgKind → Bool
  | before, [] => kinds.all fun k => !Grammar.takes globPrefix p before k
  | before, k :: ks => Grammar.takes globPrefix p before k && takesExactly p (before ++ [k]) ks

theorem takesExactly_ok {p : ArgPattern} : ∀ {ks before : List ArgKind}, takesExactly p before ks = true → TakesExactly p before ks
  | [], before, h => fun k => by
    have := List.all_eq_true.mp h k (kinds_all k)
    simpa using this
  | k :: ks, before, h => by
    rw [takesExactly, Bool.and_eq_true] at h
    exact ⟨h.1, takesExactly_ok h.2⟩

def fits (p : ArgPattern) (args : Arguments) : Bool :=
  decide (p ≠ .none ∧ p ≠ .greedy) && takesExactly p [] args.kinds && decide (.bracket ∈ args.kinds → Grammar.seesGroup p .bracket = true)

theorem fits_ok {p : ArgPattern} {args : Arguments} (h : fits p args = true) : FitsWith p args := by
  unfold fits at h
  simp only [Bool.and_eq_true, decide_eq_true_eq] at h
  exact ⟨h.1.1.1, h.1.1.2, takesExactly_ok h.1.2, h.2⟩

def isBlankPart : Option TextPart → Bool
  | some (.blank _) => true
  | _ => false

def isWordPart : Option TextPart → Bool
  | some (.word _) => true
  | _ => false

def parts : List TextPart → Bool
  | [] => false
  | p :: ps => (match p with
      | .word w => decide (w ≠ [] ∧ ∀ c ∈ w, WordChar c) && !isWordPart ps.head?
      | .comma => true
      | .blank n => decide (0 < n) && !ps.isEmpty && !isBlankPart ps.head?) && (ps.isEmpty || parts ps)

theorem parts_ok : ∀ {ps : List TextPart}, parts ps = true → PartsOk ps
  | [], h => by cases h
  | p :: ps, h => by
    rw [parts.eq_def] at h
    dsimp only at h
    rw [Bool.and_eq_true] at h
    refine ⟨?_, fun hne => ?_⟩
    · have h1 := h.1
      cases p with
      | word w =>
        simp only [Bool.and_eq_true, decide_eq_true_eq, Bool.not_eq_true'] at h1
        refine ⟨h1.1.1, h1.1.2, fun v hv => ?_⟩
        have := h1.2
        rw [hv] at this
        cases this
      | comma => trivial
      | blank n =>
        simp only [Bool.and_eq_true, decide_eq_true_eq, Bool.not_eq_true'] at h1
        refine ⟨h1.1.1, ?_⟩
        cases ps with
        | nil => cases h1.1.2
        | cons q qs =>
          refine ⟨q, rfl, fun k hk => ?_⟩
          subst hk
          cases h1.2
    · rcases Bool.or_eq_true_iff.mp h.2 with h2 | h2
      · exact absurd (List.isEmpty_iff.mp h2) hne
      · exact parts_ok h2

def run (ps : List TextPart) : Bool := parts ps && !isBlankPart ps.head?

theorem run_ok {ps : List TextPart} (h : run ps = true) : RunOk ps := by
  unfold run at h
  rw [Bool.and_eq_true] at h
  refine ⟨parts_ok h.1, fun n hn => ?_⟩
  have := h.2
  rw [hn] at this
  cases this

def delim (spec : CommandSpec) : Delim → Bool
  | .sign c => decide (c ∈ delimSigns)
  | .char c => decide (WordChar c ∧ ¬ NameChar c)
  | .symbol name => symbol spec name

theorem delim_ok {spec : CommandSpec} {d : Delim} (h : delim spec d = true) : d.Ok spec := by
  cases d with
  | sign c => exact of_decide_eq_true (p := c ∈ delimSigns) h
  | char c => exact of_decide_eq_true (p := WordChar c ∧ ¬ NameChar c) h
  | symbol name => exact symbol_ok h

def nameEnds (rest : Text) : Bool :=
  match rest with
  | [] => true
  | c :: _ => decide (¬ NameChar c ∧ c ≠ '*')

theorem nameEnds_ok {rest : Text} (h : nameEnds rest = true) : NameEnds rest := by
  intro c hc
  cases rest with
  | nil => cases hc
  | cons d ds => cases hc; exact of_decide_eq_true h

instance : ∀ s : Script, Decidable s.EndsName
  | .symbol name => inferInstanceAs (Decidable (Lettered name))
  | .braces _ => .isFalse id
  | .char _ => .isFalse id

instance : ∀ s : Delim, Decidable s.EndsName
  | .symbol name => inferInstanceAs (Decidable (Lettered name))
  | .sign _ => .isFalse id
  | .char _ => .isFalse id

instance endsNameArguments : ∀ as : Arguments, Decidable as.EndsName
  | .nil => .isFalse id
  | .cons _ _ as => endsNameArguments as
  | .bare _ as => endsNameArguments as
  | .symbol name .nil => inferInstanceAs (Decidable (Lettered name))
  | .symbol _ (.cons _ _ as) => endsNameArguments as
  | .symbol _ (.bare _ as) => endsNameArguments as
  | .symbol _ (.symbol n as) => endsNameArguments (.symbol n as)
  | .symbol _ (.spaced _ as) => endsNameArguments as
  | .spaced _ as => endsNameArguments as

instance : ∀ a : Atom, Decidable a.EndsName
  | .command _ args => inferInstanceAs (Decidable args.EndsName)
  | .symbol name => inferInstanceAs (Decidable (Lettered name))
  | .postfix _ name => inferInstanceAs (Decidable (Lettered name))
  | .script _ _ s => inferInstanceAs (Decidable s.EndsName)
  | .delimited _ _ r => inferInstanceAs (Decidable r.EndsName)
  | .text _ | .sign _ | .group _ | .textCommand .. | .prime _ | .over .. | .environment .. => .isFalse id

def envName (name : Text) : Bool := decide ((∀ c ∈ name, NameChar c) ∨ (name.getLast? = some '*' ∧ ∀ c ∈ name.dropLast, NameChar c))

theorem envName_ok {name : Text} (h : envName name = true) : EnvName name := by
  rcases of_decide_eq_true h with h | h
  · exact ⟨name, h, .inl rfl⟩
  · obtain ⟨ys, rfl⟩ := List.getLast?_eq_some_iff.mp h.1
    exact ⟨ys, by simpa using h.2, .inr rfl⟩

mutual
def atom (spec : CommandSpec) : Atom → Bool
  | .text ps => run ps
  | .sign c => decide (c ∈ signs)
  | .symbol name => symbol spec name
  | .group f => formula spec f
  | .command name args => plainName name && arguments spec args && decide (args.kinds ≠ [] ∧ (aliasOf spec name).head? ≠ some '#') &&
    (decide (¬ Lettered name) || nameEnds args.latex) &&
    match spec name with
    | some (.cmd sh) => match sh.args with
      | .right p => fits p args
      | _ => false
    | _ => false
  | .textCommand name ps => plainName name && run ps && decide ((aliasOf spec name).head? = some '#') &&
    match spec name with
    | some (.cmd sh) => decide (sh.args = .right (.fixedLen 1))
    | _ => false
  | .postfix base name => atom spec base && plainName name && decide (base.isLoose = false ∧ (aliasOf spec name).head? ≠ some '#') &&
    match spec name with
    | some (.cmd sh) => decide (sh.args = .left1)
    | _ => false
  | .prime base => atom spec base && decide (base.isLoose = false)
  | .script base _ s => atom spec base && decide (base.isLoose = false) && script spec s
  | .delimited l f r => delim spec l && formula spec f && delim spec r && (decide (¬ l.EndsName) || nameEnds f.latex)
  | .over l name r => formula spec l && formula spec r && plainName name && decide ((aliasOf spec name).head? ≠ some '#') &&
    (decide (¬ Lettered name) || nameEnds r.latex) &&
    match spec name with
    | some (.cmd sh) => decide (sh.args = .infixGreedy)
    | _ => false
  | .environment name args body => envName name && (defaultMacros name).isNone && (arguments spec args && decide (¬ args.EndsName)) && cells spec body &&
    match spec name with
    | some (.env sh) => decide (sh.ctx = .isMatrix ∨ sh.ctx = .isCases ∨ sh.ctx = .isMath) &&
      if args.kinds = [] then decide (sh.args = .none) else fits sh.args args
    | _ => false
def script (spec : CommandSpec) : Script → Bool
  | .braces f => formula spec f
  | .char c => decide (WordChar c)
  | .symbol name => symbol spec name
def formula (spec : CommandSpec) : Formula → Bool
  | .mk _ as => atoms spec as
def atoms (spec : CommandSpec) : Atoms → Bool
  | .nil => true
  | .cons a sp as => atom spec a && atoms spec as && decide (a.isText = true → as.startsText = false) &&
    (decide (¬ a.EndsName) || nameEnds (spaces sp ++ as.latex))
def arguments (spec : CommandSpec) : Arguments → Bool
  | .nil => true
  | .cons square f as => formula spec f && decide (square = true → f.hasBracket = false) && arguments spec as
  | .bare c as => decide (WordChar c) && arguments spec as
  | .symbol name as => symbol spec name && arguments spec as && (decide (¬ Lettered name) || nameEnds as.latex)
  | .spaced _ as => decide (as.isSpaced = false ∧ as.kinds ≠ []) && arguments spec as
def cells (spec : CommandSpec) : Cells → Bool
  | .last f => formula spec f
  | .cons f _ r => formula spec f && cells spec r
end

theorem ends_ok {p : Prop} [Decidable p] {t : Text} (h : (decide (¬ p) || nameEnds t) = true) (hp : p) : NameEnds t := by
  rcases Bool.or_eq_true_iff.mp h with h | h
  · exact absurd hp (of_decide_eq_true h)
  · exact nameEnds_ok h

mutual
theorem atom_ok {spec : CommandSpec} : ∀ {a : Atom}, atom spec a = true → a.Ok spec
  | .text ps, h => by rw [atom] at h; rw [Atom.Ok]; exact run_ok h
  | .sign c, h => by rw [atom] at h; rw [Atom.Ok]; exact of_decide_eq_true h
  | .symbol name, h => by rw [atom] at h; rw [Atom.Ok]; exact symbol_ok h
  | .group f, h => by rw [atom] at h; rw [Atom.Ok]; exact formula_ok h
  | .command name args, h => by
    rw [atom] at h
    rw [Atom.Ok]
    simp only [Bool.and_eq_true, decide_eq_true_eq] at h
    obtain ⟨⟨⟨⟨h1, h2⟩, h3⟩, h5⟩, h4⟩ := h
    refine ⟨plainName_ok h1, arguments_ok h2, h3.1, ?_, h3.2, ends_ok h5⟩
    split at h4
    · next sh hsh =>
      split at h4
      · next p hp => exact ⟨sh, p, hsh, hp, fits_ok h4⟩
      · cases h4
    · cases h4
  | .textCommand name ps, h => by
    rw [atom] at h
    rw [Atom.Ok]
    simp only [Bool.and_eq_true, decide_eq_true_eq] at h
    obtain ⟨⟨⟨h1, h2⟩, h3⟩, h4⟩ := h
    refine ⟨plainName_ok h1, run_ok h2, ?_, h3⟩
    split at h4
    · next sh hsh => exact ⟨sh, hsh, of_decide_eq_true h4⟩
    · cases h4
  | .postfix base name, h => by
    rw [atom] at h
    rw [Atom.Ok]
    simp only [Bool.and_eq_true, decide_eq_true_eq] at h
    obtain ⟨⟨⟨h1, h2⟩, h3⟩, h4⟩ := h
    refine ⟨atom_ok h1, h3.1, plainName_ok h2, ?_, h3.2⟩
    split at h4
    · next sh hsh => exact ⟨sh, hsh, of_decide_eq_true h4⟩
    · cases h4
  | .prime base, h => by
    rw [atom] at h
    rw [Atom.Ok]
    simp only [Bool.and_eq_true, decide_eq_true_eq] at h
    exact ⟨atom_ok h.1, h.2⟩
  | .script base super s, h => by
    rw [atom] at h
    rw [Atom.Ok]
    simp only [Bool.and_eq_true, decide_eq_true_eq] at h
    exact ⟨atom_ok h.1.1, h.1.2, script_ok h.2⟩
  | .delimited l f r, h => by
    rw [atom] at h
    rw [Atom.Ok]
    rw [Bool.and_eq_true, Bool.and_eq_true, Bool.and_eq_true] at h
    exact ⟨delim_ok h.1.1.1, formula_ok h.1.1.2, delim_ok h.1.2, ends_ok h.2⟩
  | .over l name r, h => by
    rw [atom] at h
    rw [Atom.Ok]
    rw [Bool.and_eq_true, Bool.and_eq_true, Bool.and_eq_true, Bool.and_eq_true, Bool.and_eq_true] at h
    obtain ⟨⟨⟨⟨⟨h1, h2⟩, h3⟩, h4⟩, h5⟩, h6⟩ := h
    refine ⟨formula_ok h1, formula_ok h2, plainName_ok h3, ?_, of_decide_eq_true h4, ends_ok h5⟩
    split at h6
    · next sh hsh => exact ⟨sh, hsh, of_decide_eq_true h6⟩
    · cases h6
  | .environment name args body, h => by
    rw [atom] at h
    rw [Atom.Ok]
    simp only [Bool.and_eq_true] at h
    obtain ⟨⟨⟨⟨h1, h2⟩, h3, h6⟩, h4⟩, h5⟩ := h
    refine ⟨envName_ok h1, Option.isNone_iff_eq_none.mp h2, ⟨arguments_ok h3, of_decide_eq_true h6⟩, cells_ok h4, ?_⟩
    split at h5
    · next sh hsh =>
      rw [Bool.and_eq_true] at h5
      refine ⟨sh, hsh, of_decide_eq_true h5.1, ?_⟩
      have h6 := h5.2
      split at h6
      · next hk => rw [if_pos hk]; exact of_decide_eq_true h6
      · next hk => rw [if_neg hk]; exact fits_ok h6
    · cases h5
theorem script_ok {spec : CommandSpec} : ∀ {s : Script}, script spec s = true → s.Ok spec
  | .braces f, h => by rw [script] at h; rw [Script.Ok]; exact formula_ok h
  | .char c, h => by rw [script] at h; rw [Script.Ok]; exact of_decide_eq_true h
  | .symbol name, h => by rw [script] at h; rw [Script.Ok]; exact symbol_ok h
theorem formula_ok {spec : CommandSpec} : ∀ {f : Formula}, formula spec f = true → f.Ok spec
  | .mk _ as, h => by rw [formula] at h; rw [Formula.Ok]; exact atoms_ok h
theorem atoms_ok {spec : CommandSpec} : ∀ {as : Atoms}, atoms spec as = true → as.Ok spec
  | .nil, _ => by rw [Atoms.Ok]; trivial
  | .cons a sp as, h => by
    rw [atoms, Bool.and_eq_true, Bool.and_eq_true, Bool.and_eq_true] at h
    rw [Atoms.Ok]
    exact ⟨atom_ok h.1.1.1, atoms_ok h.1.1.2, of_decide_eq_true h.1.2, ends_ok h.2⟩
theorem arguments_ok {spec : CommandSpec} : ∀ {as : Arguments}, arguments spec as = true → as.Ok spec
  | .nil, _ => by rw [Arguments.Ok]; trivial
  | .cons square f as, h => by
    rw [arguments, Bool.and_eq_true, Bool.and_eq_true] at h
    rw [Arguments.Ok]
    exact ⟨formula_ok h.1.1, of_decide_eq_true h.1.2, arguments_ok h.2⟩
  | .bare c as, h => by
    rw [arguments, Bool.and_eq_true] at h
    rw [Arguments.Ok]
    exact ⟨of_decide_eq_true h.1, arguments_ok h.2⟩
  | .symbol name as, h => by
    rw [arguments, Bool.and_eq_true, Bool.and_eq_true] at h
    rw [Arguments.Ok]
    exact ⟨symbol_ok h.1.1, arguments_ok h.1.2, ends_ok h.2⟩
  | .spaced n as, h => by
    rw [arguments, Bool.and_eq_true] at h
    rw [Arguments.Ok]
    exact ⟨(of_decide_eq_true h.1).1, (of_decide_eq_true h.1).2, arguments_ok h.2⟩
theorem cells_ok {spec : CommandSpec} : ∀ {r : Cells}, cells spec r = true → r.Ok spec
  | .last f, h => by rw [cells] at h; rw [Cells.Ok]; exact formula_ok h
  | .cons f _ r, h => by
    rw [cells, Bool.and_eq_true] at h
    rw [Cells.Ok]
    exact ⟨formula_ok h.1, cells_ok h.2⟩
end

end Check
end Mitex
