/-
Properties C53-C56: command line and WASM interface.
-/
import Verif.Model.Cli
import Verif.Spec.Path

namespace Mitex

/-! ### C53 CLI argument resolution -/

/-- C53: the arguments are accepted exactly if an input is named and there are no positionals, or
nothing is named and there are one or two positionals, the first not empty. -/
theorem C53_accepts_iff (a : CompileArgs) :
    (∃ r, processOpts a = .ok r) ↔
      (a.input ≠ [] ∧ a.positional = []) ∨
      (a.input = [] ∧ a.output = [] ∧ ∃ i rest, a.positional = i :: rest ∧ i ≠ [] ∧ rest.length ≤ 1) := by
  obtain ⟨i, o, ps⟩ := a
  unfold processOpts resolvePositional
  by_cases hi : i = [] <;> by_cases ho : o = [] <;> rcases ps with _ | ⟨p, _ | ⟨q, _ | ⟨r, ps⟩⟩⟩ <;>
    simp [hi, ho] <;> (try split) <;> (try split) <;> simp_all <;>
    exact ⟨_, _, ⟨rfl, rfl⟩, by assumption, by simp⟩

/-- C53: named and positional arguments are never mixed, and at most two positionals are accepted;
the errors say so. -/
theorem C53_errors (a : CompileArgs) :
    ((a.input ≠ [] ∨ a.output ≠ []) → a.positional ≠ [] → processOpts a = .error .mixed) ∧
    (a.input = [] → a.output = [] → 2 < a.positional.length → processOpts a = .error .tooMany) ∧
    (a.input = [] → a.positional = [] → processOpts a = .error .inputRequired) := by
  obtain ⟨i, o, ps⟩ := a
  unfold processOpts resolvePositional
  refine ⟨?_, ?_, ?_⟩
  · intro h1 h2
    have : ¬ (i = [] ∧ o = []) := by rintro ⟨rfl, rfl⟩; simp at h1
    simp only at h2
    simp [this, h2]
  · rintro rfl rfl h
    rcases ps with _ | ⟨p, _ | ⟨q, _ | ⟨r, ps⟩⟩⟩ <;> simp_all
  · rintro rfl rfl
    by_cases ho : o = [] <;> simp [ho]

/-- C53: explicitly given paths are kept unchanged. -/
theorem C53_keeps_paths (a r : CompileArgs) (h : processOpts a = .ok r) :
    (a.input ≠ [] → r.input = a.input) ∧ (a.output ≠ [] → r.output = a.output) ∧
    (∀ i rest, a.positional = i :: rest → r.input = i) ∧
    (∀ i o, a.positional = [i, o] → o ≠ [] → r.output = o) := by
  obtain ⟨i, o, ps⟩ := a
  unfold processOpts resolvePositional at h
  by_cases hi : i = [] <;> by_cases ho : o = [] <;> rcases ps with _ | ⟨p, _ | ⟨q, _ | ⟨s, ps⟩⟩⟩ <;>
    simp [hi, ho] at h <;> (try split at h) <;> (try split at h) <;> (try (injection h with h)) <;>
    (try subst h) <;> simp_all

example : processOpts ⟨[], [], ["a.tex".toList, "b.typ".toList]⟩
    = .ok ⟨"a.tex".toList, "b.typ".toList, []⟩ := by decide
example : processOpts ⟨[], "b.typ".toList, ["a.tex".toList]⟩ = .error .mixed := by decide

/-! ### C54 The default output

The property as documented ("Output to file, default to entry file name with `.typ` extension") is
false of the code, which asks for the extension `tex`. -/

theorem withExtension_file (dir stem ext e : Text) (hdir : dir = [] ∨ dir.getLast? = some '/')
    (hs : stem ≠ []) (hs' : '/' ∉ stem) (he : ext ≠ []) (he' : '/' ∉ ext) (hd : '.' ∉ ext) :
    withExtension (dir ++ stem ++ '.' :: ext) e = dir ++ stem ++ '.' :: e := by
  have hstrip : stripTrailRev (dir ++ stem ++ '.' :: ext).reverse = (dir ++ stem ++ '.' :: ext).reverse := by
    rw [List.reverse_append, List.reverse_cons]
    cases hr : ext.reverse with
    | nil => simp at hr; exact absurd hr he
    | cons c cs =>
      have hc : c ∈ ext := by rw [← List.mem_reverse, hr]; simp
      have h1 : c ≠ '/' := fun h => he' (h ▸ hc)
      have h2 : c ≠ '.' := fun h => hd (h ▸ hc)
      simp only [List.cons_append]
      unfold stripTrailRev
      split
      · rename_i h; injection h with h _; exact absurd h h1
      · rename_i h; injection h with h _; exact absurd h h2
      · rfl
  have hrev : (dir ++ stem ++ '.' :: ext).reverse = (stem ++ '.' :: ext).reverse ++ dir.reverse := by
    simp
  have hall : ∀ c ∈ (stem ++ '.' :: ext).reverse, decide (c ≠ '/') = true := by
    intro c hc
    simp only [List.mem_reverse, List.mem_append, List.mem_cons] at hc
    rcases hc with h | h | h
    · exact decide_eq_true fun hc => hs' (hc ▸ h)
    · subst h; decide
    · exact decide_eq_true fun hc => he' (hc ▸ h)
  have hdirw : (dir.reverse.takeWhile fun c => decide (c ≠ '/')) = [] ∧
      (dir.reverse.dropWhile fun c => decide (c ≠ '/')) = dir.reverse := by
    rcases hdir with h | h
    · subst h; simp
    · cases hr : dir.reverse with
      | nil => simp
      | cons c cs =>
        have : dir.reverse.head? = some '/' := by rw [List.head?_reverse]; exact h
        rw [hr] at this
        simp at this
        subst this
        simp
  unfold withExtension splitFileName
  rw [hstrip, hrev]
  simp only
  rw [List.takeWhile_append_of_pos hall, List.dropWhile_append_of_pos hall, hdirw.1, hdirw.2]
  simp only [List.append_nil, List.reverse_reverse]
  have hlen : 2 < (stem ++ '.' :: ext).length := by
    have := List.length_pos_iff.mpr hs
    have := List.length_pos_iff.mpr he
    simp; omega
  have hno : ¬ (stem ++ '.' :: ext = [] ∨ stem ++ '.' :: ext = ['.'] ∨ stem ++ '.' :: ext = ['.', '.']) := by
    rintro (h | h | h) <;> rw [h] at hlen <;> simp at hlen
  rw [if_neg hno]
  have hstem : fileStem (stem ++ '.' :: ext) = stem := by
    unfold fileStem
    have hx : ∀ c ∈ ext.reverse, decide (c ≠ '.') = true := by
      intro c hc
      exact decide_eq_true fun h => hd (h ▸ List.mem_reverse.mp hc)
    have : ((stem ++ '.' :: ext).reverse.dropWhile fun c => decide (c ≠ '.')) = '.' :: stem.reverse := by
      simp only [List.reverse_append, List.reverse_cons, List.append_assoc]
      rw [List.dropWhile_append_of_pos hx]
      simp
    rw [this]
    simp [hs]
  simp [hstem]

theorem strip_trailing {tail : Text} (h : TrailingSep tail) : ∀ r, stripTrailRev (tail.reverse ++ r) = stripTrailRev r := by
  induction h with
  | nil => intro r; rfl
  | sep _ ih => intro r; rw [List.reverse_cons, List.append_assoc, ih]; simp [stripTrailRev]
  | dot _ ih => intro r; rw [List.reverse_cons, List.reverse_cons, List.append_assoc, List.append_assoc, ih]; simp [stripTrailRev]

theorem TrailingSep.append {a b : Text} (ha : TrailingSep a) (hb : TrailingSep b) : TrailingSep (a ++ b) := by
  induction ha with
  | nil => exact hb
  | sep _ ih => exact .sep ih
  | dot _ ih => exact .dot ih

theorem strip_split (r : Text) : ∃ tail, r.reverse = (stripTrailRev r).reverse ++ tail ∧ TrailingSep tail := by
  induction r using stripTrailRev.induct with
  | case1 r ih =>
    obtain ⟨tail, h, ht⟩ := ih
    refine ⟨tail ++ ['/'], ?_, ht.append (.sep .nil)⟩
    rw [stripTrailRev, List.reverse_cons, h, List.append_assoc]
  | case2 r ih =>
    obtain ⟨tail, h, ht⟩ := ih
    refine ⟨tail ++ ['/', '.'], ?_, ht.append (.dot .nil)⟩
    rw [stripTrailRev, List.reverse_cons, List.reverse_cons, h]; simp
  | case3 r h1 h2 =>
    refine ⟨[], ?_, .nil⟩
    rw [stripTrailRev.eq_3 r h1 h2]; simp

theorem strip_file {dir file : Text} (hs : '/' ∉ file) (hne : file ≠ []) (hd : file ≠ ['.']) :
    stripTrailRev (dir ++ file).reverse = (dir ++ file).reverse := by
  rw [List.reverse_append]
  have hmem : ∀ c ∈ file.reverse, c ≠ '/' := fun c hc h => hs (h ▸ List.mem_reverse.mp hc)
  cases hr : file.reverse with
  | nil => simp at hr; exact absurd hr hne
  | cons c cs =>
    have hc : c ≠ '/' := hmem c (by rw [hr]; simp)
    cases cs with
    | nil =>
      have hf : file = [c] := by rw [← List.reverse_reverse file, hr]; rfl
      have hc2 : c ≠ '.' := by rintro rfl; exact hd hf
      exact stripTrailRev.eq_3 _ (fun r h => by injection h with h _; exact hc h) (fun r h => by injection h with h _; exact hc2 h)
    | cons d ds =>
      have hd : d ≠ '/' := hmem d (by rw [hr]; simp)
      exact stripTrailRev.eq_3 _ (fun r h => by injection h with h _; exact hc h)
        (fun r h => by injection h with _ h; injection h with h _; exact hd h)

theorem dir_split {dir : Text} (hdir : dir = [] ∨ dir.getLast? = some '/') :
    (dir.reverse.takeWhile fun c => decide (c ≠ '/')) = [] ∧ (dir.reverse.dropWhile fun c => decide (c ≠ '/')) = dir.reverse := by
  rcases hdir with h | h
  · subst h; simp
  · cases hr : dir.reverse with
    | nil => simp
    | cons c cs =>
      have : dir.reverse.head? = some '/' := by rw [List.head?_reverse]; exact h
      rw [hr] at this
      simp at this
      subst this
      simp

/-- `splitFileName` finds the file name of a path, if it has one. -/
theorem splitFileName_iff (p dir file : Text) : splitFileName p = some (dir, file) ↔ NamesFile p dir file := by
  constructor
  · intro h
    unfold splitFileName at h
    simp only at h
    split at h
    · cases h
    · rename_i hn
      simp only [not_or] at hn
      injection h with h
      injection h with h1 h2
      obtain ⟨tail, ht, htt⟩ := strip_split p.reverse
      rw [List.reverse_reverse] at ht
      have happ : (stripTrailRev p.reverse).reverse = dir ++ file := by
        rw [← h1, ← h2, ← List.reverse_append, List.takeWhile_append_dropWhile]
      rw [h2] at hn
      refine ⟨tail, by rw [ht, happ], htt, ?_, ?_, hn.1, hn.2.1, hn.2.2⟩
      · rw [← h1]
        cases hq : (stripTrailRev p.reverse).dropWhile fun c => decide (c ≠ '/') with
        | nil => exact .inl rfl
        | cons c cs =>
          have := List.head?_dropWhile_not (fun c => decide (c ≠ '/')) (stripTrailRev p.reverse)
          rw [hq] at this
          have hc : c = '/' := by simpa using this
          subst hc
          right; simp
      · rw [← h2, List.mem_reverse]
        intro hm
        have := List.all_eq_true.mp List.all_takeWhile _ hm
        simp at this
  · rintro ⟨tail, rfl, ht, hdir, hs, hne, hd, hdd⟩
    unfold splitFileName
    rw [List.reverse_append, strip_trailing ht, strip_file hs hne hd, List.reverse_append]
    have hall : ∀ c ∈ file.reverse, decide (c ≠ '/') = true := by
      intro c hc
      exact decide_eq_true fun h => hs (h ▸ List.mem_reverse.mp hc)
    simp only
    rw [List.takeWhile_append_of_pos hall, List.dropWhile_append_of_pos hall, (dir_split hdir).1, (dir_split hdir).2]
    simp only [List.append_nil, List.reverse_reverse]
    rw [if_neg]
    simp only [not_or]
    exact ⟨hne, hd, hdd⟩

theorem fileStem_iff (file ext out : Text) : WithExtension file ext out ↔ out = fileStem file ++ '.' :: ext := by
  have split : ∀ stem e, HasExtension file stem e → fileStem file = stem := by
    rintro stem e ⟨rfl, hs, hd⟩
    unfold fileStem
    have hx : ∀ c ∈ e.reverse, decide (c ≠ '.') = true := by
      intro c hc
      exact decide_eq_true fun h => hd (h ▸ List.mem_reverse.mp hc)
    have : ((stem ++ '.' :: e).reverse.dropWhile fun c => decide (c ≠ '.')) = '.' :: stem.reverse := by
      simp only [List.reverse_append, List.reverse_cons, List.append_assoc]
      rw [List.dropWhile_append_of_pos hx]
      simp
    rw [this]
    simp [hs]
  have whole : (¬ ∃ stem e, HasExtension file stem e) → fileStem file = file := by
    intro hno
    unfold fileStem
    simp only
    split
    · rfl
    · rename_i hne
      refine absurd ⟨_, (file.reverse.takeWhile fun c => decide (c ≠ '.')).reverse, ?_, hne, ?_⟩ hno
      · cases hq : file.reverse.dropWhile fun c => decide (c ≠ '.') with
        | nil => rw [hq] at hne; simp at hne
        | cons c cs =>
          have := List.head?_dropWhile_not (fun c => decide (c ≠ '.')) file.reverse
          rw [hq] at this
          have hc : c = '.' := by simpa using this
          subst hc
          have h := List.takeWhile_append_dropWhile (p := fun c => decide (c ≠ '.')) (l := file.reverse)
          rw [hq] at h
          have h2 := congrArg List.reverse h
          rw [List.reverse_reverse] at h2
          refine h2.symm.trans ?_
          simp
      · rw [List.mem_reverse]
        intro hm
        have := List.all_eq_true.mp List.all_takeWhile _ hm
        simp at this
  constructor
  · rintro (⟨stem, e, h, rfl⟩ | ⟨h, rfl⟩)
    · rw [split stem e h]
    · rw [whole h]
  · rintro rfl
    by_cases h : ∃ stem e, HasExtension file stem e
    · obtain ⟨stem, e, h⟩ := h
      exact .inl ⟨stem, e, h, by rw [split stem e h]⟩
    · exact .inr ⟨h, by rw [whole h]⟩

theorem withExtension_iff (p ext o : Text) : withExtension p ext = o ↔
    (∃ dir file out, NamesFile p dir file ∧ WithExtension file ext out ∧ o = dir ++ out) ∨
    ((¬ ∃ dir file, NamesFile p dir file) ∧ o = p) := by
  have hw : withExtension p ext = match splitFileName p with
    | none => p | some (dir, file) => dir ++ (fileStem file ++ '.' :: ext) := by
    unfold withExtension
    cases splitFileName p with
    | none => rfl
    | some d => simp
  rw [hw]
  constructor
  · rintro rfl
    cases h : splitFileName p with
    | none =>
      refine .inr ⟨?_, rfl⟩
      rintro ⟨dir, file, hn⟩
      rw [(splitFileName_iff p dir file).2 hn] at h; cases h
    | some d =>
      exact .inl ⟨d.1, d.2, _, (splitFileName_iff p d.1 d.2).1 h, (fileStem_iff _ _ _).2 rfl, rfl⟩
  · rintro (⟨dir, file, out, h1, h2, rfl⟩ | ⟨h, rfl⟩)
    · rw [(splitFileName_iff _ _ _).2 h1, (fileStem_iff _ _ _).1 h2]
    · cases h' : splitFileName o with
      | none => rfl
      | some d => exact absurd ⟨d.1, d.2, (splitFileName_iff o d.1 d.2).1 h'⟩ h

/-- **C54.** Without explicit output, the output is the input path with the extension `tex` (not the documented `typ`) replacing that of
the file name or added to it, and trailing separators dropped; a path without a file name (`/`, `..`, `a/..`) is kept. -/
theorem C54_default_output (p o : Text) (hp : p ≠ []) : processOpts ⟨p, [], []⟩ = .ok ⟨p, o, []⟩ ↔
    (∃ dir file out, NamesFile p dir file ∧ WithExtension file t!"tex" out ∧ o = dir ++ out) ∨
    ((¬ ∃ dir file, NamesFile p dir file) ∧ o = p) := by
  rw [← withExtension_iff p t!"tex" o]
  unfold processOpts resolvePositional
  simp [hp]

/-- **C54.** The default output is the input file itself exactly if the input path ends in a file name with the extension `tex`, or has
no file name at all. -/
theorem C54_clobbers_exactly (p : Text) (hp : p ≠ []) : processOpts ⟨p, [], []⟩ = .ok ⟨p, p, []⟩ ↔
    (∃ dir stem, p = dir ++ stem ++ t!".tex" ∧ (dir = [] ∨ dir.getLast? = some '/') ∧ stem ≠ [] ∧ '/' ∉ stem) ∨
    ¬ ∃ dir file, NamesFile p dir file := by
  rw [C54_default_output p p hp]
  constructor
  · rintro (⟨dir, file, out, ⟨tail, hpe, ht, hdir, hs, hne, h1, h2⟩, hw, ho⟩ | ⟨h, _⟩)
    · refine .inl ?_
      rw [List.append_assoc] at hpe
      have hfo : file ++ tail = out := List.append_cancel_left (hpe.symm.trans ho)
      rcases hw with ⟨stem, e, ⟨rfl, hst, hd⟩, rfl⟩ | ⟨hno, rfl⟩
      · refine ⟨dir, stem, ?_, hdir, hst, fun h => hs (List.mem_append_left _ h)⟩
        rw [ho]; simp
      · have htail : tail = t!".tex" := List.append_cancel_left hfo
        subst htail
        cases ht
    · exact .inr h
  · rintro (⟨dir, stem, rfl, hdir, hst, hs⟩ | h)
    · refine .inl ⟨dir, stem ++ t!".tex", stem ++ t!".tex", ⟨[], by simp, .nil, hdir, ?_, by simp, ?_, ?_⟩, ?_, by simp⟩
      · simp only [List.mem_append, not_or]; exact ⟨hs, by decide⟩
      · intro h; have := congrArg List.length h; simp at this
      · intro h; have := congrArg List.length h; simp at this
      · exact .inl ⟨stem, t!"tex", ⟨rfl, hst, by decide⟩, rfl⟩
    · exact .inr ⟨h, rfl⟩

example : NamesFile t!"a/b.c/./" t!"a/" t!"b.c" ∧ WithExtension t!"b.c" t!"tex" t!"b.tex" ∧
    processOpts ⟨t!"a/b.c/./", [], []⟩ = .ok ⟨t!"a/b.c/./", t!"a/b.tex", []⟩ :=
  ⟨⟨t!"/./", rfl, .dot (.sep .nil), .inr rfl, by decide, by decide, by decide, by decide⟩,
    .inl ⟨t!"b", t!"c", ⟨rfl, by decide, by decide⟩, rfl⟩, by decide⟩
example : ¬ ∃ dir file, NamesFile t!"a/.." dir file := by
  rintro ⟨dir, file, h⟩
  rw [← splitFileName_iff, show splitFileName t!"a/.." = none by decide] at h
  cases h

/-- C54 (what is true): without explicit output the directory and the stem of the input are kept and
the extension is replaced — but by `tex` instead of the documented `typ`. -/
theorem C54_replaces (dir stem ext : Text) (hdir : dir = [] ∨ dir.getLast? = some '/')
    (hs : stem ≠ []) (hs' : '/' ∉ stem) (he : ext ≠ []) (he' : '/' ∉ ext) (hd : '.' ∉ ext) :
    processOpts ⟨dir ++ stem ++ '.' :: ext, [], []⟩
      = .ok ⟨dir ++ stem ++ '.' :: ext, dir ++ stem ++ ".tex".toList, []⟩ := by
  have hne : dir ++ stem ++ '.' :: ext ≠ [] := by simp
  unfold processOpts resolvePositional
  simp only [hne, false_and, if_false, ne_eq, not_true_eq_false]
  rw [withExtension_file dir stem ext _ hdir hs hs' he he' hd]
  simp

theorem withExtension_plain (dir file ext : Text) (hdir : dir = [] ∨ dir.getLast? = some '/') (hne : file ≠ []) (hs : '/' ∉ file)
    (hd : '.' ∉ file.drop 1) (hn : file ≠ ['.']) : withExtension (dir ++ file) ext = dir ++ file ++ '.' :: ext := by
  have hlast : ∃ c cs, file.reverse = c :: cs ∧ c ≠ '/' ∧ c ≠ '.' := by
    cases hr : file.reverse with
    | nil => simp at hr; exact absurd hr hne
    | cons c cs =>
      have hc : c ∈ file := by rw [← List.mem_reverse, hr]; simp
      refine ⟨c, cs, rfl, fun h => hs (h ▸ hc), ?_⟩
      have hf : file = cs.reverse ++ [c] := by rw [← List.reverse_reverse file, hr]; simp
      rintro rfl
      cases hcs : cs.reverse with
      | nil => rw [hcs] at hf; exact hn hf
      | cons d ds => rw [hf, hcs] at hd; simp at hd
  obtain ⟨c, cs, hrf, h1, h2⟩ := hlast
  have hstrip : stripTrailRev (dir ++ file).reverse = (dir ++ file).reverse := by
    rw [List.reverse_append, hrf]
    simp only [List.cons_append]
    unfold stripTrailRev
    split
    · rename_i h; injection h with h _; exact absurd h h1
    · rename_i h; injection h with h _; exact absurd h h2
    · rfl
  have hall : ∀ c ∈ file.reverse, decide (c ≠ '/') = true := by
    intro c hc
    exact decide_eq_true fun h => hs (h ▸ List.mem_reverse.mp hc)
  have hdirw : (dir.reverse.takeWhile fun c => decide (c ≠ '/')) = [] ∧
      (dir.reverse.dropWhile fun c => decide (c ≠ '/')) = dir.reverse := by
    rcases hdir with h | h
    · subst h; simp
    · cases hr : dir.reverse with
      | nil => simp
      | cons c cs =>
        have : dir.reverse.head? = some '/' := by rw [List.head?_reverse]; exact h
        rw [hr] at this
        simp at this
        subst this
        simp
  unfold withExtension splitFileName
  rw [hstrip, List.reverse_append]
  simp only
  rw [List.takeWhile_append_of_pos hall, List.dropWhile_append_of_pos hall, hdirw.1, hdirw.2]
  simp only [List.append_nil, List.reverse_reverse]
  have hno : ¬ (file = [] ∨ file = ['.'] ∨ file = ['.', '.']) := by
    rintro (h | h | h)
    · exact hne h
    · exact hn h
    · rw [h] at hd; simp at hd
  rw [if_neg hno]
  have hstem : fileStem file = file := by
    unfold fileStem
    have : ((file.reverse.dropWhile fun c => decide (c ≠ '.')).drop 1) = [] := by
      cases hf : file with
      | nil => simp
      | cons d ds =>
        have hds : ∀ c ∈ ds.reverse, decide (c ≠ '.') = true := by
          intro c hc
          rw [hf] at hd
          exact decide_eq_true fun h => hd (h ▸ by simpa using hc)
        rw [List.reverse_cons, List.dropWhile_append_of_pos hds]
        by_cases hd : d = '.' <;> simp [hd]
    simp only [this, List.reverse_nil, if_true]
  simp [hstem]

/-- C54: without explicit output and without an extension (also for names that only start with a dot, as `.tex`), the extension is
added to the name of the input. -/
theorem C54_no_extension (dir file : Text) (hdir : dir = [] ∨ dir.getLast? = some '/') (hne : file ≠ []) (hs : '/' ∉ file)
    (hd : '.' ∉ file.drop 1) (hn : file ≠ ['.']) :
    processOpts ⟨dir ++ file, [], []⟩ = .ok ⟨dir ++ file, dir ++ file ++ ".tex".toList, []⟩ := by
  have hne : dir ++ file ≠ [] := by simp [hne]
  unfold processOpts resolvePositional
  simp only [hne, false_and, if_false, ne_eq, not_true_eq_false]
  rw [withExtension_plain dir file _ hdir (by assumption) hs hd hn]
  simp

example : processOpts ⟨"a/.tex".toList, [], []⟩ = .ok ⟨"a/.tex".toList, "a/.tex.tex".toList, []⟩ :=
  C54_no_extension "a/".toList ".tex".toList (Or.inr (by decide)) (by decide) (by decide) (by decide) (by decide)

/-- C54 is violated for *every* input file with extension `tex`: the default output is the input
itself, so `mitex compile main.tex` overwrites its input. -/
theorem C54_clobbers_tex (dir stem : Text) (hdir : dir = [] ∨ dir.getLast? = some '/')
    (hs : stem ≠ []) (hs' : '/' ∉ stem) :
    ∃ r, processOpts ⟨dir ++ stem ++ ".tex".toList, [], []⟩ = .ok r ∧ r.output = r.input := by
  refine ⟨_, C54_replaces dir stem "tex".toList hdir hs hs' (by decide) (by decide)
    (by decide), rfl⟩

/-- C54 as documented is false. -/
theorem C54_negation : ¬ ∀ stem : Text, stem ≠ [] → '/' ∉ stem → '.' ∉ stem →
    ∃ r, processOpts ⟨stem ++ ".tex".toList, [], []⟩ = .ok r ∧ r.output = stem ++ ".typ".toList := by
  intro h
  obtain ⟨r, h1, h2⟩ := h "main".toList (by decide) (by decide) (by decide)
  have : processOpts ⟨"main".toList ++ ".tex".toList, [], []⟩
      = .ok ⟨"main.tex".toList, "main.tex".toList, []⟩ := by decide
  rw [this] at h1
  injection h1 with h1
  subst h1
  exact absurd h2 (by decide)

/-! ### C55 The generated prelude -/

theorem textLe_total (a b : Text) : (textLe a b || textLe b a) = true := by
  induction a generalizing b with
  | nil => simp [textLe]
  | cons x xs ih =>
    cases b with
    | nil => simp [textLe]
    | cons y ys =>
      unfold textLe
      by_cases h : x.toNat < y.toNat
      · simp [h]
      · by_cases h' : x = y
        · subst h'; simpa using ih ys
        · have hne : x.toNat ≠ y.toNat := fun hc => h' (Char.toNat_inj.mp hc)
          have : y.toNat < x.toNat := by omega
          simp [this]

theorem textLe_antisymm (a b : Text) (h1 : textLe a b = true) (h2 : textLe b a = true) : a = b := by
  induction a generalizing b with
  | nil => cases b with
    | nil => rfl
    | cons y ys => simp [textLe] at h2
  | cons x xs ih =>
    cases b with
    | nil => simp [textLe] at h1
    | cons y ys =>
      unfold textLe at h1 h2
      by_cases h : x.toNat < y.toNat
      · have hn : ¬ y.toNat < x.toNat := by omega
        have hne : ¬ y = x := by rintro rfl; omega
        simp [hn, hne] at h2
      · by_cases h' : x = y
        · subst h'
          simp only [Nat.lt_irrefl, if_false] at h1 h2
          rw [ih ys h1 h2]
        · simp [h, h'] at h1

theorem textLe_trans (a b c : Text) (h1 : textLe a b = true) (h2 : textLe b c = true) :
    textLe a c = true := by
  induction a generalizing b c with
  | nil => rfl
  | cons x xs ih =>
    cases b with
    | nil => simp [textLe] at h1
    | cons y ys =>
      cases c with
      | nil => simp [textLe] at h2
      | cons z zs =>
        unfold textLe at h1 h2 ⊢
        by_cases h : x.toNat < y.toNat
        · by_cases h' : y.toNat < z.toNat
          · rw [if_pos (by omega)]
          · by_cases hyz : y = z
            · subst hyz; rw [if_pos h]
            · simp [h', hyz] at h2
        · by_cases hxy : x = y
          · subst hxy
            simp only [Nat.lt_irrefl, if_false] at h1
            by_cases h' : x.toNat < z.toNat
            · rw [if_pos h']
            · by_cases hyz : x = z
              · subst hyz
                simp only [Nat.lt_irrefl, if_false] at h2 ⊢
                exact ih ys zs h1 h2
              · simp [h', hyz] at h2
          · simp [h, hxy] at h1

/-- The alias of a command or of an environment. -/
inductive HasAlias : SpecItem → Text → Prop
  | command (sh : CmdShape) (al : Text) (h : sh.alias = some al) : HasAlias (.cmd sh) al
  | environment (sh : EnvShape) (al : Text) (h : sh.alias = some al) : HasAlias (.env sh) al

/-- ASCII letters and digits, by their code points. -/
def LetterOrDigit (c : Char) : Prop :=
  (0x41 ≤ c.toNat ∧ c.toNat ≤ 0x5A) ∨ (0x61 ≤ c.toNat ∧ c.toNat ≤ 0x7A) ∨ (0x30 ≤ c.toNat ∧ c.toNat ≤ 0x39)

/-- The names that get a binding in the prelude: non-empty alphanumeric aliases of the spec that are
not Typst keywords. -/
def Bindable (items : List (Text × SpecItem)) (al : Text) : Prop :=
  (∃ n it, (n, it) ∈ items ∧ HasAlias it al) ∧
  al ≠ [] ∧ (∀ c ∈ al, LetterOrDigit c) ∧
  al ∉ ["and".toList, "or".toList, "in".toList, "not".toList]

theorem hasAlias_iff (it : SpecItem) (al : Text) : HasAlias it al ↔ it.aliasName = some al := by
  constructor
  · rintro (⟨sh, al, h⟩ | ⟨sh, al, h⟩) <;> exact h
  · cases it with
    | cmd sh => exact fun h => .command sh al h
    | env sh => exact fun h => .environment sh al h

theorem letterOrDigit_iff (c : Char) : LetterOrDigit c ↔ isAsciiAlnum c = true := by
  unfold LetterOrDigit isAsciiAlnum isAsciiAlpha isAsciiDigit
  simp only [Bool.or_eq_true, Bool.and_eq_true, decide_eq_true_eq]
  omega

theorem joinLines_eq (ls : List Text) : joinLines ls = ['\n'].intercalate ls := by
  induction ls with
  | nil => rfl
  | cons l ls ih =>
    cases ls with
    | nil => simp [joinLines, List.intercalate]
    | cons m ls =>
      rw [joinLines, ih]
      · simp [List.intercalate, List.intersperse]
      · simp

def BindableM (items : List (Text × SpecItem)) (al : Text) : Prop :=
  (∃ n it, (n, it) ∈ items ∧ it.aliasName = some al) ∧
  al ≠ [] ∧ (∀ c ∈ al, isAsciiAlnum c = true) ∧
  al ∉ ["and".toList, "or".toList, "in".toList, "not".toList]

theorem bindable_iff (items : List (Text × SpecItem)) (al : Text) : BindableM items al ↔ Bindable items al := by
  unfold BindableM Bindable
  simp only [hasAlias_iff, letterOrDigit_iff]

theorem collectAliases_spec (items : List (Text × SpecItem)) (acc : List Text) (hacc : acc.Nodup) :
    (collectAliases items acc).Nodup ∧
    ∀ al, al ∈ collectAliases items acc ↔ al ∈ acc ∨ BindableM items al := by
  induction items generalizing acc with
  | nil => exact ⟨hacc, fun al => by simp [collectAliases, BindableM]⟩
  | cons e items ih =>
    obtain ⟨n, it⟩ := e
    have skip : (∀ al, it.aliasName = some al → BindableM ((n, it) :: items) al → al ∈ acc) →
        ∀ al, (al ∈ acc ∨ BindableM items al) ↔ (al ∈ acc ∨ BindableM ((n, it) :: items) al) := by
      intro hk al
      constructor
      · rintro (h | ⟨⟨m, i, hm, hi⟩, h2⟩)
        · exact .inl h
        · exact .inr ⟨⟨m, i, List.mem_cons_of_mem _ hm, hi⟩, h2⟩
      · rintro (h | h)
        · exact .inl h
        · obtain ⟨⟨m, i, hm, hi⟩, h2⟩ := h
          rcases List.mem_cons.mp hm with heq | hm
          · injection heq with h3 h4
            subst h3 h4
            exact .inl (hk al hi ⟨⟨m, i, List.mem_cons_self, hi⟩, h2⟩)
          · exact .inr ⟨⟨m, i, hm, hi⟩, h2⟩
    unfold collectAliases
    cases hal : it.aliasName with
    | none =>
      obtain ⟨h1, h2⟩ := ih acc hacc
      refine ⟨h1, fun al => (h2 al).trans (skip (fun al h => by simp [hal] at h) al)⟩
    | some a =>
      simp only
      split
      · rename_i hbad
        obtain ⟨h1, h2⟩ := ih acc hacc
        refine ⟨h1, fun al => (h2 al).trans (skip (fun al h hb => ?_) al)⟩
        rw [hal] at h; injection h with h; subst h
        obtain ⟨_, hne, hall, _⟩ := hb
        simp only [Bool.or_eq_true, List.isEmpty_iff, Bool.not_eq_true', List.all_eq_false] at hbad
        rcases hbad with hbad | ⟨c, hc, hbad⟩
        · exact absurd hbad hne
        · exact absurd (hall c hc) hbad
      · rename_i hgood
        split
        · rename_i hin
          obtain ⟨h1, h2⟩ := ih acc hacc
          refine ⟨h1, fun al => (h2 al).trans (skip (fun al h hb => ?_) al)⟩
          rw [hal] at h; injection h with h; subst h
          simp only [Bool.or_eq_true, List.contains_iff_mem] at hin
          rcases hin with hin | hin
          · exact absurd hin hb.2.2.2
          · exact hin
        · rename_i hin
          simp only [Bool.or_eq_true, List.contains_iff_mem, not_or] at hin
          obtain ⟨h1, h2⟩ := ih (a :: acc) (List.nodup_cons.mpr ⟨hin.2, hacc⟩)
          refine ⟨h1, fun al => (h2 al).trans ?_⟩
          simp only [Bool.or_eq_true, List.isEmpty_iff, Bool.not_eq_true', List.all_eq_false,
            not_or, not_exists, not_and] at hgood
          have hba : BindableM ((n, it) :: items) a :=
            ⟨⟨n, it, List.mem_cons_self, hal⟩, hgood.1, fun c hc => by
              have := hgood.2 c hc; simpa using this, hin.1⟩
          constructor
          · rintro (h | ⟨⟨m, i, hm, hi⟩, h3⟩)
            · rcases List.mem_cons.mp h with rfl | h
              · exact .inr hba
              · exact .inl h
            · exact .inr ⟨⟨m, i, List.mem_cons_of_mem _ hm, hi⟩, h3⟩
          · rintro (h | ⟨⟨m, i, hm, hi⟩, h3⟩)
            · exact .inl (List.mem_cons_of_mem _ h)
            · rcases List.mem_cons.mp hm with heq | hm
              · injection heq with h4 h5
                subst h4 h5
                rw [hal] at hi; injection hi with hi
                exact .inl (hi ▸ List.mem_cons_self)
              · exact .inr ⟨⟨m, i, hm, hi⟩, h3⟩

theorem textLe_lt {a b : Text} (h : textLe a b = true) (hne : a ≠ b) : a < b := by
  induction a generalizing b with
  | nil =>
    cases b with
    | nil => exact absurd rfl hne
    | cons c cs => exact List.nil_lt_cons c cs
  | cons x xs ih =>
    cases b with
    | nil => simp [textLe] at h
    | cons y ys =>
      rw [textLe] at h
      rw [List.cons_lt_cons_iff]
      by_cases h1 : x.toNat < y.toNat
      · exact Or.inl h1
      · rw [if_neg h1] at h
        by_cases h2 : x = y
        · rw [if_pos h2] at h
          exact Or.inr ⟨h2, ih h (fun e => hne (by rw [h2, e]))⟩
        · rw [if_neg h2] at h
          cases h

/-- C55: for every iteration order `set` of the alias set, the prelude consists of one line per name,
the names being exactly the bindable aliases, in strictly ascending (lexicographic) order, so each once. -/
theorem C55_prelude (items : List (Text × SpecItem)) (set : List Text)
    (hset : set.Perm (collectAliases items [])) :
    ∃ names : List Text, preludeOf set = ['\n'].intercalate
        (names.map fun al => "#let ".toList ++ al ++ " = mitex-scope.at(\"".toList ++ al ++ "\", default: none);".toList) ∧
      names.Pairwise (· < ·) ∧ ∀ al, al ∈ names ↔ Bindable items al := by
  have hspec := collectAliases_spec items [] List.nodup_nil
  have hp := List.mergeSort_perm set textLe
  refine ⟨set.mergeSort textLe, joinLines_eq _, ?_, ?_⟩
  · have h1 : (set.mergeSort textLe).Nodup := hp.symm.nodup (hset.symm.nodup hspec.1)
    have h2 := List.pairwise_mergeSort textLe_trans textLe_total set
    exact (h1.and h2).imp (fun h => textLe_lt h.2 h.1)
  · intro al
    rw [hp.mem_iff, hset.mem_iff, hspec.2, bindable_iff]
    simp

/-- C55: the written document is the import of the package, the prelude (one line per bindable alias, sorted), an empty line, and then
the converted text. -/
theorem C55_document (items : List (Text × SpecItem)) (set : List Text) (hset : set.Perm (collectAliases items [])) (output : Text) :
    ∃ names : List Text, outputDocument set output = "\n#import \"@preview/mitex:0.2.7\": *\n".toList ++
        ['\n'].intercalate (names.map fun al => "#let ".toList ++ al ++ " = mitex-scope.at(\"".toList ++ al ++ "\", default: none);".toList) ++
        '\n' :: '\n' :: output ∧
      names.Pairwise (· < ·) ∧ ∀ al, al ∈ names ↔ Bindable items al := by
  obtain ⟨names, h1, h2⟩ := C55_prelude items set hset
  refine ⟨names, ?_, h2⟩
  unfold outputDocument
  rw [h1, List.append_assoc _ "\n\n".toList output]
  rfl

/-- C55: the written document depends on neither the iteration order of the specification nor that of
the alias set. -/
theorem C55_order_independent (items items' : List (Text × SpecItem)) (set set' : List Text)
    (hitems : items.Perm items') (hset : set.Perm (collectAliases items []))
    (hset' : set'.Perm (collectAliases items' [])) (output : Text) :
    outputDocument set output = outputDocument set' output := by
  have h1 := collectAliases_spec items [] List.nodup_nil
  have h2 := collectAliases_spec items' [] List.nodup_nil
  have hb : ∀ al, BindableM items al ↔ BindableM items' al := by
    intro al; unfold BindableM; simp only [hitems.mem_iff]
  have hperm : (collectAliases items []).Perm (collectAliases items' []) := by
    rw [List.perm_ext_iff_of_nodup h1.1 h2.1]
    intro al; rw [h1.2, h2.2, hb]
  have hss : (set.mergeSort textLe).Perm (set'.mergeSort textLe) :=
    (List.mergeSort_perm set textLe).trans
      ((hset.trans (hperm.trans hset'.symm)).trans (List.mergeSort_perm set' textLe).symm)
  have : set.mergeSort textLe = set'.mergeSort textLe := by
    apply hss.eq_of_pairwise
    · intro a b _ _ ha hb; exact textLe_antisymm a b ha hb
    · exact List.pairwise_mergeSort textLe_trans textLe_total set
    · exact List.pairwise_mergeSort textLe_trans textLe_total set'
  unfold outputDocument preludeOf
  rw [this]

example : Bindable [("over".toList, .cmd ⟨.infixGreedy, some "frac".toList⟩)] "frac".toList :=
  ⟨⟨_, _, List.mem_cons_self, .command _ _ rfl⟩, by decide, by unfold LetterOrDigit; decide, by decide⟩

/-- An alias with a digit, of an environment. -/
example : Bindable [("it".toList, .env ⟨.none, .isItemize, some "it2".toList⟩)] "it2".toList :=
  ⟨⟨_, _, List.mem_cons_self, .environment _ _ rfl⟩, by decide, by unfold LetterOrDigit; decide, by decide⟩

/-! ### C56 An empty WASM spec means the default spec -/

/-- C56: with an empty spec argument the WASM functions are the library functions with no spec given,
which in turn parse with the default spec. `decode` and `utf8` stand for rkyv and
`str::from_utf8`. -/
theorem C56_empty_spec (decode : List Nat → CommandSpec) (utf8 : List Nat → Except Text Text)
    (fuel : Nat) (dflt : CommandSpec) (input : List Nat) (t : Text) (h : utf8 input = .ok t) :
    wasmConvert decode utf8 (convertMath fuel dflt) input [] = convertMath fuel dflt t (some dflt) ∧
    wasmConvert decode utf8 (convertText fuel dflt) input [] = convertText fuel dflt t (some dflt) := by
  unfold wasmConvert
  simp [h, extractSpec, convertMath, convertText, convertInner]

/-- C56: a non-empty spec argument is decoded and used. -/
theorem C56_given_spec (decode : List Nat → CommandSpec) (utf8 : List Nat → Except Text Text)
    (conv : Text → Option CommandSpec → Res Text) (input spec : List Nat) (t : Text)
    (h : utf8 input = .ok t) (hs : spec ≠ []) :
    wasmConvert decode utf8 conv input spec = conv t (some (decode spec)) := by
  unfold wasmConvert extractSpec
  cases spec with
  | nil => exact absurd rfl hs
  | cons b bs => simp [h]

/-- C56: invalid UTF-8 is an error, never a result and never a panic. -/
theorem C56_invalid_utf8 (decode : List Nat → CommandSpec) (utf8 : List Nat → Except Text Text)
    (conv : Text → Option CommandSpec → Res Text) (input spec : List Nat) (msg : Text)
    (h : utf8 input = .error msg) :
    wasmConvert decode utf8 conv input spec = .error (.error msg) := by
  unfold wasmConvert; rw [h]

end Mitex
