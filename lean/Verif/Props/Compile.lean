/-
C63: what `mitex compile` does to the files, at every point where it may be interrupted.
-/
import Verif.Model.Compile
import Verif.Props.Cli

namespace Mitex

theorem set_self (fs : Fs) (p : Text) (b : List Nat) : fs.set p b p = some b := by simp [Fs.set]

theorem set_other (fs : Fs) (p q : Text) (b : List Nat) (h : q ≠ p) : fs.set p b q = fs q := by simp [Fs.set, h]

theorem mem_writeStates {fs : Fs} {p : Text} {b : List Nat} {n : Nat} {st : Fs} (h : st ∈ writeStates fs p b n) :
    ∃ i, i ≤ n ∧ st = fs.set p (b.take i) := by
  unfold writeStates at h
  rw [List.mem_map] at h
  obtain ⟨i, hi, rfl⟩ := h
  exact ⟨i, by have := List.mem_range.1 hi; omega, rfl⟩

theorem mem_writeFile {os : Os} {fs : Fs} {p : Text} {b : List Nat} {st : Fs} (h : st ∈ (writeFile os fs p b).1) :
    ∃ i, st = fs.set p (b.take i) := by
  unfold writeFile at h
  split at h
  · cases hl : os.limit with
    | none =>
      rw [hl] at h
      obtain ⟨i, -, rfl⟩ := mem_writeStates h
      exact ⟨i, rfl⟩
    | some n =>
      rw [hl] at h
      dsimp only at h
      split at h
      · obtain ⟨i, -, rfl⟩ := mem_writeStates h
        exact ⟨i, rfl⟩
      · obtain ⟨i, -, rfl⟩ := mem_writeStates h
        exact ⟨i, rfl⟩
  · simp at h

section
variable (fuel : Nat) (dflt : CommandSpec) (set : List Text) (utf8 : List Nat → Option Text) (ast : Text → Res Text) (os : Os)
  (fs : Fs) (input output : Text) (isAst : Bool)

/-- The result of the conversion of the text of a file. -/
def ConvertsTo (t out : Text) : Prop := (if isAst then ast t else convertText fuel dflt t (some dflt)) = .ok out

theorem compile_cases :
    (∃ x, compileFile fuel dflt set utf8 ast os fs input output isAst = ([fs], x) ∧ x ≠ .success ∧ x ≠ .writeFailed ∧
      ¬ ∃ bytes t out, fs input = some bytes ∧ utf8 bytes = some t ∧ ConvertsTo fuel dflt ast isAst t out) ∨
    ∃ bytes t out, fs input = some bytes ∧ utf8 bytes = some t ∧ ConvertsTo fuel dflt ast isAst t out ∧
      compileFile fuel dflt set utf8 ast os fs input output isAst =
        (fs :: (writeFile os fs output (Glob.bytes (outputDocument set out))).1, (writeFile os fs output (Glob.bytes (outputDocument set out))).2) := by
  unfold compileFile
  cases hb : fs input with
  | none => exact Or.inl ⟨_, rfl, by simp, by simp, by simp⟩
  | some bytes =>
    dsimp only [Option.bind]
    cases hu : utf8 bytes with
    | none =>
      refine Or.inl ⟨_, rfl, by simp, by simp, ?_⟩
      rintro ⟨_, t, _, h1, h2, _⟩
      cases h1
      rw [hu] at h2
      cases h2
    | some t =>
      have no : ∀ {x}, (if isAst then ast t else convertText fuel dflt t (some dflt)) = .error x →
          ¬ ∃ bs t out, some bytes = some bs ∧ utf8 bs = some t ∧ ConvertsTo fuel dflt ast isAst t out := by
        rintro x hx ⟨_, t', _, h1, h2, h3⟩
        cases h1
        rw [hu] at h2
        cases h2
        unfold ConvertsTo at h3
        rw [hx] at h3
        cases h3
      dsimp only
      cases hc : (if isAst then ast t else convertText fuel dflt t (some dflt)) with
      | error x =>
        cases x with
        | fuel => exact Or.inl ⟨_, rfl, by simp, by simp, no hc⟩
        | panic => exact Or.inl ⟨_, rfl, by simp, by simp, no hc⟩
        | error m => exact Or.inl ⟨_, rfl, by simp, by simp, no hc⟩
      | ok out => exact Or.inr ⟨_, _, out, rfl, hu, hc, rfl⟩

/-- C63: at every point, including crash points, no file but the output file is changed. -/
theorem C63_only_output (st : Fs) (h : st ∈ (compileFile fuel dflt set utf8 ast os fs input output isAst).1) (q : Text) (hq : q ≠ output) :
    st q = fs q := by
  rcases compile_cases fuel dflt set utf8 ast os fs input output isAst with ⟨x, e, -⟩ | ⟨bytes, t, out, -, -, -, e⟩
  · rw [e] at h
    simp only [List.mem_singleton] at h
    rw [h]
  · rw [e] at h
    simp only [List.mem_cons] at h
    rcases h with rfl | h
    · rfl
    · obtain ⟨i, rfl⟩ := mem_writeFile h
      exact set_other fs output q _ hq

/-- C63: an input file that is not the output file is never harmed. -/
theorem C63_input_kept (hne : input ≠ output) (st : Fs) (h : st ∈ (compileFile fuel dflt set utf8 ast os fs input output isAst).1) :
    st input = fs input := C63_only_output fuel dflt set utf8 ast os fs input output isAst st h input hne

/-- C63: at every point the output file has its old contents, or a beginning of the document for the text of the input file. -/
theorem C63_output_prefix (st : Fs) (h : st ∈ (compileFile fuel dflt set utf8 ast os fs input output isAst).1) :
    st output = fs output ∨ ∃ bytes t out b, fs input = some bytes ∧ utf8 bytes = some t ∧ ConvertsTo fuel dflt ast isAst t out ∧
      st output = some b ∧ b <+: Glob.bytes (outputDocument set out) := by
  rcases compile_cases fuel dflt set utf8 ast os fs input output isAst with ⟨x, e, -⟩ | ⟨bytes, t, out, h1, h2, h3, e⟩
  · rw [e] at h
    simp only [List.mem_singleton] at h
    rw [h]
    exact Or.inl rfl
  · rw [e] at h
    simp only [List.mem_cons] at h
    rcases h with rfl | h
    · exact Or.inl rfl
    · obtain ⟨i, rfl⟩ := mem_writeFile h
      exact Or.inr ⟨bytes, t, out, _, h1, h2, h3, set_self _ _ _, List.take_prefix _ _⟩

/-- C63: if reading or converting fails (or the program panics, or has not ended), no file was changed at any point. -/
theorem C63_failure_keeps (hs : (compileFile fuel dflt set utf8 ast os fs input output isAst).2 ≠ .success)
    (hw : (compileFile fuel dflt set utf8 ast os fs input output isAst).2 ≠ .writeFailed) (st : Fs)
    (h : st ∈ (compileFile fuel dflt set utf8 ast os fs input output isAst).1) : st = fs := by
  rcases compile_cases fuel dflt set utf8 ast os fs input output isAst with ⟨x, e, -⟩ | ⟨bytes, t, out, h1, h2, h3, e⟩
  · rw [e] at h
    simpa using h
  · exfalso
    rw [e] at hs hw
    unfold writeFile at hs hw
    split at hs
    · cases hl : os.limit with
      | none => rw [hl] at hs; exact hs rfl
      | some n =>
        rename_i ho
        rw [hl] at hs
        rw [if_pos ho, hl] at hw
        dsimp only at hs hw
        split at hs
        · rename_i hn
          rw [if_pos hn] at hw
          exact hw rfl
        · exact hs rfl
    · rename_i ho
      rw [if_neg ho] at hw
      exact hw rfl

/-- C63: if the process ends successfully, the input was converted, and in the end the output file contains exactly the document. -/
theorem C63_success (hs : (compileFile fuel dflt set utf8 ast os fs input output isAst).2 = .success) :
    ∃ bytes t out, fs input = some bytes ∧ utf8 bytes = some t ∧ ConvertsTo fuel dflt ast isAst t out ∧
      (compileFile fuel dflt set utf8 ast os fs input output isAst).1.getLast? = some (fs.set output (Glob.bytes (outputDocument set out))) := by
  rcases compile_cases fuel dflt set utf8 ast os fs input output isAst with ⟨x, e, hx, -⟩ | ⟨bytes, t, out, h1, h2, h3, e⟩
  · rw [e] at hs
    exact absurd hs hx
  · refine ⟨bytes, t, out, h1, h2, h3, ?_⟩
    rw [e] at hs ⊢
    dsimp only at hs ⊢
    obtain ⟨b, hb⟩ : ∃ b, b = Glob.bytes (outputDocument set out) := ⟨_, rfl⟩
    rw [← hb] at hs ⊢
    have last : (fs :: writeStates fs output b b.length).getLast? = some (fs.set output b) := by
      unfold writeStates
      rw [List.range_succ, List.map_append, ← List.cons_append, List.map_singleton, List.getLast?_concat, List.take_length]
    unfold writeFile at hs ⊢
    split at hs
    · rename_i ho
      rw [if_pos ho]
      cases hl : os.limit with
      | none => exact last
      | some n =>
        rw [hl] at hs
        dsimp only at hs ⊢
        split at hs
        · cases hs
        · rename_i hn
          rw [if_neg hn]
          exact last
    · cases hs

/-- C63: and it does end successfully if the input can be read and converted, and the output written. -/
theorem C63_succeeds (bytes : List Nat) (t out : Text) (h1 : fs input = some bytes) (h2 : utf8 bytes = some t)
    (h3 : ConvertsTo fuel dflt ast isAst t out) (h4 : os.opens output = true) (h5 : os.limit = none) :
    (compileFile fuel dflt set utf8 ast os fs input output isAst).2 = .success := by
  rcases compile_cases fuel dflt set utf8 ast os fs input output isAst with ⟨x, -, -, -, hn⟩ | ⟨_, _, _, -, -, -, e⟩
  · exact absurd ⟨bytes, t, out, h1, h2, h3⟩ hn
  · rw [e]
    dsimp only
    unfold writeFile
    rw [if_pos h4, h5]

/-- C63: once the input is read and converted, what happens depends on the device only.  If the output can be opened and the document fits,
the process succeeds; if it fits only in part, exactly that part is left in the output file and the process reports it; if the output cannot
be opened, no file is changed. -/
theorem C63_written (bytes : List Nat) (t out : Text) (h1 : fs input = some bytes) (h2 : utf8 bytes = some t)
    (h3 : ConvertsTo fuel dflt ast isAst t out) :
    (os.opens output = false →
      compileFile fuel dflt set utf8 ast os fs input output isAst = ([fs], .writeFailed)) ∧
    (os.opens output = true → (∀ n, os.limit = some n → (Glob.bytes (outputDocument set out)).length ≤ n) →
      (compileFile fuel dflt set utf8 ast os fs input output isAst).2 = .success) ∧
    ∀ n, os.opens output = true → os.limit = some n → n < (Glob.bytes (outputDocument set out)).length →
      (compileFile fuel dflt set utf8 ast os fs input output isAst).2 = .writeFailed ∧
      (compileFile fuel dflt set utf8 ast os fs input output isAst).1.getLast? =
        some (fs.set output ((Glob.bytes (outputDocument set out)).take n)) := by
  rcases compile_cases fuel dflt set utf8 ast os fs input output isAst with ⟨x, -, -, -, hn⟩ | ⟨b', t', out', g1, g2, g3, e⟩
  · exact absurd ⟨bytes, t, out, h1, h2, h3⟩ hn
  · rw [h1] at g1
    cases g1
    rw [h2] at g2
    cases g2
    unfold ConvertsTo at h3 g3
    rw [h3] at g3
    cases g3
    obtain ⟨b, hb⟩ : ∃ b, b = Glob.bytes (outputDocument set out) := ⟨_, rfl⟩
    rw [e, ← hb]
    refine ⟨fun ho => ?_, fun ho hl => ?_, fun n ho hl hlt => ?_⟩
    · unfold writeFile
      rw [if_neg (by simp [ho])]
    · unfold writeFile
      rw [if_pos ho]
      cases hlim : os.limit with
      | none => rfl
      | some n =>
        dsimp only
        rw [if_neg (Nat.not_lt.2 (hl n hlim))]
    · unfold writeFile
      rw [if_pos ho, hl]
      dsimp only
      rw [if_pos hlt]
      refine ⟨rfl, ?_⟩
      dsimp only
      unfold writeStates
      rw [List.range_succ, List.map_append, ← List.cons_append, List.map_singleton, List.getLast?_concat]

/-- C63, the defect: without an explicit output (C54), compiling `dir/stem.tex` overwrites the source.  Whenever it is converted, there is a point
at which the source is empty; in the end it contains the generated document. -/
theorem C63_source_lost (dir stem : Text) (hdir : dir = [] ∨ dir.getLast? = some '/') (hs : stem ≠ []) (hs' : '/' ∉ stem)
    (bytes : List Nat) (t out : Text) (h1 : fs (dir ++ stem ++ ".tex".toList) = some bytes) (h2 : utf8 bytes = some t)
    (h3 : ConvertsTo fuel dflt ast isAst t out) (h4 : os.opens (dir ++ stem ++ ".tex".toList) = true) (h5 : os.limit = none) :
    ∃ a, processOpts ⟨dir ++ stem ++ ".tex".toList, [], []⟩ = .ok a ∧
      (∃ st ∈ (compileFile fuel dflt set utf8 ast os fs a.input a.output isAst).1, st (dir ++ stem ++ ".tex".toList) = some []) ∧
      ∃ st, (compileFile fuel dflt set utf8 ast os fs a.input a.output isAst).1.getLast? = some st ∧
        st (dir ++ stem ++ ".tex".toList) = some (Glob.bytes (outputDocument set out)) := by
  refine ⟨_, C54_replaces dir stem "tex".toList hdir hs hs' (by decide) (by decide) (by decide), ?_⟩
  show (∃ st ∈ (compileFile fuel dflt set utf8 ast os fs (dir ++ stem ++ ".tex".toList) (dir ++ stem ++ ".tex".toList) isAst).1, _) ∧
    ∃ st, (compileFile fuel dflt set utf8 ast os fs (dir ++ stem ++ ".tex".toList) (dir ++ stem ++ ".tex".toList) isAst).1.getLast? = some st ∧ _
  obtain ⟨p, hp⟩ : ∃ p, p = dir ++ stem ++ ".tex".toList := ⟨_, rfl⟩
  rw [← hp] at h1 h4 ⊢
  constructor
  · rcases compile_cases fuel dflt set utf8 ast os fs p p isAst with ⟨x, -, -, -, hn⟩ | ⟨_, _, out', -, -, -, e⟩
    · exact absurd ⟨bytes, t, out, h1, h2, h3⟩ hn
    · refine ⟨fs.set p [], ?_, set_self _ _ _⟩
      rw [e]
      dsimp only
      unfold writeFile
      rw [if_pos h4, h5]
      refine List.mem_cons_of_mem _ ?_
      unfold writeStates
      exact List.mem_map.2 ⟨0, by simp, rfl⟩
  · obtain ⟨bytes', t', out', g1, g2, g3, g4⟩ := C63_success fuel dflt set utf8 ast os fs p p isAst
      (C63_succeeds fuel dflt set utf8 ast os fs p p isAst bytes t out h1 h2 h3 h4 h5)
    refine ⟨_, g4, ?_⟩
    rw [h1] at g1
    cases g1
    rw [h2] at g2
    cases g2
    unfold ConvertsTo at h3 g3
    rw [h3] at g3
    cases g3
    exact set_self _ _ _

end

/-- A run in which the process crashes while writing: the source is not harmed, the output is incomplete. -/
example : ∃ st ∈ (compileFile 9 (fun _ => none) [] (fun _ => some "a".toList) (fun _ => .ok "t".toList) ⟨fun _ => true, some 3⟩
      (fun p => if p = "a.tex".toList then some [97] else none) "a.tex".toList "a.typ".toList true).1,
    st "a.tex".toList = some [97] ∧ st "a.typ".toList = some [10, 35] :=
  ⟨_, List.mem_cons_of_mem _ (List.mem_map.2 ⟨2, by decide, rfl⟩), by decide +kernel, by decide +kernel⟩

end Mitex
