/-
C38, C41, C42, C48, C58: what a successful conversion says about every converted part of a document.
-/
import Verif.Proof.ConvParts
import Verif.Props.Convert

namespace Mitex

theorem at_top (m : Mode) : At (Place.top m) (CState.new m) := ⟨rfl, rfl, rfl⟩

theorem convertTree_ok {spec : CommandSpec} {m : Mode} {e : Elem} {out : Text} (h : convertTree spec m e = .ok out) :
    ∃ s, convert spec e.depth e (CState.new m) = .ok s ∧ s.out = out := by
  unfold convertTree at h
  cases hc : convert spec e.depth e (CState.new m) with
  | error x => rw [hc] at h; cases h
  | ok s => rw [hc] at h; cases h; exact ⟨s, rfl, rfl⟩

/-- Everything converted in a document was converted in its place, in some state whose output is kept. -/
theorem tree_converted {spec : CommandSpec} {m : Mode} {e : Elem} {out : Text} (h : convertTree spec m e = .ok out)
    {y : Place} {c : Elem} (hc : Converted spec (Place.top m) e y c) :
    ∃ n s1 s2, At y s1 ∧ convert spec n c s1 = .ok s2 ∧ s2.out <+: out := by
  obtain ⟨s, hs, rfl⟩ := convertTree_ok h
  obtain ⟨k, hk, s1, s2, h1, h2, _, h4⟩ := convert_converted spec hc _ _ _ (Nat.le_refl _) (at_top m) hs
  exact ⟨k, s1, s2, h1, h2, h4⟩

/-! ### C41, C42 -/

/-- C41: if a document is converted, every converted command and environment is known to the specification (six
commands are built in). -/
theorem C41_known (spec : CommandSpec) (m : Mode) (e : Elem) (out : Text) (h : convertTree spec m e = .ok out)
    (y : Place) (c : Elem) (hc : Converted spec (Place.top m) e y c) :
    (c.kind = .itemCmd → ∃ full, c.cmdName = some full ∧
      (isLeafCommand full.tail ∨ isColorCommand full.tail ∨ ∃ sh, spec full.tail = some (.cmd sh))) ∧
    (c.kind = .tokenCommandSym → ∃ t sh, c = .token .tokenCommandSym t ∧ spec t.tail = some (.cmd sh)) ∧
    (c.kind = .itemEnv → ∃ n sh, c.envName = some n ∧ spec (trim n) = some (.env sh)) := by
  obtain ⟨n, s1, s2, h1, h2, _⟩ := tree_converted h hc
  obtain ⟨_, f2, f3, f4⟩ := convert_fine spec n c s1 s2 h1 h2
  refine ⟨fun hk => ?_, f2, f4⟩
  obtain ⟨full, hf, hn, _⟩ := f3 hk
  exact ⟨full, hf, hn⟩

theorem dropOne_back (name : Text) : dropOne ('\\' :: name) = .ok name := by
  cases name <;> rfl

/-- C41: converting a command that is neither built in nor in the specification fails, and the message has its name. -/
theorem C41_unknown_command (spec : CommandSpec) (n : Nat) (cs : List Elem) (s : CState) (name : Text)
    (hn : (Elem.node .itemCmd cs).cmdName = some ('\\' :: name)) (h1 : ¬ isLeafCommand name) (h2 : ¬ isColorCommand name)
    (h3 : ∀ sh, spec name ≠ some (.cmd sh)) :
    convert spec (n + 1) (.node .itemCmd cs) s = .error (.error (t!"unknown command: \\" ++ name)) := by
  show convCmd (convert spec n) spec (.node .itemCmd cs) { s with skip := false } = _
  have hname : cmdNameOf (.node .itemCmd cs) = .ok ('\\' :: name) := by
    unfold cmdNameOf
    simp only [hn]
  have hget : getCmd spec name = none := by
    unfold getCmd
    split
    · rename_i sh h; exact absurd h (h3 sh)
    · rfl
  unfold convCmd
  rw [hname, ok_bind, dropOne_back, ok_bind, if_neg fun h => h1 (Or.inl h), if_neg fun h => h1 (Or.inr (Or.inl h)),
    if_neg fun h => h1 (Or.inr (Or.inr h)), if_neg (show ¬ (_ ∨ _ ∨ _) from h2)]
  unfold convNormal
  rw [hname, ok_bind, dropOne_back, ok_bind]
  simp only [hget]
  rfl

/-- C41: the same for a command that is used as a delimiter of `\left` or `\right`. -/
theorem C41_unknown_symbol (spec : CommandSpec) (n : Nat) (s : CState) (name : Text) (h3 : ∀ sh, spec name ≠ some (.cmd sh)) :
    convert spec (n + 1) (.token .tokenCommandSym ('\\' :: name)) s =
      .error (.error (t!"unknown command: \\" ++ name)) := by
  show convCommandSym spec (.token .tokenCommandSym ('\\' :: name)) { s with skip := false } = _
  have hget : getCmd spec name = none := by
    unfold getCmd
    split
    · rename_i sh h; exact absurd h (h3 sh)
    · rfl
  unfold convCommandSym
  rw [show asToken (.token .tokenCommandSym ('\\' :: name)) = .ok ('\\' :: name) from rfl, ok_bind, dropOne_back, ok_bind]
  simp only [hget]
  rfl

/-- C41: converting an unknown environment fails, and the message has its name. -/
theorem C41_unknown_environment (spec : CommandSpec) (n : Nat) (cs : List Elem) (s : CState) (name : Text)
    (hn : (Elem.node .itemEnv cs).envName = some name) (h3 : ∀ sh, spec (trim name) ≠ some (.env sh)) :
    convert spec (n + 1) (.node .itemEnv cs) s = .error (.error (t!"unknown environment: \\" ++ trim name)) := by
  show convEnv (convert spec n) spec (.node .itemEnv cs) { s with skip := false } = _
  have hget : getEnv spec (trim name) = none := by
    unfold getEnv
    split
    · rename_i sh h; exact absurd h (h3 sh)
    · rfl
  unfold convEnv
  simp only [hn, hget]
  rfl

/-- C42: if a document is converted, no converted part of it is an error element. -/
theorem C42_no_error (spec : CommandSpec) (m : Mode) (e : Elem) (out : Text) (h : convertTree spec m e = .ok out)
    (y : Place) (c : Elem) (hc : Converted spec (Place.top m) e y c) : c.kind ≠ .tokenError := by
  obtain ⟨n, s1, s2, h1, h2, _⟩ := tree_converted h hc
  exact (convert_fine spec n c s1 s2 h1 h2).1

/-- C42: converting an error element fails. -/
theorem C42_reported (spec : CommandSpec) (n : Nat) (s : CState) (e : Elem) (h : e.kind = .tokenError) :
    ∃ msg, convert spec (n + 1) e s = .error (.error msg) := by
  refine ⟨t!"error unexpected: " ++ debugText e.text, ?_⟩
  show convKind spec (convert spec n) e _ = _
  unfold convKind
  rw [h]
  rfl

/-! ### A document for the examples -/

/-- `\begin{itemize}\item \begin{enumerate}\item $\frac ab$\end{enumerate}\end{itemize}`, with a comment. -/
def sampleInner : Elem := .node .itemEnv [
  .node .itemBegin [.token .tokenCommandSym t!"enumerate"],
  .node .itemCmd [.token .clauseCommandName t!"\\item"],
  .token .tokenWhiteSpace [' '],
  .node .itemFormula [.token .tokenDollar ['$'],
    .node .itemCmd [.token .clauseCommandName t!"\\frac", .node .clauseArgument [.token .tokenWord ['a']],
      .node .clauseArgument [.token .tokenWord ['b']]],
    .token .tokenDollar ['$']],
  .node .itemEnd [.token .tokenCommandSym t!"enumerate"]]

/-- See `sampleInner`. -/
def sampleOuter : Elem := .node .itemEnv [
  .node .itemBegin [.token .tokenCommandSym t!"itemize"],
  .node .itemCmd [.token .clauseCommandName t!"\\item"],
  .token .tokenComment ['%'],
  sampleInner,
  .node .itemEnd [.token .tokenCommandSym t!"itemize"]]

/-- See `sampleInner`. -/
def sampleDoc : Elem := .node .scopeRoot [sampleOuter]

/-- The text written for the sample. -/
theorem sampleDoc_out : convertTree defaultSpec .text sampleDoc =
    .ok t!"\n- \n  +  #math.equation(block: false, $frac(a ,b )$);" := by decide +kernel

theorem parts_env {spec : CommandSpec} {x : Place} {e : Elem} {n : Text} {sh : EnvShape} (hk : e.kind = .itemEnv)
    (hn : e.envName = some n) (hs : getEnv spec (trim n) = some sh) : parts spec x e = envParts x sh e := by
  unfold parts
  rw [hk]
  simp only [hn, hs]

theorem getEnv_itemize : getEnv defaultSpec (trim t!"itemize") = some ⟨.none, .isItemize, Option.none⟩ := by decide +kernel
theorem getEnv_enumerate : getEnv defaultSpec (trim t!"enumerate") = some ⟨.none, .isEnumerate, Option.none⟩ := by decide +kernel

/-- The inner list of the sample is converted inside of the outer one. -/
theorem sample_inner : Converted defaultSpec (Place.top .text) sampleDoc ⟨.text, .itemize, 1⟩ sampleInner := by
  refine .part (y := Place.top .text) (c := sampleOuter) ?_ (.part (y := ⟨.text, .itemize, 1⟩) (c := sampleInner) ?_ (.self _ _))
  · exact List.mem_cons_self
  · rw [parts_env rfl rfl getEnv_itemize]
    simp [envParts, between, sampleOuter, Place.top, Elem.children, Elem.kind, sampleInner]

/-- The inner `\item` and the formula of the sample are converted inside of both lists. -/
theorem sample_item : Converted defaultSpec (Place.top .text) sampleDoc ⟨.text, .enumerate, 2⟩
    (.node .itemCmd [.token .clauseCommandName t!"\\item"]) := by
  refine .part (y := Place.top .text) (c := sampleOuter) ?_ (.part (y := ⟨.text, .itemize, 1⟩) (c := sampleInner) ?_
    (.part (y := ⟨.text, .enumerate, 2⟩) ?_ (.self _ _)))
  · exact List.mem_cons_self
  · rw [parts_env rfl rfl getEnv_itemize]
    simp [envParts, between, sampleOuter, Place.top, Elem.children, Elem.kind, sampleInner]
  · rw [parts_env rfl rfl getEnv_enumerate]
    simp [envParts, between, Elem.children, Elem.kind, sampleInner]

/-- The hypotheses of C41 and C42 are met by the sample and its inner list. -/
example : ∃ n sh, sampleInner.envName = some n ∧ defaultSpec (trim n) = some (.env sh) :=
  (C41_known _ _ _ _ sampleDoc_out _ _ sample_inner).2.2 rfl

example : sampleInner.kind ≠ .tokenError := C42_no_error _ _ _ _ sampleDoc_out _ _ sample_inner

/-- The hypotheses of `C41_unknown_command` and `C41_unknown_environment` are met. -/
example : convert defaultSpec 5 (.node .itemCmd [.token .clauseCommandName t!"\\foo"]) (CState.new .math) =
    .error (.error (t!"unknown command: \\" ++ t!"foo")) :=
  C41_unknown_command defaultSpec 4 _ _ t!"foo" rfl (by decide) (by decide) (by
    have : defaultSpec t!"foo" = none := by decide +kernel
    intro sh h; rw [this] at h; cases h)

example : convert defaultSpec 5 (.node .itemEnv [.node .itemBegin [.token .tokenCommandSym t!" foo"]]) (CState.new .math) =
    .error (.error (t!"unknown environment: \\" ++ trim t!" foo")) :=
  C41_unknown_environment defaultSpec 4 _ _ t!" foo" rfl (by
    have : defaultSpec (trim t!" foo") = none := by decide +kernel
    intro sh h; rw [this] at h; cases h)

/-! ### C58 -/

/-- C58: what a part of a document is translated to, in the place where it stands, is kept in the output.  (The translation of the
part alone is that from an empty output; it may depend on a pending label and on whether a line has just been started.) -/
theorem C58_kept (spec : CommandSpec) (m : Mode) (e : Elem) (out : Text) (h : convertTree spec m e = .ok out)
    (y : Place) (c : Elem) (hc : Converted spec (Place.top m) e y c) :
    ∃ (label : Option Text) (skip : Bool) (s' : CState) (pre post : Text),
      convert spec c.depth c ⟨y.mode, y.env, 2 * y.lists, label, skip, []⟩ = .ok s' ∧ out = pre ++ s'.out ++ post := by
  obtain ⟨s, hs, rfl⟩ := convertTree_ok h
  obtain ⟨k, hk, s1, s2, h1, h2, _, h4⟩ := convert_converted spec hc _ _ _ (Nat.le_refl _) (at_top m) hs
  have hne : convert spec c.depth c s1 = .ok s2 := by
    rw [C49_fuel_irrelevant spec c.depth k c s1 (Nat.le_refl _) hk]
    exact h2
  have hi := C49_output_independent spec c.depth c { s1 with out := [] } (Nat.le_refl _) s1.out
  rw [show ({ ({ s1 with out := [] } : CState) with out := s1.out ++ ({ s1 with out := [] } : CState).out } : CState) = s1 by
    simp, hne] at hi
  cases hc2 : convert spec c.depth c { s1 with out := [] } with
  | error x => rw [hc2] at hi; cases hi
  | ok s' =>
    rw [hc2] at hi
    obtain ⟨post, hp⟩ := h4
    refine ⟨s1.label, s1.skip, s', s1.out, post, ?_, ?_⟩
    · have : (⟨y.mode, y.env, 2 * y.lists, s1.label, s1.skip, []⟩ : CState) = { s1 with out := [] } := by
        rw [← h1.1, ← h1.2.1, ← h1.2.2]
      rw [this]; exact hc2
    · rw [← hp]
      cases hi
      rfl

/-- C58 on the sample: the translation of the inner list is part of the output. -/
example := C58_kept defaultSpec .text sampleDoc _ sampleDoc_out _ _ sample_inner

/-! ### C38 -/

/-- The marker of an item. -/
def marker (env : LEnv) : Text := if env = .itemize then ['-', ' '] else ['+', ' ']

/-- In a list environment there is at least one list around. -/
def Listed (x : Place) : Prop := x.env = .itemize ∨ x.env = .enumerate → 1 ≤ x.lists

theorem argParts_place {x : Place} {sh : CmdShape} {tn : Text} {args : List Elem} {p : Place × Elem}
    (h : p ∈ argParts x sh tn args) : p.1.env = x.env ∧ p.1.lists = x.lists := by
  unfold argParts at h
  split at h
  · cases h
  · split at h
    · cases h
    · obtain ⟨c, hc, rfl⟩ := List.mem_map.mp h
      exact ⟨rfl, rfl⟩
  · split at h
    · obtain ⟨c, hc, rfl⟩ := List.mem_map.mp h
      exact ⟨rfl, rfl⟩
    · obtain ⟨c, hc, rfl⟩ := List.mem_map.mp h
      exact ⟨rfl, rfl⟩

theorem parts_listed {spec : CommandSpec} {x : Place} {e : Elem} {p : Place × Elem} (h : p ∈ parts spec x e) (hx : Listed x) :
    Listed p.1 := by
  have kids : ∀ (y : Place) (es : List Elem), Listed y → p ∈ es.map (fun c => (y, c)) → Listed p.1 := by
    intro y es hy hp
    obtain ⟨c, hc, rfl⟩ := List.mem_map.mp hp
    exact hy
  have other : ∀ (y : Place), y.env ≠ .itemize → y.env ≠ .enumerate → Listed y := by
    intro y h1 h2 h
    rcases h with h | h
    · exact absurd h h1
    · exact absurd h h2
  unfold parts at h
  split at h
  all_goals first
    | exact kids _ _ hx h
    | (refine kids _ _ ?_ h; exact hx)
    | (cases h; done)
    | skip
  · refine kids _ _ ?_ h
    intro hy
    dsimp only at hy ⊢
    split at hy
    · rcases hy with hy | hy <;> cases hy
    · exact hx hy
  · split at h
    · unfold cmdParts at h
      dsimp only at h
      split at h
      · cases h
      · split at h
        · split at h
          · cases h
          · rcases List.mem_cons.mp h with rfl | h
            · exact hx
            · exact kids _ _ hx h
        · split at h
          · rename_i sh _
            have hy : ∀ (m : Mode) (c : Prop) [Decidable c], Listed ⟨m, if c then .subStack else x.env, x.lists⟩ := by
              intro m c _ hy
              dsimp only at hy ⊢
              split at hy
              · rcases hy with hy | hy <;> cases hy
              · exact hx hy
            obtain ⟨h1, h2⟩ := argParts_place h
            intro hp
            rw [h1] at hp
            rw [h2]
            exact hy x.mode _ hp
          · cases h
    · cases h
  · split at h
    · split at h
      · unfold envParts at h
        split at h
        all_goals refine kids _ _ ?_ h
        all_goals first
          | exact fun _ => Nat.le_add_left _ _
          | exact other _ (by simp) (by simp)
      · cases h
    · cases h

theorem converted_listed {spec : CommandSpec} {x y : Place} {e c : Elem} (k : Converted spec x e y c) (hx : Listed x) : Listed y := by
  induction k with
  | self x e => exact hx
  | part hp _ ih => exact ih (parts_listed hp hx)

theorem convCmd_item (C : ConvFn) (spec : CommandSpec) {cs : List Elem} (hn : (Elem.node .itemCmd cs).cmdName = some t!"\\item")
    (s : CState) : convCmd C spec (.node .itemCmd cs) s = convItem s := by
  unfold convCmd
  have hname : cmdNameOf (.node .itemCmd cs) = .ok t!"\\item" := by
    unfold cmdNameOf
    simp only [hn]
  rw [hname]
  rfl

/-- C38: an item `d` lists deep is written as a line break, `2 (d - 1)` spaces and the marker of the innermost list; this never
fails and never panics. -/
theorem C38_item_exact (spec : CommandSpec) (n : Nat) (cs : List Elem) (hn : (Elem.node .itemCmd cs).cmdName = some t!"\\item")
    (x : Place) (s : CState) (hx : At x s) (he : x.env = .itemize ∨ x.env = .enumerate) (hl : 1 ≤ x.lists) :
    convert spec (n + 1) (.node .itemCmd cs) s = .ok { s with
      skip := false, out := s.out ++ ['\n'] ++ List.replicate (2 * (x.lists - 1)) ' ' ++ marker x.env } := by
  show convCmd (convert spec n) spec (.node .itemCmd cs) { s with skip := false } = _
  rw [convCmd_item _ _ hn]
  unfold convItem
  have h1 : CState.isList s.env = true := by rw [hx.2.1]; rcases he with h | h <;> rw [h] <;> rfl
  have h2 := hx.2.2
  simp only [h1, if_true]
  rw [if_neg (by omega), show s.indent - 2 = 2 * (x.lists - 1) by omega, hx.2.1]
  unfold marker
  by_cases hi : x.env = .itemize <;> simp only [hi, CState.write, if_true, if_false]

/-- C38: outside of lists an item is an error. -/
theorem C38_outside (spec : CommandSpec) (n : Nat) (cs : List Elem) (hn : (Elem.node .itemCmd cs).cmdName = some t!"\\item")
    (s : CState) (h1 : s.env ≠ .itemize) (h2 : s.env ≠ .enumerate) :
    convert spec (n + 1) (.node .itemCmd cs) s = .error (.error t!"item command outside of itemize or enumerate") := by
  show convCmd (convert spec n) spec (.node .itemCmd cs) { s with skip := false } = _
  rw [convCmd_item _ _ hn]
  unfold convItem
  have : CState.isList s.env = false := by
    cases h : s.env <;> first | rfl | exact absurd h h1 | exact absurd h h2
  simp only [this, Bool.false_eq_true, if_false]
  rfl

/-- C38: in a converted document every converted item is in a list, and the output has its line break, indentation and marker. -/
theorem C38_items (spec : CommandSpec) (m : Mode) (e : Elem) (out : Text) (h : convertTree spec m e = .ok out)
    (y : Place) (cs : List Elem) (hc : Converted spec (Place.top m) e y (.node .itemCmd cs))
    (hn : (Elem.node .itemCmd cs).cmdName = some t!"\\item") :
    (y.env = .itemize ∨ y.env = .enumerate) ∧ 1 ≤ y.lists ∧
    ∃ pre post, out = pre ++ (['\n'] ++ List.replicate (2 * (y.lists - 1)) ' ' ++ marker y.env) ++ post := by
  obtain ⟨n, s1, s2, h1, h2, h3⟩ := tree_converted h hc
  obtain ⟨_, _, f3, _⟩ := convert_fine spec n _ s1 s2 h1 h2
  obtain ⟨full, hf, _, hi⟩ := f3 rfl
  rw [hn] at hf
  cases hf
  have he := hi rfl
  have hl : 1 ≤ y.lists := converted_listed hc (fun hy => by rcases hy with hy | hy <;> cases hy) he
  refine ⟨he, hl, ?_⟩
  cases n with
  | zero => cases h2
  | succ n =>
    rw [C38_item_exact spec n cs hn y s1 h1 he hl] at h2
    cases h2
    obtain ⟨post, hp⟩ := h3
    exact ⟨s1.out, post, by rw [← hp]; simp only [List.append_assoc]⟩

/-- The inner item of the sample: two lists deep, in an enumeration. -/
example : ∃ pre post, t!"\n- \n  +  #math.equation(block: false, $frac(a ,b )$);" = pre ++ t!"\n  + " ++ post :=
  (C38_items _ _ _ _ sampleDoc_out _ _ sample_item rfl).2.2

/-- C38: a list converts its contents one list deeper and then restores environment and indentation; it never panics itself. -/
theorem C38_list (spec : CommandSpec) (n : Nat) (cs : List Elem) (s : CState) (name : Text) (sh : EnvShape) (env : LEnv)
    (hn : (Elem.node .itemEnv cs).envName = some name) (hs : spec (trim name) = some (.env sh))
    (hc : sh.ctx = .isItemize ∧ env = .itemize ∨ sh.ctx = .isEnumerate ∧ env = .enumerate) :
    convert spec (n + 1) (.node .itemEnv cs) s =
      ((cs.filter fun c => decide (c.kind ≠ .itemBegin ∧ c.kind ≠ .itemEnd)).foldlM (fun s e => convert spec n e s)
        { s with skip := false, env := env, indent := s.indent + 2 }).map fun b =>
          { b with env := s.env, indent := s.indent } := by
  show convEnv (convert spec n) spec (.node .itemEnv cs) { s with skip := false } = _
  have hget : getEnv spec (trim name) = some sh := by unfold getEnv; rw [hs]
  unfold convEnv
  simp only [hn, hget]
  have hk : sh.ctx.env = env ∧ CState.isList env = true := by
    rcases hc with ⟨h1, h2⟩ | ⟨h1, h2⟩ <;> rw [h1, h2] <;> exact ⟨rfl, rfl⟩
  rw [hk.1, if_pos hk.2]
  unfold convListEnv
  rw [envBody_eq, ← convList_fold]
  have he : ({ s with skip := false } : CState).enterEnv env = { s with skip := false, env := env, indent := s.indent + 2 } := by
    unfold CState.enterEnv
    rw [if_pos hk.2]
  rw [he]
  show convList (convert spec n) (between (.node .itemEnv cs)) _ >>= _ = _
  have hb : between (.node .itemEnv cs) = cs.filter fun c => decide (c.kind ≠ .itemBegin ∧ c.kind ≠ .itemEnd) := rfl
  rw [hb]
  cases hr : convList (convert spec n) (cs.filter fun c => decide (c.kind ≠ .itemBegin ∧ c.kind ≠ .itemEnd))
      { s with skip := false, env := env, indent := s.indent + 2 } with
  | error x => rfl
  | ok b =>
    have hf := (convert_framed spec n).list _ _ b hr
    rw [ok_bind]
    unfold CState.exitEnv
    have h1 : b.env = env := hf.2.1
    have h2 : b.indent = s.indent + 2 := hf.2.2.1
    rw [h1, if_pos hk.2, if_pos (by omega)]
    show Except.ok _ = Except.ok _
    rw [show b.indent - 2 = s.indent by omega]

/-- The hypotheses of `C38_list` and `C38_outside` are met. -/
example : (Elem.node .itemEnv [.node .itemBegin [.token .tokenCommandSym t!"itemize"]]).envName = some t!"itemize" ∧
    defaultSpec (trim t!"itemize") = some (.env ⟨.none, .isItemize, Option.none⟩) := ⟨rfl, by decide +kernel⟩

/-! ### C48 -/

/-- A specification with a command that the default one does not have. -/
def fooSpec : CommandSpec := fun n => if n = t!"foo" then some (.cmd ⟨.right .none, Option.none⟩) else Option.none

/-- C48 fails: the command is in the given specification, but it is rejected. -/
theorem C48_custom_rejected : fooSpec t!"foo" = some (.cmd ⟨.right .none, Option.none⟩) ∧
    convertMathNoMacro 50 defaultSpec t!"\\foo" (some fooSpec) = .error (.error t!"unknown command: \\foo") :=
  ⟨by decide +kernel, by decide +kernel⟩

/-- C48 fails for every specification: the given specification is only used for parsing; a command is accepted only if it is built
in or known to the default specification. -/
theorem C48_default_governs (fuel : Nat) (dflt : CommandSpec) (input : Text) (m : Mode) (spec : CommandSpec) (wm : Bool)
    (tree : Elem) (out : Text) (hp : parse fuel ⟨spec, globPrefix⟩ wm input = .ok tree)
    (h : convertInner fuel dflt input m (some spec) wm = .ok out) (y : Place) (cs : List Elem)
    (hc : Converted dflt (Place.top m) tree y (.node .itemCmd cs)) :
    ∃ full, (Elem.node .itemCmd cs).cmdName = some full ∧
      (isLeafCommand full.tail ∨ isColorCommand full.tail ∨ ∃ sh, dflt full.tail = some (.cmd sh)) := by
  unfold convertInner at h
  rw [show ((some spec).getD dflt : CommandSpec) = spec from rfl, hp, ok_bind] at h
  exact (C41_known dflt m tree out h y _ hc).1 rfl

/-- C48, what holds: a symbol of the default specification is accepted, whatever specification is given, and written as its alias
(or name) and a space.  Missing: a symbol that only the given specification has. -/
theorem C48_symbol (spec : CommandSpec) (n : Nat) (s : CState) (name : Text) (al : Option Text)
    (h1 : ¬ isLeafCommand name) (h2 : ¬ isColorCommand name) (h3 : spec name = some (.cmd ⟨.right .none, al⟩))
    (h4 : s.mode = .math) (h5 : al.getD name ≠ t!"substack") :
    convert spec (n + 1) (.node .itemCmd [.token .clauseCommandName ('\\' :: name)]) s =
      .ok { s with skip := false, out := s.out ++ al.getD name ++ [' '] } := by
  show convCmd (convert spec n) spec (.node .itemCmd [.token .clauseCommandName ('\\' :: name)]) { s with skip := false } = _
  have hname : cmdNameOf (.node .itemCmd [.token .clauseCommandName ('\\' :: name)]) = .ok ('\\' :: name) := rfl
  have hget : getCmd spec name = some ⟨.right .none, al⟩ := by unfold getCmd; rw [h3]
  unfold convCmd
  rw [hname, ok_bind, dropOne_back, ok_bind, if_neg fun h => h1 (Or.inl h), if_neg fun h => h1 (Or.inr (Or.inl h)),
    if_neg fun h => h1 (Or.inr (Or.inr h)), if_neg (show ¬ (_ ∨ _ ∨ _) from h2)]
  unfold convNormal
  rw [hname, ok_bind, dropOne_back, ok_bind]
  simp only [hget]
  have ht : typstName s.mode name ⟨.right .none, al⟩ = al.getD name := by
    unfold typstName
    rw [h4]
    simp
  rw [ht, decide_eq_false h5]
  rfl

example : ¬ isLeafCommand t!"alpha" ∧ ¬ isColorCommand t!"alpha" ∧
    defaultSpec t!"alpha" = some (.cmd ⟨.right .none, Option.none⟩) ∧ (Option.none : Option Text).getD t!"alpha" ≠ t!"substack" :=
  ⟨by decide, by decide, by decide +kernel, by decide⟩

end Mitex
