/-
The output is well nested: lemmas about texts and pieces of templates.
-/
import Verif.Spec.Nesting
import Verif.Spec.Words
import Verif.Proof.Template
import Verif.Proof.ParserBase

namespace Mitex

/-! ### Texts -/

/-- Nothing is escaped or quoted; in text mode no dollar sign is open. -/
def Clear (m : Mode) (st : List Char) : Prop :=
  st.head? ≠ some '\\' ∧ st.head? ≠ some '"' ∧ (m = .text → st.head? ≠ some '$' ∧ st.head? ≠ some 'F')

theorem Clear.math {m : Mode} {st : List Char} (h : Clear m st) : Clear .math st := ⟨h.1, h.2.1, fun h => (by cases h)⟩
theorem Clear.paren (m : Mode) (st : List Char) : Clear m (')' :: st) := ⟨by simp, by simp, fun _ => ⟨by simp, by simp⟩⟩
theorem Clear.bracket (m : Mode) (st : List Char) : Clear m (']' :: st) := ⟨by simp, by simp, fun _ => ⟨by simp, by simp⟩⟩
theorem Clear.dollar (st : List Char) : Clear .math ('$' :: st) := ⟨by simp, by simp, fun h => (by cases h)⟩

theorem nest_append (st : List Char) (a b : Text) : nest st (a ++ b) = (nest st a).bind fun st => nest st b := by
  unfold nest; rw [List.foldlM_append]; rfl

theorem nest_nil (st : List Char) : nest st [] = some st := rfl

theorem nest_cons (st : List Char) (c : Char) (t : Text) : nest st (c :: t) = (nestStep st c).bind fun st => nest st t := by
  unfold nest; rw [List.foldlM_cons]; rfl

theorem nest_step {st st1 st2 : List Char} {a b : Text} (h : nest st a = some st1) (k : nest st1 b = some st2) : nest st (a ++ b) = some st2 := by
  rw [nest_append, h]; exact k

theorem nestStep_clear {st : List Char} {m : Mode} (h : Clear m st) (c : Char) : nestStep st c =
    if c = '\\' then some ('\\' :: st)
    else if c = '"' then some ('"' :: st)
    else if c = '(' then some (')' :: st)
    else if c = '[' then some (']' :: st)
    else if c = '$' then (if st.head? = some '$' then some st.tail else if st.head? = some 'F' then none else some ('$' :: st))
    else if c = ')' ∨ c = ']' then (if st.head? = some c then some st.tail else none)
    else some st := by
  cases st with
  | nil => rfl
  | cons d st =>
    have h1 : d ≠ '\\' := by simpa using h.1
    have h2 : d ≠ '"' := by simpa using h.2.1
    unfold nestStep
    split
    · rename_i he; cases he; exact absurd rfl h1
    · rename_i he; cases he; exact absurd rfl h2
    · rfl

theorem nest_without {m : Mode} {st : List Char} (h : Clear m st) : ∀ {t : Text}, Without ('\\' :: marks) t → nest st t = some st
  | [], _ => rfl
  | c :: t, hw => by
    have hc := hw c List.mem_cons_self
    simp only [marks, List.mem_cons, List.not_mem_nil, or_false, not_or] at hc
    rw [nest_cons, nestStep_clear h]
    simp only [hc, if_false, or_self]
    exact nest_without h fun d hd => hw d (List.mem_cons_of_mem _ hd)

theorem neutral_without {t : Text} (h : Without ('\\' :: marks) t) : Neutral t :=
  fun _ h1 h2 => nest_without (m := .math) ⟨h1, h2, fun h => (by cases h)⟩ h

theorem Neutral.nest {t : Text} (h : Neutral t) {m : Mode} {st : List Char} (hc : Clear m st) : nest st t = some st := h st hc.1 hc.2.1

theorem Neutral.append {a b : Text} (ha : Neutral a) (hb : Neutral b) : Neutral (a ++ b) := fun st h1 h2 => nest_step (ha st h1 h2) (hb st h1 h2)

/-! A check for given texts: the marks that are open are known to be `a`, on top of others; `d` says that a dollar sign may be opened on
top of the others. -/

def nestInStep (d : Bool) (a : List Char) (c : Char) : Option (List Char) :=
  if a = [] then
    if c = '$' then (if d then some ['$'] else none)
    else if c = ')' ∨ c = ']' then none
    else nestStep [] c
  else nestStep a c

def nestIn (d : Bool) (a : List Char) (t : Text) : Option (List Char) := t.foldlM (nestInStep d) a

theorem nestInStep_sound {d : Bool} {a b : List Char} {c : Char} {m : Mode} {st : List Char} (hc : Clear m st) (hd : d = true → m = .text)
    (h : nestInStep d a c = some b) : nestStep (a ++ st) c = some (b ++ st) := by
  cases a with
  | nil =>
    rw [List.nil_append, nestStep_clear hc]
    simp only [nestInStep, if_true] at h
    by_cases h1 : c = '$'
    · subst h1
      simp only [if_true] at h
      split at h
      · rename_i ht
        cases h
        have := hc.2.2 (hd ht)
        simp [this.1, this.2]
      · cases h
    · by_cases h2 : c = ')' ∨ c = ']'
      · simp [h1, h2] at h
      · simp only [h1, h2, if_false] at h ⊢
        have he : nestStep [] c = if c = '\\' then some ['\\'] else if c = '"' then some ['"'] else if c = '(' then some [')']
            else if c = '[' then some [']'] else some [] := by
          have := nestStep_clear (st := []) (m := .math) ⟨by simp, by simp, fun h => (by cases h)⟩ c
          rw [this]
          simp only [h1, h2, if_false]
        rw [he] at h
        revert h
        split
        · intro h; cases h; rfl
        · split
          · intro h; cases h; rfl
          · split
            · intro h; cases h; rfl
            · split
              · intro h; cases h; rfl
              · intro h; cases h; rfl
  | cons x a =>
    simp only [nestInStep, if_neg (List.cons_ne_nil _ _)] at h
    by_cases h1 : x = '\\'
    · subst h1; cases h; rfl
    · by_cases h2 : x = '"'
      · subst h2
        have e : ∀ a : List Char, nestStep ('"' :: a) c = if c = '"' then some a else if c = '\\' then some ('\\' :: '"' :: a) else some ('"' :: a) := fun _ => rfl
        rw [List.cons_append, e]
        rw [e] at h
        revert h
        split
        · intro h; cases h; rfl
        · split
          · intro h; cases h; rfl
          · intro h; cases h; rfl
      · have hx : ∀ a : List Char, Clear .math (x :: a) := fun a => ⟨by simpa using h1, by simpa using h2, fun h => (by cases h)⟩
        rw [nestStep_clear (hx _)] at h
        rw [List.cons_append, nestStep_clear (hx _)]
        simp only [List.head?_cons, List.tail_cons, Option.some.injEq] at h ⊢
        repeat' (split at h)
        all_goals (first | (cases h; done) | (cases h; simp_all))

theorem nestIn_sound {d : Bool} {m : Mode} {st : List Char} (hc : Clear m st) (hd : d = true → m = .text) :
    ∀ {t : Text} {a b : List Char}, nestIn d a t = some b → nest (a ++ st) t = some (b ++ st)
  | [], a, b, h => by cases h; rfl
  | c :: t, a, b, h => by
    unfold nestIn at h
    rw [List.foldlM_cons] at h
    cases hs : nestInStep d a c with
    | none => rw [hs] at h; cases h
    | some a1 =>
      rw [hs] at h
      rw [nest_cons, nestInStep_sound hc hd hs]
      exact nestIn_sound hc hd (t := t) h

theorem Neutral.of_check {t : Text} (h : nestIn false [] t = some []) : Neutral t :=
  fun _ h1 h2 => nestIn_sound (m := .math) ⟨h1, h2, fun h => (by cases h)⟩ (fun h => (by cases h)) h

/-! ### Elements and pieces -/

/-- Elements that are written as a whole: neither a delimiter clause nor a bare symbol. -/
def Whole (e : Elem) : Prop := e.kind ≠ .clauseLR ∧ e.kind ≠ .tokenCommandSym

theorem inWord_ws {c : Char} (h : inWord c = true) : isWs c = false := by
  unfold inWord at h
  rw [Bool.and_eq_true] at h
  simpa using h.2

/-- The texts of leaves that are copied. -/
def CopiedOk (k : Kind) (t : Text) : Prop :=
  (k ∈ [Kind.tokenWord, .tokenWhiteSpace, .tokenLineBreak, .tokenUnderscore, .tokenCaret] → Without ('\\' :: marks) t) ∧
  (k ∈ [Kind.tokenWhiteSpace, .tokenLineBreak, .tokenUnderscore, .tokenCaret] → ∀ c ∈ t, inWord c = false)

/-- A delimiter clause. -/
def IsDelim (name : Text) (e : Elem) : Prop := ∃ ds, e = .node .clauseLR (.token .clauseCommandName name :: ds)

/-- The children of an element are whole, but for delimiters and clauses. -/
def PartsOf : Elem → Prop
  | .token k t => CopiedOk k t
  | .node k cs =>
    match k with
    | .itemLR => ∃ l es, cs = l :: es ∧ IsDelim t!"\\left" l ∧
        ((∀ c ∈ es, Whole c) ∨ ∃ mid r, es = mid ++ [r] ∧ (∀ c ∈ mid, Whole c) ∧ IsDelim t!"\\right" r)
    | .clauseLR => ∃ t ds, cs = .token .clauseCommandName t :: ds ∧ ∀ d ∈ ds, d.kind ≠ .clauseLR
    | .itemBegin => ∃ b as, cs = b :: as ∧ ∀ c ∈ as, Whole c
    | .itemCmd => ∀ c ∈ cs, (∃ t, c = .token .clauseCommandName ('\\' :: t)) ∨ ∃ ds, c = .node .clauseArgument ds
    | .itemEnd | .itemBlockComment | .itemTypstCode | .tokenError => True
    | _ => ∀ c ∈ cs, Whole c

/-- All that is needed of an element. -/
def Proper (spec : CommandSpec) (e : Elem) : Prop := e.Forall fun d => PartsOf d ∧ Tidy spec d

theorem Proper.self {spec : CommandSpec} {e : Elem} (h : Proper spec e) : PartsOf e ∧ Tidy spec e := by
  cases e with
  | token k t => exact (Forall_token _ _ _).1 h
  | node k cs => exact ((Forall_node _ _ _).1 h).1

theorem Proper.child {spec : CommandSpec} {e c : Elem} (h : Proper spec e) (hc : c ∈ e.children) : Proper spec c := by
  cases e with
  | token k t => cases hc
  | node k cs => exact ((Forall_node _ _ _).1 h).2 c hc

theorem Proper.arg {spec : CommandSpec} {e c : Elem} (h : Proper spec e) (hc : c ∈ e.arguments) : Proper spec c ∧ Whole c := by
  unfold Elem.arguments Elem.childNodes at hc
  rw [List.mem_filter, List.mem_filter] at hc
  refine ⟨h.child hc.1.1, ?_⟩
  have : c.kind = .clauseArgument := of_decide_eq_true hc.2
  unfold Whole
  rw [this]
  exact ⟨by decide, by decide⟩

theorem Proper.envArg {spec : CommandSpec} {e c : Elem} (h : Proper spec e) (hc : c ∈ e.envArguments) : Proper spec c ∧ Whole c := by
  unfold Elem.envArguments at hc
  split at hc
  · rename_i b hb
    have hm := (List.mem_filter.1 (List.mem_of_find?_eq_some hb)).1
    exact (h.child hm).arg hc
  · cases hc

/-- What an element does to the open marks. -/
inductive Moves (spec : CommandSpec) (x : Place) : Elem → List Char → List Char → Prop
  | whole {e : Elem} {st : List Char} (h : Whole e) (hc : Clear x.mode st) : Moves spec x e st st
  | left (ds : List Elem) {st : List Char} (hc : Clear x.mode st) :
      Moves spec x (.node .clauseLR (.token .clauseCommandName t!"\\left" :: ds)) st (')' :: st)
  | right (ds : List Elem) {st : List Char} :
      Moves spec x (.node .clauseLR (.token .clauseCommandName t!"\\right" :: ds)) (')' :: st) st
  | symbol {t name : Text} {sh : CmdShape} {st st' : List Char} (h : afterBackslash t = some name) (hs : spec name = some (.cmd sh))
      (hn : nest st (sh.alias.getD name) = some st') : Moves spec x (.token .tokenCommandSym t) st st'
  | unknown {t : Text} {st : List Char} (h : ∀ name, afterBackslash t = some name → ∀ sh, spec name ≠ some (.cmd sh)) :
      Moves spec x (.token .tokenCommandSym t) st st
  | odd (cs : List Elem) {st : List Char} : Moves spec x (.node .tokenCommandSym cs) st st

/-- What the pieces do to the open marks. -/
inductive Run (spec : CommandSpec) : List Piece → List Char → List Char → Prop
  | nil (st : List Char) : Run spec [] st st
  | text {t : Text} {ps : List Piece} {st st1 st2 : List Char} (h : nest st t = some st1) (k : Run spec ps st1 st2) : Run spec (.text t :: ps) st st2
  | part {x : Place} {e : Elem} {ps : List Piece} {st st1 st2 : List Char} (hp : Proper spec e) (h : Moves spec x e st st1) (k : Run spec ps st1 st2) :
      Run spec (.part x e :: ps) st st2
  | blank {e : Elem} {ps : List Piece} {st st2 : List Char} (h : ∀ k t, e = .token k t → Neutral t) (hc : Clear .math st) (k : Run spec ps st st2) :
      Run spec (.blank e :: ps) st st2
  | dropBlank {ps : List Piece} {st st2 : List Char} (k : Run spec ps st st2) : Run spec (.dropBlank :: ps) st st2
  | keepLabel {l : Text} {ps : List Piece} {st st2 : List Char} (h : Neutral l) (k : Run spec ps st st2) : Run spec (.keepLabel l :: ps) st st2
  | putLabel {ps : List Piece} {st st2 : List Char} (hc : Clear .math st) (k : Run spec ps st st2) : Run spec (.putLabel :: ps) st st2

theorem Run.append {spec : CommandSpec} {ps qs : List Piece} {st st1 st2 : List Char} (h : Run spec ps st st1) (k : Run spec qs st1 st2) :
    Run spec (ps ++ qs) st st2 := by
  induction h with
  | nil => exact k
  | text h _ ih => exact .text h (ih k)
  | part hp h _ ih => exact .part hp h (ih k)
  | blank h hc _ ih => exact .blank h hc (ih k)
  | dropBlank _ ih => exact .dropBlank (ih k)
  | keepLabel h _ ih => exact .keepLabel h (ih k)
  | putLabel hc _ ih => exact .putLabel hc (ih k)

/-- The waiting label is neutral. -/
def LabelOk (m : Mem) : Prop := ∀ l, m.label = some l → Neutral l

/-- The templates do what the elements are to do. -/
def TemplatesRun (spec : CommandSpec) : Prop := ∀ x e ps st st', template spec x e = .ok ps → Proper spec e → Moves spec x e st st' → Run spec ps st st'

theorem printedAll_nest {spec : CommandSpec} (ht : TemplatesRun spec) {ps : List Piece} {m m' : Mem} {t : Text} (h : PrintedAll spec ps m t m') :
    LabelOk m → ∀ st st', Run spec ps st st' → nest st t = some st' ∧ LabelOk m' := by
  refine @PrintedAll.rec spec (fun x e m t m' _ => Proper spec e → LabelOk m → ∀ st st', Moves spec x e st st' → nest st t = some st' ∧ LabelOk m')
    (fun ps m t m' _ => LabelOk m → ∀ st st', Run spec ps st st' → nest st t = some st' ∧ LabelOk m') ?_ ?_ ?_ ?_ ?_ ?_ ?_ ?_ ?_ ?_ ps m t m' h
  · intro x e ps m m' t hp _ ih hpe hl st st' hm
    refine ih ?_ st st' (ht x e ps st st' hp hpe hm)
    split
    · exact hl
    · exact hl
  · intro m hl st st' hr
    cases hr
    exact ⟨rfl, hl⟩
  · intro ps m m' u t _ ih hl st st' hr
    cases hr with
    | text h k =>
      obtain ⟨h1, h2⟩ := ih hl _ _ k
      exact ⟨nest_step h h1, h2⟩
  · intro x e ps m m' m'' t u _ _ ih1 ih2 hl st st' hr
    cases hr with
    | part hp h k =>
      obtain ⟨h1, h2⟩ := ih1 hp hl _ _ h
      obtain ⟨h3, h4⟩ := ih2 h2 _ _ k
      exact ⟨nest_step h1 h3, h4⟩
  · intro k t ps m m' u _ _ ih hl st st' hr
    cases hr with
    | blank h hc k =>
      obtain ⟨h1, h2⟩ := ih hl _ _ k
      exact ⟨nest_step ((h _ _ rfl).nest hc) h1, h2⟩
  · intro e ps m m' u _ _ ih hl st st' hr
    cases hr with
    | blank h hc k => exact ih hl _ _ k
  · intro ps m m' u _ ih hl st st' hr
    cases hr with
    | dropBlank k => exact ih hl _ _ k
  · intro l ps m m' u _ ih hl st st' hr
    cases hr with
    | keepLabel h k => exact ih (fun l' hl' => by cases hl'; exact h) _ _ k
  · intro l ps m m' u hml _ ih hl st st' hr
    cases hr with
    | putLabel hc k =>
      obtain ⟨h1, h2⟩ := ih (fun l' hl' => by cases hl') _ _ k
      refine ⟨nest_step (nest_step (nest_step (st1 := st) ?_ ((hl l hml).nest hc)) ?_) h1, h2⟩
      · exact (Neutral.of_check (t := t!"<") (by decide)).nest hc
      · exact (Neutral.of_check (t := t!">") (by decide)).nest hc
  · intro ps m m' u _ _ ih hl st st' hr
    cases hr with
    | putLabel hc k => exact ih hl _ _ k

theorem printed_nest {spec : CommandSpec} (ht : TemplatesRun spec) {x : Place} {e : Elem} {m m' : Mem} {t : Text} (h : Printed spec x e m t m')
    (hp : Proper spec e) (hl : LabelOk m) (hw : Whole e) {st : List Char} (hc : Clear x.mode st) : nest st t = some st := by
  have := (printedAll_nest ht (.part h (.nil m')) hl st st (.part hp (.whole hw hc) (.nil st))).1
  simpa using this

end Mitex
