/-
C75: the parts of a document are converted independently.
-/
import Verif.Proof.LocalClosed
import Verif.Props.EndToEnd
import Verif.Props.Program
import Verif.Proof.DocPrint

namespace Mitex
open Grammar (Row Reaches Document ClosedDocument AloneDocument ClosedItem standAlone takesLeft start)

/-! ### Trees -/

/-- **C75.** The parser looks one token ahead: if reading the tokens `u ++ t :: v` comes to the token `t` (which is not a word), with some row of
items, it comes there with the same items whatever follows `t`; and `u` alone is a document with these items. -/
theorem C75_lookahead (env : PEnv) (u : List Tok) (t : Tok) (v heads : List Tok) (r : Row) (ht : t.1 ≠ .word)
    (h : Reaches env start (u ++ t :: v) heads r (t :: v)) :
    (∀ v', ∃ heads', Reaches env start (u ++ t :: v') heads' r (t :: v')) ∧ Document env u (.node .scopeRoot r.items) := by
  constructor
  · intro v'
    exact Local.lookahead_reaches h (u' := []) ht rfl rfl (Local.like_self t v')
  · obtain ⟨hs, h1⟩ := Local.lookahead_reaches h (u' := []) (T := []) ht rfl rfl (fun s hs => (by cases hs))
    rw [List.append_nil, List.append_nil] at h1
    exact ⟨r, Local.reaches_items h1, rfl⟩

/-- **C75.** If one document ends with a closed group, formula or environment, and another does not look to the left, the two, one after the
other, are a document whose items are those of the first and those of the second. -/
theorem C75_tree (env : PEnv) (ta tb : List Tok) (A B : List Elem) (ha : ClosedDocument env ta A) (hb : AloneDocument env tb B) :
    Document env ta (.node .scopeRoot A) ∧ Document env tb (.node .scopeRoot B) ∧ Document env (ta ++ tb) (.node .scopeRoot (A ++ B)) := by
  obtain ⟨r, rfl, h⟩ := Local.closed_reaches ha
  refine ⟨?_, ?_, ?_⟩
  · obtain ⟨hs, h1⟩ := h []
    rw [List.append_nil] at h1
    exact ⟨r, Local.reaches_items h1, rfl⟩
  · obtain ⟨hs, r1, h1, _, rfl⟩ := hb
    exact ⟨r1, Local.reaches_items h1, rfl⟩
  · obtain ⟨hs, h1⟩ := h tb
    obtain ⟨hs', r', h2, e⟩ := Local.reaches_join h1 hb
    exact ⟨r', Local.reaches_items h2, by rw [e]⟩

/-- **C75.** The same for texts: the tokens of `a ++ b` are those of `a` and those of `b` if no `\begin` or `\end` of `a` lacks its name, and
`b` does not continue the last token of `a`. -/
theorem C75_tokens (spec : CommandSpec) (a b : Text) (ta tb : List Tok) (ha : tokensOf spec a = .ok ta) (hb : tokensOf spec b = .ok tb)
    (hk : ∀ t ∈ ta, t.1 ≠ .cmd .errorBeginEnv ∧ t.1 ≠ .cmd .errorEndEnv) (hl : ∀ t, ta.getLast? = some t → Separate t b) :
    tokensOf spec (a ++ b) = .ok (ta ++ tb) :=
  (C59_tokens _ _ _).2 (Local.tokenized_join ((C59_tokens _ _ _).1 ha) ((C59_tokens _ _ _).1 hb) hk hl)

/-! ### Outputs -/

namespace Local

theorem failed_left {spec : CommandSpec} {qs : List Piece} {f : Stop} : ∀ {ps : List Piece} {m : Mem}, FailedAll spec ps m f → FailedAll spec (ps ++ qs) m f := by
  intro ps
  induction ps with
  | nil => intro m h; cases h
  | cons p ps ih =>
    intro m h
    cases h with
    | later h k => exact .later h (ih k)
    | part h => exact .part h
    | blank h => exact .blank h

theorem failed_right {spec : CommandSpec} {qs : List Piece} {f : Stop} : ∀ {ps : List Piece} {m m' : Mem} {t : Text},
    PrintedAll spec ps m t m' → FailedAll spec qs m' f → FailedAll spec (ps ++ qs) m f := by
  intro ps
  induction ps with
  | nil => intro m m' t h k; cases h; exact k
  | cons p ps ih =>
    intro m m' t h k
    obtain ⟨t1, m1, t2, _, h1, h2⟩ := PrintedAll.split (ps := [p]) (qs := ps) h
    exact .later h1 (ih h2 k)

theorem root_template (spec : CommandSpec) (x : Place) (A : List Elem) : template spec x (.node .scopeRoot A) = .ok (each x A) := rfl

theorem root_printed {spec : CommandSpec} {x : Place} {A : List Elem} {m : Mem} {t : Text} {m' : Mem} :
    Printed spec x (.node .scopeRoot A) m t m' ↔ PrintedAll spec (each x A) { m with skip := false } t m' := by
  constructor
  · intro h
    cases h with
    | mk h k => rw [root_template] at h; cases h; exact k
  · intro h; exact .mk (root_template ..) h

theorem root_failed {spec : CommandSpec} {x : Place} {A : List Elem} {m : Mem} {f : Stop} :
    Failed spec x (.node .scopeRoot A) m f ↔ FailedAll spec (each x A) { m with skip := false } f := by
  constructor
  · intro h
    cases h with
    | here h => rw [root_template] at h; cases h
    | inside h k => rw [root_template] at h; cases h; exact k
  · intro h; exact .inside (root_template ..) h

/-- The first element does not look at the mark for blanks, unless it is a blank. -/
theorem fresh_printed {spec : CommandSpec} {x : Place} {B : List Elem} {t : Text} {l : Option Text} {s : Bool} {m' : Mem}
    (hb : s = true → ∀ e, B.head? = some e → e.kind ≠ .tokenWhiteSpace) (hB : B ≠ []) :
    PrintedAll spec (each x B) ⟨l, s⟩ t m' ↔ PrintedAll spec (each x B) ⟨l, false⟩ t m' := by
  cases s with
  | false => exact Iff.rfl
  | true =>
    cases B with
    | nil => exact absurd rfl hB
    | cons e B =>
      have hk := hb rfl e rfl
      constructor
      all_goals
        intro h
        cases h with
        | part h k =>
          cases h with
          | mk ht h =>
            rw [if_neg hk] at h
            refine .part (.mk ht ?_) k
            rw [if_neg hk]
            exact h

theorem fresh_failed {spec : CommandSpec} {x : Place} {B : List Elem} {l : Option Text} {s : Bool} {f : Stop}
    (hb : s = true → ∀ e, B.head? = some e → e.kind ≠ .tokenWhiteSpace) (h : FailedAll spec (each x B) ⟨l, false⟩ f) :
    FailedAll spec (each x B) ⟨l, s⟩ f := by
  cases s with
  | false => exact h
  | true =>
    cases B with
    | nil => cases h
    | cons e B =>
      have hk := hb rfl e rfl
      cases h with
      | part h =>
        refine .part ?_
        cases h with
        | here h => exact .here h
        | inside h k => refine .inside h ?_; rw [if_neg hk] at k ⊢; exact k
      | later h k =>
        refine .later ((fresh_printed (B := [e]) (s := true) (fun _ e0 he => (by cases he; exact hk)) (by simp)).2 h) k

end Local

/-- Nothing is left over from the items `A`: no label is waiting for its environment, and if the last thing was a line break, the items `B`
do not start with a blank (it would be taken for the indentation). -/
def Settled (dflt : CommandSpec) (mode : Mode) (A B : List Elem) : Prop :=
  ∀ out m, Printed dflt (Place.top mode) (.node .scopeRoot A) ⟨none, true⟩ out m →
    m.label = none ∧ (m.skip = true → ∀ e, B.head? = some e → e.kind ≠ .tokenWhiteSpace)

/-- **C75.** The answer for the items `A` and `B`, one after the other: the first failure, or the two outputs, one after the other. -/
theorem C75_output (dflt : CommandSpec) (mode : Mode) (A B : List Elem) (hs : Settled dflt mode A B) :
    convertTree dflt mode (.node .scopeRoot (A ++ B)) =
      (do let oa ← convertTree dflt mode (.node .scopeRoot A); let ob ← convertTree dflt mode (.node .scopeRoot B); .ok (oa ++ ob)) := by
  have hx : At (Place.top mode) (CState.new mode) := ⟨rfl, rfl, rfl⟩
  have ok : ∀ (e : Elem) (out : Text), convertTree dflt mode e = .ok out ↔ ∃ m', Printed dflt (Place.top mode) e ⟨none, true⟩ out m' := by
    intro e out
    unfold convertTree
    have hex := fun s' => C61_exact dflt e.depth (Place.top mode) e (CState.new mode) s' (Nat.le_refl _) hx
    constructor
    · intro h
      cases hc : convert dflt e.depth e (CState.new mode) with
      | error y => rw [hc] at h; cases h
      | ok s =>
        rw [hc] at h
        cases h
        obtain ⟨t, m', hp, rfl⟩ := (hex s).1 hc
        exact ⟨m', hp⟩
    · rintro ⟨m', hp⟩
      rw [(hex _).2 ⟨out, m', hp, rfl⟩]
      rfl
  have bad : ∀ (e : Elem) (f : Stop), convertTree dflt mode e = .error f ↔ Failed dflt (Place.top mode) e ⟨none, true⟩ f := by
    intro e f
    unfold convertTree
    have hex := C61_fails dflt e.depth (Place.top mode) e (CState.new mode) (Nat.le_refl _) hx f
    refine Iff.trans ?_ hex
    cases convert dflt e.depth e (CState.new mode) with
    | ok s => exact ⟨fun h => (by cases h), fun h => (by cases h)⟩
    | error y => exact ⟨fun h => (by cases h; rfl), fun h => (by cases h; rfl)⟩
  cases ha : convertTree dflt mode (.node .scopeRoot A) with
  | error f =>
    refine (bad _ _).2 (Local.root_failed.2 ?_)
    rw [each_append]
    exact Local.failed_left (Local.root_failed.1 ((bad _ _).1 ha))
  | ok oa =>
    obtain ⟨ma, hpa⟩ := (ok _ _).1 ha
    obtain ⟨h1, h2⟩ := hs oa ma hpa
    obtain ⟨la, sa⟩ := ma
    dsimp only at h1 h2
    subst h1
    have hpa' := Local.root_printed.1 hpa
    cases hb : convertTree dflt mode (.node .scopeRoot B) with
    | error f =>
      refine (bad _ _).2 (Local.root_failed.2 ?_)
      rw [each_append]
      exact Local.failed_right hpa' (Local.fresh_failed h2 (Local.root_failed.1 ((bad _ _).1 hb)))
    | ok ob =>
      obtain ⟨mb, hpb⟩ := (ok _ _).1 hb
      refine (ok _ _).2 ?_
      cases B with
      | nil =>
        have := Local.root_printed.1 hpb
        cases this
        refine ⟨⟨none, sa⟩, ?_⟩
        rw [List.append_nil, List.append_nil]
        exact hpa
      | cons e B =>
        refine ⟨mb, Local.root_printed.2 ?_⟩
        rw [each_append]
        exact PrintedAll.append hpa' ((Local.fresh_printed h2 (by simp)).2 (Local.root_printed.1 hpb))

/-- What is assumed of the two texts: their tokens and trees, and that `a` ends where it seems to end. -/
structure Parts (dflt spec : CommandSpec) (mode : Mode) (a b : Text) (ta tb : List Tok) (A B : List Elem) : Prop where
  /-- the tokens -/
  left : tokensOf spec a = .ok ta
  right : tokensOf spec b = .ok tb
  /-- every `\begin` and `\end` of `a` has its name, and `b` does not continue the last token of `a` -/
  named : ∀ t ∈ ta, t.1 ≠ .cmd .errorBeginEnv ∧ t.1 ≠ .cmd .errorEndEnv
  separate : ∀ t, ta.getLast? = some t → Separate t b
  /-- `a` ends with a closed group, formula or environment -/
  closed : ClosedDocument ⟨spec, globPrefix⟩ ta A
  /-- `b` does not look to the left -/
  alone : AloneDocument ⟨spec, globPrefix⟩ tb B
  /-- nothing is left over from `a` -/
  settled : Settled dflt mode A B

namespace Local

theorem parts_parse {dflt spec : CommandSpec} {mode : Mode} {a b : Text} {ta tb : List Tok} {A B : List Elem} (h : Parts dflt spec mode a b ta tb A B) :
    parseToks ⟨spec, globPrefix⟩ ta = .ok (.node .scopeRoot A) ∧ parseToks ⟨spec, globPrefix⟩ tb = .ok (.node .scopeRoot B) ∧
    parseToks ⟨spec, globPrefix⟩ (ta ++ tb) = .ok (.node .scopeRoot (A ++ B)) ∧ tokensOf spec (a ++ b) = .ok (ta ++ tb) := by
  have ht := C75_tokens spec a b ta tb h.left h.right h.named h.separate
  obtain ⟨h1, h2, h3⟩ := C75_tree ⟨spec, globPrefix⟩ ta tb A B h.closed h.alone
  have d1 := (C28_delivered spec a ta h.left).1
  have d2 := (C28_delivered spec b tb h.right).1
  have d3 := (C28_delivered spec (a ++ b) (ta ++ tb) ht).1
  exact ⟨(C62_exact _ _ d1.1 d1.2 _).2 h1, (C62_exact _ _ d2.1 d2.2 _).2 h2, (C62_exact _ _ d3.1 d3.2 _).2 h3, ht⟩

end Local

/-- **C75.** Without macros: the text `a ++ b` is converted to what `a` and `b` are converted to, one after the other; if one of them fails, it
fails in the same way. -/
theorem C75_no_macro (fuel : Nat) (dflt : CommandSpec) (spec : Option CommandSpec) (a b : Text) (ta tb : List Tok) (A B : List Elem)
    (h : Parts dflt (spec.getD dflt) .math a b ta tb A B) :
    convertMathNoMacro fuel dflt (a ++ b) spec =
      (do let oa ← convertMathNoMacro fuel dflt a spec; let ob ← convertMathNoMacro fuel dflt b spec; .ok (oa ++ ob)) := by
  obtain ⟨h1, h2, h3, ht⟩ := Local.parts_parse h
  have key : ∀ (s : Text) ts e, tokensOf (spec.getD dflt) s = .ok ts → parseToks ⟨spec.getD dflt, globPrefix⟩ ts = .ok e →
      convertMathNoMacro fuel dflt s spec = convertTree dflt .math e := by
    intro s ts e hs he
    unfold convertMathNoMacro convertInner parse
    rw [hs]
    show (parseToks _ ts >>= convertTree dflt .math) = _
    rw [he]
    rfl
  rw [key _ _ _ ht h3, key _ _ _ h.left h1, key _ _ _ h.right h2]
  exact C75_output dflt .math A B h.settled

/-- **C75.** With macros: the same for `convert_text` and `convert_math`, if no command of the texts is a macro, a definition or a conditional. -/
theorem C75_converts (dflt : CommandSpec) (spec : Option CommandSpec) (a b : Text) (ta tb : List Tok) (A B : List Elem)
    (hp : ∀ t ∈ ta ++ tb, Passive defaultMacros t) :
    ∃ fuel, ∀ F, fuel ≤ F →
      (Parts dflt (spec.getD dflt) .text a b ta tb A B → convertText F dflt (a ++ b) spec =
        (do let oa ← convertText F dflt a spec; let ob ← convertText F dflt b spec; .ok (oa ++ ob))) ∧
      (Parts dflt (spec.getD dflt) .math a b ta tb A B → convertMath F dflt (a ++ b) spec =
        (do let oa ← convertMath F dflt a spec; let ob ← convertMath F dflt b spec; .ok (oa ++ ob))) := by
  obtain ⟨f1, e1⟩ := (C07_unbound_tokens_pass defaultMacros ta fun t ht => hp t (List.mem_append_left _ ht)).expandAll
  obtain ⟨f2, e2⟩ := (C07_unbound_tokens_pass defaultMacros tb fun t ht => hp t (List.mem_append_right _ ht)).expandAll
  obtain ⟨f3, e3⟩ := (C07_unbound_tokens_pass defaultMacros (ta ++ tb) hp).expandAll
  refine ⟨max f1 (max f2 f3), fun F hF => ?_⟩
  have e1 := expandAll_mono e1 (show f1 ≤ F by omega)
  have e2 := expandAll_mono e2 (show f2 ≤ F by omega)
  have e3 := expandAll_mono e3 (show f3 ≤ F by omega)
  have key : ∀ mode (s : Text) ts e, tokensOf (spec.getD dflt) s = .ok ts → expandAll F ts = .ok ts →
      parseToks ⟨spec.getD dflt, globPrefix⟩ ts = .ok e → convertInner F dflt s mode spec true = convertTree dflt mode e := by
    intro mode s ts e hs hx he
    unfold convertInner parse
    rw [hs]
    show ((expandAll F ts >>= parseToks _) >>= convertTree dflt mode) = _
    rw [hx]
    show (parseToks _ ts >>= convertTree dflt mode) = _
    rw [he]
    rfl
  constructor
  · intro h
    obtain ⟨h1, h2, h3, ht⟩ := Local.parts_parse h
    unfold convertText
    rw [key _ _ _ _ ht e3 h3, key _ _ _ _ h.left e1 h1, key _ _ _ _ h.right e2 h2]
    exact C75_output dflt .text A B h.settled
  · intro h
    obtain ⟨h1, h2, h3, ht⟩ := Local.parts_parse h
    unfold convertMath
    rw [key _ _ _ _ ht e3 h3, key _ _ _ _ h.left e1 h1, key _ _ _ _ h.right e2 h2]
    exact C75_output dflt .math A B h.settled

/-! ### An example -/

namespace Local

/-- `\begin{itemize}\item x\end{itemize}$y$` and `& z^2` -/
def exampleLeft : List Tok := [(.cmd .beginEnv, t!"itemize"), (.cmd .generic, t!"\\item"), (.whitespace, t!" "), (.word, t!"x"),
  (.cmd .endEnv, t!"itemize"), (.dollar, t!"$"), (.word, t!"y"), (.dollar, t!"$")]

def exampleRight : List Tok := [(.ampersand, t!"&"), (.whitespace, t!" "), (.word, t!"z"), (.caret, t!"^"), (.word, t!"2")]

def exampleEnv : Elem := .node .itemEnv [.node .itemBegin [.token .tokenCommandSym t!"itemize"],
  .node .itemCmd [.token .clauseCommandName t!"\\item"], .token .tokenWhiteSpace t!" ", .node .itemText [.token .tokenWord t!"x"],
  .node .itemEnd [.token .tokenCommandSym t!"itemize"]]

def exampleFormula : Elem := .node .itemFormula [.token .tokenDollar t!"$", .node .itemText [.token .tokenWord t!"y"], .token .tokenDollar t!"$"]

def exampleScript : List Elem := [.token .tokenAmpersand t!"&", .token .tokenWhiteSpace t!" ",
  .node .itemAttachComponent [.node .clauseArgument [.node .itemText [.token .tokenWord t!"z"]], .token .tokenCaret t!"^", .token .tokenWord t!"2"]]

open Grammar (Item Items) in
theorem example_closed : ClosedDocument ⟨defaultSpec, globPrefix⟩ exampleLeft [exampleEnv, exampleFormula] := by
  have i1 : Items ⟨defaultSpec, globPrefix⟩ .environment (Grammar.enders .environment) ⟨[.node .itemBegin [leafOf (.cmd .beginEnv, t!"itemize")]], some 1, none⟩
      [(.cmd .generic, t!"\\item"), (.whitespace, t!" "), (.word, t!"x"), (.cmd .endEnv, t!"itemize"), (.dollar, t!"$"), (.word, t!"y"), (.dollar, t!"$")]
      ⟨[.node .itemBegin [leafOf (.cmd .beginEnv, t!"itemize")], .node .itemCmd [.token .clauseCommandName t!"\\item"], .token .tokenWhiteSpace t!" ",
        .node .itemText [.token .tokenWord t!"x"]], some 1, some 3⟩
      [(.cmd .endEnv, t!"itemize"), (.dollar, t!"$"), (.word, t!"y"), (.dollar, t!"$")] := by
    refine .more (by decide) (.symbol (by decide) (by decide +kernel)) ?_
    refine .more (by decide) (.single (att := false) (by decide)) ?_
    refine .more (by decide) (.text (run := []) (.inr ⟨rfl, rfl⟩) (fun _ h => (by cases h)) (fun _ h => (by cases h; rfl))) ?_
    exact .over (fun _ h => (by cases h; decide))
  have i2 : Items ⟨defaultSpec, globPrefix⟩ .dollarFormula (Grammar.enders .dollarFormula) ⟨[leafOf (.dollar, t!"$")], some 1, none⟩
      ([(.word, t!"y")] ++ [(.dollar, t!"$")]) ⟨[leafOf (.dollar, t!"$"), .node .itemText [.token .tokenWord t!"y"]], some 1, some 1⟩ [(.dollar, t!"$")] := by
    refine .more (by decide) (.text (run := []) (.inr ⟨rfl, rfl⟩) (fun _ h => (by cases h)) (fun _ h => (by cases h; rfl))) ?_
    exact .over (fun _ h => (by cases h; decide))
  refine ⟨_, _, _, _, .step (.environment (by decide +kernel) i1) (.refl _ _), .group rfl i2, rfl⟩

open Grammar (Item Items) in
theorem example_alone : AloneDocument ⟨defaultSpec, globPrefix⟩ exampleRight exampleScript := by
  refine ⟨_, _, .step (.single (att := false) (by decide)) (.step (.single (att := false) (by decide)) (.step
    (.text (run := []) (.inr ⟨rfl, rfl⟩) (fun _ h => (by cases h)) (fun _ h => (by cases h; rfl)))
    (.step (.script (blanks := []) (.inr rfl) rfl (fun _ h => (by cases h)) (fun _ h => (by cases h; rfl)) .char) (.refl _ _)))), ?_, rfl⟩
  decide +kernel

end Local

/-- The hypotheses of `C75_converts` are met: a list, a formula and a script after a separator. -/
theorem C75_example : Parts defaultSpec defaultSpec .text t!"\\begin{itemize}\\item x\\end{itemize}$y$" t!"& z^2" Local.exampleLeft Local.exampleRight
    [Local.exampleEnv, Local.exampleFormula] Local.exampleScript ∧ (∀ t ∈ Local.exampleLeft ++ Local.exampleRight, Passive defaultMacros t) ∧
    convertText 50 defaultSpec t!"\\begin{itemize}\\item x\\end{itemize}$y$& z^2" none =
      .ok (t!"\n-  x#math.equation(block: false, $y $);" ++ t!"& z\\^2") := by
  refine ⟨⟨by decide +kernel, by decide +kernel, by decide +kernel, ?_, Local.example_closed, Local.example_alone, ?_⟩, ?_, by decide +kernel⟩
  · intro t ht
    cases ht
    intro c hc
    cases hc
    decide
  · intro out m h
    have e := (C61_exact defaultSpec 50 (Place.top .text) _ (CState.new .text) _ (by decide +kernel) ⟨rfl, rfl, rfl⟩).2 ⟨out, m, h, rfl⟩
    have e2 : (convert defaultSpec 50 (.node .scopeRoot [Local.exampleEnv, Local.exampleFormula]) (CState.new .text)).map (fun s => (s.label, s.skip))
        = .ok (none, false) := by decide +kernel
    rw [e] at e2
    obtain ⟨l, s⟩ := m
    cases e2
    exact ⟨rfl, fun h => (by cases h)⟩
  · intro t ht
    have hi : defaultMacros t!"itemize" = none := Option.isNone_iff_eq_none.1 (by decide +kernel)
    have hj : defaultMacros t!"item" = none := Option.isNone_iff_eq_none.1 (by decide +kernel)
    have hn : ∀ (k : Token) (x : Text), (∀ n, k ≠ .cmd n) → Passive defaultMacros (k, x) := fun k x h =>
      ⟨fun i => h _, h _, h _, fun e => absurd e (h _), fun e => absurd e (h _)⟩
    simp only [Local.exampleLeft, Local.exampleRight, List.cons_append, List.nil_append, List.mem_cons, List.not_mem_nil, or_false] at ht
    rcases ht with rfl | rfl | rfl | rfl | rfl | rfl | rfl | rfl | rfl | rfl | rfl | rfl | rfl
    · exact ⟨fun i h => (by cases h), fun h => (by cases h), fun h => (by cases h), fun h => (by cases h), fun _ => hi⟩
    · exact ⟨fun i h => (by cases h), fun h => (by cases h), fun h => (by cases h), fun _ => ⟨_, rfl, hj⟩, fun h => (by cases h)⟩
    · exact hn _ _ fun n h => (by cases h)
    · exact hn _ _ fun n h => (by cases h)
    · exact ⟨fun i h => (by cases h), fun h => (by cases h), fun h => (by cases h), fun h => (by cases h), fun h => (by cases h)⟩
    all_goals exact hn _ _ fun n h => (by cases h)

/-- The conditions are needed: a script mark and `\\over` look to the left; a command without its arguments looks to the right; the blank after a
line break is dropped; a label that waits is put after the next environment, wherever that is. -/
theorem C75_limits :
    (convertMathNoMacro 50 defaultSpec t!"{a}" none = .ok t!"a " ∧ convertMathNoMacro 50 defaultSpec t!"^2" none = .ok t!"zws^(2 )" ∧
      convertMathNoMacro 50 defaultSpec t!"{a}^2" none = .ok t!"a ^(2 )") ∧
    (convertMathNoMacro 50 defaultSpec t!"b\\over c" none = .ok t!"frac(b , c )" ∧
      convertMathNoMacro 50 defaultSpec t!"{a}b\\over c" none = .ok t!"frac(a b , c )") ∧
    (convertMathNoMacro 50 defaultSpec t!"\\sqrt" none = .ok t!"mitexsqrt()" ∧
      convertMathNoMacro 50 defaultSpec t!"\\sqrt{a}" none = .ok t!"mitexsqrt(a )") ∧
    (convertText 50 defaultSpec t!"\\begin{itemize}\\item x\n\\end{itemize}" none = .ok t!"\n-  x\n  " ∧
      convertText 50 defaultSpec t!" y" none = .ok t!" y" ∧
      convertText 50 defaultSpec t!"\\begin{itemize}\\item x\n\\end{itemize} y" none = .ok t!"\n-  x\n  y") ∧
    (convertText 50 defaultSpec t!"$\\begin{aligned}a\\label{k}\\end{aligned}$" none = .ok t!"#math.equation(block: false, $aligned(a )$);" ∧
      convertText 50 defaultSpec t!"\\begin{aligned}b\\end{aligned}" none = .ok t!"$ aligned(b ) $" ∧
      convertText 50 defaultSpec t!"$\\begin{aligned}a\\label{k}\\end{aligned}$\\begin{aligned}b\\end{aligned}" none =
        .ok t!"#math.equation(block: false, $aligned(a )$);$ aligned(b ) $<k>") :=
  ⟨⟨by decide +kernel, by decide +kernel, by decide +kernel⟩, ⟨by decide +kernel, by decide +kernel⟩, ⟨by decide +kernel, by decide +kernel⟩,
    ⟨by decide +kernel, by decide +kernel, by decide +kernel⟩, ⟨by decide +kernel, by decide +kernel, by decide +kernel⟩⟩

end Mitex
