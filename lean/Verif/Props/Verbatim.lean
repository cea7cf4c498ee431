/-
C91: Typst code is copied verbatim, block comments leave nothing.
-/
import Verif.Props.Local
import Verif.Props.Idempotent

namespace Mitex

/-- The text can stand in a block: after the word that opens it (it does not continue this word), and before the `\fi` (which is not swallowed by a
comment or a lone backslash at the end); it has no `\begin` and no `\end`. -/
structure BlockText (b : Text) (ts : List Tok) : Prop where
  start : NoMore (fun c => NameChar c ∨ c = '*') b
  plain : ∀ t ∈ ts, t.1 ∉ [Token.cmd .beginEnv, .cmd .endEnv, .cmd .errorBeginEnv, .cmd .errorEndEnv]
  fin : ∀ t, ts.getLast? = some t → Separate t t!"\\fi"

namespace Verbatim

theorem opener {spec : CommandSpec} {i : IfName} (hi : i = .ifFalse ∨ i = .ifTypst) {rest : Text} (h : NoMore (fun c => NameChar c ∨ c = '*') rest) :
    TokenAt spec (i.text ++ rest) (.cmd (.cif i)) i.text rest := by
  have hr : NoMore NameChar rest := fun d hd k => h d hd (.inl k)
  have hs : ∀ n : Text, ¬ (rest.head? = some '*' ∧ (spec (n ++ ['*'])).isSome) := fun n k => h '*' k.1 (.inr rfl)
  rcases hi with rfl | rfl
  · exact .command t!"iffalse" rest (.cif .ifFalse) (by decide) (by decide +kernel) hr (hs _) (by decide) (by decide) (.inl (by decide))
  · exact .command t!"iftypst" rest (.cif .ifTypst) (by decide) (by decide +kernel) hr (hs _) (by decide) (by decide) (.inl (by decide))

theorem fi_tokens {spec : CommandSpec} : Tokenized spec t!"\\fi" [fiTok] := by
  refine .cons _ _ _ [] _ (.command t!"fi" [] .endIf (by decide) (by decide +kernel) (fun d hd => (by cases hd)) (fun k => (by cases k.1)) (by decide) (by decide)
    (.inl (by decide))) .nil

theorem block_tokens {spec : CommandSpec} {i : IfName} (hi : i = .ifFalse ∨ i = .ifTypst) {b : Text} {ts : List Tok} (h : tokensOf spec b = .ok ts)
    (hb : BlockText b ts) : tokensOf spec (i.text ++ (b ++ t!"\\fi")) = .ok (ifTok i :: (ts ++ [fiTok])) := by
  refine (C59_tokens _ _ _).2 (.cons _ _ _ _ _ (opener hi ?_) (Local.tokenized_join ((C59_tokens _ _ _).1 h) fi_tokens ?_ hb.fin))
  · intro d hd
    cases b with
    | nil => cases hd; decide +kernel
    | cons c b => exact hb.start d hd
  · intro t ht
    have := hb.plain t ht
    simp only [List.mem_cons, List.not_mem_nil, or_false, not_or] at this
    exact ⟨this.2.2.1, this.2.2.2⟩

theorem open_tokens {spec : CommandSpec} {i : IfName} (hi : i = .ifFalse ∨ i = .ifTypst) {b : Text} {ts : List Tok} (h : tokensOf spec b = .ok ts)
    (hb : NoMore (fun c => NameChar c ∨ c = '*') b) : tokensOf spec (i.text ++ b) = .ok (ifTok i :: ts) :=
  (C59_tokens _ _ _).2 (.cons _ _ _ _ _ (opener hi hb) ((C59_tokens _ _ _).1 h))

/-- The node of a block. -/
def node (i : IfName) (ts : List Tok) : Elem := .node (if i = .ifFalse then .itemBlockComment else .itemTypstCode) (ts.map leafOf)

theorem kinds {i : IfName} (hi : i = .ifFalse ∨ i = .ifTypst) :
    (i, if i = .ifFalse then Kind.itemBlockComment else Kind.itemTypstCode) = (.ifFalse, .itemBlockComment) ∨
    (i, if i = .ifFalse then Kind.itemBlockComment else Kind.itemTypstCode) = (.ifTypst, .itemTypstCode) := by
  rcases hi with rfl | rfl
  · exact .inl rfl
  · exact .inr rfl

theorem block_tree {env : PEnv} {i : IfName} (hi : i = .ifFalse ∨ i = .ifTypst) {ts : List Tok} (hd : ifDepth ts 0 = some 0) :
    Grammar.Document env (ifTok i :: (ts ++ [fiTok])) (.node .scopeRoot [node i ts]) :=
  ⟨_, .more (by simp) (.block (x := i.text) (y := t!"\\fi") (kinds hi) hd) (.over fun t h => (by cases h)), rfl⟩

theorem open_tree {env : PEnv} {i : IfName} (hi : i = .ifFalse ∨ i = .ifTypst) {ts : List Tok} (hd : ifDepth ts 0 ≠ none) :
    Grammar.Document env (ifTok i :: ts) (.node .scopeRoot [node i ts]) :=
  ⟨_, .more (by simp) (.blockOpen (x := i.text) (kinds hi) hd) (.over fun t h => (by cases h)), rfl⟩

theorem leaves_text (k : Kind) (ts : List Tok) : (Elem.node k (ts.map leafOf)).text = (ts.map Prod.snd).flatten := by
  unfold Elem.text
  congr 1
  rw [Elem.leaves]
  induction ts with
  | nil => rfl
  | cons t ts ih =>
    rw [List.map_cons, Elem.leaves.go, List.map_append, ih]
    rfl

/-- What a block leaves in the output. -/
def copied (i : IfName) (ts : List Tok) : Text := if i = .ifFalse then [] else (ts.map Prod.snd).flatten

theorem convert_block (dflt : CommandSpec) (m : Mode) {i : IfName} (hi : i = .ifFalse ∨ i = .ifTypst) (ts : List Tok) :
    convertTree dflt m (.node .scopeRoot [node i ts]) = .ok (copied i ts) := by
  unfold convertTree
  have hd : (Elem.node .scopeRoot [node i ts]).depth = Elem.depth.go (ts.map leafOf) + 1 + 1 := by
    simp [Elem.depth, Elem.depth.go, node]
  rw [hd]
  rcases hi with rfl | rfl
  · rfl
  · show Except.ok _ = _
    simp only [copied]
    rw [← leaves_text .itemTypstCode ts]
    rfl

theorem words_cmds {spec : CommandSpec} {u : Text} {ts : List Tok} (h : tokensOf spec u = .ok ts) : WordsOk ts ∧ CmdsOk ts := (C28_delivered spec u ts h).1

theorem delivers_block {i : IfName} (hi : i = .ifFalse ∨ i = .ifTypst) {ts os : List Tok} {m m' : MacroTable} (hA : Delivers m ts os m') :
    Delivers m (ifTok i :: (ts ++ [fiTok])) (ifTok i :: (os ++ [fiTok])) m' := by
  rcases hi with rfl | rfl
  · exact C19_iffalse _ _ _ _ hA
  · intro ifs rest out
    simp only [List.cons_append, List.append_assoc, List.nil_append]
    refine Runs.step (e1 := ⟨m, some .typstTrue :: ifs⟩) (c1 := ⟨ts ++ fiTok :: rest, out ++ [ifTok .ifTypst]⟩) rfl ?_
    refine (hA (some .typstTrue :: ifs) (fiTok :: rest) (out ++ [ifTok .ifTypst])).trans ?_
    refine Runs.step (e1 := ⟨m', ifs⟩) (c1 := ⟨rest, out ++ [ifTok .ifTypst] ++ os ++ [fiTok]⟩) rfl ?_
    have : out ++ [ifTok .ifTypst] ++ os ++ [fiTok] = out ++ ifTok .ifTypst :: (os ++ [fiTok]) := by simp
    rw [this]
    exact .refl _ _

theorem clauses {ts : List Tok} (h : ∀ t ∈ ts, t.1 ∉ [Token.cmd .beginEnv, .cmd .endEnv, .cmd .errorBeginEnv, .cmd .errorEndEnv]) :
    ∀ t ∈ ts, t.1 ≠ .cmd .beginEnv ∧ t.1 ≠ .cmd .endEnv := by
  intro t ht
  have := h t ht
  simp only [List.mem_cons, List.not_mem_nil, or_false, not_or] at this
  exact ⟨this.1, this.2.1⟩

/-- The conversion of tokens that are a document of one block. -/
theorem converted {dflt : CommandSpec} {m : Mode} {spec : Option CommandSpec} {i : IfName} (hi : i = .ifFalse ∨ i = .ifTypst) {fuel : Nat} {macros : Bool}
    {u : Text} {us os : List Tok} (hu : tokensOf (spec.getD dflt) u = .ok us) {ts : List Tok}
    (hs : parserTokens fuel (spec.getD dflt) macros u = .ok ts)
    (ht : Grammar.Document ⟨spec.getD dflt, globPrefix⟩ ts (.node .scopeRoot [node i os])) :
    convertInner fuel dflt u m spec macros = .ok (copied i os) := by
  have hw : WordsOk ts ∧ CmdsOk ts := by
    unfold parserTokens at hs
    rw [hu] at hs
    cases macros with
    | false => cases hs; exact words_cmds hu
    | true => exact (C28_delivered _ _ _ hu).2 fuel ts hs
  unfold convertInner
  rw [Blank.parse_tokens, show parserTokens fuel (PEnv.spec ⟨spec.getD dflt, globPrefix⟩) macros u = _ from hs]
  show (parseToks _ ts >>= convertTree dflt m) = _
  rw [(C62_exact _ ts hw.1 hw.2 _).2 ht]
  exact convert_block dflt m hi os

end Verbatim
open Verbatim

/-- **C91**: Typst code is copied as it is, whatever it is, as long as its conditionals are balanced. -/
theorem C91_code (fuel : Nat) (dflt : CommandSpec) (m : Mode) (spec : Option CommandSpec) (b : Text) (ts : List Tok)
    (h : tokensOf (spec.getD dflt) b = .ok ts) (hb : BlockText b ts) (hd : ifDepth ts 0 = some 0) :
    convertInner fuel dflt (t!"\\iftypst" ++ (b ++ t!"\\fi")) m spec false = .ok b := by
  have ht := block_tokens (i := .ifTypst) (.inr rfl) h hb
  have := converted (m := m) (fuel := fuel) (macros := false) (i := .ifTypst) (.inr rfl) ht (os := ts) (by unfold parserTokens; rw [ht]; rfl) (block_tree (.inr rfl) hd)
  rw [copied, if_neg (by decide), C01_lossless_flat _ _ _ h (clauses hb.plain)] at this
  exact this

/-- **C91**: a block comment leaves nothing. -/
theorem C91_comment (fuel : Nat) (dflt : CommandSpec) (m : Mode) (spec : Option CommandSpec) (b : Text) (ts : List Tok)
    (h : tokensOf (spec.getD dflt) b = .ok ts) (hb : BlockText b ts) (hd : ifDepth ts 0 = some 0) :
    convertInner fuel dflt (t!"\\iffalse" ++ (b ++ t!"\\fi")) m spec false = .ok [] := by
  have ht : tokensOf (spec.getD dflt) (t!"\\iffalse" ++ (b ++ t!"\\fi")) = _ := block_tokens (i := .ifFalse) (.inl rfl) h hb
  exact converted (m := m) (fuel := fuel) (macros := false) (i := .ifFalse) (.inl rfl) ht (os := ts) (by unfold parserTokens; rw [ht]; rfl) (block_tree (.inl rfl) hd)

/-- **C91**: if the `\fi` is missing, the code goes on to the end of the text, and so does the comment. -/
theorem C91_open (fuel : Nat) (dflt : CommandSpec) (m : Mode) (spec : Option CommandSpec) (b : Text) (ts : List Tok)
    (h : tokensOf (spec.getD dflt) b = .ok ts) (hb : NoMore (fun c => NameChar c ∨ c = '*') b)
    (hc : ∀ t ∈ ts, t.1 ≠ .cmd .beginEnv ∧ t.1 ≠ .cmd .endEnv) (hd : ifDepth ts 0 ≠ none) :
    convertInner fuel dflt (t!"\\iftypst" ++ b) m spec false = .ok b ∧ convertInner fuel dflt (t!"\\iffalse" ++ b) m spec false = .ok [] := by
  have h1 := open_tokens (i := .ifTypst) (.inr rfl) h hb
  have h2 : tokensOf (spec.getD dflt) (t!"\\iffalse" ++ b) = _ := open_tokens (i := .ifFalse) (.inl rfl) h hb
  constructor
  · have := converted (m := m) (fuel := fuel) (macros := false) (i := .ifTypst) (.inr rfl) h1 (os := ts) (by unfold parserTokens; rw [h1]; rfl) (open_tree (.inr rfl) hd)
    rw [copied, if_neg (by decide), C01_lossless_flat _ _ _ h hc] at this
    exact this
  · exact converted (m := m) (fuel := fuel) (macros := false) (i := .ifFalse) (.inl rfl) h2 (os := ts) (by unfold parserTokens; rw [h2]; rfl) (open_tree (.inl rfl) hd)

/-- **C91**, with macros: what the expansion of the body delivers is copied, or left out. -/
theorem C91_expanded (dflt : CommandSpec) (m : Mode) (spec : Option CommandSpec) (b : Text) (ts os : List Tok) (m' : MacroTable)
    (h : tokensOf (spec.getD dflt) b = .ok ts) (hb : BlockText b ts) (hx : Delivers defaultMacros ts os m') (hd : ifDepth os 0 = some 0) :
    ∃ N, ∀ F, N ≤ F → convertInner F dflt (t!"\\iftypst" ++ (b ++ t!"\\fi")) m spec true = .ok (os.map Prod.snd).flatten ∧
      convertInner F dflt (t!"\\iffalse" ++ (b ++ t!"\\fi")) m spec true = .ok [] := by
  have key : ∀ i, i = IfName.ifFalse ∨ i = .ifTypst → ∃ N, ∀ F, N ≤ F → convertInner F dflt (i.text ++ (b ++ t!"\\fi")) m spec true = .ok (copied i os) := by
    intro i hi
    have ht := block_tokens hi h hb
    obtain ⟨N, hN⟩ := (delivers_block hi hx).expandAll
    refine ⟨N, fun F hF => converted (ts := ifTok i :: (os ++ [fiTok])) hi ht ?_ (block_tree hi hd)⟩
    unfold parserTokens
    rw [ht]
    exact expandAll_mono hN hF
  obtain ⟨N1, h1⟩ := key .ifTypst (.inr rfl)
  obtain ⟨N2, h2⟩ := key .ifFalse (.inl rfl)
  refine ⟨max N1 N2, fun F hF => ⟨?_, h2 F (by omega)⟩⟩
  have := h1 F (by omega)
  rwa [copied, if_neg (by decide)] at this

/-- **C91**, with macros: code without calls of macros, definitions and conditionals is copied as it is. -/
theorem C91_macros (dflt : CommandSpec) (m : Mode) (spec : Option CommandSpec) (b : Text) (ts : List Tok)
    (h : tokensOf (spec.getD dflt) b = .ok ts) (hb : BlockText b ts) (hp : ∀ t ∈ ts, Passive defaultMacros t) :
    ∃ N, ∀ F, N ≤ F → convertInner F dflt (t!"\\iftypst" ++ (b ++ t!"\\fi")) m spec true = .ok b ∧
      convertInner F dflt (t!"\\iffalse" ++ (b ++ t!"\\fi")) m spec true = .ok [] := by
  have hd : ∀ ts : List Tok, (∀ t ∈ ts, Passive defaultMacros t) → ifDepth ts 0 = some 0 := by
    intro ts
    induction ts with
    | nil => intro _; rfl
    | cons t ts ih =>
      intro hp
      have ht := hp t (by simp)
      obtain ⟨k, x⟩ := t
      unfold ifDepth
      split
      · rename_i hh; cases hh
      · rename_i hh; cases hh; exact absurd rfl (ht.1 _)
      · rename_i hh; cases hh; exact absurd rfl ht.2.2.1
      · rename_i hh; cases hh; exact ih fun t h => hp t (by simp [h])
  obtain ⟨N, hN⟩ := C91_expanded dflt m spec b ts ts defaultMacros h hb (C07_unbound_tokens_pass defaultMacros ts hp) (hd ts hp)
  refine ⟨N, fun F hF => ?_⟩
  have := hN F hF
  rwa [C01_lossless_flat _ _ _ h (clauses hb.plain)] at this

/-- **C91**, in a document: a block between two parts is one item of the document, if the second part does not look to the left. -/
theorem C91_place (env : PEnv) (i : IfName) (hi : i = .ifFalse ∨ i = .ifTypst) (u ts v heads : List Tok) (r : Grammar.Row) (B : List Elem)
    (hu : Grammar.Reaches env Grammar.start (u ++ ifTok i :: (ts ++ fiTok :: v)) heads r (ifTok i :: (ts ++ fiTok :: v))) (hd : ifDepth ts 0 = some 0)
    (hv : Grammar.AloneDocument env v B) :
    Grammar.Document env u (.node .scopeRoot r.items) ∧
    Grammar.Document env (u ++ ifTok i :: (ts ++ fiTok :: v)) (.node .scopeRoot (r.items ++ Verbatim.node i ts :: B)) := by
  refine ⟨(C75_lookahead env u _ _ heads r (by rcases hi with rfl | rfl <;> exact fun h => (by cases h)) hu).2, ?_⟩
  have hb : Grammar.Item env .root false r (ifTok i :: (ts ++ fiTok :: v)) true (r.add [Verbatim.node i ts]) v :=
    .block (x := i.text) (y := t!"\\fi") (kinds hi) hd
  have h := Local.Reaches.trans hu (.step hb (.refl _ _))
  rw [show u ++ ifTok i :: (ts ++ fiTok :: v) = (u ++ ifTok i :: (ts ++ [fiTok])) ++ v by simp] at h ⊢
  obtain ⟨hs', r', h2, e⟩ := Local.reaches_join h hv
  refine ⟨r', Local.reaches_items h2, ?_⟩
  rw [e]
  show Elem.node .scopeRoot (r.items ++ _) = .node .scopeRoot (r.items ++ [Verbatim.node i ts] ++ B)
  rw [List.append_assoc]
  rfl

namespace Verbatim

/-- A function of Typst. -/
def code : Text := t!" #let f(x) = [$x^2$ % no comment\n]"

/-- Everything about tokens that can be decided. -/
def fine (ts : List Tok) : Bool :=
  decide (ifDepth ts 0 = some 0) && ts.all (fun t => match t.1 with | .cmd _ => false | _ => true) && ts.getLast?.all (fun t => decide (t.1 = .right .bracket))

end Verbatim

/-- A function of Typst meets the conditions, and is copied; a `\begin{…}` in Typst code would not be: only the name is left of it. -/
theorem C91_example :
    (∃ ts, tokensOf defaultSpec Verbatim.code = .ok ts ∧ BlockText Verbatim.code ts ∧ ifDepth ts 0 = some 0 ∧ ∀ t ∈ ts, Passive defaultMacros t) ∧
    convertText 100 defaultSpec (t!"\\iftypst" ++ (Verbatim.code ++ t!"\\fi")) none = .ok t!" #let f(x) = [$x^2$ % no comment\n]" ∧
    convertText 100 defaultSpec (t!"\\iffalse" ++ (Verbatim.code ++ t!"\\fi")) none = .ok [] ∧
    convertText 100 defaultSpec t!"\\iftypst\\begin{a}\\fi" none = .ok t!"a" := by
  refine ⟨?_, by decide +kernel, by decide +kernel, by decide +kernel⟩
  have h : (match tokensOf defaultSpec Verbatim.code with | .ok ts => Verbatim.fine ts | _ => false) = true := by decide +kernel
  generalize hg : tokensOf defaultSpec Verbatim.code = g at h
  cases g with
  | error x => cases h
  | ok ts =>
    have h : Verbatim.fine ts = true := h
    unfold Verbatim.fine at h
    rw [Bool.and_eq_true, Bool.and_eq_true] at h
    obtain ⟨⟨h1, h2⟩, h3⟩ := h
    have hc : ∀ t ∈ ts, ∀ c, t.1 ≠ .cmd c := by
      intro t ht c e
      have := List.all_eq_true.1 h2 t ht
      simp only [e] at this
      cases this
    refine ⟨ts, rfl, ⟨?_, ?_, ?_⟩, of_decide_eq_true h1, ?_⟩
    · intro d hd
      cases hd
      decide +kernel
    · intro t ht
      simp [hc t ht]
    · intro t ht
      rw [ht] at h3
      unfold Separate
      rw [of_decide_eq_true (show decide (t.1 = .right .bracket) = true from h3)]
      trivial
    · intro t ht
      exact ⟨fun i => hc t ht _, hc t ht _, hc t ht _, fun e => absurd e (hc t ht _), fun e => absurd e (hc t ht _)⟩

end Mitex
