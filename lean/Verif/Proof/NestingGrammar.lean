/-
The output is well nested: what the grammar says about the parts of elements.
-/
import Verif.Proof.NestingAll
import Verif.Proof.GrammarFull

namespace Mitex

open Grammar (Item Items Row isBlank isTextPart closing delimiter rightDelimiter restOfWord enders)

/-- The commands, environments, delimiters and pieces of code come from tokens with the property `Q`. -/
def FromToks (Q : CommandName → Text → Prop) : Elem → Prop
  | .token k _ => k ≠ .itemLR ∧ k ≠ .itemTypstCode
  | .node k cs =>
    match k with
    | .itemCmd => ∀ t, Elem.token .clauseCommandName t ∈ cs → ∃ n, Grammar.isCommand n = true ∧ Q n t
    | .itemLR => Q .left t!"\\left"
    | .itemBegin => ∃ x as, cs = .token .tokenCommandSym x :: as ∧ Q .beginEnv x
    | .itemTypstCode => ∃ t, Q (.cif .ifTypst) t
    | .itemBlockComment => ∃ t, Q (.cif .ifFalse) t
    | .clauseLR => ∀ t, Elem.token .tokenCommandSym t ∈ cs → Q .generic t
    | _ => True

section
variable {Q : CommandName → Text → Prop}

/-- Both. -/
def PartsIn (Q : CommandName → Text → Prop) (e : Elem) : Prop := PartsOf e ∧ FromToks Q e

/-- What is needed of the tokens. -/
structure TokFine (Q : CommandName → Text → Prop) (t : Tok) : Prop where
  copied : CopiedOk t.1.kind t.2
  left : t.1 = .cmd .left → t.2 = t!"\\left"
  right : t.1 = .cmd .right → t.2 = t!"\\right"
  hash : t.1 = .hash → t.2 = t!"#"
  mark : ∀ n, t.1 = .cmd n → Q n t.2

theorem kind_ne_item (k : Token) : k.kind ≠ .itemLR ∧ k.kind ≠ .itemTypstCode := by
  cases k with
  | left b => cases b <;> decide
  | right b => cases b <;> decide
  | cmd n => cases n <;> simp [Token.kind]
  | _ => simp [Token.kind]

theorem TokFine.leaf {t : Tok} (h : TokFine Q t) : (leafOf t).Forall (PartsIn Q) := (Forall_token _ _ _).2 ⟨h.copied, kind_ne_item _⟩

theorem TokFine.leftMark {x : Text} (h : TokFine Q (.cmd .left, x)) : Q .left t!"\\left" := by
  have h1 := h.mark _ rfl
  have e : x = _ := h.left rfl
  rw [e] at h1
  exact h1

theorem TokFine.sub {a b : Text} (h : TokFine Q (.word, a)) (hs : ∀ c ∈ b, c ∈ a) : TokFine Q (.word, b) :=
  ⟨⟨fun _ c hc => h.copied.1 (by show Kind.tokenWord ∈ _; decide) c (hs c hc), fun h => absurd h (by show Kind.tokenWord ∉ _; decide)⟩, fun h => (by cases h), fun h => (by cases h), fun h => (by cases h), fun n h => (by cases h)⟩

theorem kind_ne_clause (k : Token) : k.kind ≠ .clauseLR := by
  cases k with
  | left b => cases b <;> decide
  | right b => cases b <;> decide
  | cmd n => cases n <;> simp [Token.kind]
  | _ => simp [Token.kind]

theorem leaf_whole {t : Tok} (h1 : t.1 ≠ .cmd .beginEnv) (h2 : t.1 ≠ .cmd .endEnv) : Whole (leafOf t) := by
  refine ⟨kind_ne_clause _, ?_⟩
  obtain ⟨k, x⟩ := t
  show k.kind ≠ _
  cases k with
  | left b => cases b <;> decide
  | right b => cases b <;> decide
  | cmd n =>
    cases n with
    | beginEnv => exact absurd rfl h1
    | endEnv => exact absurd rfl h2
    | _ => simp [Token.kind]
  | _ => simp [Token.kind]

theorem blank_whole {t : Tok} (h : isBlank t.1 = true) : Whole (leafOf t) := by
  refine leaf_whole ?_ ?_ <;> (intro e; rw [e] at h; revert h; decide)

theorem textPart_whole {t : Tok} (h : isTextPart t.1 = true) : Whole (leafOf t) := by
  refine leaf_whole ?_ ?_ <;> (intro e; rw [e] at h; revert h; decide)

/-- An element of a row. -/
def Part (Q : CommandName → Text → Prop) (e : Elem) : Prop := Whole e ∧ e.Forall (PartsIn Q)

theorem Part.node {k : Kind} {cs : List Elem} (hk : k ≠ .clauseLR ∧ k ≠ .tokenCommandSym) (hp : PartsOf (.node k cs)) (hq : FromToks Q (.node k cs)) (hc : ∀ c ∈ cs, c.Forall (PartsIn Q)) :
    Part Q (.node k cs) := ⟨hk, (Forall_node _ _ _).2 ⟨⟨hp, hq⟩, hc⟩⟩

/-- A node whose parts are whole. -/
theorem Part.of {k : Kind} {cs : List Elem} (hk : k ∈ [Kind.clauseArgument, .itemText, .itemAttachComponent, .itemCurly, .itemFormula, .itemBracket, .itemParen, .itemEnv])
    (hc : ∀ c ∈ cs, Part Q c) : Part Q (.node k cs) := by
  have hw : ∀ c ∈ cs, Whole c := fun c h => (hc c h).1
  have hf : ∀ c ∈ cs, c.Forall (PartsIn Q) := fun c h => (hc c h).2
  simp only [List.mem_cons, List.not_mem_nil, or_false] at hk
  rcases hk with rfl | rfl | rfl | rfl | rfl | rfl | rfl | rfl <;> exact .node (by decide) hw trivial hf

theorem Part.leaf {t : Tok} (h : TokFine Q t) (hw : Whole (leafOf t)) : Part Q (leafOf t) := ⟨hw, h.leaf⟩

theorem Part.command {n : CommandName} {name : Text} {as bs : List Elem} (hn : Grammar.isCommand n = true) (hq : TokFine Q (.cmd n, '\\' :: name))
    (ha : ∀ a ∈ as ++ bs, ∃ ds, a = .node .clauseArgument ds) (hp : ∀ a ∈ as ++ bs, a.Forall (PartsIn Q)) :
    Part Q (.node .itemCmd (as ++ leafOf (.cmd n, '\\' :: name) :: bs)) := by
  have hl : leafOf (.cmd n, '\\' :: name) = .token .clauseCommandName ('\\' :: name) := by
    have : Token.kind (.cmd n) = .clauseCommandName := by
      cases n <;> first | rfl | (revert hn; decide)
    show Elem.token (Token.kind (.cmd n)) _ = _
    rw [this]
  rw [hl]
  refine .node (by decide) ?_ ?_ ?_
  · intro c hc
    rcases List.mem_append.1 hc with hc | hc
    · exact .inr (ha c (List.mem_append_left _ hc))
    · rcases List.mem_cons.1 hc with rfl | hc
      · exact .inl ⟨name, rfl⟩
      · exact .inr (ha c (List.mem_append_right _ hc))
  · intro t ht
    have hne : ∀ a ∈ as ++ bs, a ≠ .token .clauseCommandName t := fun a h => by
      obtain ⟨ds, rfl⟩ := ha a h
      exact fun h => (by cases h)
    rcases List.mem_append.1 ht with h | h
    · exact absurd rfl (hne _ (List.mem_append_left _ h))
    · rcases List.mem_cons.1 h with h | h
      · cases h
        exact ⟨n, hn, hq.mark n rfl⟩
      · exact absurd rfl (hne _ (List.mem_append_right _ h))
  · intro c hc
    rcases List.mem_append.1 hc with hc | hc
    · exact hp c (List.mem_append_left _ hc)
    · rcases List.mem_cons.1 hc with rfl | hc
      · refine (Forall_token _ _ _).2 ⟨?_, by simp [FromToks]⟩
        exact ⟨fun h => absurd h (by decide), fun h => absurd h (by decide)⟩
      · exact hp c (List.mem_append_right _ hc)

/-- A row after some items that stay where they are. -/
structure Good (Q : CommandName → Text → Prop) (pre : List Elem) (r : Row) : Prop where
  items : ∃ rest, r.items = pre ++ rest ∧ ∀ e ∈ rest, Part Q e
  first : ∀ i, r.first = some i → 0 ≤ i → (pre.length : Int) ≤ i
  last : ∀ i, r.last = some i → 0 ≤ i → (pre.length : Int) ≤ i

theorem Good.nil (es : List Elem) (p q : Option Int) (h : ∀ e ∈ es, Part Q e) : Good Q [] ⟨es, p, q⟩ :=
  ⟨⟨es, rfl, h⟩, fun _ _ h => h, fun _ _ h => h⟩

theorem Good.all {r : Row} (h : Good Q [] r) : ∀ e ∈ r.items, Part Q e := by
  obtain ⟨rest, h1, h2⟩ := h.items
  rw [h1]
  exact h2

theorem Good.add {pre : List Elem} {r : Row} (h : Good Q pre r) {es : List Elem} (he : ∀ e ∈ es, Part Q e) : Good Q pre (r.add es) := by
  obtain ⟨rest, h1, h2⟩ := h.items
  refine ⟨⟨rest ++ es, ?_, ?_⟩, h.first, h.last⟩
  · show r.items ++ es = _
    rw [h1, List.append_assoc]
  · intro e h
    rcases List.mem_append.1 h with h | h
    · exact h2 e h
    · exact he e h

/-- The items may be replaced after those that stay. -/
theorem Good.withItems {pre : List Elem} {r : Row} (h : Good Q pre r) {kept : List Elem} (hk : ∃ rest, kept = pre ++ rest ∧ ∀ e ∈ rest, Part Q e) {e : Elem}
    (he : Part Q e) : Good Q pre { r with items := kept ++ [e] } := by
  obtain ⟨rest, rfl, h2⟩ := hk
  refine ⟨⟨rest ++ [e], by simp, fun c hc => ?_⟩, h.first, h.last⟩
  rcases List.mem_append.1 hc with h | h
  · exact h2 c h
  · rw [List.mem_singleton.1 h]; exact he

theorem Good.operand {pre : List Elem} {r : Row} (h : Good Q pre r) {p : Option Int} (hp : p = r.first ∨ p = r.last) {kept arg : List Elem}
    (ho : r.operand p = some (kept, arg)) : (∃ rest, kept = pre ++ rest ∧ ∀ e ∈ rest, Part Q e) ∧
      (∀ a ∈ arg, ∃ ds, a = .node .clauseArgument ds) ∧ ∀ a ∈ arg, Part Q a := by
  unfold Row.operand at ho
  split at ho
  · cases ho
    exact ⟨h.items, fun a ha => (by cases ha), fun a ha => (by cases ha)⟩
  · rename_i i
    split at ho
    · rename_i hi
      have hge : (pre.length : Int) ≤ i := by
        rcases hp with hp | hp
        · exact h.first i hp.symm hi.1
        · exact h.last i hp.symm hi.1
      obtain ⟨rest, h1, h2⟩ := h.items
      cases ho
      have hle : pre.length ≤ i.toNat := by omega
      refine ⟨⟨rest.take (i.toNat - pre.length), ?_, fun e he => h2 e (List.mem_of_mem_take he)⟩, ?_, ?_⟩
      · rw [h1, List.take_append, List.take_of_length_le hle]
      · intro a ha
        rw [List.mem_singleton.1 ha]
        exact ⟨_, rfl⟩
      · intro a ha
        rw [List.mem_singleton.1 ha]
        refine .of (by decide) fun c hc => ?_
        rw [h1, List.drop_append, List.drop_of_length_le hle, List.nil_append] at hc
        exact h2 c (List.mem_of_mem_drop hc)
    · cases ho

def FineToks (Q : CommandName → Text → Prop) (ts : List Tok) : Prop := ∀ t ∈ ts, TokFine Q t

theorem FineToks.tail {t : Tok} {ts : List Tok} (h : FineToks Q (t :: ts)) : FineToks Q ts := fun x hx => h x (List.mem_cons_of_mem _ hx)
theorem FineToks.head {t : Tok} {ts : List Tok} (h : FineToks Q (t :: ts)) : TokFine Q t := h t List.mem_cons_self
theorem FineToks.left {a b : List Tok} (h : FineToks Q (a ++ b)) : FineToks Q a := fun x hx => h x (List.mem_append_left _ hx)
theorem FineToks.right {a b : List Tok} (h : FineToks Q (a ++ b)) : FineToks Q b := fun x hx => h x (List.mem_append_right _ hx)

theorem FineToks.rest {c : Char} {cs : Text} {ts : List Tok} (h : FineToks Q ((.word, c :: cs) :: ts)) : FineToks Q (restOfWord cs ts) := by
  unfold Grammar.restOfWord
  split
  · exact h.tail
  · intro t ht
    rcases List.mem_cons.1 ht with rfl | ht
    · exact h.head.sub fun c hc => List.mem_cons_of_mem _ hc
    · exact h.tail t ht

theorem Part.char {c : Char} {cs : Text} (h : TokFine Q (.word, c :: cs)) : Part Q (.token .tokenWord [c]) := by
  have : TokFine Q (.word, [c]) := h.sub fun d hd => by rw [List.mem_singleton.1 hd]; exact List.mem_cons_self
  exact ⟨by unfold Whole; exact ⟨by simp [Elem.kind], by simp [Elem.kind]⟩, this.leaf⟩

theorem closing_fine {k : Token} {ts : List Tok} (h : FineToks Q ts) : FineToks Q (closing k ts).2 ∧ ∀ e ∈ (closing k ts).1, ∃ t, e = leafOf t ∧ t.1 = k ∧ TokFine Q t := by
  unfold Grammar.closing
  split
  · split
    · rename_i t ts' hk
      refine ⟨h.tail, fun e he => ?_⟩
      rw [List.mem_singleton.1 he]
      exact ⟨t, rfl, hk, h.head⟩
    · exact ⟨h, fun e he => (by cases he)⟩
  · exact ⟨h, fun e he => (by cases he)⟩

theorem closing_part {k : Token} {ts : List Tok} (h : FineToks Q ts) (h1 : k ≠ .cmd .beginEnv) (h2 : k ≠ .cmd .endEnv) : ∀ e ∈ (closing k ts).1, Part Q e := by
  intro e he
  obtain ⟨t, rfl, hk, ht⟩ := (closing_fine h).2 e he
  exact .leaf ht (leaf_whole (hk ▸ h1) (hk ▸ h2))

theorem ending_part {ts : List Tok} (h : FineToks Q ts) : ∀ e ∈ (closing (.cmd .endEnv) ts).1.map fun e => Elem.node .itemEnd [e], Part Q e := by
  intro e he
  obtain ⟨d, hd, rfl⟩ := List.mem_map.1 he
  obtain ⟨t, rfl, hk, ht⟩ := (closing_fine h).2 d hd
  exact .node (by decide) trivial trivial fun c hc => by rw [List.mem_singleton.1 hc]; exact ht.leaf

theorem delimiter_fine {t : Tok} {ts : List Tok} {name : Text} (ht : TokFine Q t) (hk : t.1.kind = .clauseCommandName) (hn : t.2 = name) (h : FineToks Q ts) :
    IsDelim name (delimiter t ts).1 ∧ (delimiter t ts).1.Forall (PartsIn Q) ∧ FineToks Q (delimiter t ts).2 := by
  have hb : ∀ e ∈ (ts.takeWhile fun t => isBlank t.1).map leafOf, e.Forall (PartsIn Q) ∧ e.kind ≠ .clauseLR ∧
      ∀ x, e = .token .tokenCommandSym x → Q .generic x := by
    intro e he
    obtain ⟨b, hb, rfl⟩ := List.mem_map.1 he
    have hw := blank_whole (t := b) (List.all_eq_true.1 List.all_takeWhile b hb)
    exact ⟨(h b ((List.takeWhile_prefix _).mem hb)).leaf, kind_ne_clause _, fun x e => absurd (by rw [e]; rfl) hw.2⟩
  have hr : FineToks Q (ts.dropWhile fun t => isBlank t.1) := fun x hx => h x ((List.dropWhile_suffix _).mem hx)
  have hl : leafOf t = .token .clauseCommandName name := by
    show Elem.token t.1.kind t.2 = _
    rw [hk, hn]
  have clause : ∀ es : List Elem, (∀ e ∈ es, e.Forall (PartsIn Q) ∧ e.kind ≠ .clauseLR ∧ ∀ x, e = .token .tokenCommandSym x → Q .generic x) →
      IsDelim name (.node .clauseLR (leafOf t :: (ts.takeWhile fun t => isBlank t.1).map leafOf ++ es)) ∧
      (Elem.node .clauseLR (leafOf t :: (ts.takeWhile fun t => isBlank t.1).map leafOf ++ es)).Forall (PartsIn Q) := by
    intro es hes
    have hall : ∀ e ∈ (ts.takeWhile fun t => isBlank t.1).map leafOf ++ es, e.Forall (PartsIn Q) ∧ e.kind ≠ .clauseLR ∧
        ∀ x, e = .token .tokenCommandSym x → Q .generic x := by
      intro e he
      rcases List.mem_append.1 he with he | he
      · exact hb e he
      · exact hes e he
    refine ⟨⟨_, by rw [hl]; rfl⟩, (Forall_node _ _ _).2 ⟨⟨⟨name, _, by rw [hl]; rfl, fun d hd => (hall d hd).2.1⟩, ?_⟩, ?_⟩⟩
    · intro x hx
      rcases List.mem_cons.1 hx with hx | hx
      · rw [hl] at hx; cases hx
      · exact (hall _ hx).2.2 x rfl
    intro e he
    rcases List.mem_cons.1 he with rfl | he
    · exact ht.leaf
    · exact (hall e he).1
  unfold Grammar.delimiter
  dsimp only
  split
  · rename_i x rest' he
    rw [he] at hr
    obtain ⟨h1, h2⟩ := clause [.token .tokenCommandSym x] (fun e he => by
      rw [List.mem_singleton.1 he]
      exact ⟨(Forall_token _ _ _).2 ⟨⟨fun h => absurd h (by decide), fun h => absurd h (by decide)⟩, by simp [FromToks]⟩, by simp [Elem.kind],
        fun y hy => (by cases hy; exact hr.head.mark _ rfl)⟩)
    exact ⟨h1, h2, hr.tail⟩
  · obtain ⟨h1, h2⟩ := clause [] (fun e he => (by cases he))
    exact ⟨h1, h2, hr⟩
  · obtain ⟨h1, h2⟩ := clause [] (fun e he => (by cases he))
    exact ⟨h1, h2, hr⟩
  · obtain ⟨h1, h2⟩ := clause [] (fun e he => (by cases he))
    exact ⟨h1, h2, hr⟩
  · obtain ⟨h1, h2⟩ := clause [] (fun e he => (by cases he))
    exact ⟨h1, h2, hr⟩
  · rename_i c cs rest' he
    rw [he] at hr
    obtain ⟨h1, h2⟩ := clause [.token .tokenWord [c]] (fun e he => by
      rw [List.mem_singleton.1 he]
      have := Part.char hr.head
      exact ⟨this.2, this.1.1, fun y hy => (by cases hy)⟩)
    exact ⟨h1, h2, hr.rest⟩
  · rename_i t' rest' _ h2 _ _ _ he
    rw [he] at hr
    obtain ⟨h1, h2⟩ := clause [leafOf t'] (fun e he => by
      rw [List.mem_singleton.1 he]
      refine ⟨hr.head.leaf, kind_ne_clause _, fun y hy => absurd (by rw [hy]; rfl) (leaf_whole (t := t') ?_ ?_).2⟩
      · intro e
        obtain ⟨k, u⟩ := t'
        cases (show k = _ from e)
        exact h2 _ _ rfl
      · intro e
        obtain ⟨k, u⟩ := t'
        cases (show k = _ from e)
        exact h2 _ _ rfl)
    exact ⟨h1, h2, hr.tail⟩

/-- The positions are kept or forgotten. -/
def Kept (r r' : Row) : Prop := (r'.first = r.first ∨ r'.first = none) ∧ (r'.last = r.last ∨ r'.last = none)

theorem Good.forget {pre : List Elem} {r : Row} (h : Good Q pre r) : Good Q pre { r with last := none } :=
  ⟨h.items, h.first, fun _ h => (by cases h)⟩

def ItemGood (Q : CommandName → Text → Prop) (r : Row) (ts : List Tok) (r' : Row) (ts' : List Tok) : Prop :=
  FineToks Q ts → FineToks Q ts' ∧ Kept r r' ∧ ∀ pre, Good Q pre r → Good Q pre r'

def ItemsGood (Q : CommandName → Text → Prop) (r : Row) (ts : List Tok) (r' : Row) (ts' : List Tok) : Prop :=
  FineToks Q ts → FineToks Q ts' ∧ ∀ pre, Good Q pre r → Good Q pre r'

def ArgsGood (Q : CommandName → Text → Prop) (ts : List Tok) (args : List Elem) (blanks ts' : List Tok) : Prop :=
  FineToks Q ts → FineToks Q ts' ∧ (∀ a ∈ args, (∃ ds, a = .node .clauseArgument ds) ∧ Part Q a) ∧ FineToks Q blanks ∧ ∀ t ∈ blanks, isBlank t.1 = true

theorem blanks_part {bs : List Tok} (h : FineToks Q bs) (hb : ∀ t ∈ bs, isBlank t.1 = true) : ∀ e ∈ bs.map leafOf, Part Q e := by
  intro e he
  obtain ⟨t, ht, rfl⟩ := List.mem_map.1 he
  exact .leaf (h t ht) (blank_whole (hb t ht))

theorem add_good {r : Row} {ts ts' : List Tok} {es : List Elem} (h : FineToks Q ts → FineToks Q ts' ∧ ∀ e ∈ es, Part Q e) : ItemGood Q r ts (r.add es) ts' :=
  fun hf => ⟨(h hf).1, ⟨.inl rfl, .inl rfl⟩, fun _ hg => hg.add (h hf).2⟩

theorem mem_two {p : Elem → Prop} {a b : List Elem} (h : ∀ e ∈ a, p e) (k : ∀ e ∈ b, p e) : ∀ e ∈ a ++ b, p e := by
  intro e he
  rcases List.mem_append.1 he with he | he
  · exact h e he
  · exact k e he

theorem mem_one {p : Elem → Prop} {a : Elem} (h : p a) : ∀ e ∈ [a], p e := by
  intro e he
  rw [List.mem_singleton.1 he]; exact h

theorem mem_more {p : Elem → Prop} {a : Elem} {b : List Elem} (h : p a) (k : ∀ e ∈ b, p e) : ∀ e ∈ a :: b, p e := by
  intro e he
  rcases List.mem_cons.1 he with rfl | he
  · exact h
  · exact k e he

theorem parts_good {env : PEnv} {sc : Scope} {stop : List Token} {r : Row} {ts : List Tok} {r' : Row} {ts' : List Tok}
    (h : Items env sc stop r ts r' ts') : ItemsGood Q r ts r' ts' := by
  refine @Items.rec env (fun sc one r ts att r' ts' _ => ItemGood Q r ts r' ts')
    (fun sc stop r ts r' ts' _ => ItemsGood Q r ts r' ts') (fun sc p ks ts args blanks ts' _ => ArgsGood Q ts args blanks ts')
    ?over ?single ?misplaced ?text ?char ?noChar ?group ?environment ?environmentArgs ?delimited ?block ?blockOpen ?symbol ?command ?greedy
    ?post ?inf ?prime ?apostrophe ?script ?iover ?imore ?aover ?ablank ?achar ?agroup ?abracket ?aitem sc stop r ts r' ts' h
  case over => intro _ _ r hf; exact ⟨hf, ⟨.inl rfl, .inl rfl⟩, fun _ h => h⟩
  case single =>
    intro _ _ _ _ k _ _ h
    refine add_good fun hf => ⟨hf.tail, mem_one (.leaf hf.head (leaf_whole ?_ ?_))⟩
    all_goals (intro e; rw [show k = _ from e] at h; cases h)
  case misplaced =>
    intro _ _ _ k _ _ h
    exact add_good fun hf => ⟨hf.tail, mem_one (.node (by decide) trivial trivial (mem_one hf.head.leaf))⟩
  case text =>
    intro sc one r k x run ts h hr he
    refine add_good fun hf => ⟨hf.tail.right, mem_one (.of (by decide) ?_)⟩
    intro e he
    obtain ⟨t, ht, rfl⟩ := List.mem_map.1 he
    rcases List.mem_cons.1 ht with rfl | ht
    · refine .leaf hf.head (textPart_whole ?_)
      rcases h with h | ⟨h, -⟩ <;> (rw [h]; rfl)
    · exact .leaf (hf.tail.left t ht) (textPart_whole (hr t ht))
  case char => intro _ _ _ _ _; exact add_good fun hf => ⟨hf.rest, mem_one (.char hf.head)⟩
  case noChar => intro _ _ _ hf; exact ⟨hf, ⟨.inl rfl, .inl rfl⟩, fun _ h => h⟩
  case group =>
    intro sc sc' one att r r' k close kind x ts ts' h _ ih
    refine add_good fun hf => ?_
    obtain ⟨h1, h2⟩ := ih hf.tail
    have hk : Whole (leafOf (k, x)) ∧ close ≠ .cmd .beginEnv ∧ close ≠ .cmd .endEnv ∧ kind ∈ [Kind.itemCurly, .itemFormula] := by
      cases k with
      | left b =>
        cases b with
        | curly => cases h; exact ⟨leaf_whole (by simp) (by simp), by decide, by decide, by decide⟩
        | _ => cases h
      | cmd c =>
        cases c with
        | beginMath => cases h; exact ⟨leaf_whole (by simp) (by simp), by decide, by decide, by decide⟩
        | _ => cases h
      | dollar => cases h; exact ⟨leaf_whole (by simp) (by simp), by decide, by decide, by decide⟩
      | _ => cases h
    obtain ⟨k1, k2, k3, k4⟩ := hk
    have hg := h2 [] (.nil _ _ _ (mem_one (.leaf hf.head k1)))
    refine ⟨(closing_fine h1).1, mem_one (.of ?_ (mem_two hg.all (closing_part h1 k2 k3)))⟩
    simp only [List.mem_cons, List.not_mem_nil, or_false] at k4
    rcases k4 with rfl | rfl <;> decide
  case environment =>
    intro sc one r r' x ts ts' h _ ih
    refine add_good fun hf => ?_
    obtain ⟨h1, h2⟩ := ih hf.tail
    have hb : Part Q (.node .itemBegin [leafOf (.cmd .beginEnv, x)]) :=
      .node (by decide) ⟨_, [], rfl, fun c hc => (by cases hc)⟩ ⟨x, [], rfl, hf.head.mark _ rfl⟩ (mem_one hf.head.leaf)
    have hg := h2 [] (.nil _ _ _ (mem_one hb))
    exact ⟨(closing_fine h1).1, mem_one (.of (by decide) (mem_two hg.all (ending_part h1)))⟩
  case environmentArgs =>
    intro sc one r r' p x args blanks ts ts1 ts' h hp _ _ iha ihi hf
    obtain ⟨a1, a2, a3, a4⟩ := iha hf.tail
    obtain ⟨h1, h2⟩ := ihi a1
    have hb : Part Q (.node .itemBegin (leafOf (.cmd .beginEnv, x) :: args)) :=
      .node (by decide) ⟨_, args, rfl, fun c hc => (a2 c hc).2.1⟩ ⟨x, args, rfl, hf.head.mark _ rfl⟩ (mem_more hf.head.leaf fun c hc => (a2 c hc).2.2)
    have hg := h2 [] (.nil _ _ _ (mem_more hb (blanks_part a3 a4)))
    refine ⟨(closing_fine h1).1, ⟨.inl rfl, .inr rfl⟩, fun pre hgr => Good.forget (hgr.add (mem_one ?_))⟩
    exact .of (by decide) (mem_two hg.all (ending_part h1))
  case delimited =>
    intro sc one r r' x ts ts' _ ih
    refine add_good fun hf => ?_
    obtain ⟨d1, d2, d3⟩ := delimiter_fine hf.head rfl (hf.head.left rfl) hf.tail
    obtain ⟨h1, h2⟩ := ih d3
    have hg := h2 [(delimiter (.cmd .left, x) ts).1] ⟨⟨[], rfl, fun e he => (by cases he)⟩, fun i hi _ => (by cases hi; exact Int.le_refl _), fun i hi => (by cases hi)⟩
    obtain ⟨rest, hr1, hr2⟩ := hg.items
    have hw : ∀ c ∈ rest, Whole c := fun c hc => (hr2 c hc).1
    unfold Grammar.rightDelimiter
    split
    · rename_i x' ts2
      obtain ⟨e1, e2, e3⟩ := delimiter_fine h1.head rfl (h1.head.right rfl) h1.tail
      refine ⟨e3, mem_one ?_⟩
      rw [hr1]
      refine .node (by decide) ⟨_, rest ++ [_], rfl, d1, .inr ⟨rest, _, rfl, hw, e1⟩⟩ hf.head.leftMark ?_
      exact mem_two (mem_two (mem_one d2) fun c hc => (hr2 c hc).2) (mem_one e2)
    · refine ⟨h1, mem_one ?_⟩
      rw [hr1]
      refine .node (by decide) ⟨_, rest ++ [], rfl, d1, .inl (by rw [List.append_nil]; exact hw)⟩ hf.head.leftMark ?_
      exact mem_two (mem_two (mem_one d2) fun c hc => (hr2 c hc).2) fun e he => (by cases he)
  case block =>
    intro sc one r i kind x y body ts h hb
    refine add_good fun hf => ⟨hf.tail.right.tail, mem_one ?_⟩
    have hp : ∀ e ∈ body.map leafOf, e.Forall (PartsIn Q) := by
      intro e he
      obtain ⟨t, ht, rfl⟩ := List.mem_map.1 he
      exact (hf.tail.left t ht).leaf
    rcases h with h | h <;> cases h
    · exact .node (by decide) trivial ⟨_, hf.head.mark _ rfl⟩ hp
    · exact .node (by decide) trivial ⟨_, hf.head.mark _ rfl⟩ hp
  case blockOpen =>
    intro sc one r i kind x body h hb
    refine add_good fun hf => ⟨fun t ht => (by cases ht), mem_one ?_⟩
    have hp : ∀ e ∈ body.map leafOf, e.Forall (PartsIn Q) := by
      intro e he
      obtain ⟨t, ht, rfl⟩ := List.mem_map.1 he
      exact (hf.tail t ht).leaf
    rcases h with h | h <;> cases h
    · exact .node (by decide) trivial ⟨_, hf.head.mark _ rfl⟩ hp
    · exact .node (by decide) trivial ⟨_, hf.head.mark _ rfl⟩ hp
  case symbol =>
    intro sc one r n name ts hn h
    exact add_good fun hf => ⟨hf.tail, mem_one (.command (as := []) (bs := []) hn hf.head (fun a ha => (by cases ha)) (fun a ha => (by cases ha)))⟩
  case command =>
    intro sc one r n name p args blanks ts ts' hn h h1 h2 _ iha hf
    obtain ⟨a1, a2, a3, a4⟩ := iha hf.tail
    refine ⟨a1, ⟨.inl rfl, .inr rfl⟩, fun pre hgr => Good.forget (hgr.add (mem_more ?_ (blanks_part a3 a4)))⟩
    exact .command (as := []) hn hf.head (fun a ha => (a2 a ha).1) (fun a ha => (a2 a ha).2.2)
  case greedy =>
    intro sc one r r' n name ts ts' hn h _ ih hf
    obtain ⟨h1, h2⟩ := ih hf.tail
    have hg : Part Q (.node .clauseArgument r'.items) := .of (by decide) (h2 [] (.nil _ _ _ fun e he => (by cases he))).all
    refine ⟨h1, ⟨.inl rfl, .inr rfl⟩, fun pre hgr => Good.forget (hgr.add (mem_one ?_))⟩
    exact .command (as := []) hn hf.head (mem_one ⟨_, rfl⟩) (mem_one hg.2)
  case post =>
    intro sc one r n name kept arg ts hn h ho hf
    refine ⟨hf.tail, ⟨.inl rfl, .inl rfl⟩, fun pre hgr => ?_⟩
    have hor : r.last.or r.first = r.first ∨ r.last.or r.first = r.last := by
      cases r.last with
      | none => exact .inl rfl
      | some i => exact .inr rfl
    obtain ⟨o1, o2, o3⟩ := hgr.operand hor ho
    exact hgr.withItems o1 (.command (bs := []) hn hf.head (by simpa using o2) (by rw [List.append_nil]; exact fun a ha => (o3 a ha).2))
  case inf =>
    intro sc one r r' n name kept arg ts ts' hn h ho _ ih hf
    obtain ⟨h1, h2⟩ := ih hf.tail
    have hg : Part Q (.node .clauseArgument r'.items) := .of (by decide) (h2 [] (.nil _ _ _ fun e he => (by cases he))).all
    refine ⟨h1, ⟨.inr rfl, .inr rfl⟩, fun pre hgr => ?_⟩
    obtain ⟨o1, o2, o3⟩ := hgr.operand (.inl rfl) ho
    have := hgr.withItems o1 (.command (name := name) (as := arg) (bs := [.node .clauseArgument r'.items]) hn hf.head (mem_two o2 (mem_one ⟨_, rfl⟩))
      (mem_two (fun a ha => (o3 a ha).2) (mem_one hg.2)))
    exact ⟨this.items, fun _ h => (by cases h), fun _ h => (by cases h)⟩
  case prime =>
    intro sc one r x kept arg ts hl ho hf
    refine ⟨hf.tail, ⟨.inl rfl, .inl rfl⟩, fun pre hgr => ?_⟩
    obtain ⟨o1, o2, o3⟩ := hgr.operand (.inr rfl) ho
    exact hgr.withItems o1 (.of (by decide) (mem_two o3 (mem_one (.leaf hf.head (leaf_whole (by simp) (by simp))))))
  case apostrophe =>
    intro sc one r x ts hl
    exact add_good fun hf => ⟨hf.tail, mem_one (.leaf hf.head (leaf_whole (by simp) (by simp)))⟩
  case script =>
    intro sc one att r r' k x kept arg blanks ts ts' hk ho hb he _ ih hf
    obtain ⟨h1, ⟨q1, q2⟩, h3⟩ := ih hf.tail.right
    have hpos : ∀ {p q : Option Int}, (q = p.map (· - (kept.length : Int)) ∨ q = none) → (q.map (· + (kept.length : Int)) = p ∨ q.map (· + (kept.length : Int)) = none) := by
      intro p q h
      rcases h with rfl | rfl
      · cases p with
        | none => exact .inl rfl
        | some i => exact .inl (by simp)
      · exact .inr rfl
    have hkept : Kept r (Row.leave kept.length r' (kept ++ [.node .itemAttachComponent r'.items])) := ⟨hpos q1, hpos q2⟩
    refine ⟨h1, hkept, fun pre hgr => ?_⟩
    obtain ⟨o1, o2, o3⟩ := hgr.operand (.inr rfl) ho
    have hm : Part Q (leafOf (k, x)) := .leaf hf.head (leaf_whole (by rcases hk with rfl | rfl <;> simp) (by rcases hk with rfl | rfl <;> simp))
    have hg := h3 [] (.nil _ _ _ (mem_two o3 (mem_more hm (blanks_part hf.tail.left hb))))
    have hw := hgr.withItems o1 (Part.of (k := .itemAttachComponent) (by decide) hg.all)
    refine ⟨hw.items, fun i hi => ?_, fun i hi => ?_⟩
    · rcases hkept.1 with h | h
      · exact hgr.first i (h ▸ hi)
      · rw [h] at hi; cases hi
    · rcases hkept.2 with h | h
      · exact hgr.last i (h ▸ hi)
      · rw [h] at hi; cases hi
  case iover => intro _ _ _ _ _ hf; exact ⟨hf, fun _ h => h⟩
  case imore =>
    intro sc stop r r1 r' t att ts ts1 ts' h _ _ ih1 ih2 hf
    obtain ⟨h1, h2, h3⟩ := ih1 hf
    obtain ⟨h4, h5⟩ := ih2 h1
    refine ⟨h4, fun pre hg => h5 pre ?_⟩
    split
    · refine ⟨(h3 pre hg).items, (h3 pre hg).first, fun i hi _ => ?_⟩
      cases hi
      obtain ⟨rest, hr, _⟩ := hg.items
      rw [hr, List.length_append]
      omega
    · exact h3 pre hg
  case aover => intro _ _ _ _ _ hf; exact ⟨hf, fun a ha => (by cases ha), fun a ha => (by cases ha), fun a ha => (by cases ha)⟩
  case ablank =>
    intro sc p ks t args blanks ts ts' h _ ih hf
    obtain ⟨h1, h2, h3, h4⟩ := ih hf.tail
    refine ⟨h1, h2, ?_, ?_⟩
    · split
      · intro x hx
        rcases List.mem_cons.1 hx with rfl | hx
        · exact hf.head
        · exact h3 x hx
      · exact h3
    · split
      · intro x hx
        rcases List.mem_cons.1 hx with rfl | hx
        · exact h
        · exact h4 x hx
      · exact h4
  case achar =>
    intro sc p ks c cs args blanks ts ts' h _ ih hf
    obtain ⟨h1, h2, h3⟩ := ih hf.rest
    exact ⟨h1, mem_more ⟨⟨_, rfl⟩, .of (by decide) (mem_one (.char hf.head))⟩ h2, h3⟩
  case agroup =>
    intro sc p ks b x r' args blanks ts ts1 ts' hs h _ _ ihi iha hf
    obtain ⟨h1, h2⟩ := ihi hf.tail
    obtain ⟨a1, a2, a3⟩ := iha (closing_fine h1).1
    have hg := (h2 [] (.nil _ _ _ (mem_one (.leaf hf.head (leaf_whole (by simp) (by simp)))))).all
    have hc : ∀ e ∈ (closing (Grammar.argGrouping b).2.2.1 ts1).1, Part Q e := by
      refine closing_part h1 ?_ ?_ <;> (cases b <;> decide)
    refine ⟨a1, mem_more ⟨⟨_, rfl⟩, .of (by decide) (mem_one (.of ?_ (mem_two hg hc)))⟩ a2, a3⟩
    cases b <;> decide
  case abracket =>
    intro sc p ks b x args blanks ts ts' hs h _ ih hf
    obtain ⟨h1, h2, h3⟩ := ih hf.tail
    exact ⟨h1, mem_more ⟨⟨_, rfl⟩, .of (by decide) (mem_one (.leaf hf.head (leaf_whole (by simp) (by simp))))⟩ h2, h3⟩
  case aitem =>
    intro sc p ks k x att r' args blanks ts ts1 ts' hk h _ _ ihi iha hf
    obtain ⟨h1, h2, h3⟩ := ihi hf
    obtain ⟨a1, a2, a3⟩ := iha h1
    exact ⟨a1, mem_more ⟨⟨_, rfl⟩, .of (by decide) (h3 [] (.nil _ _ _ fun e he => (by cases he))).all⟩ a2, a3⟩

/-- The parts of a document. -/
theorem document_parts {env : PEnv} {ts : List Tok} {e : Elem} (h : Grammar.Document env ts e) (hf : FineToks Q ts) : e.Forall (PartsIn Q) ∧ Whole e := by
  obtain ⟨r, hi, rfl⟩ := h
  have hg := ((parts_good hi hf).2 [] (.nil _ _ _ fun e he => (by cases he))).all
  refine ⟨(Forall_node _ _ _).2 ⟨⟨fun c hc => (hg c hc).1, trivial⟩, fun c hc => (hg c hc).2⟩, ?_⟩
  unfold Whole; exact ⟨by simp [Elem.kind], by simp [Elem.kind]⟩

end

end Mitex
