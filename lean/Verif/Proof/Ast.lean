/-
The parts of delimiters and environments in the trees of the grammar (C80).
-/
import Verif.Spec.Grammar
import Verif.Spec.Ast
import Verif.Props.ParserTree

namespace Mitex
namespace Ast
open Grammar

/-- The tokens `\left` and `\right` are written so. -/
def LRok (t : Tok) : Prop := (t.1 = .cmd .left → t.2 = t!"\\left") ∧ (t.1 = .cmd .right → t.2 = t!"\\right")

def AllLR (ts : List Tok) : Prop := ∀ t ∈ ts, LRok t

/-- An element with the right parts (its children not included). -/
def Good : Elem → Prop
  | .node .itemLR cs => ∃ l mid r, Delimited (.node .itemLR cs) l mid r
  | .node .itemEnv cs => ∃ name args mid closing, Environment (.node .itemEnv cs) name args mid closing
  | .node .clauseLR cs => ∃ name bs d, (name = t!"\\left" ∨ name = t!"\\right") ∧ IsClause name bs d (.node .clauseLR cs)
  | _ => True

/-- Not one of the clauses. -/
def Plain (e : Elem) : Prop := e.kind ≠ .clauseLR ∧ e.kind ≠ .itemBegin ∧ e.kind ≠ .itemEnd

theorem leaf_plain (t : Tok) : Plain (leafOf t) := by
  obtain ⟨k, x⟩ := t
  unfold Plain leafOf
  cases k with
  | left b => cases b <;> exact ⟨fun h => (by cases h), fun h => (by cases h), fun h => (by cases h)⟩
  | right b => cases b <;> exact ⟨fun h => (by cases h), fun h => (by cases h), fun h => (by cases h)⟩
  | cmd c => cases c <;> exact ⟨fun h => (by cases h), fun h => (by cases h), fun h => (by cases h)⟩
  | _ => exact ⟨fun h => (by cases h), fun h => (by cases h), fun h => (by cases h)⟩

theorem leaf_good (t : Tok) : (leafOf t).Forall Good := (Forall_token Good _ _).2 trivial

theorem node_good {k : Kind} {cs : List Elem} (hk : k ≠ .itemLR ∧ k ≠ .itemEnv ∧ k ≠ .clauseLR) (h : ∀ e ∈ cs, e.Forall Good) :
    (Elem.node k cs).Forall Good := by
  refine (Forall_node Good k cs).2 ⟨?_, h⟩
  unfold Good
  split
  · rename_i h; cases h; exact absurd rfl hk.1
  · rename_i h; cases h; exact absurd rfl hk.2.1
  · rename_i h; cases h; exact absurd rfl hk.2.2
  · trivial

/-- A row whose first `h` items are `H`, while no other item is a clause. -/
structure Inv (h : Int) (H : List Elem) (r : Row) : Prop where
  first : ∀ i, r.first = some i → h ≤ i
  last : ∀ i, r.last = some i → h ≤ i
  len : h ≤ r.items.length
  head : r.items.take h.toNat = H
  plain : ∀ e ∈ r.items.drop h.toNat, Plain e
  good : ∀ e ∈ r.items, e.Forall Good

theorem Inv.add {h : Int} {H : List Elem} {r : Row} (hr : Inv h H r) (es : List Elem) (h1 : ∀ e ∈ es, Plain e) (h2 : ∀ e ∈ es, e.Forall Good) :
    Inv h H (r.add es) := by
  have hl := hr.len
  have hn : h.toNat ≤ r.items.length := by omega
  refine ⟨hr.first, hr.last, ?_, ?_, ?_, ?_⟩
  · unfold Row.add; dsimp only; rw [List.length_append]; omega
  · unfold Row.add; dsimp only; rw [List.take_append_of_le_length hn]; exact hr.head
  · unfold Row.add; dsimp only; rw [List.drop_append_of_le_length hn]
    intro e he
    rcases List.mem_append.1 he with he | he
    · exact hr.plain e he
    · exact h1 e he
  · unfold Row.add; dsimp only
    intro e he
    rcases List.mem_append.1 he with he | he
    · exact hr.good e he
    · exact h2 e he

theorem Inv.add1 {h : Int} {H : List Elem} {r : Row} (hr : Inv h H r) (e : Elem) (h1 : Plain e) (h2 : e.Forall Good) : Inv h H (r.add [e]) :=
  hr.add [e] (fun x hx => (by rw [List.mem_singleton.1 hx]; exact h1)) (fun x hx => (by rw [List.mem_singleton.1 hx]; exact h2))

theorem Inv.forget {h : Int} {H : List Elem} {r : Row} (hr : Inv h H r) : Inv h H { r with last := none } :=
  ⟨hr.first, fun _ h => (by cases h), hr.len, hr.head, hr.plain, hr.good⟩

/-- What an operand is. -/
theorem Inv.operand {h : Int} {H : List Elem} {r : Row} (hr : Inv h H r) {p : Option Int} (hp : ∀ i, p = some i → h ≤ i)
    {kept arg : List Elem} (ho : r.operand p = some (kept, arg)) :
    h ≤ kept.length ∧ kept.take h.toNat = H ∧ (∀ e ∈ kept.drop h.toNat, Plain e) ∧ (∀ e ∈ kept, e.Forall Good) ∧
      (∀ e ∈ arg, Plain e) ∧ (∀ e ∈ arg, e.Forall Good) ∧ (∀ i, p = some i → i = kept.length) := by
  have hl := hr.len
  cases p with
  | none =>
    cases ho
    exact ⟨hr.len, hr.head, hr.plain, hr.good, fun _ h => (by cases h), fun _ h => (by cases h), fun _ h => (by cases h)⟩
  | some i =>
    unfold Row.operand at ho
    dsimp only at ho
    split at ho
    · rename_i hi
      cases ho
      have h1 := hp i rfl
      have e1 : (r.items.take i.toNat).length = i.toNat := by rw [List.length_take]; omega
      have hn : h.toNat ≤ i.toNat := by omega
      refine ⟨by omega, ?_, ?_, ?_, ?_, ?_, ?_⟩
      · rw [List.take_take, Nat.min_eq_left hn]; exact hr.head
      · intro e he
        rw [List.drop_take] at he
        exact hr.plain e (List.mem_of_mem_take he)
      · exact fun e he => hr.good e (List.mem_of_mem_take he)
      · intro e he
        rw [List.mem_singleton.1 he]
        exact ⟨fun h => (by cases h), fun h => (by cases h), fun h => (by cases h)⟩
      · intro e he
        rw [List.mem_singleton.1 he]
        exact node_good (by decide) fun e he => hr.good e (List.mem_of_mem_drop he)
      · intro j hj; cases hj; omega
    · cases ho

theorem nd {k : Kind} {cs : List Elem} (h : k ≠ .clauseLR ∧ k ≠ .itemBegin ∧ k ≠ .itemEnd) : Plain (.node k cs) := h

/-- The row after an operand was taken. -/
theorem kept_row {h : Int} {H kept : List Elem} {e : Elem} {first last : Option Int} (h1 : h ≤ kept.length) (h2 : kept.take h.toNat = H)
    (h3 : ∀ e ∈ kept.drop h.toNat, Plain e) (h4 : ∀ e ∈ kept, e.Forall Good) (h5 : Plain e) (h6 : e.Forall Good)
    (hf : ∀ i, first = some i → h ≤ i) (hl : ∀ i, last = some i → h ≤ i) : Inv h H ⟨kept ++ [e], first, last⟩ :=
  Inv.add1 (r := ⟨kept, first, last⟩) ⟨hf, hl, h1, h2, h3, h4⟩ e h5 h6

/-! ### Tokens -/

theorem allLR_sub {ts ts' : List Tok} (h : AllLR ts) (hs : ∀ t ∈ ts', t ∈ ts) : AllLR ts' := fun t ht => h t (hs t ht)

theorem allLR_tail {t : Tok} {ts : List Tok} (h : AllLR (t :: ts)) : AllLR ts := allLR_sub h fun _ => List.mem_cons_of_mem _

theorem allLR_rest {cs : Text} {ts : List Tok} (h : AllLR ts) : AllLR (restOfWord cs ts) := by
  unfold restOfWord
  split
  · exact h
  · intro t ht
    rcases List.mem_cons.1 ht with rfl | ht
    · exact ⟨fun h => (by cases h), fun h => (by cases h)⟩
    · exact h t ht

theorem allLR_closing {k : Token} {ts : List Tok} (h : AllLR ts) : AllLR (closing k ts).2 := by
  unfold closing
  split
  · split
    · exact allLR_tail h
    · exact h
  · exact h

theorem closing_leaf {k : Token} {ts : List Tok} : ∀ e ∈ (closing k ts).1, ∃ t : Tok, t.1 = k ∧ e = leafOf t := by
  unfold closing
  intro e he
  split at he
  · split at he
    · rename_i h; exact ⟨_, h, List.mem_singleton.1 he⟩
    · cases he
  · cases he

theorem allLR_delimiter {t : Tok} {ts : List Tok} (h : AllLR ts) : AllLR (delimiter t ts).2 := by
  have hd : AllLR (ts.dropWhile fun t => isBlank t.1) := allLR_sub h fun t ht => (List.dropWhile_sublist _).subset ht
  unfold delimiter
  dsimp only
  generalize ts.dropWhile (fun t => isBlank t.1) = rest at hd
  split <;> dsimp only
  · exact allLR_tail hd
  · exact hd
  · exact hd
  · exact hd
  · exact hd
  · exact allLR_rest (allLR_tail hd)
  · exact allLR_tail hd

theorem blank_kind {k : Token} (h : isBlank k = true) : k.kind ∈ blankKinds := by
  unfold isBlank at h
  simp only [decide_eq_true_eq, List.mem_cons, List.not_mem_nil, or_false] at h
  rcases h with rfl | rfl | rfl <;> decide

theorem not_blank_kind {k : Token} (h : isBlank k = false) (hc : ∀ c, k ≠ .cmd c) : k.kind ∉ .clauseCommandName :: blankKinds := by
  cases k with
  | left b => cases b <;> decide
  | right b => cases b <;> decide
  | cmd c => exact absurd rfl (hc c)
  | macroArg n => show Kind.tokenWord ∉ _; decide
  | lineBreak => cases h
  | whitespace => cases h
  | lineComment => cases h
  | _ => decide

theorem takeWhile_blank {ts : List Tok} : ∀ b ∈ (ts.takeWhile fun t => isBlank t.1).map leafOf, IsLeaf blankKinds b := by
  intro b hb
  obtain ⟨t, ht, rfl⟩ := List.mem_map.1 hb
  exact ⟨_, _, blank_kind (List.all_eq_true.1 List.all_takeWhile t ht), rfl⟩

/-- A clause and its parts. -/
theorem delimiter_clause {t : Tok} {ts : List Tok} (ht : t.1 = .cmd .left ∨ t.1 = .cmd .right) :
    ∃ bs d, IsClause t.2 bs d (delimiter t ts).1 := by
  have hk : leafOf t = .token .clauseCommandName t.2 := by
    unfold leafOf
    rcases ht with h | h <;> rw [h] <;> rfl
  have hb := takeWhile_blank (ts := ts)
  have hd : ∀ t', (ts.dropWhile fun t => isBlank t.1).head? = some t' → isBlank t'.1 = false := by
    intro t' h'
    have := List.head?_dropWhile_not (fun t : Tok => isBlank t.1) ts
    rw [h'] at this
    simpa using this
  unfold delimiter
  dsimp only
  rw [hk]
  generalize ts.dropWhile (fun t => isBlank t.1) = rest at hd
  split <;> dsimp only
  · rename_i x _
    exact ⟨_, some (.tokenCommandSym, x), by simp, hb, fun d h => (by cases h; show Kind.tokenCommandSym ∉ _; decide)⟩
  · exact ⟨_, none, by simp, hb, fun d h => (by cases h)⟩
  · exact ⟨_, none, by simp, hb, fun d h => (by cases h)⟩
  · exact ⟨_, none, by simp, hb, fun d h => (by cases h)⟩
  · exact ⟨_, none, by simp, hb, fun d h => (by cases h)⟩
  · rename_i c _ _
    exact ⟨_, some (.tokenWord, [c]), by simp, hb, fun d h => (by cases h; show Kind.tokenWord ∉ _; decide)⟩
  · rename_i t' rest' _ hc _ _ _
    refine ⟨_, some (t'.1.kind, t'.2), by simp [leafOf], hb, fun d h => ?_⟩
    cases h
    refine not_blank_kind (hd t' rfl) ?_
    intro c h
    exact hc c t'.2 (by rw [← h])

theorem clause_good {name : Text} {bs : List Elem} {d : Option (Kind × Text)} {e : Elem} (h : IsClause name bs d e)
    (hn : name = t!"\\left" ∨ name = t!"\\right") : e.Forall Good := by
  obtain ⟨rfl, hb, hd⟩ := h
  refine (Forall_node Good _ _).2 ⟨⟨name, bs, d, hn, rfl, hb, hd⟩, ?_⟩
  intro x hx
  rcases List.mem_append.1 hx with hx | hx
  · rcases List.mem_cons.1 hx with rfl | hx
    · exact (Forall_token Good _ _).2 trivial
    · obtain ⟨k, t, _, rfl⟩ := hb x hx
      exact (Forall_token Good _ _).2 trivial
  · cases d with
    | none => cases hx
    | some d =>
      rw [List.mem_singleton.1 hx]
      exact (Forall_token Good _ _).2 trivial

theorem closing_good {k : Token} {ts : List Tok} : ∀ e ∈ (closing k ts).1, e.Forall Good := by
  intro e he
  obtain ⟨t, _, rfl⟩ := closing_leaf e he
  exact leaf_good t

theorem closing_plain {k : Token} {ts : List Tok} : ∀ e ∈ (closing k ts).1, Plain e := by
  intro e he
  obtain ⟨t, _, rfl⟩ := closing_leaf e he
  exact leaf_plain t

theorem map_good {ts : List Tok} : ∀ e ∈ ts.map leafOf, e.Forall Good := by
  intro e he
  obtain ⟨t, _, rfl⟩ := List.mem_map.1 he
  exact leaf_good t

theorem map_plain {ts : List Tok} : ∀ e ∈ ts.map leafOf, Plain e := by
  intro e he
  obtain ⟨t, _, rfl⟩ := List.mem_map.1 he
  exact leaf_plain t

/-- A new row with one item as header. -/
theorem inv_start {e : Elem} (he : e.Forall Good) : Inv 1 [e] ⟨[e], some 1, none⟩ :=
  ⟨fun i h => (by cases h; omega), fun _ h => (by cases h), by simp, rfl, fun _ h => (by cases h), fun x hx => (by rw [List.mem_singleton.1 hx]; exact he)⟩

theorem inv_empty {first : Option Int} (hf : ∀ i, first = some i → 0 ≤ i) : Inv 0 [] ⟨[], first, none⟩ :=
  ⟨hf, fun _ h => (by cases h), by simp, rfl, fun _ h => (by cases h), fun x hx => (by cases hx)⟩

/-- The parts of a row. -/
theorem Inv.parts {e : Elem} {r : Row} (h : Inv 1 [e] r) : ∃ mid, r.items = e :: mid ∧ ∀ x ∈ mid, Plain x := by
  refine ⟨r.items.drop 1, ?_, h.plain⟩
  have := List.take_append_drop 1 r.items
  have h' := h.head
  rw [show ((1 : Int).toNat) = 1 from rfl] at h'
  rw [h'] at this
  exact this.symm

/-- The end of an environment. -/
theorem environment_good {x : Text} {args : List Elem} {r : Row} {ts : List Tok}
    (hr : Inv 1 [.node .itemBegin (leafOf (.cmd .beginEnv, x) :: args)] r) (ha : ∀ a ∈ args, IsArg a) :
    (Elem.node .itemEnv (r.items ++ (closing (.cmd .endEnv) ts).1.map fun e => .node .itemEnd [e])).Forall Good := by
  obtain ⟨mid, he, hm⟩ := hr.parts
  refine (Forall_node Good _ _).2 ⟨?_, ?_⟩
  · rw [he]
    have hc : ∃ c : Option Text, (closing (.cmd .endEnv) ts).1.map (fun e => Elem.node .itemEnd [e]) =
        (c.map fun n => Elem.node .itemEnd [.token .tokenCommandSym n]).toList := by
      unfold closing
      split
      · split
        · rename_i t _ h
          refine ⟨some t.2, ?_⟩
          simp only [List.map_cons, List.map_nil, Option.map_some, Option.toList_some, leafOf, h, Token.kind]
        · exact ⟨none, rfl⟩
      · exact ⟨none, rfl⟩
    obtain ⟨c, hc⟩ := hc
    refine ⟨x, args, mid, c, ?_, ha, fun y hy => (hm y hy).2⟩
    rw [hc]
    rfl
  · intro y hy
    rcases List.mem_append.1 hy with hy | hy
    · exact hr.good y hy
    · obtain ⟨z, hz, rfl⟩ := List.mem_map.1 hy
      exact node_good (by decide) fun w hw => (by rw [List.mem_singleton.1 hw]; exact closing_good z hz)

/-- The end of `\left` … `\right`. -/
theorem delimited_good {x : Text} {r : Row} {ts ts' : List Tok} (hx : x = t!"\\left")
    (hr : Inv 1 [(delimiter (.cmd .left, x) ts).1] r) (ht : AllLR ts') :
    (Elem.node .itemLR (r.items ++ (rightDelimiter ts').1)).Forall Good := by
  obtain ⟨mid, he, hm⟩ := hr.parts
  have hc : ∃ c : Option Elem, (rightDelimiter ts').1 = c.toList ∧ ∀ e, c = some e → ∃ bs d, IsClause t!"\\right" bs d e := by
    unfold rightDelimiter
    split
    · rename_i y ts1
      refine ⟨some _, rfl, fun e h => ?_⟩
      cases h
      obtain ⟨bs, d, h⟩ := delimiter_clause (t := (.cmd .right, y)) (ts := ts1) (.inr rfl)
      have hy : y = t!"\\right" := (ht _ List.mem_cons_self).2 rfl
      exact ⟨bs, d, hy ▸ h⟩
    · exact ⟨none, rfl, fun e h => (by cases h)⟩
  obtain ⟨c, hc, hcc⟩ := hc
  refine (Forall_node Good _ _).2 ⟨?_, ?_⟩
  · rw [he, hc]
    refine ⟨_, mid, c, rfl, ?_, hcc, fun y hy => (hm y hy).1⟩
    obtain ⟨bs, d, h⟩ := delimiter_clause (t := (.cmd .left, x)) (ts := ts) (.inl rfl)
    exact ⟨bs, d, hx ▸ h⟩
  · intro y hy
    rcases List.mem_append.1 hy with hy | hy
    · exact hr.good y hy
    · rw [hc] at hy
      cases c with
      | none => cases hy
      | some e =>
        rw [List.mem_singleton.1 hy]
        obtain ⟨bs, d, h⟩ := hcc e rfl
        exact clause_good h (.inr rfl)

theorem allLR_right {ts : List Tok} (h : AllLR ts) : AllLR (rightDelimiter ts).2 := by
  unfold rightDelimiter
  split
  · exact allLR_delimiter (allLR_tail h)
  · exact h

def ArgGood (es : List Elem) : Prop := ∀ e ∈ es, IsArg e ∧ e.Forall Good

theorem argGood_cons {cs args : List Elem} (h : ∀ e ∈ cs, e.Forall Good) (ha : ArgGood args) : ArgGood (.node .clauseArgument cs :: args) := by
  intro e he
  rcases List.mem_cons.1 he with rfl | he
  · exact ⟨⟨cs, rfl⟩, node_good (by decide) h⟩
  · exact ha e he

/-- The invariant of the grammar. -/
theorem invariant {env : PEnv} {sc : Scope} {stop : List Token} {r r' : Row} {ts ts' : List Tok} (h : Items env sc stop r ts r' ts') :
    ∀ h H, Inv h H r → AllLR ts → Inv h H r' ∧ AllLR ts' := by
  refine @Items.rec env
    (fun _ _ r ts _ r' ts' _ => ∀ h H, Inv h H r → AllLR ts → Inv h H r' ∧ AllLR ts')
    (fun _ _ r ts r' ts' _ => ∀ h H, Inv h H r → AllLR ts → Inv h H r' ∧ AllLR ts')
    (fun _ _ _ ts args _ ts' _ => AllLR ts → ArgGood args ∧ AllLR ts')
    ?over ?single ?misplaced ?text ?char ?noChar ?group ?environment ?environmentArgs ?delimited ?block
      ?blockOpen ?symbol ?command ?greedy ?post ?inf ?prime ?apostrophe ?script ?iover ?imore ?aover ?ablank ?achar ?agroup ?abracket ?aitem
    _ _ _ _ _ _ h
  case over => intros; exact ⟨by assumption, by assumption⟩
  case single =>
    intro _ _ _ r k x ts _ h H hr ht
    exact ⟨hr.add1 _ (leaf_plain _) (leaf_good _), allLR_tail ht⟩
  case misplaced =>
    intro _ _ r k x ts _ h H hr ht
    exact ⟨hr.add1 _ (nd (by decide)) (node_good (by decide) fun e he => (by rw [List.mem_singleton.1 he]; exact leaf_good _)), allLR_tail ht⟩
  case text =>
    intro _ _ r k x run ts _ _ _ h H hr ht
    exact ⟨hr.add1 _ (nd (by decide)) (node_good (by decide) map_good),
      allLR_sub ht fun t ht => List.mem_cons_of_mem _ (List.mem_append_right _ ht)⟩
  case char =>
    intro _ r c cs ts h H hr ht
    exact ⟨hr.add1 _ (leaf_plain (.word, [c])) (leaf_good (.word, [c])), allLR_rest (allLR_tail ht)⟩
  case noChar => intros; exact ⟨by assumption, by assumption⟩
  case group =>
    intro _ _ _ _ r r' k close kind x ts ts' hg _ ih h H hr ht
    obtain ⟨h1, h2⟩ := ih 1 _ (inv_start (leaf_good _)) (allLR_tail ht)
    have hk : (kind ≠ .clauseLR ∧ kind ≠ .itemBegin ∧ kind ≠ .itemEnd) ∧ kind ≠ .itemLR ∧ kind ≠ .itemEnv ∧ kind ≠ .clauseLR := by
      unfold grouping at hg
      split at hg <;> cases hg <;> decide
    refine ⟨hr.add1 _ (nd hk.1) (node_good hk.2 ?_), allLR_closing h2⟩
    intro e he
    rcases List.mem_append.1 he with he | he
    · exact h1.good e he
    · exact closing_good e he
  case environment =>
    intro _ _ r r' x ts ts' _ _ ih h H hr ht
    obtain ⟨h1, h2⟩ := ih 1 _ (inv_start (node_good (by decide) fun e he => (by rw [List.mem_singleton.1 he]; exact leaf_good _))) (allLR_tail ht)
    exact ⟨hr.add1 _ (nd (by decide)) (environment_good h1 fun _ h => (by cases h)), allLR_closing h2⟩
  case environmentArgs =>
    intro _ _ r r' p x args blanks ts ts1 ts' _ _ _ _ iha ih h H hr ht
    obtain ⟨ha, ht1⟩ := iha (allLR_tail ht)
    have hb : (Elem.node .itemBegin (leafOf (.cmd .beginEnv, x) :: args)).Forall Good := by
      refine node_good (by decide) fun e he => ?_
      rcases List.mem_cons.1 he with rfl | he
      · exact leaf_good _
      · exact (ha e he).2
    obtain ⟨h1, h2⟩ := ih 1 [.node .itemBegin (leafOf (.cmd .beginEnv, x) :: args)] (by
      refine ⟨fun i h => ?_, fun _ h => (by cases h), ?_, rfl, map_plain, ?_⟩
      · cases h; omega
      · simp only [List.length_cons]; omega
      · intro e he
        rcases List.mem_cons.1 he with rfl | he
        · exact hb
        · exact map_good e he) ht1
    exact ⟨(hr.add1 _ (nd (by decide)) (environment_good h1 fun a h => (ha a h).1)).forget, allLR_closing h2⟩
  case delimited =>
    intro _ _ r r' x ts ts' _ ih h H hr ht
    obtain ⟨bs, d, hd⟩ := delimiter_clause (t := (.cmd .left, x)) (ts := ts) (.inl rfl)
    obtain ⟨h1, h2⟩ := ih 1 _ (inv_start (clause_good hd (.inl ((ht _ List.mem_cons_self).1 rfl)))) (allLR_delimiter (allLR_tail ht))
    exact ⟨hr.add1 _ (nd (by decide)) (delimited_good ((ht _ List.mem_cons_self).1 rfl) h1 h2), allLR_right h2⟩
  case block =>
    intro _ _ r i kind x y body ts hk _ h H hr ht
    refine ⟨hr.add1 _ ?_ ?_, allLR_sub ht fun t ht => List.mem_cons_of_mem _ (List.mem_append_right _ (List.mem_cons_of_mem _ ht))⟩
    · rcases hk with h | h <;> cases h <;> exact nd (by decide)
    · rcases hk with h | h <;> cases h <;> exact node_good (by decide) map_good
  case blockOpen =>
    intro _ _ r i kind x body hk _ h H hr ht
    refine ⟨hr.add1 _ ?_ ?_, fun _ h => (by cases h)⟩
    · rcases hk with h | h <;> cases h <;> exact nd (by decide)
    · rcases hk with h | h <;> cases h <;> exact node_good (by decide) map_good
  case symbol =>
    intro _ _ r n name ts _ _ h H hr ht
    exact ⟨hr.add1 _ (nd (by decide)) (node_good (by decide) fun e he => (by rw [List.mem_singleton.1 he]; exact leaf_good _)), allLR_tail ht⟩
  case command =>
    intro _ _ r n name p args blanks ts ts' _ _ _ _ _ iha h H hr ht
    obtain ⟨ha, ht1⟩ := iha (allLR_tail ht)
    refine ⟨(hr.add _ ?_ ?_).forget, ht1⟩
    · intro e he
      rcases List.mem_cons.1 he with rfl | he
      · exact nd (by decide)
      · exact map_plain e he
    · intro e he
      rcases List.mem_cons.1 he with rfl | he
      · refine node_good (by decide) fun e he => ?_
        rcases List.mem_cons.1 he with rfl | he
        · exact leaf_good _
        · exact (ha e he).2
      · exact map_good e he
  case greedy =>
    intro _ _ r r' n name ts ts' _ _ _ ih h H hr ht
    obtain ⟨h1, h2⟩ := ih 0 [] (inv_empty fun i h => (by cases h; omega)) (allLR_tail ht)
    refine ⟨(hr.add1 _ (nd (by decide)) (node_good (by decide) fun e he => ?_)).forget, h2⟩
    rcases List.mem_cons.1 he with rfl | he
    · exact leaf_good _
    · rw [List.mem_singleton.1 he]
      exact node_good (by decide) h1.good
  case post =>
    intro _ _ r n name kept arg ts _ _ ho h H hr ht
    have hp : ∀ i, r.last.or r.first = some i → h ≤ i := by
      intro i hi
      cases hl : r.last with
      | none => rw [hl, Option.none_or] at hi; exact hr.first i hi
      | some j => rw [hl, Option.some_or] at hi; cases hi; exact hr.last _ hl
    obtain ⟨h1, h2, h3, h4, h5, h6, -⟩ := hr.operand hp ho
    refine ⟨kept_row h1 h2 h3 h4 (nd (by decide)) (node_good (by decide) fun e he => ?_) hr.first hr.last, allLR_tail ht⟩
    rcases List.mem_append.1 he with he | he
    · exact h6 e he
    · rw [List.mem_singleton.1 he]; exact leaf_good _
  case inf =>
    intro _ _ r r' n name kept arg ts ts' _ _ ho _ ih h H hr ht
    obtain ⟨h1, h2, h3, h4, h5, h6, -⟩ := hr.operand hr.first ho
    obtain ⟨g1, g2⟩ := ih 0 [] (inv_empty fun i h => (by cases h; omega)) (allLR_tail ht)
    refine ⟨kept_row h1 h2 h3 h4 (nd (by decide)) (node_good (by decide) fun e he => ?_) (fun _ h => (by cases h)) (fun _ h => (by cases h)), g2⟩
    rcases List.mem_append.1 he with he | he
    · exact h6 e he
    · rcases List.mem_cons.1 he with rfl | he
      · exact leaf_good _
      · rw [List.mem_singleton.1 he]
        exact node_good (by decide) g1.good
  case prime =>
    intro _ _ r x kept arg ts _ ho h H hr ht
    obtain ⟨h1, h2, h3, h4, h5, h6, -⟩ := hr.operand hr.last ho
    refine ⟨kept_row h1 h2 h3 h4 (nd (by decide)) (node_good (by decide) fun e he => ?_) hr.first hr.last, allLR_tail ht⟩
    rcases List.mem_append.1 he with he | he
    · exact h6 e he
    · rw [List.mem_singleton.1 he]; exact leaf_good _
  case apostrophe =>
    intro _ _ r x ts _ h H hr ht
    exact ⟨hr.add1 _ (leaf_plain _) (leaf_good _), allLR_tail ht⟩
  case script =>
    intro _ _ att r r' k x kept arg blanks ts ts' _ ho _ _ _ ih h H hr ht
    obtain ⟨h1, h2, h3, h4, h5, h6, h7⟩ := hr.operand hr.last ho
    have hz : (h - (kept.length : Int)).toNat = 0 := by omega
    obtain ⟨g1, g2⟩ := ih (h - kept.length) [] (by
      refine ⟨?_, ?_, ?_, ?_, ?_, ?_⟩
      · intro i hi
        unfold Row.enter at hi
        dsimp only at hi
        cases hf : r.first with
        | none => rw [hf] at hi; cases hi
        | some j => rw [hf] at hi; cases hi; have := hr.first j hf; dsimp only; omega
      · intro i hi
        unfold Row.enter at hi
        dsimp only at hi
        cases hf : r.last with
        | none => rw [hf] at hi; cases hi
        | some j => rw [hf] at hi; cases hi; have := hr.last j hf; dsimp only; omega
      · omega
      · rw [hz]; rfl
      · rw [hz]
        intro e he
        unfold Row.enter at he
        rcases List.mem_append.1 he with he | he
        · exact h5 e he
        · rcases List.mem_cons.1 he with rfl | he
          · exact leaf_plain _
          · exact map_plain e he
      · intro e he
        unfold Row.enter at he
        rcases List.mem_append.1 he with he | he
        · exact h6 e he
        · rcases List.mem_cons.1 he with rfl | he
          · exact leaf_good _
          · exact map_good e he) (allLR_sub ht fun t ht => List.mem_cons_of_mem _ (List.mem_append_right _ ht))
    refine ⟨kept_row h1 h2 h3 h4 (nd (by decide)) (node_good (by decide) g1.good) ?_ ?_, g2⟩
    · intro i hi
      cases hf : r'.first with
      | none => rw [hf] at hi; cases hi
      | some j => rw [hf] at hi; cases hi; have := g1.first j hf; dsimp only; omega
    · intro i hi
      cases hf : r'.last with
      | none => rw [hf] at hi; cases hi
      | some j => rw [hf] at hi; cases hi; have := g1.last j hf; dsimp only; omega
  case iover => intros; exact ⟨by assumption, by assumption⟩
  case imore =>
    intro _ _ r r1 r' t att ts ts1 ts' _ _ _ ih1 ih2 h H hr ht
    obtain ⟨h1, h2⟩ := ih1 h H hr ht
    refine ih2 h H ?_ h2
    split
    · exact ⟨h1.first, fun i hi => (by cases hi; exact hr.len), h1.len, h1.head, h1.plain, h1.good⟩
    · exact h1
  case aover => intros; exact ⟨fun _ h => (by cases h), by assumption⟩
  case ablank => intro _ _ _ _ _ _ _ _ _ _ ih ht; exact ih (allLR_tail ht)
  case achar =>
    intro _ _ _ c cs args _ ts ts' _ _ ih ht
    obtain ⟨h1, h2⟩ := ih (allLR_rest (allLR_tail ht))
    exact ⟨argGood_cons (fun e he => (by rw [List.mem_singleton.1 he]; exact leaf_good (.word, [c]))) h1, h2⟩
  case agroup =>
    intro _ _ _ b x r' args _ ts ts1 ts' _ _ _ _ ih iha ht
    obtain ⟨h1, h2⟩ := ih 1 _ (inv_start (leaf_good _)) (allLR_tail ht)
    obtain ⟨h3, h4⟩ := iha (allLR_closing h2)
    refine ⟨argGood_cons (fun e he => ?_) h3, h4⟩
    rw [List.mem_singleton.1 he]
    refine node_good (by cases b <;> decide) fun e he => ?_
    rcases List.mem_append.1 he with he | he
    · exact h1.good e he
    · exact closing_good e he
  case abracket =>
    intro _ _ _ b x args _ ts ts' _ _ _ ih ht
    obtain ⟨h1, h2⟩ := ih (allLR_tail ht)
    exact ⟨argGood_cons (fun e he => (by rw [List.mem_singleton.1 he]; exact leaf_good _)) h1, h2⟩
  case aitem =>
    intro _ _ _ k x att r' args _ ts ts1 ts' _ _ _ _ ih iha ht
    obtain ⟨h1, h2⟩ := ih 0 [] (inv_empty fun i h => (by cases h)) ht
    obtain ⟨h3, h4⟩ := iha h2
    exact ⟨argGood_cons h1.good h3, h4⟩

/-- All elements of a tree of the grammar have the right parts. -/
theorem document_good {env : PEnv} {toks : List Tok} {tree : Elem} (h : Document env toks tree) (ht : AllLR toks) : tree.Forall Good := by
  obtain ⟨r, hi, rfl⟩ := h
  exact node_good (by decide) (invariant hi 0 [] (inv_empty fun i h => (by cases h; omega)) ht).1.good

end Ast
end Mitex
