/-
The parser does not look at the texts of blanks and comments (C84).
-/
import Verif.Spec.Blank
import Verif.Spec.Grammar

namespace Mitex

namespace Both
variable {α β : Type} {R : α → β → Prop}

theorem append {as bs cs ds} (h : Both R as bs) (k : Both R cs ds) : Both R (as ++ cs) (bs ++ ds) := by
  induction h with
  | nil => exact k
  | cons h _ ih => exact .cons h ih

theorem one {a : α} {b : β} (h : R a b) : Both R [a] [b] := .cons h .nil

theorem length {as bs} (h : Both R as bs) : as.length = bs.length := by
  induction h with
  | nil => rfl
  | cons _ _ ih => rw [List.length_cons, List.length_cons, ih]

theorem take {as bs} (h : Both R as bs) : ∀ n, Both R (as.take n) (bs.take n) := by
  induction h with
  | nil => intro n; simp [Both.nil]
  | cons h _ ih =>
    intro n
    cases n with
    | zero => exact .nil
    | succ n => exact .cons h (ih n)

theorem drop {as bs} (h : Both R as bs) : ∀ n, Both R (as.drop n) (bs.drop n) := by
  induction h with
  | nil => intro n; simp [Both.nil]
  | cons h hs ih =>
    intro n
    cases n with
    | zero => exact .cons h hs
    | succ n => exact ih n

theorem refl {R : α → α → Prop} (h : ∀ a, R a a) (as : List α) : Both R as as := by
  induction as with
  | nil => exact .nil
  | cons a as ih => exact .cons (h a) ih

theorem symm {S : β → α → Prop} (h : ∀ a b, R a b → S b a) {as bs} (hb : Both R as bs) : Both S bs as := by
  induction hb with
  | nil => exact .nil
  | cons k _ ih => exact .cons (h _ _ k) ih

theorem map {γ δ : Type} {S : γ → δ → Prop} {f : α → γ} {g : β → δ} (h : ∀ a b, R a b → S (f a) (g b)) {as bs} (hb : Both R as bs) :
    Both S (as.map f) (bs.map g) := by
  induction hb with
  | nil => exact .nil
  | cons k _ ih => exact .cons (h _ _ k) ih

theorem takeWhile {p : α → Bool} {q : β → Bool} (h : ∀ a b, R a b → p a = q b) {as bs} (hb : Both R as bs) : Both R (as.takeWhile p) (bs.takeWhile q) := by
  induction hb with
  | nil => exact .nil
  | @cons a b _ _ k _ ih =>
    rw [List.takeWhile_cons, List.takeWhile_cons, ← h a b k]
    split
    · exact .cons k ih
    · exact .nil

theorem dropWhile {p : α → Bool} {q : β → Bool} (h : ∀ a b, R a b → p a = q b) {as bs} (hb : Both R as bs) : Both R (as.dropWhile p) (bs.dropWhile q) := by
  induction hb with
  | nil => exact .nil
  | @cons a b _ _ k hs ih =>
    rw [List.dropWhile_cons, List.dropWhile_cons, ← h a b k]
    split
    · exact ih
    · exact .cons k hs

theorem filter {p : α → Bool} {q : β → Bool} (h : ∀ a b, R a b → p a = q b) {as bs} (hb : Both R as bs) : Both R (as.filter p) (bs.filter q) := by
  induction hb with
  | nil => exact .nil
  | @cons a b _ _ k hs ih =>
    rw [List.filter_cons, List.filter_cons, ← h a b k]
    split
    · exact .cons k ih
    · exact ih

/-- Splitting the right side as the left one. -/
theorem split {as cs : List α} {bs : List β} (h : Both R (as ++ cs) bs) : ∃ b1 b2, bs = b1 ++ b2 ∧ Both R as b1 ∧ Both R cs b2 := by
  induction as generalizing bs with
  | nil => exact ⟨[], bs, rfl, .nil, h⟩
  | cons a as ih =>
    rw [List.cons_append] at h
    cases h with
    | cons k hs =>
      obtain ⟨b1, b2, rfl, h1, h2⟩ := ih hs
      exact ⟨_ :: b1, b2, rfl, .cons k h1, h2⟩

theorem mem_right {as bs} (h : Both R as bs) : ∀ b ∈ bs, ∃ a ∈ as, R a b := by
  induction h with
  | nil => intro b h; cases h
  | @cons a b _ _ k _ ih =>
    intro c hc
    rcases List.mem_cons.1 hc with rfl | hc
    · exact ⟨a, List.mem_cons_self, k⟩
    · obtain ⟨a, ha, hr⟩ := ih c hc
      exact ⟨a, List.mem_cons_of_mem _ ha, hr⟩

theorem isEmpty {as bs} (h : Both R as bs) : as.isEmpty = bs.isEmpty := by cases h <;> rfl

end Both

namespace Blank
open Grammar
variable {Q : Kind → Text → Text → Prop}

abbrev Toks (Q : Kind → Text → Text → Prop) : List Tok → List Tok → Prop := Both (AlikeTok Q)
abbrev Elems (Q : Kind → Text → Text → Prop) : List Elem → List Elem → Prop := Both (Alike Q)

theorem tok_refl (t : Tok) : AlikeTok Q t t := ⟨rfl, .inl rfl⟩

theorem tok_eq {k : Token} {x : Text} {t' : Tok} (h : AlikeTok Q (k, x) t') (hb : isBlank k = false) : t' = (k, x) := by
  obtain ⟨h1, h2⟩ := h
  obtain ⟨k', x'⟩ := t'
  cases h1
  rcases h2 with h2 | ⟨h2, _⟩
  · cases h2; rfl
  · revert hb h2
    cases k <;> simp [isBlank, blankTokens]

theorem leaf_alike {t t' : Tok} (h : AlikeTok Q t t') : Alike Q (leafOf t) (leafOf t') := by
  obtain ⟨h1, h2⟩ := h
  obtain ⟨k, x⟩ := t
  obtain ⟨k', x'⟩ := t'
  cases h1
  refine .token _ ?_
  rcases h2 with h2 | ⟨h2, h3⟩
  · exact .inl h2
  · refine .inr ⟨?_, h3⟩
    simp only [blankTokens, List.mem_cons, List.not_mem_nil, or_false] at h2
    rcases h2 with rfl | rfl | rfl
    · exact (by decide : Kind.tokenWhiteSpace ∈ blankLeaves)
    · exact (by decide : Kind.tokenLineBreak ∈ blankLeaves)
    · exact (by decide : Kind.tokenComment ∈ blankLeaves)

theorem leaf_refl (t : Tok) : Alike Q (leafOf t) (leafOf t) := leaf_alike (tok_refl t)

theorem leaves_alike {ts ts' : List Tok} (h : Toks Q ts ts') : Elems Q (ts.map leafOf) (ts'.map leafOf) :=
  Both.map (f := leafOf) (g := leafOf) (fun _ _ k => leaf_alike k) h

theorem blank_iff {t t' : Tok} (h : AlikeTok Q t t') : isBlank t.1 = isBlank t'.1 := by rw [h.1]

theorem head_iff {ts ts' : List Tok} (h : Toks Q ts ts') {P : Token → Prop} (hp : ∀ t, ts.head? = some t → P t.1) : ∀ t, ts'.head? = some t → P t.1 := by
  cases h with
  | nil => intro t h; cases h
  | cons h _ =>
    intro t ht
    cases ht
    rw [← h.1]
    exact hp _ rfl

/-- The rows have the same positions, and items that are alike. -/
structure Rows (Q : Kind → Text → Text → Prop) (r r' : Row) : Prop where
  items : Elems Q r.items r'.items
  first : r.first = r'.first
  last : r.last = r'.last

theorem Rows.add {r r' : Row} {es es' : List Elem} (h : Rows Q r r') (k : Elems Q es es') : Rows Q (r.add es) (r'.add es') :=
  ⟨h.items.append k, h.first, h.last⟩

theorem Rows.add1 {r r' : Row} {e e' : Elem} (h : Rows Q r r') (k : Alike Q e e') : Rows Q (r.add [e]) (r'.add [e']) := h.add (.one k)

theorem Rows.forget {r r' : Row} (h : Rows Q r r') : Rows Q { r with last := none } { r' with last := none } := ⟨h.items, h.first, rfl⟩

theorem Rows.operand {r r' : Row} (h : Rows Q r r') {p : Option Int} {kept arg : List Elem} (ho : r.operand p = some (kept, arg)) :
    ∃ kept' arg', r'.operand p = some (kept', arg') ∧ Elems Q kept kept' ∧ Elems Q arg arg' := by
  unfold Row.operand at ho ⊢
  cases p with
  | none => cases ho; exact ⟨_, _, rfl, h.items, .nil⟩
  | some i =>
    dsimp only at ho ⊢
    rw [h.items.length] at ho
    split at ho
    · rename_i hc
      cases ho
      rw [if_pos hc]
      exact ⟨_, _, rfl, h.items.take _, .one (.node _ (h.items.drop _))⟩
    · cases ho

theorem closing_alike {k : Token} {ts ts' : List Tok} (h : Toks Q ts ts') :
    Elems Q (closing k ts).1 (closing k ts').1 ∧ Toks Q (closing k ts).2 (closing k ts').2 := by
  cases h with
  | nil => exact ⟨.nil, .nil⟩
  | @cons t t' ts ts' h hs =>
    unfold closing
    dsimp only
    rw [← h.1]
    split
    · exact ⟨.one (leaf_alike h), hs⟩
    · exact ⟨.nil, .cons h hs⟩

theorem rest_alike (cs : Text) {ts ts' : List Tok} (h : Toks Q ts ts') : Toks Q (restOfWord cs ts) (restOfWord cs ts') := by
  unfold restOfWord
  split
  · exact h
  · exact .cons (tok_refl _) h

theorem delimiter_alike {t : Tok} {ts ts' : List Tok} (h : Toks Q ts ts') :
    Alike Q (delimiter t ts).1 (delimiter t ts').1 ∧ Toks Q (delimiter t ts).2 (delimiter t ts').2 := by
  have h1 := h.takeWhile (p := fun t => isBlank t.1) (q := fun t => isBlank t.1) fun a b k => blank_iff k
  have h2 := h.dropWhile (p := fun t => isBlank t.1) (q := fun t => isBlank t.1) fun a b k => blank_iff k
  have hb : ∀ t, (ts.dropWhile fun t => isBlank t.1).head? = some t → isBlank t.1 = false := by
    intro t ht
    have := List.head?_dropWhile_not (fun t : Tok => isBlank t.1) ts
    rw [ht] at this
    simpa using this
  unfold delimiter
  dsimp only
  revert h1 h2 hb
  generalize ts.takeWhile (fun t => isBlank t.1) = b
  generalize ts'.takeWhile (fun t => isBlank t.1) = b'
  generalize ts.dropWhile (fun t => isBlank t.1) = r
  generalize ts'.dropWhile (fun t => isBlank t.1) = r'
  intro h1 h2 hb
  have clause : ∀ es es', Elems Q es es' → Alike Q (.node .clauseLR (leafOf t :: b.map leafOf ++ es)) (.node .clauseLR (leafOf t :: b'.map leafOf ++ es')) :=
    fun es es' h => .node _ ((Both.cons (leaf_refl t) (leaves_alike h1)).append h)
  cases h2 with
  | nil => exact ⟨clause _ _ .nil, .nil⟩
  | @cons a a' rs rs' ha hs =>
    obtain ⟨k, x⟩ := a
    have := tok_eq ha (hb _ rfl)
    subst this
    cases k with
    | cmd n =>
      cases n with
      | generic => exact ⟨clause _ _ (.one (.token _ (.inl rfl))), hs⟩
      | _ => exact ⟨clause _ _ .nil, .cons (tok_refl _) hs⟩
    | dollar => exact ⟨clause _ _ .nil, .cons (tok_refl _) hs⟩
    | word =>
      cases x with
      | nil => exact ⟨clause _ _ .nil, .cons (tok_refl _) hs⟩
      | cons c cs => exact ⟨clause _ _ (.one (.token _ (.inl rfl))), rest_alike cs hs⟩
    | _ => exact ⟨clause _ _ (.one (leaf_refl _)), hs⟩

theorem right_alike {ts ts' : List Tok} (h : Toks Q ts ts') :
    Elems Q (rightDelimiter ts).1 (rightDelimiter ts').1 ∧ Toks Q (rightDelimiter ts).2 (rightDelimiter ts').2 := by
  cases h with
  | nil => exact ⟨.nil, .nil⟩
  | @cons t t' ts ts' h hs =>
    obtain ⟨k, x⟩ := t
    by_cases hk : k = .cmd .right
    · subst hk
      have := tok_eq h rfl
      subst this
      have hd := delimiter_alike (Q := Q) (t := (.cmd .right, x)) hs
      exact ⟨.one hd.1, hd.2⟩
    · obtain ⟨k', x'⟩ := t'
      have h1 : k = k' := h.1
      have e : ∀ (y : Text) (us : List Tok), rightDelimiter ((k, y) :: us) = ([], (k, y) :: us) := by
        intro y us
        unfold rightDelimiter
        split
        · rename_i hh; cases hh; exact absurd rfl hk
        · rfl
      subst h1
      rw [e, e]
      exact ⟨.nil, .cons h hs⟩

theorem depth_alike {ts ts' : List Tok} (h : Toks Q ts ts') : ∀ n, ifDepth ts n = ifDepth ts' n := by
  induction h with
  | nil => intro n; rfl
  | @cons t t' ts ts' h _ ih =>
    intro n
    obtain ⟨k, x⟩ := t
    obtain ⟨k', x'⟩ := t'
    have h1 : k = k' := h.1
    subst h1
    unfold ifDepth
    cases k with
    | cmd m =>
      cases m with
      | cif i => exact ih _
      | endIf => dsimp only; rw [ih]
      | _ => exact ih _
    | _ => exact ih _

/-- If the head is not blank, it is the same. -/
theorem toks_cons {k : Token} {x : Text} {ts us : List Tok} (h : Toks Q ((k, x) :: ts) us) (hb : isBlank k = false) :
    ∃ us', us = (k, x) :: us' ∧ Toks Q ts us' := by
  cases h with
  | cons h hs => exact ⟨_, by rw [tok_eq h hb], hs⟩

theorem command_nonblank {n : CommandName} : isBlank (.cmd n) = false := by simp [isBlank]

/-- The grammar does not look at the texts of blanks. -/
theorem items_alike {env : PEnv} {sc : Scope} {stop : List Token} {r r1 : Row} {ts ts1 : List Tok} (h : Items env sc stop r ts r1 ts1) :
    ∀ r' ts', Rows Q r r' → Toks Q ts ts' → ∃ r1' ts1', Rows Q r1 r1' ∧ Toks Q ts1 ts1' ∧ Items env sc stop r' ts' r1' ts1' := by
  refine @Items.rec env
    (fun sc one r ts att r1 ts1 _ => ∀ r' ts', Rows Q r r' → Toks Q ts ts' → ∃ r1' ts1', Rows Q r1 r1' ∧ Toks Q ts1 ts1' ∧ Item env sc one r' ts' att r1' ts1')
    (fun sc stop r ts r1 ts1 _ => ∀ r' ts', Rows Q r r' → Toks Q ts ts' → ∃ r1' ts1', Rows Q r1 r1' ∧ Toks Q ts1 ts1' ∧ Items env sc stop r' ts' r1' ts1')
    (fun sc p ks ts args blanks ts1 _ => ∀ ts', Toks Q ts ts' → ∃ args' blanks' ts1', Elems Q args args' ∧ Toks Q blanks blanks' ∧ Toks Q ts1 ts1' ∧
      Grammar.Args env sc p ks ts' args' blanks' ts1')
    ?over ?single ?misplaced ?text ?char ?noChar ?group ?environment ?environmentArgs ?delimited ?block
      ?blockOpen ?symbol ?command ?greedy ?post ?inf ?prime ?apostrophe ?script ?iover ?imore ?aover ?ablank ?achar ?agroup ?abracket ?aitem
    _ _ _ _ _ _ h
  case over =>
    intro sc one r r' ts' hr ht
    cases ht
    exact ⟨_, _, hr, .nil, .over⟩
  case single =>
    intro sc one att r k x ts hs r' ts' hr ht
    cases ht with
    | @cons _ t' _ ts' h hs' =>
      obtain ⟨k', x'⟩ := t'
      have h1 : k = k' := h.1
      subst h1
      exact ⟨_, _, hr.add1 (leaf_alike h), hs', .single hs⟩
  case misplaced =>
    intro sc one r k x ts hm r' ts' hr ht
    cases ht with
    | @cons _ t' _ ts' h hs' =>
      obtain ⟨k', x'⟩ := t'
      have h1 : k = k' := h.1
      subst h1
      exact ⟨_, _, hr.add1 (.node _ (.one (leaf_alike h))), hs', .misplaced hm⟩
  case text =>
    intro sc one r k x run ts h1 h2 h3 r' ts' hr ht
    have hb : isBlank k = false := by rcases h1 with h | h; (rw [h]; rfl); (rw [h.1]; rfl)
    obtain ⟨us, rfl, hs⟩ := toks_cons ht hb
    obtain ⟨b1, b2, rfl, k1, k2⟩ := hs.split
    refine ⟨_, _, hr.add1 (.node _ (leaves_alike (.cons (tok_refl _) k1))), k2, .text h1 ?_ (head_iff (P := fun k => isTextPart k = false) k2 h3)⟩
    intro b hb
    obtain ⟨a, ha, k⟩ := k1.mem_right b hb
    rw [← k.1]
    exact h2 a ha
  case char =>
    intro sc r c cs ts r' ts' hr ht
    obtain ⟨us, rfl, hs⟩ := toks_cons ht rfl
    exact ⟨_, _, hr.add1 (.token _ (.inl rfl)), rest_alike cs hs, .char⟩
  case noChar =>
    intro sc r ts r' ts' hr ht
    obtain ⟨us, rfl, hs⟩ := toks_cons ht rfl
    exact ⟨_, _, hr, .cons (tok_refl _) hs, .noChar⟩
  case group =>
    intro sc sc' one att r r2 k close kind x ts ts2 hg _ ih r' ts' hr ht
    have hb : isBlank k = false := by
      unfold grouping at hg
      split at hg <;> first | rfl | cases hg
    obtain ⟨us, rfl, hs⟩ := toks_cons ht hb
    obtain ⟨r2', ts2', k1, k2, k3⟩ := ih ⟨[leafOf (k, x)], some 1, none⟩ us ⟨.one (leaf_refl _), rfl, rfl⟩ hs
    have hc := closing_alike (k := close) k2
    exact ⟨_, _, hr.add1 (.node _ (k1.items.append hc.1)), hc.2, .group hg k3⟩
  case environment =>
    intro sc one r r2 x ts ts2 he _ ih r' ts' hr ht
    obtain ⟨us, rfl, hs⟩ := toks_cons ht command_nonblank
    obtain ⟨r2', ts2', k1, k2, k3⟩ := ih ⟨[.node .itemBegin [leafOf (.cmd .beginEnv, x)]], some 1, none⟩ us
      ⟨.one (.node _ (.one (leaf_refl _))), rfl, rfl⟩ hs
    have hc := closing_alike (k := .cmd .endEnv) k2
    exact ⟨_, _, hr.add1 (.node _ (k1.items.append (hc.1.map fun _ _ h => .node _ (.one h)))), hc.2, .environment he k3⟩
  case environmentArgs =>
    intro sc one r r2 p x args blanks ts ts1 ts2 he hp _ _ iha ih r' ts' hr ht
    obtain ⟨us, rfl, hs⟩ := toks_cons ht command_nonblank
    obtain ⟨args', blanks', ts1', a1, a2, a3, a4⟩ := iha us hs
    obtain ⟨r2', ts2', k1, k2, k3⟩ := ih ⟨.node .itemBegin (leafOf (.cmd .beginEnv, x) :: args') :: blanks'.map leafOf, some (1 + blanks'.length), none⟩ ts1'
      ⟨.cons (.node _ (.cons (leaf_refl _) a1)) (leaves_alike a2), by rw [a2.length], rfl⟩ a3
    have hc := closing_alike (k := .cmd .endEnv) k2
    exact ⟨_, _, (hr.add1 (.node _ (k1.items.append (hc.1.map fun _ _ h => .node _ (.one h))))).forget, hc.2, .environmentArgs he hp a4 k3⟩
  case delimited =>
    intro sc one r r2 x ts ts2 _ ih r' ts' hr ht
    obtain ⟨us, rfl, hs⟩ := toks_cons ht command_nonblank
    have hd := delimiter_alike (Q := Q) (t := (.cmd .left, x)) hs
    obtain ⟨r2', ts2', k1, k2, k3⟩ := ih ⟨[(delimiter (.cmd .left, x) us).1], some 1, none⟩ _ ⟨.one hd.1, rfl, rfl⟩ hd.2
    have hc := right_alike k2
    exact ⟨_, _, hr.add1 (.node _ (k1.items.append hc.1)), hc.2, .delimited k3⟩
  case block =>
    intro sc one r i kind x y body ts hk hb r' ts' hr ht
    obtain ⟨us, rfl, hs⟩ := toks_cons ht command_nonblank
    obtain ⟨b1, b2, rfl, k1, k2⟩ := hs.split
    obtain ⟨vs, rfl, k3⟩ := toks_cons k2 command_nonblank
    exact ⟨_, _, hr.add1 (.node _ (leaves_alike k1)), k3, .block hk (by rw [← depth_alike k1]; exact hb)⟩
  case blockOpen =>
    intro sc one r i kind x body hk hb r' ts' hr ht
    obtain ⟨us, rfl, hs⟩ := toks_cons ht command_nonblank
    exact ⟨_, _, hr.add1 (.node _ (leaves_alike hs)), .nil, .blockOpen hk (by rw [← depth_alike hs]; exact hb)⟩
  case symbol =>
    intro sc one r n name ts hn hc r' ts' hr ht
    obtain ⟨us, rfl, hs⟩ := toks_cons ht command_nonblank
    exact ⟨_, _, hr.add1 (.node _ (.one (leaf_refl _))), hs, .symbol hn hc⟩
  case command =>
    intro sc one r n name p args blanks ts ts2 hn hc h1 h2 _ iha r' ts' hr ht
    obtain ⟨us, rfl, hs⟩ := toks_cons ht command_nonblank
    obtain ⟨args', blanks', ts1', a1, a2, a3, a4⟩ := iha us hs
    exact ⟨_, _, (hr.add (.cons (.node _ (.cons (leaf_refl _) a1)) (leaves_alike a2))).forget, a3, .command hn hc h1 h2 a4⟩
  case greedy =>
    intro sc one r r2 n name ts ts2 hn hc _ ih r' ts' hr ht
    obtain ⟨us, rfl, hs⟩ := toks_cons ht command_nonblank
    obtain ⟨r2', ts2', k1, k2, k3⟩ := ih ⟨[], some 0, none⟩ us ⟨.nil, rfl, rfl⟩ hs
    exact ⟨_, _, (hr.add1 (.node _ (.cons (leaf_refl _) (.one (.node _ k1.items))))).forget, k2, .greedy hn hc k3⟩
  case post =>
    intro sc one r n name kept arg ts hn hc ho r' ts' hr ht
    obtain ⟨us, rfl, hs⟩ := toks_cons ht command_nonblank
    obtain ⟨kept', arg', h1, h2, h3⟩ := hr.operand ho
    rw [hr.last, hr.first] at h1
    exact ⟨{ r' with items := kept' ++ [.node .itemCmd (arg' ++ [leafOf (.cmd n, '\\' :: name)])] }, _,
      ⟨h2.append (.one (.node _ (h3.append (.one (leaf_refl _))))), hr.first, hr.last⟩, hs, .«postfix» hn hc h1⟩
  case inf =>
    intro sc one r r2 n name kept arg ts ts2 hn hc ho _ ih r' ts' hr ht
    obtain ⟨us, rfl, hs⟩ := toks_cons ht command_nonblank
    obtain ⟨kept', arg', h1, h2, h3⟩ := hr.operand ho
    rw [hr.first] at h1
    obtain ⟨r2', ts2', k1, k2, k3⟩ := ih ⟨[], some 0, none⟩ us ⟨.nil, rfl, rfl⟩ hs
    exact ⟨⟨kept' ++ [.node .itemCmd (arg' ++ [leafOf (.cmd n, '\\' :: name), .node .clauseArgument r2'.items])], none, none⟩, _,
      ⟨h2.append (.one (.node _ (h3.append (.cons (leaf_refl _) (.one (.node _ k1.items)))))), rfl, rfl⟩, k2, .«infix» hn hc h1 k3⟩
  case prime =>
    intro sc one r x kept arg ts hl ho r' ts' hr ht
    obtain ⟨us, rfl, hs⟩ := toks_cons ht rfl
    obtain ⟨kept', arg', h1, h2, h3⟩ := hr.operand ho
    rw [hr.last] at h1 hl
    exact ⟨{ r' with items := kept' ++ [.node .itemAttachComponent (arg' ++ [leafOf (.apostrophe, x)])] }, _,
      ⟨h2.append (.one (.node _ (h3.append (.one (leaf_refl _))))), hr.first, hr.last⟩, hs, .prime hl h1⟩
  case apostrophe =>
    intro sc one r x ts hl r' ts' hr ht
    obtain ⟨us, rfl, hs⟩ := toks_cons ht rfl
    rw [hr.last] at hl
    exact ⟨_, _, hr.add1 (leaf_refl _), hs, .apostrophe hl⟩
  case script =>
    intro sc one att r r2 k x kept arg blanks ts ts2 hk ho hb he _ ih r' ts' hr ht
    have hnb : isBlank k = false := by rcases hk with h | h <;> rw [h] <;> rfl
    obtain ⟨us, rfl, hs⟩ := toks_cons ht hnb
    obtain ⟨b1, b2, rfl, k1, k2⟩ := hs.split
    obtain ⟨kept', arg', h1, h2, h3⟩ := hr.operand ho
    rw [hr.last] at h1
    obtain ⟨r2', ts2', g1, g2, g3⟩ := ih (r'.enter kept'.length (arg' ++ leafOf (k, x) :: b1.map leafOf)) b2
      ⟨h3.append (.cons (leaf_refl _) (leaves_alike k1)), by unfold Row.enter; rw [hr.first, h2.length], by unfold Row.enter; rw [hr.last, h2.length]⟩ k2
    refine ⟨Row.leave kept'.length r2' (kept' ++ [.node .itemAttachComponent r2'.items]), _, ⟨h2.append (.one (.node _ g1.items)), ?_, ?_⟩, g2, .script hk h1 ?_ (head_iff (P := fun k => isBlank k = false) k2 he) g3⟩
    · unfold Row.leave; rw [g1.first, h2.length]
    · unfold Row.leave; rw [g1.last, h2.length]
    · intro b hm
      obtain ⟨a, ha, k⟩ := k1.mem_right b hm
      rw [← k.1]
      exact hb a ha
  case iover =>
    intro sc stop r ts h r' ts' hr ht
    exact ⟨_, _, hr, ht, .over (head_iff (P := fun k => k ∈ stop) ht h)⟩
  case imore =>
    intro sc stop r r1 r2 t att ts ts1 ts2 h _ _ ih1 ih2 r' ts' hr ht
    cases ht with
    | @cons _ t' _ us hh hs =>
      obtain ⟨r1', ts1', k1, k2, k3⟩ := ih1 r' (t' :: us) hr (.cons hh hs)
      obtain ⟨r2', ts2', g1, g2, g3⟩ := ih2 (if att then { r1' with last := some r'.items.length } else r1') ts1' (by
        split
        · exact ⟨k1.items, k1.first, by rw [hr.items.length]⟩
        · exact k1) k2
      exact ⟨_, _, g1, g2, .more (by rw [← hh.1]; exact h) k3 g3⟩
  case aover =>
    intro sc p ks ts h ts' ht
    refine ⟨_, _, _, .nil, .nil, ht, .over ?_⟩
    cases ht with
    | nil => intro t ht; cases ht
    | @cons a b _ _ hh _ =>
      intro t ht
      cases ht
      obtain ⟨h1, h2, h3⟩ := h a rfl
      obtain ⟨k, x⟩ := a
      have := tok_eq hh h1
      subst this
      exact ⟨h1, h2, h3⟩
  case ablank =>
    intro sc p ks t args blanks ts ts2 hb _ ih ts' ht
    cases ht with
    | @cons _ t' _ us hh hs =>
      obtain ⟨args', blanks', ts1', a1, a2, a3, a4⟩ := ih us hs
      refine ⟨_, _, _, a1, ?_, a3, .blank (by rw [← hh.1]; exact hb) a4⟩
      rw [a1.isEmpty]
      split
      · exact .cons hh a2
      · exact a2
  case achar =>
    intro sc p ks c cs args blanks ts ts2 h _ ih ts' ht
    obtain ⟨us, rfl, hs⟩ := toks_cons ht rfl
    obtain ⟨args', blanks', ts1', a1, a2, a3, a4⟩ := ih _ (rest_alike cs hs)
    exact ⟨_, _, _, .cons (.node _ (.one (.token _ (.inl rfl)))) a1, a2, a3, .char h a4⟩
  case agroup =>
    intro sc p ks b x r2 args blanks ts ts1 ts2 hs h _ _ ih iha ts' ht
    obtain ⟨us, rfl, hs'⟩ := toks_cons ht (by simp [isBlank])
    obtain ⟨r2', ts1', k1, k2, k3⟩ := ih ⟨[leafOf (.left b, x)], some 1, none⟩ us ⟨.one (leaf_refl _), rfl, rfl⟩ hs'
    have hc := closing_alike (k := (argGrouping b).2.2.1) k2
    obtain ⟨args', blanks', ts3', a1, a2, a3, a4⟩ := iha _ hc.2
    exact ⟨_, _, _, .cons (.node _ (.one (.node _ (k1.items.append hc.1)))) a1, a2, a3, .group hs h k3 a4⟩
  case abracket =>
    intro sc p ks b x args blanks ts ts2 hs h _ ih ts' ht
    obtain ⟨us, rfl, hs'⟩ := toks_cons ht (by simp [isBlank])
    obtain ⟨args', blanks', ts1', a1, a2, a3, a4⟩ := ih us hs'
    exact ⟨_, _, _, .cons (.node _ (.one (leaf_refl _))) a1, a2, a3, .bracket hs h a4⟩
  case aitem =>
    intro sc p ks k x att r2 args blanks ts ts1 ts2 hk h _ _ ih iha ts' ht
    obtain ⟨us, rfl, hs'⟩ := toks_cons ht hk.2.2
    obtain ⟨r2', ts1', k1, k2, k3⟩ := ih ⟨[], none, none⟩ ((k, x) :: us) ⟨.nil, rfl, rfl⟩ (.cons (tok_refl _) hs')
    obtain ⟨args', blanks', ts3', a1, a2, a3, a4⟩ := iha _ k2
    exact ⟨_, _, _, .cons (.node _ k1.items) a1, a2, a3, .item hk h k3 a4⟩

/-- Documents that differ in blanks only have trees that differ in blanks only. -/
theorem document_alike {env : PEnv} {ts ts' : List Tok} {e : Elem} (h : Document env ts e) (ht : Toks Q ts ts') :
    ∃ e', Document env ts' e' ∧ Alike Q e e' := by
  obtain ⟨r, hi, rfl⟩ := h
  obtain ⟨r', us, h1, h2, h3⟩ := items_alike (Q := Q) hi ⟨[], some 0, none⟩ ts' ⟨.nil, rfl, rfl⟩ ht
  cases h2
  exact ⟨_, ⟨r', h3, rfl⟩, .node _ h1.items⟩

end Blank
end Mitex
