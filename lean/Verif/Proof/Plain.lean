/-
Proofs for the conversion of plain text: lexing, expansion, parsing and conversion of texts without commands and groups.
-/
import Verif.Spec.Plain
import Verif.Proof.ParserBase
import Verif.Props.Engine
import Verif.Props.ParserTree
import Verif.Props.Convert
import Verif.Proof.ConvParts

namespace Mitex

/-! ### Tokens and leaves of plain texts -/

/-- The leaves of plain texts. -/
def plainKind (m : Mode) : Kind → Bool
  | .tokenLineBreak | .tokenWhiteSpace | .tokenComment | .tokenLBracket | .tokenRBracket | .tokenLParen | .tokenRParen
  | .tokenComma | .tokenTilde | .tokenSlash | .tokenWord | .tokenAmpersand | .tokenHash | .tokenAsterisk | .tokenAtSign
  | .tokenApostrophe | .tokenDitto | .tokenSemicolon => true
  | .tokenUnderscore | .tokenCaret => decide (m = .text)
  | _ => false

/-- The tokens of plain texts. -/
def plainToken (m : Mode) : Token → Bool
  | .lineBreak | .whitespace | .lineComment | .left .bracket | .left .paren | .right .bracket | .right .paren
  | .comma | .tilde | .slash | .ampersand | .apostrophe | .ditto | .semicolon | .hash | .asterisk | .atSign | .word => true
  | .underscore | .caret => decide (m = .text)
  | _ => false

theorem plainToken_kind {m : Mode} {t : Token} (h : plainToken m t = true) : plainKind m t.kind = true := by
  cases t with
  | left b => cases b <;> first | rfl | cases h
  | right b => cases b <;> first | rfl | cases h
  | underscore => exact h
  | caret => exact h
  | _ => first | rfl | cases h

/-- `Exact ts rest lv`: the leaves `lv` are the tokens `ts` up to `rest`, but words may be split. -/
inductive Exact : List Tok → List Tok → List (Kind × Text) → Prop
  | done (ts) : Exact ts ts []
  | keep (t : Tok) {ts rest lv} (h : Exact ts rest lv) : Exact (t :: ts) rest (lf t :: lv)
  | char (c : Char) {w : Text} {ts rest lv} (hw : w ≠ []) (h : Exact ((.word, w) :: ts) rest lv) :
      Exact ((.word, c :: w) :: ts) rest ((.tokenWord, [c]) :: lv)

theorem Exact.trans {a b c : List Tok} {l l' : List (Kind × Text)} (h : Exact a b l) (h' : Exact b c l') : Exact a c (l ++ l') := by
  induction h with
  | done => exact h'
  | keep t _ ih => exact .keep t (ih h')
  | char x hw _ ih => exact .char x hw (ih h')

theorem Exact.while (p : Token → Bool) (ts : List Tok) :
    Exact ts (ts.dropWhile fun t => p t.1) ((ts.takeWhile fun t => p t.1).map lf) := by
  induction ts with
  | nil => exact .done _
  | cons t ts ih =>
    rw [List.dropWhile_cons, List.takeWhile_cons]
    split
    · exact .keep t ih
    · exact .done _

/-- The first leaf is not whitespace. -/
def NW (lv : List (Kind × Text)) : Prop := ∃ l ls, lv = l :: ls ∧ l.1 ≠ .tokenWhiteSpace

theorem NW.append {a : List (Kind × Text)} (h : NW a) (b : List (Kind × Text)) : NW (a ++ b) := by
  obtain ⟨l, ls, rfl, hl⟩ := h
  exact ⟨l, ls ++ b, rfl, hl⟩

/-- An element of the tree of a plain text. -/
def FlatOne (m : Mode) : Elem → Prop
  | .token k _ => plainKind m k = true
  | .node k cs => (k = .itemText ∨ k = .clauseArgument ∨ k = .itemAttachComponent) ∧ NW (Elem.leaves.go cs)

def Flat (m : Mode) (e : Elem) : Prop := e.Forall (FlatOne m)

theorem Flat.node {m : Mode} {k : Kind} {cs : List Elem} (hk : k = .itemText ∨ k = .clauseArgument ∨ k = .itemAttachComponent)
    (hn : NW (Elem.leaves.go cs)) (hc : ∀ e ∈ cs, Flat m e) : Flat m (.node k cs) := (Forall_node _ _ _).2 ⟨⟨hk, hn⟩, hc⟩

theorem Flat.leaf {m : Mode} {k : Kind} {t : Text} (h : plainKind m k = true) : Flat m (.token k t) := (Forall_token _ _ _).2 h

/-- A parser state on a plain text. -/
structure Pl (m : Mode) (s : PState) : Prop where
  plain : ∀ t ∈ s.toks, plainToken m t.1 = true
  words : ∀ t ∈ s.toks, t.1 = .word → t.2 ≠ []
  flat : ∀ e ∈ s.children, Flat m e
  top : s.top ≤ s.children.length
  last : ∀ l, s.last = some l → s.top ≤ l ∧ l < s.children.length ∧ NW (Elem.leaves.go (s.children.drop l))

/-- What one item does on a plain text. -/
structure Did1 (m : Mode) (s s' : PState) : Prop where
  pl : Pl m s'
  parents : s'.parents = s.parents
  last : s'.last = s.last
  scope : s'.scope = s.scope
  leaves : ∃ lv, Exact s.toks s'.toks lv ∧ Elem.leaves.go s'.children = Elem.leaves.go s.children ++ lv
  prefix_ : s.last = none → s.children <+: s'.children
  size : tokSize s'.toks ≤ tokSize s.toks

/-- ... and it leaves an item to attach scripts to. -/
def Item (s s' : PState) : Prop := s.children.length < s'.children.length ∧ NW (Elem.leaves.go (s'.children.drop s.children.length))

/-- Appending elements for the tokens read. -/
theorem Did1.append {m : Mode} {s : PState} (h : Pl m s) {toks : List Tok} {new : List Elem} (hs : ∀ t ∈ toks, t ∈ s.toks ∨ (t.1 = .word ∧ t.2 ≠ []))
    (hf : ∀ e ∈ new, Flat m e) (he : Exact s.toks toks (Elem.leaves.go new)) (hz : tokSize toks ≤ tokSize s.toks) :
    Did1 m s { s with toks := toks, children := s.children ++ new } := {
  pl := {
    plain := fun t ht => by
      rcases hs t ht with h1 | h1
      · exact h.plain t h1
      · rw [h1.1]; rfl
    words := fun t ht hk => by
      rcases hs t ht with h1 | h1
      · exact h.words t h1 hk
      · exact h1.2
    flat := fun e he => by
      rcases List.mem_append.1 he with he | he
      · exact h.flat e he
      · exact hf e he
    top := by
      have := h.top
      show s.top ≤ (s.children ++ new).length
      rw [List.length_append]; omega
    last := fun l hl => by
      obtain ⟨h1, h2, h3⟩ := h.last l hl
      refine ⟨h1, ?_, ?_⟩
      · show l < (s.children ++ new).length
        rw [List.length_append]; omega
      · show NW (Elem.leaves.go ((s.children ++ new).drop l))
        rw [List.drop_append_of_le_length (by omega), leaves_go_append]
        exact h3.append _ }
  parents := rfl
  last := rfl
  scope := rfl
  leaves := ⟨_, he, leaves_go_append _ _⟩
  prefix_ := fun _ => List.prefix_append _ _
  size := hz }

theorem Item.append {s : PState} {toks : List Tok} {new : List Elem} (h : NW (Elem.leaves.go new)) :
    Item s { s with toks := toks, children := s.children ++ new } := by
  constructor
  · show s.children.length < (s.children ++ new).length
    rw [List.length_append]
    cases new with
    | nil => obtain ⟨_, _, h, _⟩ := h; cases h
    | cons => simp
  · show NW (Elem.leaves.go ((s.children ++ new).drop s.children.length))
    rw [List.drop_left]
    exact h

/-- Eating a token. -/
theorem eat_plain {m : Mode} {s : PState} (h : Pl m s) {t : Tok} {ts : List Tok} (ht : s.toks = t :: ts) :
    ∃ s', s.eat = .ok s' ∧ Did1 m s s' ∧ tokSize s'.toks < tokSize s.toks ∧ s'.toks = ts ∧ (t.1 ≠ .whitespace → Item s s') := by
  refine ⟨_, ?_, Did1.append h (toks := ts) (new := [leafOf t]) (fun x hx => Or.inl (by rw [ht]; exact List.mem_cons_of_mem _ hx)) ?_ ?_ ?_, ?_⟩
  · unfold PState.eat
    rw [ht]
    rfl
  · intro e he
    rw [List.mem_singleton.1 he]
    exact .leaf (plainToken_kind (h.plain t (by rw [ht]; exact List.mem_cons_self)))
  · rw [ht, leaves_go_one]
    exact .keep t (.done _)
  · rw [ht, tokSize]; omega
  · refine ⟨by rw [ht, tokSize]; show tokSize ts < _; omega, rfl, fun hw => ?_⟩
    refine .append ?_
    rw [leaves_go_one]
    refine ⟨_, [], rfl, ?_⟩
    have hp := h.plain t (by rw [ht]; exact List.mem_cons_self)
    show t.1.kind ≠ _
    revert hp hw
    generalize t.1 = k
    cases k with
    | left b => cases b <;> simp [Token.kind]
    | right b => cases b <;> simp [Token.kind]
    | cmd n => intro _ h; cases h
    | _ => simp [Token.kind, plainToken]

/-- A text item. -/
theorem text_plain {m : Mode} {s : PState} (h : Pl m s) {t : Tok} {ts : List Tok} (ht : s.toks = t :: ts) (hk : t.1 ≠ .whitespace) :
    ∃ s', textItem s = .ok s' ∧ Did1 m s s' ∧ tokSize s'.toks < tokSize s.toks ∧ Item s s' := by
  have hp := h.plain t (by rw [ht]; exact List.mem_cons_self)
  have hkk : t.1.kind ≠ .tokenWhiteSpace := by
    revert hp hk
    generalize t.1 = k
    cases k with
    | left b => cases b <;> simp [Token.kind]
    | right b => cases b <;> simp [Token.kind]
    | cmd n => intro _ h; cases h
    | _ => simp [Token.kind, plainToken]
  have hnw : NW (Elem.leaves.go (leafOf t :: (ts.takeWhile fun t => isTextComponent t.1).map leafOf)) := by
    rw [Elem.leaves.go]
    exact ⟨_, _, rfl, hkk⟩
  have hl : Elem.leaves.go [Elem.node .itemText (leafOf t :: (ts.takeWhile fun t => isTextComponent t.1).map leafOf)] =
      lf t :: (ts.takeWhile fun t => isTextComponent t.1).map lf := by
    rw [leaves_go_one, leaves_node, Elem.leaves.go, leaves_go_map_leafOf]
    rfl
  refine ⟨_, ?_, Did1.append h (toks := ts.dropWhile fun t => isTextComponent t.1)
    (new := [.node .itemText (leafOf t :: (ts.takeWhile fun t => isTextComponent t.1).map leafOf)])
    (fun x hx => Or.inl (by rw [ht]; exact List.mem_cons_of_mem _ (List.dropWhile_subset _ hx))) ?_ ?_ ?_, ?_⟩
  · unfold textItem PState.eat PState.startNode
    dsimp only
    rw [ht]
    simp only [ok_bind, PState.eatWhile, PState.finishNode, leafOf]
    simp [List.append_assoc]
  · intro e he
    rw [List.mem_singleton.1 he]
    refine .node (Or.inl rfl) hnw ?_
    intro e he
    rcases List.mem_cons.1 he with rfl | he
    · exact .leaf (plainToken_kind hp)
    · obtain ⟨x, hx, rfl⟩ := List.mem_map.1 he
      exact .leaf (plainToken_kind (h.plain x (by rw [ht]; exact List.mem_cons_of_mem _ (List.takeWhile_subset _ hx))))
  · rw [ht, hl]
    exact .keep t (Exact.while _ ts)
  · have := tokSize_dropWhile (fun t => isTextComponent t.1) ts
    rw [ht, tokSize]; omega
  · refine ⟨by rw [ht, tokSize]; show tokSize (ts.dropWhile _) < _; have := tokSize_dropWhile (fun t => isTextComponent t.1) ts; omega, .append ?_⟩
    rw [hl]
    exact ⟨_, _, rfl, hkk⟩

/-- A single character. -/
theorem char_plain {m : Mode} {s : PState} (h : Pl m s) {w : Text} {ts : List Tok} (ht : s.toks = (.word, w) :: ts) :
    ∃ s', s.singleChar = .ok s' ∧ Did1 m s s' ∧ tokSize s'.toks < tokSize s.toks ∧ Item s s' := by
  have hw := h.words (.word, w) (by rw [ht]; exact List.mem_cons_self) rfl
  cases w with
  | nil => exact absurd rfl hw
  | cons c w =>
    have hu : PState.singleChar s = (s.token .tokenWord [c]).consumeBytes (utf8Len c) := by
      unfold PState.singleChar
      rw [ht]
    cases w with
    | nil =>
      refine ⟨_, ?_, Did1.append h (toks := ts) (new := [.token .tokenWord [c]])
        (fun x hx => Or.inl (by rw [ht]; exact List.mem_cons_of_mem _ hx)) ?_ ?_ ?_, ?_⟩
      · rw [hu]
        unfold PState.consumeBytes PState.token
        dsimp only
        rw [ht]
        dsimp only
        rw [if_pos (by simp [byteLen])]
      · intro e he
        rw [List.mem_singleton.1 he]
        exact .leaf rfl
      · rw [ht, leaves_go_one]
        exact .keep (.word, [c]) (.done _)
      · rw [ht, tokSize]; omega
      · refine ⟨by rw [ht, tokSize]; show tokSize ts < _; omega, ?_⟩
        exact .append ⟨_, _, rfl, fun h => (by cases h)⟩
    | cons d w =>
      refine ⟨_, ?_, Did1.append h (toks := (.word, d :: w) :: ts) (new := [.token .tokenWord [c]]) ?_ ?_ ?_ ?_, ?_⟩
      · rw [hu]
        unfold PState.consumeBytes PState.token
        dsimp only
        rw [ht]
        dsimp only
        have hd : dropBytes (utf8Len c) (c :: d :: w) = some (d :: w) := by
          have := dropBytes_append [c] (d :: w)
          simpa [byteLen] using this
        rw [if_neg (by have := utf8Len_pos d; simp only [byteLen]; omega), hd]
      · intro x hx
        rcases List.mem_cons.1 hx with rfl | hx
        · exact Or.inr ⟨rfl, by simp⟩
        · exact Or.inl (by rw [ht]; exact List.mem_cons_of_mem _ hx)
      · intro e he
        rw [List.mem_singleton.1 he]
        exact .leaf rfl
      · rw [ht, leaves_go_one]
        exact .char c (by simp) (.done _)
      · rw [ht, tokSize, tokSize]; simp only [List.length_cons]; omega
      · refine ⟨by rw [ht]; show tokSize ((.word, d :: w) :: ts) < _; rw [tokSize, tokSize]; simp only [List.length_cons]; omega, ?_⟩
        exact .append ⟨_, _, rfl, fun h => (by cases h)⟩

theorem Did1.trans {m : Mode} {a b c : PState} (h : Did1 m a b) (k : Did1 m b c) : Did1 m a c := {
  pl := k.pl
  parents := k.parents.trans h.parents
  last := k.last.trans h.last
  scope := k.scope.trans h.scope
  leaves := by
    obtain ⟨l1, e1, g1⟩ := h.leaves
    obtain ⟨l2, e2, g2⟩ := k.leaves
    exact ⟨l1 ++ l2, e1.trans e2, by rw [g2, g1, List.append_assoc]⟩
  prefix_ := fun hl => (h.prefix_ hl).trans (k.prefix_ (h.last.trans hl))
  size := Nat.le_trans k.size h.size }

/-- Eating trivia. -/
theorem trivia_plain {m : Mode} {s : PState} (h : Pl m s) : Did1 m s s.trivia := by
  refine Did1.append h (toks := s.toks.dropWhile fun t => t.1.isTrivia) (new := (s.toks.takeWhile fun t => t.1.isTrivia).map leafOf)
    (fun x hx => Or.inl (List.dropWhile_subset _ hx)) ?_ ?_ (tokSize_dropWhile _ _)
  · intro e he
    obtain ⟨x, hx, rfl⟩ := List.mem_map.1 he
    exact .leaf (plainToken_kind (h.plain x (List.takeWhile_subset _ hx)))
  · rw [leaves_go_map_leafOf]
    exact Exact.while _ _

theorem leaves_wrap (k : Kind) (l : Nat) (cs : List Elem) :
    Elem.leaves.go (cs.take l ++ [.node k (cs.drop l)]) = Elem.leaves.go cs := by
  rw [leaves_go_append, leaves_go_one, leaves_node, ← leaves_go_append, List.take_append_drop]

theorem flat_wrap {m : Mode} {k : Kind} (hk : k = .itemText ∨ k = .clauseArgument ∨ k = .itemAttachComponent) {l : Nat} {cs : List Elem}
    (h : ∀ e ∈ cs, Flat m e) (hn : NW (Elem.leaves.go (cs.drop l))) : ∀ e ∈ cs.take l ++ [.node k (cs.drop l)], Flat m e := by
  intro e he
  rcases List.mem_append.1 he with he | he
  · exact h e (List.mem_of_mem_take he)
  · rw [List.mem_singleton.1 he]
    exact .node hk hn fun e he => h e (List.mem_of_mem_drop he)

/-- The item parser does its work on plain texts that are small. -/
def Works (m : Mode) (C : ContentFn) (N : Nat) : Prop :=
  ∀ b s, Pl m s → tokSize s.toks < N → ∃ f s', C b s = .ok (f, s') ∧ Did1 m s s' ∧
    (s.toks ≠ [] → tokSize s'.toks < tokSize s.toks ∧ (f = true → Item s s'))

/-- The rest of an attachment. -/
theorem finish_plain {m : Mode} {C : ContentFn} {N : Nat} (hC : Works m C N) (b : Bool) {s : PState} (h : Pl m s) {t : Tok} {ts : List Tok}
    (ht : s.toks = t :: ts) (hN : tokSize s.toks ≤ N) {l : Nat} {ps : List (Kind × Nat)}
    (hp : s.parents = (.itemAttachComponent, l) :: ps) :
    ∃ s', Did1 m s s' ∧ tokSize s'.toks < tokSize s.toks ∧
      attachComponent.finish C b s = .ok { s' with parents := ps, children := s'.children.take l ++ [.node .itemAttachComponent (s'.children.drop l)] } := by
  obtain ⟨s1, h1, d1, z1, _, _⟩ := eat_plain h ht
  unfold attachComponent.finish
  rw [h1, ok_bind]
  cases b with
  | false =>
    refine ⟨s1, d1, z1, ?_⟩
    simp only [Bool.false_eq_true, if_false, ok_bind]
    unfold PState.finishNode
    rw [d1.parents, hp]
  | true =>
    have d2 := trivia_plain d1.pl
    obtain ⟨f, s3, h3, d3, _⟩ := hC false s1.trivia d2.pl (by have := d2.size; omega)
    refine ⟨s3, (d1.trans d2).trans d3, by have := d2.size; have := d3.size; omega, ?_⟩
    simp only [if_true, h3, ok_bind]
    unfold PState.finishNode
    rw [d3.parents, d2.parents, d1.parents, hp]

/-- An attachment. -/
theorem attach_plain {m : Mode} {C : ContentFn} {N : Nat} (hC : Works m C N) (b : Bool) {s : PState} (h : Pl m s) {t : Tok} {ts : List Tok}
    (ht : s.toks = t :: ts) (hN : tokSize s.toks ≤ N) (hw : t.1 ≠ .whitespace) :
    ∃ s', attachComponent C b s = .ok s' ∧ Did1 m s s' ∧ tokSize s'.toks < tokSize s.toks := by
  unfold attachComponent
  cases hl : s.last with
  | some l =>
    obtain ⟨h1, h2, h3⟩ := h.last l hl
    dsimp only
    have hm : (s.startNodeAt l .itemAttachComponent >>= fun s => s.startNodeAt l .clauseArgument >>= fun s => s.finishNode) =
        .ok { s with parents := (.itemAttachComponent, l) :: s.parents, children := s.children.take l ++ [.node .clauseArgument (s.children.drop l)] } := by
      unfold PState.startNodeAt
      rw [if_pos ⟨Nat.le_of_lt h2, h1⟩, ok_bind]
      rw [if_pos ⟨Nat.le_of_lt h2, Nat.le_refl _⟩, ok_bind]
      rfl
    have hlen : (s.children.take l ++ [Elem.node .clauseArgument (s.children.drop l)]).length = l + 1 := by
      rw [List.length_append, List.length_take, List.length_singleton]; omega
    have hdrop : (s.children.take l ++ [Elem.node .clauseArgument (s.children.drop l)]).drop l = [.node .clauseArgument (s.children.drop l)] := by
      rw [List.drop_append_of_le_length (by rw [List.length_take]; omega), List.drop_take]
      simp
    have pm : Pl m { s with parents := (.itemAttachComponent, l) :: s.parents, children := s.children.take l ++ [.node .clauseArgument (s.children.drop l)] } := {
      plain := h.plain
      words := h.words
      flat := flat_wrap (Or.inr (Or.inl rfl)) h.flat h3
      top := by show l ≤ _; rw [hlen]; omega
      last := fun l' hl' => by
        have : l' = l := by rw [show s.last = some l' from hl'] at hl; cases hl; rfl
        subst this
        refine ⟨Nat.le_refl _, by rw [hlen]; omega, ?_⟩
        rw [hdrop, leaves_go_one, leaves_node]
        exact h3 }
    obtain ⟨s', d, z, hf⟩ := finish_plain hC b pm ht hN rfl
    have hl' : s'.last = some l := d.last.trans hl
    obtain ⟨g1, g2, g3⟩ := d.pl.last l hl'
    refine ⟨{ s' with parents := s.parents, children := s'.children.take l ++ [.node .itemAttachComponent (s'.children.drop l)] }, ?_, ?_, z⟩
    · have : ∀ k : PState → Res PState, (s.startNodeAt l .itemAttachComponent >>= fun s => s.startNodeAt l .clauseArgument >>= fun s => s.finishNode >>= k) =
          ((s.startNodeAt l .itemAttachComponent >>= fun s => s.startNodeAt l .clauseArgument >>= fun s => s.finishNode) >>= k) := by
        intro k
        cases s.startNodeAt l .itemAttachComponent with
        | error x => rfl
        | ok a =>
          simp only [ok_bind]
          cases a.startNodeAt l .clauseArgument <;> rfl
      rw [this, hm, ok_bind]
      exact hf
    · have hlen' : (s'.children.take l ++ [Elem.node .itemAttachComponent (s'.children.drop l)]).length = l + 1 := by
        rw [List.length_append, List.length_take, List.length_singleton]; omega
      exact {
        pl := {
          plain := d.pl.plain
          words := d.pl.words
          flat := flat_wrap (Or.inr (Or.inr rfl)) d.pl.flat g3
          top := by show s.top ≤ _; rw [hlen']; omega
          last := fun l'' hl'' => by
            have : l'' = l := by rw [show s'.last = some l'' from hl''] at hl'; cases hl'; rfl
            subst this
            refine ⟨h1, by rw [hlen']; omega, ?_⟩
            rw [List.drop_append_of_le_length (by rw [List.length_take]; omega), List.drop_take]
            simp only [Nat.sub_self, List.take_zero, List.nil_append]
            rw [leaves_go_one, leaves_node]
            exact g3 }
        parents := rfl
        last := d.last
        scope := d.scope
        leaves := by
          obtain ⟨lv, e1, e2⟩ := d.leaves
          refine ⟨lv, e1, ?_⟩
          rw [leaves_wrap, e2, leaves_wrap]
        prefix_ := fun h0 => (by rw [hl] at h0; cases h0)
        size := d.size }
  | none =>
    dsimp only
    cases b with
    | false =>
      obtain ⟨s1, h1, d1, z1, _⟩ := eat_plain h ht
      exact ⟨s1, h1, d1, z1⟩
    | true =>
      have pm : Pl m (s.startNode .itemAttachComponent) := {
        plain := h.plain
        words := h.words
        flat := h.flat
        top := Nat.le_refl _
        last := fun l' hl' => by rw [show s.last = some l' from hl'] at hl; cases hl }
      obtain ⟨s1, h1, d1, z1, _, i1⟩ := eat_plain pm ht
      have hfin : ∃ s', Did1 m s1 s' ∧ attachComponent.finish C true (s.startNode .itemAttachComponent) =
          .ok { s' with parents := s.parents, children := s'.children.take s.children.length ++
            [.node .itemAttachComponent (s'.children.drop s.children.length)] } := by
        unfold attachComponent.finish
        rw [h1, ok_bind]
        have d2 := trivia_plain d1.pl
        have hz : tokSize (s.startNode .itemAttachComponent).toks = tokSize s.toks := rfl
        obtain ⟨f, s3, h3, d3, _⟩ := hC false s1.trivia d2.pl (by have := d2.size; omega)
        refine ⟨s3, d2.trans d3, ?_⟩
        simp only [if_true, h3, ok_bind]
        unfold PState.finishNode
        rw [d3.parents, d2.parents, d1.parents]
        rfl
      obtain ⟨s', d, hf⟩ := hfin
      have hl1 : s1.last = none := d1.last.trans hl
      have p1 : s.children <+: s1.children := d1.prefix_ hl
      have p2 : s1.children <+: s'.children := d.prefix_ hl1
      obtain ⟨i2, i3⟩ := i1 hw
      have i2 : s.children.length < s1.children.length := i2
      have i3 : NW (Elem.leaves.go (s1.children.drop s.children.length)) := i3
      obtain ⟨x1, hx1⟩ := p2
      have hnw : NW (Elem.leaves.go (s'.children.drop s.children.length)) := by
        rw [← hx1, List.drop_append_of_le_length (by omega), leaves_go_append]
        exact i3.append _
      have hlen : s.children.length < s'.children.length := by
        rw [← hx1, List.length_append]; omega
      have dd := d1.trans d
      refine ⟨{ s' with parents := s.parents, children := s'.children.take s.children.length ++
          [.node .itemAttachComponent (s'.children.drop s.children.length)] },
        by simp only [Bool.not_true, Bool.false_eq_true, if_false]; exact hf, ?_, Nat.lt_of_le_of_lt d.size z1⟩
      have hlen' : (s'.children.take s.children.length ++ [Elem.node .itemAttachComponent (s'.children.drop s.children.length)]).length =
          s.children.length + 1 := by
        rw [List.length_append, List.length_take, List.length_singleton]; omega
      exact {
        pl := {
          plain := d.pl.plain
          words := d.pl.words
          flat := flat_wrap (Or.inr (Or.inr rfl)) d.pl.flat hnw
          top := by have := h.top; show s.top ≤ _; rw [hlen']; omega
          last := fun l'' hl'' => by
            have h0 : s'.last = none := d.last.trans hl1
            rw [show s'.last = some l'' from hl''] at h0
            cases h0 }
        parents := rfl
        last := dd.last
        scope := dd.scope
        leaves := by
          obtain ⟨lv, e1, e2⟩ := dd.leaves
          exact ⟨lv, e1, by rw [leaves_wrap, e2]; rfl⟩
        prefix_ := fun _ => by
          have : s.children <+: s'.children := dd.prefix_ hl
          obtain ⟨y, hy⟩ := this
          show s.children <+: s'.children.take s.children.length ++ _
          rw [← hy, List.take_left]
          exact List.prefix_append _ _
        size := dd.size }

theorem content_plain (m : Mode) (env : PEnv) (n : Nat) : Works m (content env n) n := by
  induction n with
  | zero => intro b s _ h; omega
  | succ n ih =>
    intro b s h hz
    show ∃ f s', contentBody env (content env n) n b s = .ok (f, s') ∧ _
    unfold contentBody
    cases ht : s.toks with
    | nil =>
      refine ⟨true, s, by simp [PState.peek, ht], ?_, fun h0 => absurd rfl h0⟩
      exact ⟨h, rfl, rfl, rfl, ⟨[], .done _, by simp⟩, fun _ => List.prefix_rfl, Nat.le_refl _⟩
    | cons t ts =>
      have hp := h.plain t (by rw [ht]; exact List.mem_cons_self)
      have hpk : s.peek = some t.1 := by simp [PState.peek, ht]
      rw [hpk]
      dsimp only
      have eat (f : Bool) (hf : f = true → t.1 ≠ .whitespace) : ∃ f' s', withFlag f s.eat = .ok (f', s') ∧ Did1 m s s' ∧
          (t :: ts ≠ [] → tokSize s'.toks < tokSize (t :: ts) ∧ (f' = true → Item s s')) := by
        obtain ⟨s1, h1, d1, z1, _, i1⟩ := eat_plain h ht
        exact ⟨f, s1, by rw [h1]; rfl, d1, fun _ => ⟨ht ▸ z1, fun e => i1 (hf e)⟩⟩
      have att (b' : Bool) (hw : t.1 ≠ .whitespace) : ∃ f' s', withFlag false (attachComponent (content env n) b' s) = .ok (f', s') ∧ Did1 m s s' ∧
          (t :: ts ≠ [] → tokSize s'.toks < tokSize (t :: ts) ∧ (f' = true → Item s s')) := by
        obtain ⟨s1, h1, d1, z1⟩ := attach_plain ih b' h ht (by omega) hw
        exact ⟨false, s1, by rw [h1]; rfl, d1, fun _ => ⟨ht ▸ z1, fun e => (by cases e)⟩⟩
      obtain ⟨k, w⟩ := t
      cases k with
      | left bk =>
        cases bk with
        | curly => cases hp
        | bracket => exact eat true fun _ h => (by cases h)
        | paren => exact eat true fun _ h => (by cases h)
      | right bk =>
        cases bk with
        | curly => cases hp
        | bracket => exact eat true fun _ h => (by cases h)
        | paren => exact eat true fun _ h => (by cases h)
      | lineBreak => exact eat false fun h => (by cases h)
      | whitespace => exact eat false fun h => (by cases h)
      | lineComment => exact eat false fun h => (by cases h)
      | ampersand => exact eat false fun h => (by cases h)
      | hash => exact eat false fun h => (by cases h)
      | asterisk => exact eat false fun h => (by cases h)
      | atSign => exact eat false fun h => (by cases h)
      | tilde => exact eat true fun _ h => (by cases h)
      | slash => exact eat true fun _ h => (by cases h)
      | ditto => exact eat true fun _ h => (by cases h)
      | semicolon => exact eat true fun _ h => (by cases h)
      | apostrophe => exact att false fun h => (by cases h)
      | underscore => exact att true fun h => (by cases h)
      | caret => exact att true fun h => (by cases h)
      | comma =>
        obtain ⟨s1, h1, d1, z1, i1⟩ := text_plain h ht fun h => (by cases h)
        exact ⟨true, s1, by dsimp only; rw [h1]; rfl, d1, fun _ => ⟨ht ▸ z1, fun _ => i1⟩⟩
      | word =>
        dsimp only
        cases b with
        | true =>
          obtain ⟨s1, h1, d1, z1, i1⟩ := text_plain h ht fun h => (by cases h)
          exact ⟨true, s1, by rw [if_pos rfl, h1]; rfl, d1, fun _ => ⟨ht ▸ z1, fun _ => i1⟩⟩
        | false =>
          obtain ⟨s1, h1, d1, z1, i1⟩ := char_plain h ht
          exact ⟨true, s1, by rw [if_neg (by decide), h1]; rfl, d1, fun _ => ⟨ht ▸ z1, fun _ => i1⟩⟩
      | _ => cases hp

theorem loop_plain (m : Mode) (env : PEnv) (N : Nat) (n : Nat) : ∀ s : PState, Pl m s → s.scope = .root → tokSize s.toks < n → tokSize s.toks < N →
    ∃ s', itemListLoop (content env N) n s.children.length s = .ok s' ∧ s'.toks = [] ∧ s'.parents = s.parents ∧ (∀ e ∈ s'.children, Flat m e) ∧
      ∃ lv, Exact s.toks [] lv ∧ Elem.leaves.go s'.children = Elem.leaves.go s.children ++ lv := by
  induction n with
  | zero => intro s _ _ h; omega
  | succ n ih =>
    intro s h hr hn hN
    rw [itemListLoop]
    cases ht : s.toks with
    | nil => exact ⟨s, by simp [PState.peek, ht], ht, rfl, h.flat, [], .done _, by simp⟩
    | cons t ts =>
      have hpk : s.peek = some t.1 := by simp [PState.peek, ht]
      rw [hpk]
      dsimp only
      rw [hr, if_neg (by simp [stopByScope])]
      obtain ⟨f, s1, h1, d1, hx⟩ := content_plain m env N true s h hN
      obtain ⟨z1, i1⟩ := hx (by rw [ht]; simp)
      rw [h1, ok_bind]
      dsimp only
      have : ∃ s2 : PState, (if f = true then { s1 with last := some s.children.length } else s1) = s2 ∧ Pl m s2 ∧ s2.scope = .root ∧
          s2.toks = s1.toks ∧ s2.children = s1.children ∧ s2.parents = s1.parents := by
        cases f with
        | false => exact ⟨s1, rfl, d1.pl, d1.scope.trans hr, rfl, rfl, rfl⟩
        | true =>
          obtain ⟨i2, i3⟩ := i1 rfl
          refine ⟨_, rfl, ⟨d1.pl.plain, d1.pl.words, d1.pl.flat, d1.pl.top, ?_⟩, d1.scope.trans hr, rfl, rfl, rfl⟩
          intro l hl
          cases hl
          refine ⟨?_, i2, i3⟩
          have : s1.top = s.top := by unfold PState.top; rw [d1.parents]
          show s1.top ≤ _
          rw [this]
          exact h.top
      obtain ⟨s2, e2, p2, r2, t2, c2, q2⟩ := this
      rw [e2]
      obtain ⟨s3, h3, e3, q3, f3, lv, x3, g3⟩ := ih s2 p2 r2 (by rw [t2]; omega) (by rw [t2]; omega)
      refine ⟨s3, h3, e3, by rw [q3, q2, d1.parents], f3, ?_⟩
      obtain ⟨l1, x1, g1⟩ := d1.leaves
      rw [t2] at x3
      exact ⟨l1 ++ lv, ht ▸ x1.trans x3, by rw [g3, c2, g1, List.append_assoc]⟩

/-- Parsing a plain text: the leaves are its tokens, and all groupings are harmless. -/
theorem parse_plain (m : Mode) (env : PEnv) (toks : List Tok) (hp : ∀ t ∈ toks, plainToken m t.1 = true) (hw : WordsOk toks) :
    ∃ cs, parseToks env toks = .ok (.node .scopeRoot cs) ∧ (∀ e ∈ cs, Flat m e) ∧ Exact toks [] (Elem.leaves.go cs) := by
  unfold parseToks itemList
  have p0 : Pl m { (PState.init toks).startNode .scopeRoot with start := some 0, last := none, scope := .root } :=
    ⟨hp, hw, fun e h => (by cases h), Nat.le_refl _, fun l h => (by cases h)⟩
  obtain ⟨s', h, e, q, f, lv, x, g⟩ := loop_plain m env (tokSize toks + 1) (tokSize toks + 1) _ p0 rfl (Nat.lt_succ_self _) (Nat.lt_succ_self _)
  dsimp only
  have h' : itemListLoop (content env (tokSize toks + 1)) (tokSize toks + 1) ((PState.init toks).startNode .scopeRoot).checkpoint
    { (PState.init toks).startNode .scopeRoot with
      start := some ((PState.init toks).startNode .scopeRoot).checkpoint, last := none, scope := .root } = .ok s' := h
  rw [h']
  simp only [ok_bind]
  unfold PState.finishNode
  dsimp only
  rw [q]
  refine ⟨s'.children, rfl, f, ?_⟩
  rw [g]
  exact x

/-! ### Converting plain trees -/

/-- What is written for a leaf that is neither whitespace nor a line break. -/
def leafText (m : Mode) (k : Kind) (t : Text) : Text :=
  match k with
  | .tokenWord => if m = .math then (t.map fun c => [c, ' ']).flatten else t
  | .tokenApostrophe => ['\'']
  | .tokenComma => ['\\', ',']
  | .tokenSlash => ['\\', '/']
  | .tokenCaret => ['\\', '^']
  | .tokenUnderscore => ['\\', '_']
  | .tokenHash => ['\\', '#']
  | .tokenAsterisk => ['\\', '*']
  | .tokenAtSign => ['\\', '@']
  | .tokenDitto => ['\\', '"']
  | .tokenSemicolon => ['\\', ';']
  | .tokenLParen => ['\\', '(']
  | .tokenRParen => ['\\', ')']
  | .tokenLBracket => ['\\', '[']
  | .tokenRBracket => ['\\', ']']
  | .tokenTilde => if m = .math then t!"space.nobreak " else ['\\', '~']
  | .tokenAmpersand => ['&']
  | _ => []

/-- A leaf. -/
def leafStep (s : CState) (l : Kind × Text) : CState :=
  if l.1 = .tokenWhiteSpace then (if s.skip then { s with skip := false } else s.write l.2)
  else if l.1 = .tokenLineBreak then { s.write l.2 with skip := true }
  else { s with skip := false, out := s.out ++ leafText s.mode l.1 l.2 }

/-- Outside of all environments. -/
def Outside (m : Mode) (s : CState) : Prop := s.mode = m ∧ s.env = .none ∧ s.indent = 0

theorem Outside.step {m : Mode} {s : CState} (h : Outside m s) (l : Kind × Text) : Outside m (leafStep s l) := by
  unfold leafStep
  split
  · split <;> exact h
  · split <;> exact h

theorem Outside.fold {m : Mode} {s : CState} (h : Outside m s) (ls : List (Kind × Text)) : Outside m (ls.foldl leafStep s) := by
  induction ls generalizing s with
  | nil => exact h
  | cons l ls ih => exact ih (h.step l)

theorem leafStep_skip (s : CState) {l : Kind × Text} (h : l.1 ≠ .tokenWhiteSpace) : leafStep { s with skip := false } l = leafStep s l := by
  unfold leafStep
  rw [if_neg h, if_neg h]
  rfl

theorem convert_leaf {m : Mode} (spec : CommandSpec) (n : Nat) {k : Kind} {t : Text} (hk : plainKind m k = true) {s : CState} (hs : Outside m s) :
    convert spec (n + 1) (.token k t) s = .ok (leafStep s (k, t)) := by
  show convKind spec _ (.token k t) (if (Elem.token k t).kind = .tokenWhiteSpace then s else { s with skip := false }) = _
  obtain ⟨h1, h2, h3⟩ := hs
  obtain ⟨mode, env, indent, label, skip, out⟩ := s
  dsimp only at h1 h2 h3
  subst h1 h2 h3
  cases k with
  | tokenWhiteSpace => cases skip <;> rfl
  | tokenWord => cases mode <;> rfl
  | tokenTilde => cases mode <;> rfl
  | tokenLineBreak =>
    unfold convKind leafStep
    simp [Elem.kind, asToken, ok_bind, CState.write]
  | tokenComment =>
    unfold convKind leafStep
    simp [Elem.kind, leafText]
  | _ => first | rfl | cases hk

theorem convList_leaves {m : Mode} {C : ConvFn} (es : List Elem)
    (hC : ∀ e ∈ es, ∀ s, Outside m s → C e s = .ok (e.leaves.foldl leafStep s)) : ∀ s, Outside m s →
    convList C es s = .ok ((Elem.leaves.go es).foldl leafStep s) := by
  induction es with
  | nil => intro s _; rfl
  | cons e es ih =>
    intro s hs
    rw [convList, hC e List.mem_cons_self s hs, ok_bind, ih (fun e he => hC e (List.mem_cons_of_mem _ he)) _ (hs.fold _), Elem.leaves.go,
      List.foldl_append]

theorem attach_leaves {C : ConvFn} (es : List Elem) (hf : ∀ e ∈ es, Flat .math e)
    (hC : ∀ e ∈ es, ∀ s, Outside .math s → C e s = .ok (e.leaves.foldl leafStep s)) : ∀ b s, Outside .math s →
    convAttachLoop C es b true s = .ok (true, (Elem.leaves.go es).foldl leafStep s) := by
  induction es with
  | nil => intro b s _; rfl
  | cons e es ih =>
    intro b s hs
    have ih' := fun b => ih (fun e he => hf e (List.mem_cons_of_mem _ he)) (fun e he => hC e (List.mem_cons_of_mem _ he)) b _ (hs.fold e.leaves)
    have he := hC e List.mem_cons_self s hs
    have hfe := hf e List.mem_cons_self
    rw [convAttachLoop.eq_def]
    simp only [if_true]
    rw [Elem.leaves.go, List.foldl_append]
    split
    · exact absurd ((Forall_token _ _ _).1 hfe) (fun h => (by cases h))
    · exact absurd ((Forall_token _ _ _).1 hfe) (fun h => (by cases h))
    · rw [he, ok_bind]; exact ih' b
    · rw [he, ok_bind]; exact ih' true

theorem convert_plain {m : Mode} (spec : CommandSpec) (e : Elem) : ∀ n, e.depth ≤ n → Flat m e → ∀ s, Outside m s →
    convert spec n e s = .ok (e.leaves.foldl leafStep s) := by
  induction e using Elem.ind with
  | ht k t =>
    intro n hn hf s hs
    cases n with
    | zero => exact absurd hn (by rw [Elem.depth]; omega)
    | succ n => exact convert_leaf spec n ((Forall_token _ _ _).1 hf) hs
  | hn k cs ih =>
    intro n hn hf s hs
    cases n with
    | zero => exact absurd hn (by rw [Elem.depth]; omega)
    | succ n =>
      obtain ⟨⟨hk, l, ls, hl, hw⟩, hc⟩ := (Forall_node _ _ _).1 hf
      have hC : ∀ e ∈ cs, ∀ s, Outside m s → convert spec n e s = .ok (e.leaves.foldl leafStep s) := fun e he s hs =>
        ih e he n (by have := child_depth (e := .node k cs) he; omega) (hc e he) s hs
      have hs' : Outside m { s with skip := false } := hs
      have hfin : (Elem.leaves.go cs).foldl leafStep { s with skip := false } = (Elem.leaves.go cs).foldl leafStep s := by
        rw [hl, List.foldl_cons, List.foldl_cons, leafStep_skip s hw]
      rw [leaves_node]
      rcases hk with rfl | rfl | rfl
      · show convList _ cs { s with skip := false } = _
        rw [convList_leaves cs hC _ hs', hfin]
      · show convList _ cs { s with skip := false } = _
        rw [convList_leaves cs hC _ hs', hfin]
      · show convAttach _ (.node .itemAttachComponent cs) { s with skip := false } = _
        unfold convAttach asNode
        rw [ok_bind]
        dsimp only
        cases m with
        | text =>
          rw [if_neg (by rw [hs.1]; decide), convList_leaves cs hC _ hs', hfin]
        | math =>
          rw [if_pos hs.1, attach_leaves cs hc hC _ _ hs', ok_bind]
          simp only [if_true]
          rw [hfin]

end Mitex
