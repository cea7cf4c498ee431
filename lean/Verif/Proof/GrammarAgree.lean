/-
The parser agrees with the grammar on rows, function by function.
-/
import Verif.Proof.GrammarFun
import Verif.Proof.ParserTop

namespace Mitex
namespace Grammar

/-! ### Groups -/

theorem eatIf_eq (s : PState) (k : Token) :
    s.eatIf k = .ok { s with children := s.children ++ (closing k s.toks).1, toks := (closing k s.toks).2 } := by
  obtain ⟨toks, parents, children, hold, start, last, scope⟩ := s
  unfold PState.eatIf PState.peek closing
  cases toks with
  | nil => simp
  | cons t ts =>
    simp only [List.head?_cons, Option.map_some, Option.some.injEq]
    by_cases h : t.1 = k
    · rw [if_pos h, if_pos h]; rfl
    · rw [if_neg h, if_neg h]; simp

/-- Closing a node whose children are known. -/
theorem finish_app {s : PState} {k : Kind} {ps : List (Kind × Nat)} {cs es : List Elem} (hp : s.parents = (k, cs.length) :: ps)
    (hc : s.children = cs ++ es) : s.finishNode = .ok { s with parents := ps, children := cs ++ [.node k es] } := by
  rw [finish_eq hp]
  unfold PState.closed
  rw [hc, List.take_left, List.drop_left]

theorem finish_then {α : Type} {s : PState} {k : Kind} {ps : List (Kind × Nat)} {cs es : List Elem} {f : PState → Res α}
    (hp : s.parents = (k, cs.length) :: ps) (hc : s.children = cs ++ es) :
    (s.finishNode >>= f) = f { s with parents := ps, children := cs ++ [.node k es] } := by
  rw [finish_app hp hc, ok_bind]

/-- A list of items in a node that has been opened. -/
theorem Agree.opened {C : ContentFn} {G : GFn} (hC : Agree C G) (n : Nat) (sc : Scope) {s : PState} {k : Kind} {ps : List (Kind × Nat)}
    {cs es : List Elem} (hh : s.hold = []) (hp : s.parents = (k, cs.length) :: ps) (hc : s.children = cs ++ es) :
    M (fun a g => a = { s with children := cs ++ g.1.items, toks := g.2 }) (itemList C n sc s)
      (gItems G sc (enders sc) n ⟨es, some es.length, none⟩ s.toks) := by
  have ht : s.top = cs.length := by unfold PState.top; rw [hp]
  have h := hC.list n sc s hh (by rw [ht, hc, List.length_append]; omega)
  have hi : (rowOf s).items = es := by unfold rowOf; rw [ht, hc]; exact List.drop_left
  rw [hi, ht, hc, List.take_left] at h
  exact h

theorem Agree.group {C : ContentFn} {G : GFn} (hC : Agree C G) (n : Nat) {sc : Scope} {close : Token} {kind : Kind}
    (hg : groupInfo sc = some (close, kind)) {s : PState} {t : Tok} {ts : List Tok} (ht : s.toks = t :: ts) (hh : s.hold = []) :
    M (fun a g => a = added s [g.1] g.2) (itemGroup C n sc s) (gGroup G n sc close kind t ts) := by
  unfold itemGroup gGroup
  rw [hg]
  dsimp only
  have e1 : (s.startNode kind).eat = .ok ((s.startNode kind).ate t ts) := eat_eq ht
  rw [e1, ok_bind]
  have h := hC.opened n sc (s := (s.startNode kind).ate t ts) (es := [leafOf t]) hh rfl rfl
  refine M.bind h ?_
  rintro a g rfl
  rw [eatIf_eq, ok_bind, finish_app (es := g.1.items ++ (closing close g.2).1) rfl (by simp)]
  rfl

/-! ### Texts and single tokens -/

theorem text_eq {s : PState} {t : Tok} {ts : List Tok} (ht : s.toks = t :: ts) :
    textItem s = .ok (added s [.node .itemText ((t :: ts.takeWhile fun t => isTextPart t.1).map leafOf)]
      (ts.dropWhile fun t => isTextPart t.1)) := by
  unfold textItem
  have e1 : (s.startNode .itemText).eat = .ok ((s.startNode .itemText).ate t ts) := eat_eq ht
  have hp : isTextComponent = isTextPart := by funext k; cases k <;> rfl
  rw [e1, ok_bind, finish_app (cs := s.children) (es := leafOf t :: (ts.takeWhile fun t => isTextPart t.1).map leafOf) rfl
    (by simp [PState.eatWhile, PState.ate, PState.startNode, hp]), hp]
  rfl

theorem error_eq {s : PState} {t : Tok} {ts : List Tok} (ht : s.toks = t :: ts) :
    errorItem s = .ok (added s [.node .tokenError [leafOf t]] ts) := by
  unfold errorItem
  have e1 : (s.startNode .tokenError).eat = .ok ((s.startNode .tokenError).ate t ts) := eat_eq ht
  rw [e1, ok_bind, finish_app (cs := s.children) (es := [leafOf t]) rfl rfl]
  rfl

theorem single_eq {s : PState} {k : Token} {c : Char} {cs : Text} {ts : List Tok} (ht : s.toks = (k, c :: cs) :: ts) (hk : k = .word) :
    s.singleChar = .ok (added s [.token .tokenWord [c]] (restOfWord cs ts)) := by
  subst hk
  unfold PState.singleChar
  rw [ht]
  dsimp only
  have := consumeBytes_prefix (s := s.token .tokenWord [c]) (k := .word) (a := [c]) (b := cs) (r := ts) ht
  rw [show utf8Len c = byteLen [c] by simp [byteLen], this]
  rfl

/-! ### Delimiters -/

theorem clauseLR_eq {s : PState} {t : Tok} {ts : List Tok} (ht : s.toks = t :: ts) :
    clauseLR s = .ok (added s [(delimiter t ts).1] (delimiter t ts).2) := by
  unfold clauseLR delimiter
  have e1 : (s.startNode .clauseLR).eat = .ok ((s.startNode .clauseLR).ate t ts) := eat_eq ht
  rw [e1, ok_bind]
  have hb : ∀ l : List Tok, (l.takeWhile fun t => t.1.isTrivia) = l.takeWhile fun t => isBlank t.1 := by
    intro l; congr 1; funext t; rw [isBlank_eq]
  have hd : ∀ l : List Tok, (l.dropWhile fun t => t.1.isTrivia) = l.dropWhile fun t => isBlank t.1 := by
    intro l; congr 1; funext t; rw [isBlank_eq]
  have e2 : ((s.startNode .clauseLR).ate t ts).trivia = { s with
      parents := (.clauseLR, s.children.length) :: s.parents
      children := s.children ++ (leafOf t :: (ts.takeWhile fun t => isBlank t.1).map leafOf)
      toks := ts.dropWhile fun t => isBlank t.1 } := by
    unfold PState.trivia PState.eatWhile PState.ate PState.startNode
    simp only [hb, hd, List.append_assoc, List.cons_append, List.nil_append]
  rw [e2]
  obtain ⟨bl, hbl⟩ : ∃ bl, bl = ts.takeWhile fun t => isBlank t.1 := ⟨_, rfl⟩
  obtain ⟨rs, hrs⟩ : ∃ rs, rs = ts.dropWhile fun t => isBlank t.1 := ⟨_, rfl⟩
  rw [← hbl, ← hrs]
  clear e2 e1 hb hd hbl hrs
  dsimp only
  have fin : ∀ (es : List Elem) (ts' : List Tok), PState.finishNode { s with
      parents := (.clauseLR, s.children.length) :: s.parents
      children := s.children ++ (leafOf t :: bl.map leafOf) ++ es
      toks := ts' } = .ok (added s [.node .clauseLR (leafOf t :: bl.map leafOf ++ es)] ts') := by
    intro es ts'
    rw [finish_app (cs := s.children) (es := leafOf t :: bl.map leafOf ++ es) rfl (by simp)]
    rfl
  have fin0 : ∀ (ts' : List Tok), PState.finishNode { s with
      parents := (.clauseLR, s.children.length) :: s.parents
      children := s.children ++ (leafOf t :: bl.map leafOf)
      toks := ts' } = .ok (added s [.node .clauseLR (leafOf t :: bl.map leafOf ++ [])] ts') := by
    intro ts'
    have := fin [] ts'
    rw [List.append_nil] at this
    exact this
  cases rs with
  | nil => exact fin0 []
  | cons u rs =>
    obtain ⟨k, x⟩ := u
    cases k with
    | cmd n =>
      cases n <;> first | exact fin0 _ | exact fin [.token .tokenCommandSym x] rs
    | dollar => exact fin0 _
    | word =>
      cases x with
      | nil => exact fin0 _
      | cons c cs =>
        have := single_eq (s := { s with
          parents := (.clauseLR, s.children.length) :: s.parents
          children := s.children ++ (leafOf t :: bl.map leafOf)
          toks := (.word, c :: cs) :: rs }) rfl rfl
        show (PState.singleChar _ >>= _) = _
        rw [this]
        exact fin [.token .tokenWord [c]] _
    | _ => exact fin [leafOf (_, x)] rs

theorem M.left {α β : Type} {Q : α → β → Prop} {r r' : Res α} {g : Res β} (h : r = r') (k : M Q r' g) : M Q r g := h ▸ k

theorem right_eq {s : PState} {ps : List (Kind × Nat)} {cs es : List Elem} (hp : s.parents = (.itemLR, cs.length) :: ps)
    (hc : s.children = cs ++ es) :
    (do
      let s ← if s.peek = some (Token.cmd .right) then clauseLR s else .ok s
      s.finishNode : Res PState) = .ok { s with
        parents := ps
        children := cs ++ [Elem.node .itemLR (es ++ (rightDelimiter s.toks).1)]
        toks := (rightDelimiter s.toks).2 } := by
  cases hg : s.toks with
  | nil =>
    have hpk : s.peek = none := by unfold PState.peek; rw [hg]; rfl
    rw [hpk, if_neg (fun h => (by cases h)), ok_bind]
    dsimp only
    rw [finish_app hp hc]
    simp [rightDelimiter, ← hg]
  | cons u us =>
    obtain ⟨k, x⟩ := u
    have hpk : s.peek = some k := peek_of hg
    rw [hpk]
    by_cases hk : k = .cmd .right
    · subst hk
      rw [if_pos rfl, clauseLR_eq hg, ok_bind]
      dsimp only
      rw [finish_app (s := added s _ _) (cs := cs) (es := es ++ [(delimiter (.cmd .right, x) us).1]) hp
        (by show s.children ++ _ = _; simp [hc])]
      rfl
    · rw [if_neg (fun h => hk (Option.some.inj h)), ok_bind]
      dsimp only
      rw [finish_app hp hc]
      have : rightDelimiter ((k, x) :: us) = ([], (k, x) :: us) := by
        unfold rightDelimiter
        split
        · rename_i h
          cases h
          exact absurd rfl hk
        · rfl
      rw [this]
      simp [← hg]

theorem M.row {s : PState} (hh : s.hold = []) (hl : s.top ≤ s.children.length) (es : List Elem) (ts : List Tok) :
    M (fun a g => g = (rowOf a, a.toks) ∧ FrameC s a) (.ok (Grammar.added s es ts)) (.ok ((rowOf s).add es, ts)) := by
  refine ⟨?_, frame_added hh hl es ts⟩
  rw [row_added hl]
  rfl

theorem Agree.delimited {C : ContentFn} {G : GFn} (hC : Agree C G) (n : Nat) {s : PState} {t : Tok} {ts : List Tok} (ht : s.toks = t :: ts)
    (hh : s.hold = []) (hl : s.top ≤ s.children.length) :
    M (fun a g => g = (rowOf a, a.toks) ∧ FrameC s a) (itemLR C n s) (gDelimited G n (rowOf s) t ts) := by
  unfold itemLR gDelimited
  rw [clauseLR_eq (s := s.startNode .itemLR) (t := t) (ts := ts) ht, ok_bind]
  have h := hC.opened n .lr (s := added (s.startNode .itemLR) [(delimiter t ts).1] (delimiter t ts).2) (es := [(delimiter t ts).1]) hh rfl rfl
  refine M.bind h ?_
  rintro a g rfl
  exact M.left (right_eq (cs := s.children) (es := g.1.items) rfl rfl) (M.row hh hl _ _)

/-! ### Block comments -/

theorem block_body (ts : List Tok) : ∀ (n : Nat) (s : PState),
    eatBodyOfIfs ts n s = { s with children := s.children ++ (gBlock ts n).1.map leafOf, toks := (gBlock ts n).2 } := by
  induction ts with
  | nil => intro n s; simp [eatBodyOfIfs, gBlock]
  | cons t ts ih =>
    intro n s
    obtain ⟨k, x⟩ := t
    have go : ∀ m, eatBodyOfIfs ts m (s.token k.kind x) = { s with
        children := s.children ++ ((k, x) :: (gBlock ts m).1).map leafOf, toks := (gBlock ts m).2 } := by
      intro m
      rw [ih]
      unfold PState.token
      simp only [List.append_assoc, List.map_cons]
      rfl
    cases k with
    | cmd c =>
      cases c with
      | cif i => exact go _
      | endIf =>
        unfold eatBodyOfIfs gBlock
        dsimp only
        by_cases hn : n = 0
        · rw [if_pos hn, if_pos hn]; simp
        · rw [if_neg hn, if_neg hn]; exact go _
      | _ => exact go _
    | _ => exact go _

theorem block_eq {s : PState} {t : Tok} {ts : List Tok} (ht : s.toks = t :: ts) (kind : Kind) :
    ifBlock kind s = .ok (added s [.node kind ((gBlock ts 0).1.map leafOf)] (gBlock ts 0).2) := by
  unfold ifBlock
  dsimp only
  have : ((s.startNode kind).drop).toks = ts := by
    show s.toks.tail = ts
    rw [ht]; rfl
  rw [this, block_body, finish_app (cs := s.children) rfl rfl]
  rfl

end Grammar
end Mitex
