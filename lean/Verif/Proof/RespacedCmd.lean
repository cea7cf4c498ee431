/-
Commands in trees that differ in white space (for C85).
-/
import Verif.Proof.Respaced

namespace Mitex
namespace Respace

/-- The leaves are the same. -/
def TS (a b : Elem) : Prop := Kept a b ∧ a.text = b.text

theorem ts_of {as bs : List Elem} (h : Both Kept as bs) (hl : as.map Elem.leaves = bs.map Elem.leaves) : Both TS as bs := by
  induction h with
  | nil => exact .nil
  | @cons a b as bs h hs ih =>
    rw [List.map_cons, List.map_cons] at hl
    injection hl with h1 h2
    exact .cons ⟨h, by unfold Elem.text; rw [h1]⟩ (ih h2)

theorem bare {e : Elem} {n : Text} (h : bareName e = some n) : e.cmdName.map List.tail = some n := by
  unfold bareName at h
  cases hc : e.cmdName with
  | none => rw [hc] at h; cases h
  | some f =>
    rw [hc] at h
    have h : afterBackslash f = some n := h
    unfold afterBackslash at h
    split at h
    · split at h
      · injection h with h; exact congrArg some h
      · cases h
    · cases h

theorem text_args {e e' : Elem} (h : Kept e e') (hk : e.kind = .itemCmd) {n : Text} (hn : bareName e = some n)
    (hc : n = t!"label" ∨ n = t!"includegraphics") : Both TS e.arguments e'.arguments := by
  refine ts_of (arguments h) ?_
  have hv := verb h
  unfold verbatim at hv
  rw [← kind h, hk] at hv
  dsimp only at hv
  rw [← cmdName h, bare hn] at hv
  have c : some n = some t!"label" ∨ some n = some t!"includegraphics" := hc.imp (congrArg some) (congrArg some)
  rw [if_pos c, if_pos c] at hv
  exact hv

theorem label {x : Place} {e e' : Elem} (h : Both TS e.arguments e'.arguments) : RA PS (labelTemplate x e) (labelTemplate x e') := by
  unfold labelTemplate
  generalize e.arguments = as at h ⊢
  generalize e'.arguments = bs at h ⊢
  cases h with
  | nil => exact .error _
  | @cons a b as bs h hs =>
    show RA PS ((orCrash (undelimited a.text)).bind _) ((orCrash (undelimited b.text)).bind _)
    rw [h.2]
    refine RA.bind (R := Eq) (RA.same _ fun _ => rfl) ?_
    rintro l _ rfl
    split
    · exact .ok (inMode_both (txt _))
    · exact .ok (.one (.keepLabel _))

theorem startsOther_eq (k : Kind) {a b : Elem} (h : Kept a b) : startsOther k a = startsOther k b := by
  unfold startsOther
  have hb := childNodes h
  generalize a.childNodes = as at hb ⊢
  generalize b.childNodes = bs at hb ⊢
  cases hb with
  | nil => rfl
  | cons h _ => dsimp only [List.head?]; rw [kind h]

theorem groupArg (k : Kind) {as bs : List Elem} (h : Both TS as bs) : RA (Blank.Opt TS) (groupArgument k as) (groupArgument k bs) := by
  have hd := h.dropWhile (p := startsOther k) (q := startsOther k) fun a b j => startsOther_eq k j.1
  unfold groupArgument
  generalize as.dropWhile (startsOther k) = x at hd ⊢
  generalize bs.dropWhile (startsOther k) = y at hd ⊢
  cases hd with
  | nil => exact .ok .none
  | @cons a b _ _ h hs =>
    dsimp only
    rw [(childNodes h.1).isEmpty]
    split
    · exact .error _
    · exact .ok (.some h)

theorem image {e e' : Elem} (h : Both TS e.arguments e'.arguments) : RA PS (imageTemplate e) (imageTemplate e') := by
  unfold imageTemplate
  refine RA.bind (groupArg .itemBracket h) fun o o' ho => ?_
  refine RA.bind (groupArg .itemCurly h) fun f f' hf => ?_
  cases hf with
  | none => exact .error _
  | @some a b hf =>
    show RA PS ((orCrash (undelimited a.text)).bind _) ((orCrash (undelimited b.text)).bind _)
    rw [hf.2]
    refine RA.bind (R := Eq) (RA.same _ fun _ => rfl) ?_
    rintro l _ rfl
    cases ho with
    | none => exact .ok (txt _)
    | some ho =>
      dsimp only
      rw [ho.2]
      refine RA.bind (R := Eq) (RA.same _ fun _ => rfl) ?_
      rintro p _ rfl
      exact .ok (txt _)

/-! ### Colors -/

theorem afterBr {as bs : List Elem} (h : Both Kept as bs) : Both Kept (afterBracket as) (afterBracket bs) := by
  have hd := h.dropWhile (p := fun c => decide (c.kind ≠ .tokenRBracket)) (q := fun c => decide (c.kind ≠ .tokenRBracket)) fun a b k => by rw [kind k]
  unfold afterBracket
  generalize (as.dropWhile fun c => decide (c.kind ≠ .tokenRBracket)) = x at hd ⊢
  generalize (bs.dropWhile fun c => decide (c.kind ≠ .tokenRBracket)) = y at hd ⊢
  cases hd with
  | nil => exact .nil
  | cons h hs => exact hs

/-- The leaves of the color model of `\color`, from its arguments. -/
def modelLeaves (as : List Elem) : List (List (Kind × Text)) :=
  match as with
  | [] => []
  | a :: _ =>
    match a.children.dropWhile fun c => blankKind c.kind with
    | [] => []
    | b :: cs => if b.kind = .tokenLBracket then (cs.takeWhile fun c => decide (c.kind ≠ .tokenRBracket)).map Elem.leaves else []

theorem color_verbatim {e e' : Elem} (h : Kept e e') (hk : e.kind = .itemCmd) {n : Text} (hn : bareName e = some n) (hc : isColorCommand n) :
    (e.cmdName ≠ some t!"\\color" → Both TS (e.arguments.take 1) (e'.arguments.take 1)) ∧
    (e.cmdName = some t!"\\color" → modelLeaves e.arguments =
      modelLeaves e'.arguments) := by
  have hv := verb h
  unfold verbatim at hv
  rw [← kind h, hk] at hv
  dsimp only at hv
  rw [← cmdName h, bare hn] at hv
  have c1 : ¬ (some n = some t!"label" ∨ some n = some t!"includegraphics") := by
    intro h
    rcases h with h | h <;> injection h with h <;> subst h <;> revert hc <;> decide
  rw [if_neg c1, if_neg c1] at hv
  refine ⟨fun hf => ?_, fun hf => ?_⟩
  · have c2 : some n = some t!"color" ∨ some n = some t!"textcolor" ∨ some n = some t!"colorbox" :=
      hc.imp (congrArg some) (Or.imp (congrArg some) (congrArg some))
    rw [if_neg hf, if_neg hf, if_pos c2, if_pos c2] at hv
    exact ts_of ((arguments h).take 1) hv
  · rw [if_pos hf, if_pos hf] at hv
    exact hv

theorem colored {full : Text} {e e' : Elem} (h : Kept e e')
    (h1 : full ≠ t!"\\color" → Both TS (e.arguments.take 1) (e'.arguments.take 1)) :
    Both Kept (coloredParts full e) (coloredParts full e') := by
  have ha := arguments h
  unfold coloredParts
  generalize e.arguments = as at ha h1 ⊢
  generalize e'.arguments = bs at ha h1 ⊢
  by_cases c : full = t!"\\color"
  · rw [if_pos c, if_pos c]
    cases ha with
    | nil => exact .nil
    | @cons a b _ _ h hs =>
      have hd := (children h).dropWhile (p := fun c => blankKind c.kind) (q := fun c => blankKind c.kind) fun a b k => by rw [kind k]
      dsimp only
      generalize (a.children.dropWhile fun c => blankKind c.kind) = x at hd ⊢
      generalize (b.children.dropWhile fun c => blankKind c.kind) = y at hd ⊢
      cases hd with
      | nil => exact .nil
      | @cons a b cs ds h hs =>
        dsimp only
        rw [← kind h]
        refine Both.dropWhile (fun a b k => by rw [kind k]) ?_
        split
        · exact afterBr hs
        · exact .cons h hs
  · rw [if_neg c, if_neg c]
    have h1 := h1 c
    cases ha with
    | nil => exact .nil
    | @cons a b _ _ h hs =>
      cases h1 with
      | cons ht _ =>
        dsimp only
        rw [ht.2]
        split
        · exact hs
        · exact .cons h hs

theorem flat_text {as bs : List Elem} (h : as.map Elem.leaves = bs.map Elem.leaves) : as.flatMap Elem.text = bs.flatMap Elem.text := by
  have : ∀ cs : List Elem, cs.flatMap Elem.text = (cs.map Elem.leaves).flatMap fun l => (l.map Prod.snd).flatten := by
    intro cs
    induction cs with
    | nil => rfl
    | cons c cs ih => rw [List.flatMap_cons, ih]; rfl
  rw [this, this, h]

theorem model {full : Text} {e e' : Elem} (h : Kept e e')
    (h1 : full ≠ t!"\\color" → Both TS (e.arguments.take 1) (e'.arguments.take 1))
    (h2 : full = t!"\\color" → modelLeaves e.arguments =
      modelLeaves e'.arguments) :
    colorModel full e = colorModel full e' := by
  have ha := arguments h
  unfold colorModel
  generalize e.arguments = as at ha h1 h2 ⊢
  generalize e'.arguments = bs at ha h1 h2 ⊢
  by_cases c : full = t!"\\color"
  · rw [if_pos c, if_pos c]
    have h2 := h2 c
    cases ha with
    | nil => rfl
    | @cons a b _ _ h hs =>
      have hd := (children h).dropWhile (p := fun c => blankKind c.kind) (q := fun c => blankKind c.kind) fun a b k => by rw [kind k]
      dsimp only [modelLeaves] at h2 ⊢
      generalize (a.children.dropWhile fun c => blankKind c.kind) = x at hd h2 ⊢
      generalize (b.children.dropWhile fun c => blankKind c.kind) = y at hd h2 ⊢
      cases hd with
      | nil => rfl
      | @cons a b cs ds h hs =>
        dsimp only at h2 ⊢
        rw [← kind h] at h2 ⊢
        split
        · rename_i hb
          rw [if_pos hb, if_pos hb] at h2
          rw [flat_text h2]
        · rfl
  · rw [if_neg c, if_neg c]
    have h1 := h1 c
    cases ha with
    | nil => rfl
    | @cons a b _ _ h hs =>
      cases h1 with
      | cons ht _ =>
        dsimp only
        rw [ht.2]

theorem colorT {spec : CommandSpec} {x : Place} {full : Text} {e e' : Elem} (h : Kept e e') (hk : e.kind = .itemCmd) {n : Text} (hn : bareName e = some n)
    (hc : isColorCommand n) (hf : e.cmdName = some full) : RA PS (colorTemplate spec x full e) (colorTemplate spec x full e') := by
  obtain ⟨h1, h2⟩ := color_verbatim h hk hn hc
  have h1 : full ≠ t!"\\color" → _ := fun c => h1 (by rw [hf]; exact fun h => c (by injection h))
  have h2 : full = t!"\\color" → _ := fun c => h2 (by rw [hf, c])
  have hp := colored h h1
  unfold colorTemplate
  rw [model h h1 h2, (arguments h).isEmpty]
  split
  · exact .error _
  · refine .ok ?_
    generalize coloredParts full e = as at hp ⊢
    generalize coloredParts full e' = bs at hp ⊢
    refine Both.append (Both.append (Both.append (Both.append (txt _) (.cons ?_ (txt _))) ?_) (txt _)) (inMode_both (txt _))
    · cases hp with
      | nil => exact .text (.refl _)
      | cons h _ => exact .part _ h
    · refine flatMap_both (R := Kept) (fun a b k => ?_) ?_
      · exact ((inMode_both (txt _)).append (.one (.part x k))).append (inMode_both (txt _))
      · cases hp with
        | nil => exact .nil
        | cons _ hs => exact hs

/-! ### Other commands -/

theorem args (x : Place) (sh : CmdShape) (tn : Text) {as bs : List Elem} (h : Both Kept as bs) :
    RA PS (argumentsTemplate x sh tn as) (argumentsTemplate x sh tn bs) := by
  unfold argumentsTemplate
  split
  · exact .ok (txt _)
  · cases h with
    | nil => exact .error _
    | cons h _ =>
      cases h with
      | token => exact .error _
      | node k h => exact .ok (((txt _).append (commaList_both _ _ h)).append (txt _))
  · split
    · exact .ok (((txt _).append (commaList_both _ _ h)).append (txt _))
    · refine .ok (Both.append (flatMap_both (fun a b k => ?_) (h.filter fun a b k => by rw [kind k])) (txt _))
      exact .cons (.text (.refl _)) (.cons (.part _ k) (txt _))

theorem normal (spec : CommandSpec) (x : Place) (name : Text) {e e' : Elem} (h : Kept e e') :
    RA PS (normalTemplate spec x name e) (normalTemplate spec x name e') := by
  unfold normalTemplate
  split
  · exact RA.map (args _ _ _ ((children h).filter fun a b k => by rw [kind k])) fun ps ps' k => .cons (.text (.refl _)) k
  · exact .error _

theorem item_same (x : Place) (ps : Res (List Piece)) (h : ps = itemTemplate x) : RA PS ps ps := by
  subst h
  unfold itemTemplate
  dsimp only
  split
  · split
    · exact .error _
    · exact .ok (txt _)
  · split
    · exact .error _
    · exact .ok (txt _)
  · exact .error _

theorem command (spec : CommandSpec) (x : Place) {e e' : Elem} (h : Kept e e') (hk : e.kind = .itemCmd) :
    RA PS (commandTemplate spec x e) (commandTemplate spec x e') := by
  have hb : bareName e = bareName e' := by unfold bareName; rw [cmdName h]
  unfold commandTemplate
  rw [← hb, ← cmdName h]
  cases hf : e.cmdName with
  | none => exact .error _
  | some full =>
    cases hn : bareName e with
    | none => exact .error _
    | some n =>
      dsimp only
      split
      · exact item_same x _ rfl
      split
      · rename_i c
        exact label (text_args h hk hn (.inl c))
      split
      · rename_i c
        exact image (text_args h hk hn (.inr c))
      split
      · rename_i c
        exact colorT h hk hn c hf
      · exact normal spec x n h

end Respace
end Mitex
