/-
The words of a document are shown in their order (C83): the templates.
-/
import Verif.Spec.Shown
import Verif.Proof.NestingAll
import Verif.Proof.Ast

namespace Mitex
namespace Shown

/-! ### Trees -/

/-- All words of some elements. -/
def shownAll (spec : CommandSpec) (cs : List Elem) : Text := cs.flatMap (shown spec)

section
variable {spec : CommandSpec}

theorem parts_eq (out : Elem → Bool) (cs : List Elem) : shownParts spec out cs = shownAll spec (cs.filter fun c => !out c) := by
  induction cs with
  | nil => simp [shownParts, shownAll]
  | cons c cs ih =>
    rw [shownParts, ih, List.filter_cons]
    cases h : out c <;> simp [shownAll]

theorem shownAll_append (as bs : List Elem) : shownAll spec (as ++ bs) = shownAll spec as ++ shownAll spec bs := List.flatMap_append ..

theorem shownAll_cons (a : Elem) (bs : List Elem) : shownAll spec (a :: bs) = shown spec a ++ shownAll spec bs := List.flatMap_cons ..

theorem shownAll_sublist {as bs : List Elem} (h : as.Sublist bs) : (shownAll spec as).Sublist (shownAll spec bs) := by
  induction h with
  | slnil => exact List.Sublist.refl _
  | cons x _ ih => rw [shownAll_cons]; exact ih.trans (List.sublist_append_right _ _)
  | cons_cons x _ ih => rw [shownAll_cons, shownAll_cons]; exact (List.Sublist.refl _).append ih

theorem shown_token {k : Kind} {t : Text} (h : k ≠ .tokenWord) : shown spec (.token k t) = [] := by rw [shown, if_neg h]

/-- The words are among those of the children. -/
theorem shown_le (k : Kind) (cs : List Elem) : (shown spec (.node k cs)).Sublist (shownAll spec cs) := by
  rw [shown]
  split
  · exact List.nil_sublist _
  · rw [parts_eq]; exact shownAll_sublist List.filter_sublist

theorem shownAll_nil {cs : List Elem} (h : ∀ c ∈ cs, shown spec c = []) : shownAll spec cs = [] := by
  rw [shownAll, List.flatMap_eq_nil_iff]; exact h

/-- Elements without words do not matter. -/
theorem shownAll_filter {cs : List Elem} (p : Elem → Bool) (h : ∀ c ∈ cs, p c = false → shown spec c = []) : shownAll spec (cs.filter p) = shownAll spec cs := by
  induction cs with
  | nil => rfl
  | cons c cs ih =>
    have ih := ih fun d hd => h d (List.mem_cons_of_mem _ hd)
    rw [List.filter_cons, shownAll_cons, ← ih]
    cases hp : p c with
    | true => simp [shownAll]
    | false => rw [h c List.mem_cons_self hp]; simp

mutual
theorem shown_text : ∀ e : Elem, (shown spec e).Sublist e.text
  | .token k t => by
    simp only [Elem.text, Elem.leaves, shown]
    split
    · simpa [spokenWord] using List.filter_sublist
    · exact List.nil_sublist _
  | .node k cs => by
    refine (shown_le k cs).trans ?_
    have := shown_texts cs
    simpa only [Elem.text, Elem.leaves] using this
theorem shown_texts : ∀ cs : List Elem, (shownAll spec cs).Sublist ((Elem.leaves.go cs).map Prod.snd).flatten
  | [] => by simp [shownAll]
  | c :: cs => by
    have h1 := shown_text c
    have h2 := shown_texts cs
    rw [shownAll_cons]
    simp only [Elem.leaves.go, List.map_append, List.flatten_append]
    exact List.Sublist.append (by simpa only [Elem.text] using h1) h2
end

theorem shownAll_text (cs : List Elem) : (shownAll spec cs).Sublist (cs.flatMap Elem.text) := by
  induction cs with
  | nil => exact List.Sublist.refl _
  | cons c cs ih => rw [shownAll_cons, List.flatMap_cons]; exact (shown_text c).append ih

/-! ### Templates -/

/-- What a piece is known to write. -/
def says (spec : CommandSpec) : Piece → Text
  | .text t => t
  | .part _ c => shown spec c
  | _ => []

def said (spec : CommandSpec) (ps : List Piece) : Text := ps.flatMap (says spec)

theorem said_append (ps qs : List Piece) : said spec (ps ++ qs) = said spec ps ++ said spec qs := List.flatMap_append ..

theorem said_each (x : Place) (cs : List Elem) : said spec (each x cs) = shownAll spec cs := by
  unfold said each shownAll
  rw [List.flatMap_map]
  rfl

theorem said_comma (k : Kind) (x : Place) (cs : List Elem) : (shownAll spec cs).Sublist (said spec (commaList k x cs)) := by
  induction cs with
  | nil => exact List.Sublist.refl _
  | cons c cs ih =>
    cases cs with
    | nil => simp [commaList, said, says, shownAll]
    | cons d cs =>
      rw [commaList, shownAll_cons]
      have : said spec (.part x c :: ((if c.kind = k then [.text t!","] else []) ++ commaList k x (d :: cs))) =
          shown spec c ++ (said spec (if c.kind = k then [.text t!","] else []) ++ said spec (commaList k x (d :: cs))) := by
        rw [← said_append]; rfl
      rw [this]
      exact (List.Sublist.refl _).append (ih.trans (List.sublist_append_right _ _))

/-- A template keeps the words of its element. -/
def Keeps (spec : CommandSpec) (w : Text) (ps : List Piece) : Prop := w.Sublist (said spec ps)

theorem Keeps.nil {ps : List Piece} : Keeps spec [] ps := List.nil_sublist _

theorem Keeps.append {a b : Text} {ps qs : List Piece} (h : Keeps spec a ps) (k : Keeps spec b qs) : Keeps spec (a ++ b) (ps ++ qs) := by
  unfold Keeps; rw [said_append]; exact List.Sublist.append h k

theorem Keeps.left {a : Text} {ps : List Piece} (qs : List Piece) (h : Keeps spec a ps) : Keeps spec a (qs ++ ps) := by
  unfold Keeps; rw [said_append]; exact h.trans (List.sublist_append_right _ _)

theorem Keeps.right {a : Text} {ps : List Piece} (qs : List Piece) (h : Keeps spec a ps) : Keeps spec a (ps ++ qs) := by
  unfold Keeps; rw [said_append]; exact h.trans (List.sublist_append_left _ _)

theorem Keeps.cons {a : Text} {ps : List Piece} (p : Piece) (h : Keeps spec a ps) : Keeps spec a (p :: ps) := h.left [p]

theorem Keeps.each (x : Place) (cs : List Elem) : Keeps spec (shownAll spec cs) (each x cs) := by
  unfold Keeps; rw [said_each]; exact List.Sublist.refl _

theorem Keeps.part (x : Place) (c : Elem) : Keeps spec (shown spec c) [.part x c] := by
  unfold Keeps said; simp [says]

theorem Keeps.comma (k : Kind) (x : Place) (cs : List Elem) : Keeps spec (shownAll spec cs) (commaList k x cs) := said_comma k x cs

theorem Keeps.text {a t : Text} (h : a.Sublist t) : Keeps spec a [.text t] := by
  unfold Keeps said; simpa [says] using h

theorem Keeps.le {a b : Text} {ps : List Piece} (h : Keeps spec b ps) (k : a.Sublist b) : Keeps spec a ps := List.Sublist.trans k h

theorem Keeps.flatMap {cs : List Elem} (f : Elem → List Piece) (h : ∀ c ∈ cs, Keeps spec (shown spec c) (f c)) : Keeps spec (shownAll spec cs) (cs.flatMap f) := by
  induction cs with
  | nil => exact Keeps.nil
  | cons c cs ih =>
    rw [shownAll_cons, List.flatMap_cons]
    exact (h c List.mem_cons_self).append (ih fun d hd => h d (List.mem_cons_of_mem _ hd))

theorem Keeps.zip {cs : List Elem} {n : Nat} (f : Elem × Nat → List Piece) (h : ∀ c ∈ cs, ∀ i, Keeps spec (shown spec c) (f (c, i))) :
    Keeps spec (shownAll spec cs) ((cs.zipIdx n).flatMap f) := by
  induction cs generalizing n with
  | nil => exact Keeps.nil
  | cons c cs ih =>
    rw [shownAll_cons, List.zipIdx_cons, List.flatMap_cons]
    exact (h c List.mem_cons_self n).append (ih fun d hd => h d (List.mem_cons_of_mem _ hd))

/-- What is known of the elements of a parsed tree. -/
def Known (spec : CommandSpec) (g : GlobFn) (e : Elem) : Prop := (e.kind = .scopeRoot ∨ Shape ⟨spec, g⟩ e) ∧ Ast.Good e ∧ PartsOf e

end
end Shown
end Mitex
