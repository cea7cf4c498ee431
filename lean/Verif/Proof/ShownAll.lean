/-
The words of a document are shown in their order (C83): all templates.
-/
import Verif.Proof.Shown
import Verif.Proof.WordsAll
import Verif.Proof.TemplateParts

namespace Mitex
namespace Shown

section
variable {spec : CommandSpec} {g : GlobFn}

/-- All that is needed of an element. -/
def Fine (spec : CommandSpec) (g : GlobFn) (e : Elem) : Prop := e.Forall (Known spec g)

theorem Fine.self {e : Elem} (h : Fine spec g e) : Known spec g e := Forall_self h

theorem Fine.child {e c : Elem} (h : Fine spec g e) (hc : c ∈ e.children) : Fine spec g c := by
  cases e with
  | token k t => cases hc
  | node k cs => exact ((Forall_node _ _ _).1 h).2 c hc

/-- Kinds of leaves: nodes are of other kinds. -/
theorem Fine.leaf {e : Elem} (h : Fine spec g e) (hk : e.kind ∈ leafKinds.erase .tokenError) : ∃ t, e = .token e.kind t := by
  cases e with
  | token k t => exact ⟨t, rfl⟩
  | node k cs =>
    have hk : k ∈ leafKinds.erase .tokenError := hk
    rcases h.self.1 with h1 | h1
    · have h1 : k = .scopeRoot := h1
      subst h1
      exact absurd hk (by decide)
    · revert hk h1
      cases k <;> first | (intro hk; exact absurd hk (by decide)) | (intro _ h1; exact h1.elim)

/-- Leaves but words have no words. -/
theorem Fine.silent {e : Elem} (h : Fine spec g e) (hk : e.kind ∈ leafKinds.erase .tokenError) (hw : e.kind ≠ .tokenWord) : shown spec e = [] := by
  obtain ⟨t, he⟩ := h.leaf hk
  rw [he]
  exact shown_token hw

theorem Fine.blank {e : Elem} (h : Fine spec g e) (hk : blankKind e.kind = true) : shown spec e = [] := by
  have hk := of_decide_eq_true hk
  simp only [List.mem_cons, List.not_mem_nil, or_false] at hk
  refine h.silent ?_ ?_ <;> (rcases hk with hk | hk | hk | hk <;> rw [hk] <;> decide)

theorem shownAll_dropWhile {cs : List Elem} (p : Elem → Bool) (h : ∀ c ∈ cs, p c = true → shown spec c = []) :
    shownAll spec (cs.dropWhile p) = shownAll spec cs := by
  induction cs with
  | nil => rfl
  | cons c cs ih =>
    rw [List.dropWhile_cons]
    split
    · rename_i hp
      rw [ih fun d hd => h d (List.mem_cons_of_mem _ hd), shownAll_cons, h c List.mem_cons_self hp, List.nil_append]
    · rfl

/-! ### Characters of words -/

theorem shown_bracket {e : Elem} : Fine spec g e → ∀ c ∈ shown spec e, c ∉ '\\' :: marks := by
  induction e using Elem.ind with
  | ht k t =>
    intro h c hc
    rw [shown] at hc
    split at hc
    · rename_i hk
      exact h.self.2.2.1 (by rw [hk]; decide) c (List.mem_filter.1 hc).1
    · cases hc
  | hn k cs ih =>
    intro h c hc
    obtain ⟨d, hd, hc⟩ := List.mem_flatMap.1 ((shown_le k cs).subset hc)
    exact ih d hd (h.child hd) c hc

theorem sublist_tail {c : Char} {w t : Text} (h : w.Sublist (c :: t)) (hc : c ∉ w) : w.Sublist t := by
  cases h with
  | cons _ h => exact h
  | cons_cons _ h => exact absurd List.mem_cons_self hc

theorem sublist_inner {w t : Text} (h : w.Sublist t) (h1 : t.head? = some '[') (h2 : t.getLast? = some ']') (hw : '[' ∉ w ∧ ']' ∉ w) :
    w.Sublist t.tail.dropLast := by
  cases t with
  | nil => cases h1
  | cons c t =>
    cases h1
    have h := sublist_tail h hw.1
    rcases List.eq_nil_or_concat t with rfl | ⟨u, d, rfl⟩
    · exact h
    · rw [List.concat_eq_append] at h h2 ⊢
      have hd : d = ']' := by
        rw [← List.cons_append, List.getLast?_append] at h2
        simpa using h2
      subst hd
      rw [List.tail_cons, List.dropLast_concat]
      have hr := List.reverse_sublist.2 h
      rw [List.reverse_append] at hr
      exact List.reverse_sublist.1 (sublist_tail hr (by simpa using hw.2))

/-! ### Commands -/

/-- The children of a command. -/
theorem Fine.command {cs : List Elem} (h : Fine spec g (.node .itemCmd cs)) : CmdChildren ⟨spec, g⟩ cs := by
  rcases h.self.1 with h1 | h1
  · cases h1
  · exact h1

theorem isArg_kind {a : Elem} (h : IsArg a) : a.isNode = true ∧ a.kind = .clauseArgument := by obtain ⟨cs, rfl⟩ := h; exact ⟨rfl, rfl⟩

/-- The children are the name and arguments. -/
structure Args (spec : CommandSpec) (cs : List Elem) (name : Text) (args : List Elem) : Prop where
  full : (Elem.node .itemCmd cs).cmdName = some ('\\' :: name)
  bare : bareName (.node .itemCmd cs) = some name
  filter : cs.filter (fun c => decide (c.kind ≠ .clauseCommandName)) = args
  arguments : (Elem.node .itemCmd cs).arguments = args
  isArg : ∀ a ∈ args, IsArg a
  shown : shownAll spec cs = shownAll spec args
  none : ∀ sh, spec name = some (.cmd sh) → sh.args = .right .none → args = []
  greedy : ∀ sh, spec name = some (.cmd sh) → sh.args = .right .greedy → args.length = 1
  takes : takesArgs spec name = false → args = []

theorem Fine.args {cs : List Elem} (h : Fine spec g (.node .itemCmd cs)) : ∃ name args, Args spec cs name args ∧ ∀ a ∈ args, a ∈ cs := by
  obtain ⟨pre, name, post, rfl, hm⟩ := h.command
  have hall : (∀ a ∈ pre, IsArg a) ∧ (∀ a ∈ post, IsArg a) := by
    split at hm
    · obtain ⟨rfl, rfl⟩ := hm; exact ⟨fun _ h => (by cases h), fun _ h => (by cases h)⟩
    · rename_i p hp
      obtain ⟨rfl, hf⟩ := hm
      refine ⟨fun _ h => (by cases h), ?_⟩
      unfold ArgsFit at hf
      split at hf
      · subst hf; exact fun _ h => (by cases h)
      · exact hf.2
      · exact hf.2
      · exact hf.2
      · obtain ⟨kinds, hk, -⟩ := hf
        clear hp h
        induction hk with
        | nil => exact fun _ h => (by cases h)
        | cons ha _ ih =>
          intro a hm
          rcases List.mem_cons.1 hm with rfl | hm
          · revert ha
            unfold ArgOfKind
            split
            · exact id
            · rintro ⟨cs, rfl⟩; exact ⟨_, rfl⟩
            · rintro ⟨cs, rfl⟩; exact ⟨_, rfl⟩
          · exact ih a hm
    · exact ⟨hm.2.1, by rw [hm.2.2]; exact fun _ h => (by cases h)⟩
    · exact ⟨hm.2.1, hm.2.2.2⟩
  have hpre : pre.find? (fun c => !c.isNode && decide (c.kind = .clauseCommandName)) = none :=
    List.find?_eq_none.2 fun a ha => by obtain ⟨ds, rfl⟩ := hall.1 a ha; simp [Elem.isNode]
  have hfull : (Elem.node .itemCmd (pre ++ .token .clauseCommandName ('\\' :: name) :: post)).cmdName = some ('\\' :: name) := by
    unfold Elem.cmdName Elem.children
    dsimp only
    rw [List.find?_append, hpre]
    rfl
  have hself : ∀ as : List Elem, (∀ a ∈ as, IsArg a) → as.filter (fun c => decide (c.kind ≠ .clauseCommandName)) = as := fun as h =>
    List.filter_eq_self.2 fun a ha => by obtain ⟨ds, rfl⟩ := h a ha; rfl
  have hargs : ∀ as : List Elem, (∀ a ∈ as, IsArg a) → (as.filter Elem.isNode).filter (fun c => decide (c.kind = .clauseArgument)) = as := fun as h => by
    rw [List.filter_filter]
    exact List.filter_eq_self.2 fun a ha => by obtain ⟨ds, rfl⟩ := h a ha; rfl
  refine ⟨name, pre ++ post, ⟨hfull, ?_, ?_, ?_, ?_, ?_, ?_, ?_, ?_⟩, ?_⟩
  · unfold bareName
    rw [hfull]
    rfl
  · rw [List.filter_append, List.filter_cons_of_neg (by simp [Elem.kind]), hself _ hall.1, hself _ hall.2]
  · unfold Elem.arguments Elem.childNodes Elem.children
    dsimp only
    rw [List.filter_append, List.filter_append, List.filter_cons_of_neg (by simp [Elem.isNode]), hargs _ hall.1, hargs _ hall.2]
  · intro a ha
    rcases List.mem_append.1 ha with ha | ha
    · exact hall.1 a ha
    · exact hall.2 a ha
  · rw [shownAll_append, shownAll_cons, shownAll_append, shown_token (by decide), List.nil_append]
  · intro sh hs ha
    have hg : (getCmd spec name).map CmdShape.args = some (.right .none) := by unfold getCmd; rw [hs, ← ha]; rfl
    dsimp only at hm
    rw [hg] at hm
    obtain ⟨rfl, hf⟩ := hm
    have hf : post = [] := hf
    rw [hf]; rfl
  · intro sh hs ha
    have hg : (getCmd spec name).map CmdShape.args = some (.right .greedy) := by unfold getCmd; rw [hs, ← ha]; rfl
    dsimp only at hm
    rw [hg] at hm
    obtain ⟨rfl, hf⟩ := hm
    exact hf.1
  · intro ht
    dsimp only at hm
    unfold takesArgs at ht
    split at ht
    · rename_i sh hs
      have ha : sh.args = .right .none := by simpa using ht
      have hg : (getCmd spec name).map CmdShape.args = some (.right .none) := by unfold getCmd; rw [hs, ← ha]; rfl
      rw [hg] at hm
      obtain ⟨rfl, hf⟩ := hm
      have hf : post = [] := hf
      rw [hf]; rfl
    · rename_i hs
      have hg : (getCmd spec name).map CmdShape.args = none := by
        unfold getCmd
        split
        · rename_i sh he; exact absurd he (hs sh)
        · rfl
      rw [hg] at hm
      obtain ⟨rfl, rfl⟩ := hm
      rfl
  · intro a ha
    rcases List.mem_append.1 ha with ha | ha
    · exact List.mem_append_left _ ha
    · exact List.mem_append_right _ (List.mem_cons_of_mem _ ha)

theorem Keeps.around (x : Place) (c : Elem) (a b : Text) : Keeps spec (shown spec c) [.text a, .part x c, .text b] :=
  ((Keeps.part x c).right [.text b]).cons (.text a)

theorem normal_keeps {x : Place} {name : Text} {cs args : List Elem} {ps : List Piece}
    (h : normalTemplate spec x name (.node .itemCmd cs) = .ok ps) (ha : Args spec cs name args) : Keeps spec (shownAll spec args) ps := by
  unfold normalTemplate at h
  split at h
  · rename_i sh hs
    dsimp only [Elem.children] at h
    rw [ha.filter] at h
    generalize Place.mk x.mode (if writtenName x.mode name sh = t!"substack" then LEnv.subStack else x.env) x.lists = y at h
    unfold argumentsTemplate at h
    split at h
    · rename_i hn
      rw [ha.none sh hs hn]
      exact Keeps.nil
    · rename_i hg
      have hl := ha.greedy sh hs hg
      split at h
      · rename_i k ds as
        cases h
        have : as = [] := by simpa using hl
        subst this
        refine Keeps.cons _ (Keeps.right _ (Keeps.cons _ ((Keeps.comma _ _ _).le ?_)))
        rw [shownAll_cons]
        simpa [shownAll] using shown_le k ds
      · cases h
    · split at h
      · cases h
        exact Keeps.cons _ (Keeps.right _ (Keeps.cons _ (Keeps.comma _ _ _)))
      · cases h
        refine Keeps.cons _ (Keeps.right _ ?_)
        rw [List.filter_eq_self.2 fun a hm => decide_eq_true (isArg_kind (ha.isArg a hm)).2]
        exact Keeps.flatMap _ fun c _ => Keeps.around _ c _ _
  · cases h

/-- The color and what is colored. -/
theorem colored_keeps (x : Place) (cp : List Elem) :
    Keeps spec (shownAll spec cp) ([colorPiece x cp, .text t!"])["] ++
      cp.tail.flatMap (fun b => inMode .math x [.text t!"$"] ++ [.part x b] ++ inMode .math x [.text t!"$"])) := by
  cases cp with
  | nil => exact Keeps.nil
  | cons c cs =>
    rw [shownAll_cons]
    exact Keeps.append (((Keeps.part _ c)).right _) (Keeps.flatMap _ fun b _ => Keeps.right _ (Keeps.left _ (Keeps.part _ b)))

/-- The text of the model and the colored parts have all words. -/
theorem color_words {full : Text} {cs args : List Elem} {name : Text} (hp : Fine spec g (.node .itemCmd cs)) (ha : Args spec cs name args)
    (hm : ∀ a ∈ args, a ∈ cs) (hf : full = '\\' :: name) (hone : name = t!"color" → args.length = 1) :
    (shownAll spec args).Sublist ((colorModel full (.node .itemCmd cs)).getD [] ++ shownAll spec (coloredParts full (.node .itemCmd cs))) := by
  by_cases hc : full = t!"\\color"
  · have hname : name = t!"color" := by rw [hf] at hc; exact (List.cons.inj hc).2
    unfold colorModel coloredParts
    rw [if_pos hc, if_pos hc, ha.arguments]
    obtain ⟨a, rfl⟩ := List.length_eq_one_iff.1 (hone hname)
    have hfa : Fine spec g a := hp.child (hm a List.mem_cons_self)
    dsimp only
    have h1 : (shownAll spec [a]).Sublist (shownAll spec a.children) := by
      obtain ⟨ds, rfl⟩ := ha.isArg a List.mem_cons_self
      rw [shownAll_cons]
      simpa [shownAll, Elem.children] using shown_le (spec := spec) .clauseArgument ds
    refine h1.trans ?_
    rw [← shownAll_dropWhile (fun c => blankKind c.kind) fun c hcm hb => (hfa.child hcm).blank hb]
    have hsub : ∀ c ∈ a.children.dropWhile (fun c => blankKind c.kind), Fine spec g c := fun c h => hfa.child ((List.dropWhile_suffix _).mem h)
    revert hsub
    generalize a.children.dropWhile (fun c => blankKind c.kind) = l
    intro hsub
    cases l with
    | nil => exact List.nil_sublist _
    | cons b cs' =>
      dsimp only
      by_cases hb : b.kind = .tokenLBracket
      · rw [if_pos hb, if_pos hb]
        rw [shownAll_cons, (hsub b List.mem_cons_self).silent (by rw [hb]; decide) (by rw [hb]; decide), List.nil_append]
        have hcs : ∀ c ∈ cs', Fine spec g c := fun c h => hsub c (List.mem_cons_of_mem _ h)
        have hs2 : ∀ c ∈ afterBracket cs', Fine spec g c := fun c h => hcs c ((List.dropWhile_suffix _).mem (List.mem_of_mem_tail h))
        rw [shownAll_dropWhile (fun c => blankKind c.kind) fun c hcm hbk => (hs2 c hcm).blank hbk]
        conv => lhs; rw [← List.takeWhile_append_dropWhile (p := fun c => decide (c.kind ≠ .tokenRBracket)) (l := cs'), shownAll_append]
        refine List.Sublist.append (shownAll_text _) ?_
        unfold afterBracket
        cases hd : cs'.dropWhile fun c => decide (c.kind ≠ .tokenRBracket) with
        | nil => exact List.Sublist.refl _
        | cons r rs =>
          have hr : r.kind = .tokenRBracket := by
            have := List.head?_dropWhile_not (fun c => decide (c.kind ≠ Kind.tokenRBracket)) cs'
            rw [hd] at this
            simpa using this
          have hrm : r ∈ cs' := (List.dropWhile_suffix _).mem (hd ▸ List.mem_cons_self)
          rw [shownAll_cons, (hcs r hrm).silent (by rw [hr]; decide) (by rw [hr]; decide)]
          exact List.Sublist.refl _
      · rw [if_neg hb, if_neg hb]
        rw [shownAll_dropWhile (fun c => blankKind c.kind) fun c hcm hbk => (hsub c hcm).blank hbk]
        exact List.Sublist.refl _
  · unfold colorModel coloredParts
    rw [if_neg hc, if_neg hc, ha.arguments]
    cases args with
    | nil => exact List.Sublist.refl _
    | cons a as =>
      dsimp only
      have hfa : Fine spec g a := hp.child (hm a List.mem_cons_self)
      split
      · rename_i hb
        rw [shownAll_cons]
        refine List.Sublist.append ?_ (List.Sublist.refl _)
        refine sublist_inner (shown_text a) hb.1 hb.2.1 ⟨fun h => shown_bracket hfa _ h (by decide), fun h => shown_bracket hfa _ h (by decide)⟩
      · exact List.sublist_append_right _ _

theorem color_keeps {x : Place} {full : Text} {cs args : List Elem} {name : Text} {ps : List Piece}
    (h : colorTemplate spec x full (.node .itemCmd cs) = .ok ps) (hp : Fine spec g (.node .itemCmd cs)) (ha : Args spec cs name args)
    (hm : ∀ a ∈ args, a ∈ cs) (hf : full = '\\' :: name) (hone : name = t!"color" → args.length = 1) :
    Keeps spec (shownAll spec args) ps := by
  unfold colorTemplate at h
  split at h
  · cases h
  · cases h
    refine Keeps.right _ (Keeps.right _ ?_)
    rw [List.append_assoc]
    refine Keeps.le (Keeps.append (a := (colorModel full (.node .itemCmd cs)).getD []) (Keeps.text ?_) (colored_keeps x _)) (color_words hp ha hm hf hone)
    refine List.Sublist.trans ?_ (List.sublist_append_left _ _)
    refine List.Sublist.trans ?_ (List.sublist_append_right _ _)
    cases colorModel full (.node .itemCmd cs) with
    | none => exact List.nil_sublist _
    | some m => exact (List.sublist_append_right _ _).trans (List.sublist_append_left _ _)

theorem command_keeps {x : Place} {cs : List Elem} {ps : List Piece}
    (h : commandTemplate spec x (.node .itemCmd cs) = .ok ps) (hp : Fine spec g (.node .itemCmd cs)) :
    Keeps spec (shown spec (.node .itemCmd cs)) ps := by
  obtain ⟨name, args, ha, hm⟩ := hp.args
  by_cases hid : isHidden spec (.node .itemCmd cs) = true
  · rw [shown, if_pos hid]; exact Keeps.nil
  · have hun : unspoken spec name = false := by
      unfold isHidden at hid
      rw [ha.bare] at hid
      simpa [Elem.kind] using hid
    have hle : (shown spec (.node .itemCmd cs)).Sublist (shownAll spec args) := by
      rw [← ha.shown]; exact shown_le _ _
    refine Keeps.le ?_ hle
    by_cases hin : name ∈ unspokenCommands
    · have ht : takesArgs spec name = false := by
        unfold unspoken at hun
        rw [Bool.or_eq_false_iff, decide_eq_true hin, Bool.true_and] at hun
        exact hun.1
      rw [ha.takes ht]
      exact Keeps.nil
    have hnot : name ∉ unspokenCommands := hin
    unfold commandTemplate at h
    rw [ha.full, ha.bare] at h
    dsimp only at h
    rw [if_neg (fun h0 => hnot (by rw [h0]; decide)), if_neg (fun h0 => hnot (by rw [h0]; decide)),
      if_neg (fun h0 => hnot (by rw [h0]; decide))] at h
    split at h
    · refine color_keeps h hp ha hm rfl fun hn => ?_
      unfold unspoken at hun
      rw [Bool.or_eq_false_iff, decide_eq_true hn, Bool.true_and] at hun
      obtain ⟨_, hun⟩ := hun
      split at hun
      · rename_i sh hs
        exact ha.greedy sh hs (by simpa using hun)
      · cases hun
    · exact normal_keeps h ha

/-! ### Environments -/

/-- The parts of an environment. -/
structure Env (spec : CommandSpec) (cs : List Elem) (name : Text) (args mid : List Elem) : Prop where
  name : (Elem.node .itemEnv cs).envName = some name
  arguments : (Elem.node .itemEnv cs).envArguments = args
  between : between (.node .itemEnv cs) = mid
  all : shownAll spec cs = shownAll spec args ++ shownAll spec mid
  mem : ∀ c ∈ mid, c ∈ cs
  /-- Without the opening clause and what else is left out. -/
  rest : ∀ p : Elem → Bool, (∀ c, c.kind = .itemBegin → p c = false) →
    shownAll spec (cs.filter p) = shownAll spec (mid.filter p)

theorem Fine.env {cs : List Elem} (h : Fine spec g (.node .itemEnv cs)) : ∃ name args mid, Env spec cs name args mid := by
  obtain ⟨name, args, mid, closing, hd⟩ := h.self.2.1
  have hp := hd.parts
  cases hp
  have ha : (Elem.node .itemBegin (.token .tokenCommandSym name :: args)).arguments = args := by
    unfold Elem.arguments Elem.childNodes Elem.children
    rw [List.filter_cons_of_neg (by simp [Elem.isNode]), List.filter_filter]
    refine List.filter_eq_self.2 fun a h => ?_
    obtain ⟨cs, rfl⟩ := hd.args a h
    rfl
  have hb : ∀ tl : List Elem, (Elem.node .itemEnv (.node .itemBegin (.token .tokenCommandSym name :: args) :: tl)).envBegin =
      some (.node .itemBegin (.token .tokenCommandSym name :: args)) := by
    intro tl
    simp [Elem.envBegin, Elem.childNodes, Elem.children, Elem.isNode, Elem.kind]
  have hend : ∀ p : Elem → Bool, shownAll spec (((closing.map fun n => Elem.node .itemEnd [.token .tokenCommandSym n]).toList).filter p) = [] := by
    intro p
    refine shownAll_nil fun c hc => ?_
    have hc := (List.mem_filter.1 hc).1
    cases closing with
    | none => cases hc
    | some n =>
      have hc : c = _ := List.mem_singleton.1 hc
      subst hc
      have := shown_le (spec := spec) .itemEnd [.token .tokenCommandSym n]
      rw [shownAll_cons, shown_token (by decide)] at this
      exact List.sublist_nil.1 this
  have hbegin : shown spec (.node .itemBegin (.token .tokenCommandSym name :: args)) = shownAll spec args := by
    have h1 : isHidden spec (.node .itemBegin (.token .tokenCommandSym name :: args)) = false := rfl
    have h2 : leftOut spec (.node .itemBegin (.token .tokenCommandSym name :: args)) = fun _ => false := rfl
    rw [shown, h1, if_neg (by simp), h2, parts_eq]
    have h3 : (Elem.token Kind.tokenCommandSym name :: args).filter (fun _ => !false) = .token .tokenCommandSym name :: args :=
      List.filter_eq_self.2 fun _ _ => rfl
    rw [h3, shownAll_cons, shown_token (by decide), List.nil_append]
  refine ⟨name, args, mid, ?_, ?_, ?_, ?_, ?_, ?_⟩
  · unfold Elem.envName
    rw [List.cons_append, hb]
    rfl
  · unfold Elem.envArguments
    rw [List.cons_append, hb]
    exact ha
  · unfold Mitex.between Elem.children
    dsimp only
    rw [List.cons_append, List.filter_cons_of_neg (by simp [Elem.kind]), List.filter_append, List.filter_eq_self.2 fun c hc => decide_eq_true (hd.inner c hc)]
    cases closing with
    | none => exact List.append_nil _
    | some n => exact List.append_nil _
  · have he := hend fun _ => true
    rw [List.filter_eq_self.2 fun _ _ => rfl] at he
    rw [List.cons_append, shownAll_cons, hbegin, shownAll_append, he, List.append_nil]
  · exact fun c hc => List.mem_cons_of_mem _ (List.mem_append_left _ hc)
  · intro p hp
    rw [List.cons_append, List.filter_cons_of_neg (by rw [hp _ rfl]; simp), List.filter_append, shownAll_append, hend p, List.append_nil]

/-- The words of an environment are among those of its arguments and contents. -/
theorem Env.le {cs args mid : List Elem} {name : Text} (he : Env spec cs name args mid) :
    (shown spec (.node .itemEnv cs)).Sublist (shownAll spec args ++ shownAll spec mid) := by
  rw [← he.all]; exact shown_le _ _

theorem Env.eq {cs args mid : List Elem} {name : Text} (he : Env spec cs name args mid) :
    shown spec (.node .itemEnv cs) = shownAll spec (cs.filter fun c => !leftOut spec (.node .itemEnv cs) c) := by
  have h1 : isHidden spec (.node .itemEnv cs) = false := rfl
  rw [shown, h1, if_neg (by simp), parts_eq]

/-- The arguments are not claimed for other environments than formulas. -/
theorem Env.inner {cs args mid : List Elem} {name : Text} (he : Env spec cs name args mid) (hm : isMathEnv spec name = false) :
    (shown spec (.node .itemEnv cs)).Sublist (shownAll spec mid) := by
  rw [he.eq, he.rest]
  · exact shownAll_sublist List.filter_sublist
  · intro c hc
    unfold leftOut
    rw [he.name]
    have h0 : (Elem.node Kind.itemEnv cs).kind = .itemEnv := rfl
    rw [h0]
    simp [hc, hm]

theorem mathEnv_keeps {x : Place} {env : LEnv} {tn : Text} {cs args mid : List Elem} {name : Text} (he : Env spec cs name args mid) :
    Keeps spec (shown spec (.node .itemEnv cs)) (mathEnvTemplate x env tn (.node .itemEnv cs)) := by
  unfold mathEnvTemplate
  dsimp only
  rw [he.arguments, he.between]
  refine Keeps.right _ (Keeps.right _ ?_)
  refine Keeps.le (Keeps.append (Keeps.left _ ?_) (Keeps.each _ _)) he.le
  exact Keeps.zip _ fun c _ i => Keeps.around _ c _ _

theorem figure_keeps {x : Place} {tn : Text} {cs args mid : List Elem} {name : Text} {ps : List Piece} (h : figureTemplate x tn (.node .itemEnv cs) = .ok ps)
    (he : Env spec cs name args mid) (hf : isFigureEnv spec name = true) (hm : isMathEnv spec name = false) :
    Keeps spec (shown spec (.node .itemEnv cs)) ps := by
  unfold figureTemplate at h
  dsimp only at h
  split at h
  · cases h
    refine Keeps.right _ (Keeps.left _ ?_)
    rw [he.between]
    have hlo : ∀ c, leftOut spec (.node .itemEnv cs) c = (decide (c.kind = .itemBegin) || (isCommand t!"\\caption" c || isCommand t!"\\centering" c)) := by
      intro c
      unfold leftOut
      rw [he.name]
      simp [Elem.kind, hf, hm]
    rw [he.eq, he.rest _ fun c hc => by rw [hlo, hc]; rfl]
    refine Keeps.le (Keeps.each _ _) (shownAll_sublist ?_)
    have : (mid.filter fun c => !leftOut spec (.node .itemEnv cs) c) =
        ((mid.filter fun c => !isCommand t!"\\caption" c && !isCommand t!"\\centering" c).filter fun c => !leftOut spec (.node .itemEnv cs) c) := by
      rw [List.filter_filter]
      refine List.filter_congr fun c _ => ?_
      rw [hlo]
      cases decide (c.kind = .itemBegin) <;> cases isCommand t!"\\caption" c <;> cases isCommand t!"\\centering" c <;> rfl
    rw [this]
    exact List.filter_sublist
  · cases h

/-- The words of the cells are those of the body. -/
theorem cells_words (es : List Elem) (h : ∀ c ∈ es, isSeparator c = true → shown spec c = []) :
    shownAll spec es = (cellsOf es).1.flatMap (fun c => shownAll spec c.1) ++ shownAll spec (cellsOf es).2 := by
  induction es with
  | nil => rfl
  | cons e es ih =>
    have ih := ih fun c hc => h c (List.mem_cons_of_mem _ hc)
    rw [shownAll_cons, ih]
    conv => rhs; unfold cellsOf
    split
    · rename_i hs
      rw [h e List.mem_cons_self hs, List.flatMap_cons]
      rfl
    · split
      · rename_i hn
        rw [hn]
        exact (shownAll_cons e _).symm
      · rename_i c sep cells hc
        rw [hc, List.flatMap_cons, List.flatMap_cons]
        dsimp only
        rw [shownAll_cons, List.append_assoc, List.append_assoc, List.append_assoc]

theorem Fine.lead {e : Elem} (h : Fine spec g e) (hl : isLead e = true) : shown spec e = [] := by
  unfold isLead at hl
  rw [Bool.or_eq_true] at hl
  rcases hl with hl | hl
  · unfold isRule at hl
    rw [Bool.and_eq_true] at hl
    obtain ⟨h1, h2⟩ := hl
    have h1 := of_decide_eq_true h1
    cases e with
    | token k t =>
      have : k = .itemCmd := h1
      subst this
      exact shown_token (by decide)
    | node k cs =>
      have : k = .itemCmd := h1
      subst this
      obtain ⟨name, args, ha, _⟩ := h.args
      rw [ha.full] at h2
      dsimp only at h2
      have h2 := (of_decide_eq_true h2).2
      have hin : name ∈ unspokenCommands := by
        simp only [List.mem_cons, List.not_mem_nil, or_false] at h2
        rcases h2 with rfl | rfl | rfl | rfl <;> decide
      cases ht : takesArgs spec name with
      | false =>
        have hle := shown_le (spec := spec) .itemCmd cs
        rw [ha.shown, ha.takes ht] at hle
        exact List.eq_nil_of_sublist_nil hle
      | true =>
      have hun : unspoken spec name = true := by
        unfold unspoken
        rw [decide_eq_true hin, ht]
        rfl
      rw [shown, if_pos]
      unfold isHidden
      rw [ha.bare]
      simp [Elem.kind, hun]
  · refine h.blank ?_
    rcases of_decide_eq_true hl with hl | hl <;> rw [hl] <;> decide

theorem cells_keeps {y : Place} {es : List Elem} (h : ∀ c ∈ es, Fine spec g c) : Keeps spec (shownAll spec es) (cellsTemplate y es) := by
  rw [cells_words es]
  · unfold cellsTemplate
    have hcell : ∀ cell : List Elem, (∀ c ∈ cell, Fine spec g c) → shownAll spec cell = shownAll spec (cellContent cell) := fun cell hc =>
      (shownAll_dropWhile isLead fun c hm hl => (hc c hm).lead hl).symm
    refine Keeps.append (Keeps.right _ ?_) ?_
    · have hin : ∀ cell ∈ (cellsOf es).1, ∀ c ∈ cell.1, Fine spec g c := fun cell hm c hc => h c (cellsOf_mem cell hm hc)
      revert hin
      generalize (cellsOf es).1 = cells
      intro hin
      induction cells with
      | nil => exact Keeps.nil
      | cons c cells ih =>
        rw [List.flatMap_cons, List.flatMap_cons]
        refine Keeps.append (Keeps.right _ (Keeps.left _ ?_)) (ih fun d hd => hin d (List.mem_cons_of_mem _ hd))
        rw [hcell c.1 (hin c List.mem_cons_self)]
        exact Keeps.each _ _
    · rw [hcell _ fun c hc => h c (cellsRest_mem hc)]
      split
      · rename_i hn
        rw [List.isEmpty_iff.1 hn]
        exact Keeps.nil
      · exact Keeps.cons _ (Keeps.each _ _)
  · intro c hc hs
    refine (h c hc).silent ?_ ?_ <;> (rcases of_decide_eq_true hs with hk | hk <;> rw [hk] <;> decide)

theorem table_keeps {x : Place} {tn : Text} {cs args mid : List Elem} {name : Text} {ps : List Piece} (h : tableTemplate x tn (.node .itemEnv cs) = .ok ps)
    (he : Env spec cs name args mid) (hp : Fine spec g (.node .itemEnv cs)) (hm : isMathEnv spec name = false) :
    Keeps spec (shown spec (.node .itemEnv cs)) ps := by
  unfold tableTemplate at h
  cases h1 : (Elem.node .itemEnv cs).envArguments.head? with
  | none => rw [h1] at h; cases h
  | some arg =>
  cases h2 : undelimited arg.text with
  | none => rw [h1] at h; simp only [bind, Except.bind, orCrash, h2, crash] at h; cases h
  | some a =>
  rw [h1] at h
  simp only [bind, Except.bind, orCrash, h2] at h
  split at h
  · cases h
  · cases h
    rw [he.between]
    exact Keeps.right _ (Keeps.left _ ((cells_keeps fun c hc => hp.child (he.mem c hc)).le (he.inner hm)))

theorem environment_keeps {x : Place} {cs : List Elem} {ps : List Piece}
    (h : environmentTemplate spec x (.node .itemEnv cs) = .ok ps) (hp : Fine spec g (.node .itemEnv cs)) :
    Keeps spec (shown spec (.node .itemEnv cs)) ps := by
  obtain ⟨name, args, mid, he⟩ := hp.env
  unfold environmentTemplate at h
  rw [he.name] at h
  simp only [bind, Except.bind, orCrash] at h
  split at h
  · rename_i sh hs
    have hm : sh.ctx ≠ .isMath → sh.ctx ≠ .isMatrix → sh.ctx ≠ .isCases → isMathEnv spec name = false := fun h1 h2 h3 => by
      unfold isMathEnv
      rw [hs]
      simp [h1, h2, h3]
    split at h
    · rename_i hc; cases h; rw [he.between]; exact (Keeps.each _ _).le (he.inner (hm (by simp [hc]) (by simp [hc]) (by simp [hc])))
    · rename_i hc; cases h; rw [he.between]; exact (Keeps.each _ _).le (he.inner (hm (by simp [hc]) (by simp [hc]) (by simp [hc])))
    · cases h; exact (mathEnv_keeps he).right _
    · cases h; exact (mathEnv_keeps he).right _
    · cases h; exact (mathEnv_keeps he).right _
    · rename_i hc
      cases hf : figureTemplate x (sh.alias.getD (trim name)) (.node .itemEnv cs) with
      | error e => rw [hf] at h; cases h
      | ok qs =>
        rw [hf] at h; cases h
        refine (figure_keeps hf he ?_ (hm (by simp [hc]) (by simp [hc]) (by simp [hc]))).right _
        unfold isFigureEnv
        rw [hs]
        simp [hc]
    · rename_i hc
      cases hf : tableTemplate x (sh.alias.getD (trim name)) (.node .itemEnv cs) with
      | error e => rw [hf] at h; cases h
      | ok qs => rw [hf] at h; cases h; exact (table_keeps hf he hp (hm (by simp [hc]) (by simp [hc]) (by simp [hc]))).right _
    · rename_i hc
      cases h
      rw [he.between]
      exact Keeps.right _ (Keeps.right _ (Keeps.left _ ((Keeps.each _ _).le (he.inner (hm (by simp [hc]) (by simp [hc]) (by simp [hc]))))))
  · cases h

/-! ### All templates -/

theorem word_keeps (x : Place) (t : Text) : Keeps spec (shown spec (.token .tokenWord t)) [.text (wordText x.mode t)] := by
  rw [shown, if_pos rfl]
  refine Keeps.text ?_
  have h1 : (spokenWord t).Sublist t := List.filter_sublist
  refine h1.trans ?_
  unfold wordText
  split
  · exact List.Sublist.refl _
  · clear h1
    induction t with
    | nil => exact List.Sublist.refl _
    | cons c t ih =>
      rw [List.flatMap_cons]
      exact List.Sublist.cons_cons c (List.Sublist.cons _ ih)

theorem token_keeps {x : Place} {k : Kind} {t : Text} {ps : List Piece} (h : tokenTemplate spec x k t = .ok ps) :
    Keeps spec (shown spec (.token k t)) ps := by
  by_cases hk : k = .tokenWord
  · subst hk
    cases h
    exact word_keeps x t
  · rw [shown_token hk]; exact Keeps.nil

theorem script_keeps {x : Place} {cs : List Elem} (hp : ∀ c ∈ cs, Fine spec g c) : Keeps spec (shownAll spec cs) (scriptTemplate x cs) := by
  unfold scriptTemplate
  dsimp only
  split
  · exact Keeps.each _ _
  · rename_i mark script hd
    have hmark : isScriptMark mark = true := by
      have := List.head?_dropWhile_not (fun c => !isScriptMark c) cs
      rw [hd] at this
      simpa using this
    have hs : shown spec mark = [] := by
      cases mark with
      | node k cs => simp [isScriptMark, Elem.isNode] at hmark
      | token k t =>
        simp only [isScriptMark, Elem.isNode, Elem.kind, Bool.not_false, Bool.true_and] at hmark
        have hmark := of_decide_eq_true hmark
        refine shown_token fun h => ?_
        rw [h] at hmark
        rcases hmark with h | h <;> cases h
    have hsplit : shownAll spec cs = shownAll spec (cs.takeWhile fun c => !isScriptMark c) ++ shownAll spec script := by
      conv => lhs; rw [← List.takeWhile_append_dropWhile (p := fun c => !isScriptMark c) (l := cs), shownAll_append, hd, shownAll_cons, hs, List.nil_append]
    rw [hsplit]
    exact Keeps.right _ (Keeps.append (Keeps.right _ (Keeps.right _ (Keeps.each _ _))) (Keeps.each _ _))

theorem delimiter_keeps {x : Place} {cs : List Elem} {ps : List Piece} (h : delimiterTemplate x (.node .clauseLR cs) = .ok ps)
    (hp : Fine spec g (.node .clauseLR cs)) : Keeps spec (shown spec (.node .clauseLR cs)) ps := by
  have hs : Shape ⟨spec, g⟩ (.node .clauseLR cs) := by
    rcases hp.self.1 with h1 | h1
    · cases h1
    · exact h1
  obtain ⟨name, args, rfl, _⟩ := hs
  refine Keeps.le ?_ (shown_le _ _)
  rw [shownAll_cons, shown_token (by decide), List.nil_append]
  unfold delimiterTemplate Elem.children at h
  dsimp only at h
  cases ha : afterBackslash name with
  | none => rw [ha] at h; cases h
  | some n =>
    rw [ha] at h
    cases h
    refine Keeps.right _ (Keeps.left _ (Keeps.flatMap _ fun d _ => Keeps.right _ ?_))
    split
    · rename_i hdot
      unfold isDot at hdot
      split at hdot
      · rename_i t
        have := of_decide_eq_true hdot
        subst this
        rw [shown, if_pos rfl]
        exact Keeps.nil
      · cases hdot
    · exact Keeps.part _ d

/-- Every template keeps the words of its element. -/
theorem template_keeps {x : Place} {e : Elem} {ps : List Piece} (h : template spec x e = .ok ps) (hp : Fine spec g e) :
    Keeps spec (shown spec e) ps := by
  unfold template at h
  split at h
  · rename_i hk
    cases h
    have hk := of_decide_eq_true hk
    simp only [List.mem_cons, List.not_mem_nil, or_false] at hk
    have : shown spec e = [] := by
      rcases hk with hk | hk | hk | hk | hk | hk | hk
      all_goals first
        | exact hp.silent (by rw [hk]; decide) (by rw [hk]; decide)
        | (cases e with
          | token k t => exact shown_token (by intro h0; have hk : k = _ := hk; rw [hk] at h0; cases h0)
          | node k cs =>
            rw [shown, if_pos]
            unfold isHidden
            rw [hk]
            rfl)
    rw [this]
    exact Keeps.nil
  · split at h
    · rename_i c hl
      have hk : e.kind ∈ leafKinds.erase .tokenError ∧ e.kind ≠ .tokenWord := by
        revert hl
        generalize e.kind = k
        cases k <;> first | (intro h; cases h; done) | (intro _; decide)
      rw [hp.silent hk.1 hk.2]
      exact Keeps.nil
    · split at h
      · cases h
      · cases h
      · cases h
      · cases h
      · rename_i hk; rw [hp.silent (by rw [hk]; decide) (by rw [hk]; decide)]; exact Keeps.nil
      · rename_i hk; rw [hp.silent (by rw [hk]; decide) (by rw [hk]; decide)]; exact Keeps.nil
      · rename_i hk; rw [hp.silent (by rw [hk]; decide) (by rw [hk]; decide)]; exact Keeps.nil
      · rename_i hk; rw [hp.silent (by rw [hk]; decide) (by rw [hk]; decide)]; exact Keeps.nil
      · cases e with
        | token k t => exact token_keeps h
        | node k cs =>
          simp only [nodeTemplate] at h
          split at h
          · unfold formulaTemplate at h
            split at h
            · cases h
              exact Keeps.right _ (Keeps.left _ ((Keeps.each _ cs).le (shown_le _ cs)))
            · cases h
          · cases h
            unfold curlyTemplate
            exact Keeps.right _ ((Keeps.each _ cs).le (shown_le _ cs))
          · exact delimiter_keeps h hp
          · cases h
            refine Keeps.le ?_ (shown_le _ cs)
            split
            · exact script_keeps fun c hc => hp.child hc
            · exact Keeps.each _ _
          · exact command_keeps h hp
          · exact environment_keeps h hp
          · cases h; exact Keeps.text (shown_text _)
          · rw [hp.silent (by show Kind.tokenWhiteSpace ∈ _; decide) (by show Kind.tokenWhiteSpace ≠ _; decide)]
            exact Keeps.nil
          · split at h
            · cases h
              exact (Keeps.each _ cs).le (shown_le _ cs)
            · cases h

/-- The parts of a template. -/
theorem parts_fine {x : Place} {e : Elem} {ps : List Piece} (h : template spec x e = .ok ps) (hp : Fine spec g e) :
    ∀ y c, .part y c ∈ ps → Fine spec g c := fun y c hc =>
  (Agree.template_sits h hp (fun hk d hd => by
    cases e with
    | token k t => cases hd
    | node k cs =>
      have hk : k = .itemCmd := hk
      subst hk
      obtain ⟨name, args, ha, _⟩ := hp.args
      by_cases hn : d.kind = .clauseCommandName
      · exact .inl hn
      · refine .inr (ha.isArg d ?_)
        rw [← ha.filter]
        exact List.mem_filter.2 ⟨hd, decide_eq_true hn⟩) y c hc).1

/-- What is written for an element has its words, in their order. -/
theorem printed_keeps {x : Place} {e : Elem} {m m' : Mem} {t : Text} (h : Printed spec x e m t m') : Fine spec g e → (shown spec e).Sublist t := by
  have tail : ∀ {p : Piece} {ps : List Piece}, (∀ y c, .part y c ∈ p :: ps → Fine spec g c) → ∀ y c, .part y c ∈ ps → Fine spec g c :=
    fun h y c hc => h y c (List.mem_cons_of_mem _ hc)
  refine @Printed.rec spec (fun x e m t m' _ => Fine spec g e → (shown spec e).Sublist t)
    (fun ps m t m' _ => (∀ y c, .part y c ∈ ps → Fine spec g c) → (said spec ps).Sublist t) ?_ ?_ ?_ ?_ ?_ ?_ ?_ ?_ ?_ ?_ x e m t m' h
  · intro x e ps m m' t h _ ih hp
    exact List.Sublist.trans (template_keeps h hp) (ih (parts_fine h hp))
  · exact fun _ _ => List.Sublist.refl _
  · exact fun t _ ih hp => (List.Sublist.refl t).append (ih (tail hp))
  · exact fun _ _ ih1 ih2 hp => List.Sublist.append (ih1 (hp _ _ List.mem_cons_self)) (ih2 (tail hp))
  · exact fun _ _ ih hp => (ih (tail hp)).trans (List.sublist_append_right _ _)
  · exact fun _ _ ih hp => ih (tail hp)
  · exact fun _ ih hp => ih (tail hp)
  · exact fun _ ih hp => ih (tail hp)
  · exact fun _ _ ih hp => (ih (tail hp)).trans (List.sublist_append_right _ _)
  · exact fun _ _ ih hp => ih (tail hp)

end
end Shown
end Mitex
