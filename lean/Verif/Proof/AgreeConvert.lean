/-
C76: the conversion of a tree depends only on the entries of its commands and environments.
-/
import Verif.Proof.TemplateParts
import Verif.Props.Nesting
import Verif.Props.Template

namespace Mitex
namespace Agree

/-- The property of the command tokens of the tree. -/
def Same (a b : CommandSpec) (n : CommandName) (t : Text) : Prop :=
  (∀ name, t = '\\' :: name → a name = b name) ∧ (n = .beginEnv → a (trim t) = b (trim t)) ∧ (n = .generic → ∃ name, t = '\\' :: name)

/-- What is needed of an element. -/
def Apt (a b : CommandSpec) (e : Elem) : Prop :=
  e.Forall (PartsIn (Same a b)) ∧ ∀ t, e = .token .tokenCommandSym t → ∃ name, t = '\\' :: name ∧ a name = b name

theorem Same.symm {a b : CommandSpec} {n : CommandName} {t : Text} (h : Same a b n t) : Same b a n t :=
  ⟨fun name e => (h.1 name e).symm, fun e => (h.2.1 e).symm, h.2.2⟩

section
variable {a b : CommandSpec}

theorem same_lookup {x : Place} {k : Kind} {t : Text} (h : k = .tokenCommandSym → ∃ name, t = '\\' :: name ∧ a name = b name) :
    tokenTemplate a x k t = tokenTemplate b x k t := by
  by_cases hk : k = .tokenCommandSym
  · subst hk
    obtain ⟨name, rfl, e⟩ := h rfl
    have : afterBackslash ('\\' :: name) = some name := by
      unfold afterBackslash
      exact if_pos (by decide)
    unfold tokenTemplate
    simp only [this, orCrash, bind, Except.bind, e]
  · unfold tokenTemplate
    split
    all_goals first | rfl | exact absurd rfl hk

theorem name_child {cs : List Elem} {full : Text} (h : (Elem.node .itemCmd cs).cmdName = some full) : Elem.token .clauseCommandName full ∈ cs := by
  unfold Elem.cmdName at h
  cases hf : (Elem.node .itemCmd cs).children.find? fun c => !c.isNode && decide (c.kind = .clauseCommandName) with
  | none => rw [hf] at h; cases h
  | some c =>
    rw [hf] at h
    cases h
    have h1 := List.mem_of_find?_eq_some hf
    have h2 := List.find?_some hf
    cases c with
    | node k ds => simp [Elem.isNode] at h2
    | token k t =>
      simp only [Bool.and_eq_true, decide_eq_true_eq] at h2
      have : k = .clauseCommandName := h2.2
      subst this
      exact h1

theorem same_command {x : Place} {cs : List Elem} (h : (Elem.node .itemCmd cs).Forall (PartsIn (Same a b))) :
    commandTemplate a x (.node .itemCmd cs) = commandTemplate b x (.node .itemCmd cs) := by
  cases hn : (Elem.node .itemCmd cs).cmdName with
  | none => unfold commandTemplate bareName; rw [hn]
  | some full =>
    have hm := name_child hn
    obtain ⟨h1, h2⟩ := ((Forall_node _ _ _).1 h).1
    obtain ⟨n, _, hq⟩ := h2 full hm
    rcases h1 _ hm with ⟨t, ht⟩ | ⟨ds, hd⟩
    · cases ht
      have e := hq.1 t rfl
      have hb : bareName (.node .itemCmd cs) = some t := by
        unfold bareName
        rw [hn]
        show afterBackslash ('\\' :: t) = _
        unfold afterBackslash
        exact if_pos (by decide)
      unfold commandTemplate
      rw [hn, hb]
      dsimp only
      have h3 : colorTemplate a x ('\\' :: t) (.node .itemCmd cs) = colorTemplate b x ('\\' :: t) (.node .itemCmd cs) := by
        have : colorFunction a ('\\' :: t) = colorFunction b ('\\' :: t) := by
          unfold colorFunction
          rw [show (if ('\\' :: t).head? = some '\\' then ('\\' :: t).tail else []) = t from if_pos rfl, e]
        unfold colorTemplate
        rw [this]
      have h4 : normalTemplate a x t (.node .itemCmd cs) = normalTemplate b x t (.node .itemCmd cs) := by
        unfold normalTemplate
        rw [e]
      rw [h3, h4]
    · cases hd

theorem same_environment {x : Place} {cs : List Elem} (h : (Elem.node .itemEnv cs).Forall (PartsIn (Same a b))) :
    environmentTemplate a x (.node .itemEnv cs) = environmentTemplate b x (.node .itemEnv cs) := by
  cases hn : (Elem.node .itemEnv cs).envName with
  | none => unfold environmentTemplate; rw [hn]; rfl
  | some n =>
    have e : a (trim n) = b (trim n) := by
      unfold Elem.envName at hn
      cases hb : (Elem.node .itemEnv cs).envBegin with
      | none => rw [hb] at hn; cases hn
      | some d =>
        rw [hb] at hn
        have hn : d.beginName = some n := hn
        unfold Elem.envBegin at hb
        have hm := (List.mem_filter.1 (List.mem_of_find?_eq_some hb))
        have hk : d.kind = .itemBegin := by simpa using List.find?_some hb
        have hd := forall_child h hm.1
        cases d with
        | token k t => simp [Elem.isNode] at hm
        | node k ds =>
          have hk : k = .itemBegin := hk
          subst hk
          obtain ⟨y, as, rfl, hq⟩ := ((Forall_node _ _ _).1 hd).1.2
          have : y = n := by
            unfold Elem.beginName at hn
            simpa [Elem.firstToken] using hn
          subst this
          exact hq.2.1 rfl
    unfold environmentTemplate
    simp only [hn, orCrash, bind, Except.bind, e]

theorem same_template {x : Place} {e : Elem} (h : Apt a b e) : template a x e = template b x e := by
  unfold template
  split
  · rfl
  · split
    · rfl
    · split
      all_goals first | rfl | skip
      cases e with
      | token k t => exact same_lookup fun hk => h.2 t (by rw [hk])
      | node k cs =>
        show nodeTemplate a x k cs = nodeTemplate b x k cs
        unfold nodeTemplate
        dsimp only
        split
        all_goals first | rfl | skip
        · exact same_command h.1
        · exact same_environment h.1

theorem whole_apt {c : Elem} (h : c.Forall (PartsIn (Same a b))) (hw : Whole c) : Apt a b c :=
  ⟨h, fun t e => absurd (by rw [e]; rfl) hw.2⟩

theorem apt_part {c : Elem} (h : Sits (PartsIn (Same a b)) c) : Apt a b c := by
  obtain ⟨hc, d, ⟨h1, h2⟩, hm, hk⟩ := h
  refine ⟨hc, ?_⟩
  rintro t rfl
  rcases hk with hk | hk
  · cases hk
  · cases d with
    | token k t => cases hm
    | node k cs =>
      have hm : Elem.token .tokenCommandSym t ∈ cs := hm
      have whole : ¬ ∀ c ∈ cs, Whole c := fun h => absurd rfl (h _ hm).2
      have hk : isOpen k = true := hk
      simp only [isOpen, isContainer, Bool.or_eq_true, decide_eq_true_eq, List.mem_cons, List.not_mem_nil, or_false] at hk
      rcases hk with (rfl | rfl | rfl | rfl | rfl | rfl) | rfl | rfl | rfl | rfl | rfl | rfl
      · obtain ⟨l, es, rfl, ⟨ds, rfl⟩, h3⟩ := h1
        rcases List.mem_cons.1 hm with hm | hm
        · cases hm
        · rcases h3 with h3 | ⟨mid, r, rfl, h3, ds', rfl⟩
          · exact absurd rfl (h3 _ hm).2
          · rcases List.mem_append.1 hm with hm | hm
            · exact absurd rfl (h3 _ hm).2
            · cases List.mem_singleton.1 hm
      · exact absurd h1 whole
      · exact absurd h1 whole
      · exact absurd h1 whole
      · exact absurd h1 whole
      · exact absurd h1 whole
      · exact absurd h1 whole
      · exact absurd h1 whole
      · have hq := h2 t hm
        obtain ⟨name, e⟩ := hq.2.2 rfl
        exact ⟨name, e, hq.1 name e⟩
      · exact absurd h1 whole
      · rcases h1 _ hm with ⟨t, ht⟩ | ⟨ds, hd⟩
        · cases ht
        · cases hd
      · exact absurd h1 whole

theorem template_apt {x : Place} {e : Elem} {ps : List Piece} (h : template a x e = .ok ps) (he : Apt a b e) :
    ∀ y c, Piece.part y c ∈ ps → Apt a b c := by
  intro y c hc
  refine apt_part (template_sits h he.1 ?_ y c hc)
  intro hk d hd
  cases e with
  | token k t => cases hd
  | node k cs =>
    have hk : k = .itemCmd := hk
    subst hk
    rcases (forall_self he.1).1 d hd with ⟨t, rfl⟩ | h
    · exact .inl rfl
    · exact .inr h

theorem drop_part {q : Piece} {ps : List Piece} (h : ∀ y c, Piece.part y c ∈ q :: ps → Apt a b c) : ∀ y c, Piece.part y c ∈ ps → Apt a b c :=
  fun y c hc => h y c (List.mem_cons_of_mem _ hc)

theorem printed_apt {x : Place} {e : Elem} {m : Mem} {t : Text} {m' : Mem} (h : Printed a x e m t m') : Apt a b e → Printed b x e m t m' := by
  refine @Printed.rec a (fun x e m t m' _ => Apt a b e → Printed b x e m t m')
    (fun ps m t m' _ => (∀ y c, Piece.part y c ∈ ps → Apt a b c) → PrintedAll b ps m t m')
    ?mk ?nil ?text ?part ?blank ?dropped ?dropBlank ?keepLabel ?putLabel ?noLabel x e m t m' h
  case mk => intro x e ps m m' t h _ ih he; exact .mk (same_template he ▸ h) (ih (template_apt h he))
  case nil => intro m _; exact .nil m
  case text => intro ps m m' u t _ ih h; exact .text t (ih (drop_part h))
  case part => intro x e ps m m' m'' t u _ _ ih1 ih2 h; exact .part (ih1 (h x e List.mem_cons_self)) (ih2 (drop_part h))
  case blank => intro k t ps m m' u hs _ ih h; exact .blank hs (ih (drop_part h))
  case dropped => intro e ps m m' u hs _ ih h; exact .dropped hs (ih (drop_part h))
  case dropBlank => intro ps m m' u _ ih h; exact .dropBlank (ih (drop_part h))
  case keepLabel => intro l ps m m' u _ ih h; exact .keepLabel (ih (drop_part h))
  case putLabel => intro l ps m m' u hl _ ih h; exact .putLabel hl (ih (drop_part h))
  case noLabel => intro ps m m' u hl _ ih h; exact .noLabel hl (ih (drop_part h))

theorem printedAll_apt {ps : List Piece} {m : Mem} {t : Text} {m' : Mem} (h : PrintedAll a ps m t m') (hp : ∀ y c, Piece.part y c ∈ ps → Apt a b c) :
    PrintedAll b ps m t m' := by
  induction ps generalizing m t m' with
  | nil => cases h; exact .nil _
  | cons q ps ih =>
    cases h with
    | text t k => exact .text t (ih k (drop_part hp))
    | part h k => exact .part (printed_apt h (hp _ _ List.mem_cons_self)) (ih k (drop_part hp))
    | blank h k => exact .blank h (ih k (drop_part hp))
    | dropped h k => exact .dropped h (ih k (drop_part hp))
    | dropBlank k => exact .dropBlank (ih k (drop_part hp))
    | keepLabel k => exact .keepLabel (ih k (drop_part hp))
    | putLabel h k => exact .putLabel h (ih k (drop_part hp))
    | noLabel h k => exact .noLabel h (ih k (drop_part hp))

theorem failed_apt {x : Place} {e : Elem} {m : Mem} {f : Stop} (h : Failed a x e m f) : Apt a b e → Failed b x e m f := by
  refine @Failed.rec a (fun x e m f _ => Apt a b e → Failed b x e m f)
    (fun ps m f _ => (∀ y c, Piece.part y c ∈ ps → Apt a b c) → FailedAll b ps m f)
    ?here ?inside ?later ?part ?blank x e m f h
  case here => intro x e m f h he; exact .here (same_template he ▸ h)
  case inside => intro x e ps m f h _ ih he; exact .inside (same_template he ▸ h) (ih (template_apt h he))
  case later =>
    intro q ps m m' t f h _ ih hp
    refine .later (printedAll_apt h fun y c hc => hp y c ?_) (ih (drop_part hp))
    rw [List.mem_singleton.1 hc]
    exact List.mem_cons_self
  case part => intro x e ps m f _ ih hp; exact .part (ih (hp x e List.mem_cons_self))
  case blank => intro k cs ps m hs _; exact .blank hs

end

end Agree
end Mitex
