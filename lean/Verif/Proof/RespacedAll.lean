/-
Environments and whole trees that differ in white space (for C85).
-/
import Verif.Proof.RespacedCmd

namespace Mitex
namespace Respace

theorem betw {e e' : Elem} (h : Kept e e') : Both Kept (between e) (between e') := (children h).filter fun a b k => by rw [kind k]

theorem isCmd {a b : Elem} (n : Text) (h : Kept a b) : isCommand n a = isCommand n b := by unfold isCommand; rw [kind h, cmdName h]

theorem cap {e e' : Elem} (h : Kept e e') : Both Kept (caption e) (caption e') := by
  have hf := (children h).filter (p := isCommand t!"\\caption") (q := isCommand t!"\\caption") fun a b k => isCmd _ k
  unfold caption
  have hl : ∀ {as bs : List Elem}, Both Kept as bs → Blank.Opt Kept as.getLast? bs.getLast? := by
    intro as bs h
    induction h with
    | nil => exact .none
    | cons h hs ih =>
      cases hs with
      | nil => exact .some h
      | cons h2 hs2 => rw [List.getLast?_cons_cons, List.getLast?_cons_cons]; exact ih
  have hl := hl hf
  generalize (e.children.filter (isCommand t!"\\caption")).getLast? = a at hl ⊢
  generalize (e'.children.filter (isCommand t!"\\caption")).getLast? = b at hl ⊢
  cases hl with
  | none => exact .nil
  | some h => exact (arguments h).take 1

theorem rule {a b : Elem} (h : Kept a b) : isRule a = isRule b := by unfold isRule; rw [kind h, cmdName h]

theorem zip_both {as bs : List Elem} (h : Both Kept as bs) (n : Nat) : Both (fun a b : Elem × Nat => Kept a.1 b.1 ∧ a.2 = b.2) (as.zipIdx n) (bs.zipIdx n) := by
  induction h generalizing n with
  | nil => exact .nil
  | cons h hs ih => exact .cons ⟨h, rfl⟩ (ih _)

theorem mathEnv (x : Place) (v : LEnv) (tn : Text) {e e' : Elem} (h : Kept e e') : PS (mathEnvTemplate x v tn e) (mathEnvTemplate x v tn e') := by
  unfold mathEnvTemplate
  dsimp only
  refine (((((inMode_both (txt _)).append (txt _)).append (flatMap_both (fun a b k => ?_) (zip_both (envArguments h) 0))).append (each_both _ (betw h))).append
    (txt _)).append (inMode_both (txt _))
  rw [k.2]
  exact .cons (.text (.refl _)) (.cons (.part _ k.1) (txt _))

theorem figure (x : Place) (tn : Text) {e e' : Elem} (h : Kept e e') : RA PS (figureTemplate x tn e) (figureTemplate x tn e') := by
  unfold figureTemplate
  dsimp only
  have hb := betw h
  rw [all_both (R := Kept) (fun a b k => by rw [kind k, cmdName k, (arguments k).isEmpty]) (children h)]
  split
  · refine .ok ((((((txt _).append (flatMap_both (fun a b k => ?_) (cap h))).append (txt _)).append (each_both _ (hb.filter fun a b k => ?_))).append (txt _)))
    · exact .cons (.text (.refl _)) (.cons (.part _ k) (txt _))
    · rw [isCmd _ k, isCmd _ k]
  · exact .error _

/-! ### Tables -/

theorem sep {a b : Elem} (h : Kept a b) : isSeparator a = isSeparator b := by unfold isSeparator; rw [kind h]
theorem lead {a b : Elem} (h : Kept a b) : isLead a = isLead b := by unfold isLead; rw [kind h, rule h]

theorem cells {as bs : List Elem} (h : Both Kept as bs) :
    Both (fun c d : List Elem × Elem => Both Kept c.1 d.1 ∧ Kept c.2 d.2) (cellsOf as).1 (cellsOf bs).1 ∧ Both Kept (cellsOf as).2 (cellsOf bs).2 := by
  induction h with
  | nil => exact ⟨.nil, .nil⟩
  | @cons a b as bs h hs ih =>
    unfold cellsOf
    rw [← sep h]
    split
    · exact ⟨.cons ⟨.nil, h⟩ ih.1, ih.2⟩
    · obtain ⟨h1, h2⟩ := ih
      generalize (cellsOf as).1 = c at h1 ⊢
      generalize (cellsOf bs).1 = d at h1 ⊢
      cases h1 with
      | nil => exact ⟨.nil, .cons h h2⟩
      | cons k ks => exact ⟨.cons ⟨.cons h k.1, k.2⟩ ks, h2⟩

theorem leads {as bs : List Elem} (h : Both Kept as bs) : leadLines as = leadLines bs := by
  have ht := h.takeWhile (p := isLead) (q := isLead) fun a b k => lead k
  unfold leadLines
  generalize as.takeWhile isLead = x at ht ⊢
  generalize bs.takeWhile isLead = y at ht ⊢
  induction ht with
  | nil => rfl
  | cons k _ ih =>
    rw [List.map_cons, List.map_cons, List.flatten_cons, List.flatten_cons, ih]
    unfold ruleLine
    rw [rule k, cmdName k]

theorem content {as bs : List Elem} (h : Both Kept as bs) : Both Kept (cellContent as) (cellContent bs) := h.dropWhile fun a b k => lead k

theorem cellsT (y : Place) {as bs : List Elem} (h : Both Kept as bs) : PS (cellsTemplate y as) (cellsTemplate y bs) := by
  obtain ⟨h1, h2⟩ := cells h
  unfold cellsTemplate
  rw [leads h2, (content h2).isEmpty]
  refine ((flatMap_both (fun c d k => ?_) h1).append (txt _)).append ?_
  · rw [leads k.1, show separatorText c.2 = separatorText d.2 by unfold separatorText; rw [kind k.2]]
    exact ((txt _).append (each_both _ (content k.1))).append (txt _)
  · split
    · exact .nil
    · exact .cons (.text (.refl _)) (each_both _ (content h2))

theorem env_verbatim {e e' : Elem} (h : Kept e e') (hk : e.kind = .itemEnv) : e.envName = e'.envName ∧ Both TS e.envArguments e'.envArguments := by
  have hv := verb h
  unfold verbatim at hv
  rw [← kind h, hk] at hv
  dsimp only at hv
  injection hv with h1 h2
  refine ⟨?_, ts_of (envArguments h) h2⟩
  have h1 := toList_inj h1
  have : ∀ e : Elem, e.envName = match e.envBegin.bind Elem.firstToken with
      | some (.tokenCommandSym, t) => some t
      | _ => none := by
    intro e
    unfold Elem.envName
    cases e.envBegin <;> rfl
  rw [this, this, h1]

theorem table (x : Place) (tn : Text) {e e' : Elem} (h : Kept e e') (hk : e.kind = .itemEnv) : RA PS (tableTemplate x tn e) (tableTemplate x tn e') := by
  have ha := (env_verbatim h hk).2
  unfold tableTemplate
  generalize e.envArguments = as at ha ⊢
  generalize e'.envArguments = bs at ha ⊢
  cases ha with
  | nil => exact .error _
  | @cons a b _ _ ha _ =>
    show RA PS ((orCrash (undelimited a.text)).bind _) ((orCrash (undelimited b.text)).bind _)
    rw [ha.2]
    refine RA.bind (R := Eq) (RA.same _ fun _ => rfl) ?_
    rintro l _ rfl
    split
    · exact .error _
    · exact .ok (((txt _).append (cellsT _ (betw h))).append (txt _))

theorem put (x : Place) : PS (inMode .text x [.putLabel]) (inMode .text x [.putLabel]) := inMode_both (.one .putLabel)

theorem environment (spec : CommandSpec) (x : Place) {e e' : Elem} (h : Kept e e') (hk : e.kind = .itemEnv) :
    RA PS (environmentTemplate spec x e) (environmentTemplate spec x e') := by
  unfold environmentTemplate
  rw [← (env_verbatim h hk).1]
  refine RA.bind (R := Eq) (RA.same _ fun _ => rfl) ?_
  rintro n _ rfl
  split
  · rename_i sh _
    dsimp only
    split
    · exact .ok (each_both _ (betw h))
    · exact .ok (each_both _ (betw h))
    · exact .ok ((mathEnv _ _ _ h).append (put x))
    · exact .ok ((mathEnv _ _ _ h).append (put x))
    · exact .ok ((mathEnv _ _ _ h).append (put x))
    · exact RA.map (figure _ _ h) fun _ _ k => k.append (put x)
    · exact RA.map (table _ _ h hk) fun _ _ k => k.append (put x)
    · exact .ok ((((txt _).append (each_both _ (betw h))).append (txt _)).append (put x))
  · exact .error _

/-! ### All elements -/

theorem token (spec : CommandSpec) (x : Place) (k : Kind) {t t' : Text} (h : t = t' ∨ k ∈ blankLeaves ∧ SpaceOrComment k t t') :
    RA PS (tokenTemplate spec x k t) (tokenTemplate spec x k t') := by
  rcases h with rfl | ⟨hk, h⟩
  · unfold tokenTemplate
    split
    · exact .ok (txt _)
    · exact .ok (.one (.blank (.token _ (.inl rfl)) rfl))
    · exact .ok (.cons (.text (.refl _)) (.one .dropBlank))
    · cases afterBackslash t with
      | none => exact .error _
      | some n =>
        dsimp only [orCrash]
        show RA PS (match spec n with
          | some (.cmd sh) => _
          | _ => _) (match spec n with
          | some (.cmd sh) => _
          | _ => _)
        split
        · exact .ok (txt _)
        · exact .error _
    · exact .error _
  · simp only [blankLeaves, List.mem_cons, List.not_mem_nil, or_false] at hk
    rcases hk with rfl | rfl | rfl
    · exact .ok (.one (.blank (.token _ (.inr ⟨by decide, h⟩)) rfl))
    · rcases h with h | ⟨h1, h2⟩
      · cases h
      · exact .ok (.cons (.text (.space h1 h2 (.refl _))) (.one .dropBlank))
    · exact .error _

theorem node (spec : CommandSpec) (x : Place) (k : Kind) {cs cs' : List Elem} (h : Kept (.node k cs) (.node k cs')) :
    RA PS (nodeTemplate spec x k cs) (nodeTemplate spec x k cs') := by
  unfold nodeTemplate
  dsimp only
  split
  · exact formula h rfl
  · exact .ok (curly h)
  · exact delimiter h rfl
  · refine .ok ?_
    split
    · exact script (children h)
    · exact each_both _ (children h)
  · exact command spec x h rfl
  · exact environment spec x h rfl
  · have hv := verb h
    have hv : [(Elem.node .itemTypstCode cs).leaves] = [(Elem.node .itemTypstCode cs').leaves] := hv
    injection hv with hv _
    unfold Elem.text
    rw [hv]
    exact .ok (txt _)
  · exact .ok (.one (.blank h rfl))
  · split
    · exact .ok (each_both _ (children h))
    · exact .error _

theorem template_both (spec : CommandSpec) (x : Place) {e e' : Elem} (h : Kept e e') : RA PS (template spec x e) (template spec x e') := by
  unfold template
  have hk := kind h
  rw [← hk]
  split
  · exact .ok .nil
  cases escapedPunctuation.lookup e.kind with
  | some c => exact .ok (txt _)
  | none =>
    dsimp only
    split
    · rename_i hk
      have hv := verb h
      unfold verbatim at hv
      rw [← kind h, hk] at hv
      injection hv with hv _
      unfold Elem.text
      rw [hv]
      exact .error _
    · exact .error _
    · exact .error _
    · exact .error _
    · exact .ok (txt _)
    · exact .ok (txt _)
    · exact .ok (txt _)
    · exact .ok (txt _)
    · cases h with
      | token k h => exact token spec x k h
      | node k h hv => exact node spec x k (.node k h hv)

/-- What is written for both differs in white space; the memory is the same. -/
theorem printed_both {spec : CommandSpec} {x : Place} {e : Elem} {m m' : Mem} {t : Text} (h : Printed spec x e m t m') :
    ∀ {e'}, Kept e e' → ∃ t', Printed spec x e' m t' m' ∧ Respaced t t' := by
  refine @Printed.rec spec (fun x e m t m' _ => ∀ {e'}, Kept e e' → ∃ t', Printed spec x e' m t' m' ∧ Respaced t t')
    (fun ps m t m' _ => ∀ {ps'}, PS ps ps' → ∃ t', PrintedAll spec ps' m t' m' ∧ Respaced t t')
    ?mk ?nil ?text ?part ?blank ?dropped ?dropBlank ?keepLabel ?putLabel ?noLabel x e m t m' h
  case mk =>
    intro x e ps m m' t h _ ih e' he
    have ht := template_both spec x he
    rw [h] at ht
    generalize hr : template spec x e' = r at ht
    cases ht with
    | ok ht =>
      obtain ⟨t', h1, h2⟩ := ih ht
      exact ⟨t', .mk hr (by rw [← kind he]; exact h1), h2⟩
  case nil => intro m ps' h; cases h; exact ⟨_, .nil m, .nil⟩
  case text =>
    intro ps m m' u t _ ih ps' h
    cases h with
    | cons h hs =>
      cases h with
      | @text _ t' h => obtain ⟨u', h1, h2⟩ := ih hs; exact ⟨_, .text t' h1, h.append h2⟩
  case part =>
    intro x e ps m m' m'' t u _ _ ih1 ih2 ps' h
    cases h with
    | cons h hs =>
      cases h with
      | part _ h =>
        obtain ⟨t', h1, h2⟩ := ih1 h
        obtain ⟨u', h3, h4⟩ := ih2 hs
        exact ⟨_, .part h1 h3, h2.append h4⟩
  case blank =>
    intro k t ps m m' u hm _ ih ps' h
    cases h with
    | cons h hs =>
      cases h with
      | blank h hk =>
        obtain ⟨u', h1, h2⟩ := ih hs
        cases h with
        | @token _ _ t' h =>
          refine ⟨_, .blank hm h1, Respaced.append ?_ h2⟩
          rcases h with rfl | ⟨_, h⟩
          · exact .refl _
          · rcases h with h | ⟨h3, h4⟩
            · have hk : k = .tokenWhiteSpace := hk
              rw [hk] at h
              cases h
            · have := Respaced.space h3 h4 .nil
              rw [List.append_nil, List.append_nil] at this
              exact this
  case dropped =>
    intro e ps m m' u hm _ ih ps' h
    cases h with
    | cons h hs =>
      cases h with
      | blank h _ => obtain ⟨u', h1, h2⟩ := ih hs; exact ⟨_, .dropped hm h1, h2⟩
  case dropBlank =>
    intro ps m m' u _ ih ps' h
    cases h with
    | cons h hs => cases h with | dropBlank => obtain ⟨u', h1, h2⟩ := ih hs; exact ⟨_, .dropBlank h1, h2⟩
  case keepLabel =>
    intro l ps m m' u _ ih ps' h
    cases h with
    | cons h hs => cases h with | keepLabel => obtain ⟨u', h1, h2⟩ := ih hs; exact ⟨_, .keepLabel h1, h2⟩
  case putLabel =>
    intro l ps m m' u hl _ ih ps' h
    cases h with
    | cons h hs => cases h with | putLabel => obtain ⟨u', h1, h2⟩ := ih hs; exact ⟨_, .putLabel hl h1, (Respaced.refl _).append h2⟩
  case noLabel =>
    intro ps m m' u hl _ ih ps' h
    cases h with
    | cons h hs => cases h with | putLabel => obtain ⟨u', h1, h2⟩ := ih hs; exact ⟨_, .noLabel hl h1, h2⟩

theorem printedPiece {spec : CommandSpec} {p p' : Piece} {m m' : Mem} {t : Text} (h : PrintedAll spec [p] m t m') (hp : PA p p') :
    ∃ t', PrintedAll spec [p'] m t' m' := by
  cases hp with
  | text => cases h with | text _ k => cases k; exact ⟨_, .text _ (.nil _)⟩
  | part x he =>
    cases h with
    | part h k =>
      cases k
      obtain ⟨t', h1, _⟩ := printed_both h he
      exact ⟨_, .part h1 (.nil _)⟩
  | blank he hk =>
    cases h with
    | blank hm k =>
      cases k
      cases he with
      | token => exact ⟨_, .blank hm (.nil _)⟩
    | dropped hm k => cases k; exact ⟨_, .dropped hm (.nil _)⟩
  | dropBlank => cases h with | dropBlank k => cases k; exact ⟨_, .dropBlank (.nil _)⟩
  | keepLabel l => cases h with | keepLabel k => cases k; exact ⟨_, .keepLabel (.nil _)⟩
  | putLabel =>
    cases h with
    | putLabel hl k => cases k; exact ⟨_, .putLabel hl (.nil _)⟩
    | noLabel hl k => cases k; exact ⟨_, .noLabel hl (.nil _)⟩

/-- If one cannot be converted, neither can the other, for the same reason. -/
theorem failed_both {spec : CommandSpec} {x : Place} {e : Elem} {m : Mem} {f : Stop} (h : Failed spec x e m f) :
    ∀ {e'}, Kept e e' → Failed spec x e' m f := by
  refine @Failed.rec spec (fun x e m f _ => ∀ {e'}, Kept e e' → Failed spec x e' m f)
    (fun ps m f _ => ∀ {ps'}, PS ps ps' → FailedAll spec ps' m f)
    ?here ?inside ?later ?part ?blank x e m f h
  case here =>
    intro x e m f h e' he
    have ht := template_both spec x he
    rw [h] at ht
    generalize hr : template spec x e' = r at ht
    cases ht with
    | error => exact .here hr
  case inside =>
    intro x e ps m f h _ ih e' he
    have ht := template_both spec x he
    rw [h] at ht
    generalize hr : template spec x e' = r at ht
    cases ht with
    | ok ht => exact .inside hr (by rw [← kind he]; exact ih ht)
  case later =>
    intro q ps m m' t f h _ ih ps' hp
    cases hp with
    | cons h1 hs => obtain ⟨t', h2⟩ := printedPiece h h1; exact .later h2 (ih hs)
  case part =>
    intro x e ps m f _ ih ps' hp
    cases hp with
    | cons h1 hs => cases h1 with | part _ h => exact .part (ih h)
  case blank =>
    intro k cs ps m hm ps' hp
    cases hp with
    | cons h1 hs =>
      cases h1 with
      | blank h _ => cases h with | node => exact .blank hm

end Respace
end Mitex
