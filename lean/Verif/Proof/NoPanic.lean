/-
The converter does not crash on well-shaped trees with the arguments it needs.
-/
import Verif.Proof.ParserNeat
import Verif.Spec.Panic
import Verif.Props.ParserTree

namespace Mitex

/-- The result is not a crash. -/
def NP {α : Type} (r : Res α) : Prop := r ≠ .error .panic

theorem NP.ok {α : Type} {a : α} : NP (.ok a : Res α) := fun h => by cases h
theorem NP.fail {α : Type} {t : Text} : NP (failWith t : Res α) := fun h => by cases h

theorem NP.bind {α β : Type} {r : Res α} {f : α → Res β} (h : NP r) (k : ∀ a, r = .ok a → NP (f a)) : NP (r >>= f) := by
  cases r with
  | error x => intro hb; apply h; cases hb; rfl
  | ok a => exact k a rfl

theorem NP.ite {α : Type} {p : Prop} [Decidable p] {a b : Res α} (ha : p → NP a) (hb : ¬ p → NP b) : NP (if p then a else b) := by
  split
  · exact ha ‹_›
  · exact hb ‹_›

/-- What the converter needs to know of one element. -/
def Sane (spec : CommandSpec) : Elem → Prop
  | .token k _ => k ∈ leafKinds
  | .node k cs =>
    k ∉ leafKinds.filter (fun k => k ≠ .tokenError) ∧
    (k.ownsSym = false → ∀ c ∈ cs, ¬ Stray c) ∧
    (k = .itemCmd → ∃ name, (Elem.node k cs).cmdName = some ('\\' :: name) ∧
      (∀ sh, getCmd spec name = some sh → sh.args = .right .greedy →
        ∃ k' as rest, cs.filter (fun c => decide (c.kind ≠ .clauseCommandName)) = .node k' as :: rest ∧ k'.ownsSym = false) ∧
      (name = t!"color" → (Elem.node k cs).arguments ≠ [])) ∧
    (k = .clauseLR → ∃ name args, cs = .token .clauseCommandName ('\\' :: name) :: args ∧
      ∀ a ∈ args, ∀ t, a = .token .tokenCommandSym t → t.head? = some '\\') ∧
    (k = .itemEnv → ∃ n, (Elem.node k cs).envName = some n) ∧
    ArgsPresent spec (.node k cs)

/-- All elements are sane, and the element itself may be converted. -/
def Sound (spec : CommandSpec) (e : Elem) : Prop :=
  e.Forall (Sane spec) ∧ ∀ t, e = .token .tokenCommandSym t → t.head? = some '\\'

/-- Inside a list there is indentation. -/
def Ind (s : CState) : Prop := CState.isList s.env = true → 2 ≤ s.indent

theorem Ind.frame {s s' : CState} (h : Ind s) (k : Frame s s') : Ind s' := by
  intro hl
  rw [k.2.1] at hl
  rw [k.2.2.1]
  exact h hl

theorem Ind.write {s : CState} (h : Ind s) (t : Text) : Ind (s.write t) := h
theorem Ind.setMode {s : CState} (h : Ind s) (m : Mode) : Ind (s.setMode m) := h

theorem Ind.enter {s : CState} (e : LEnv) : Ind (s.enterEnv e) := by
  intro hl
  have : CState.isList e = true := hl
  show 2 ≤ if CState.isList e then s.indent + 2 else s.indent
  rw [if_pos this]
  omega

theorem Ind.ite {a b : CState} {p : Prop} [Decidable p] (ha : Ind a) (hb : Ind b) : Ind (if p then a else b) := by
  split <;> assumption

/-- The nested converter does not crash. -/
def NPC (spec : CommandSpec) (C : ConvFn) : Prop := Framed C ∧ ∀ e s, Sound spec e → Ind s → NP (C e s)

theorem Sound.child {spec : CommandSpec} {k : Kind} {cs : List Elem} (h : Sound spec (.node k cs)) (hk : k.ownsSym = false) {c : Elem}
    (hc : c ∈ cs) : Sound spec c := by
  have hf := (Forall_node _ _ _).1 h.1
  refine ⟨hf.2 c hc, fun t ht => ?_⟩
  exact absurd ⟨t, ht⟩ (hf.1.2.1 hk c hc)

theorem Sound.of_node {spec : CommandSpec} {k : Kind} {cs : List Elem} (h : (Elem.node k cs).Forall (Sane spec)) :
    Sound spec (.node k cs) := ⟨h, fun t ht => (by cases ht)⟩

theorem Sound.isNode {spec : CommandSpec} {e : Elem} (h : e.Forall (Sane spec)) (hn : e.isNode = true) : Sound spec e := by
  cases e with
  | token k t => cases hn
  | node k cs => exact .of_node h

/-- Elements whose kind is not that of a leaf are nodes. -/
theorem Sound.as_node {spec : CommandSpec} {e : Elem} (h : Sound spec e) (hk : e.kind ∉ leafKinds) : ∃ cs, e = .node e.kind cs := by
  cases e with
  | token k t => exact absurd ((Forall_token _ _ _).1 h.1) hk
  | node k cs => exact ⟨cs, rfl⟩

/-- Elements with the kind of a leaf are leaves. -/
theorem Sound.as_token {spec : CommandSpec} {e : Elem} (h : Sound spec e) (hk : e.kind ∈ leafKinds) (he : e.kind ≠ .tokenError) :
    ∃ t, e = .token e.kind t := by
  cases e with
  | token k t => exact ⟨t, rfl⟩
  | node k cs =>
    have := ((Forall_node _ _ _).1 h.1).1.1
    exact absurd (List.mem_filter.2 ⟨hk, decide_eq_true he⟩) this

section

variable {spec : CommandSpec} {C : ConvFn}

theorem NPC.list (hC : NPC spec C) (es : List Elem) (s : CState) (he : ∀ e ∈ es, Sound spec e) (hs : Ind s) : NP (convList C es s) := by
  induction es generalizing s with
  | nil => exact NP.ok
  | cons e es ih =>
    rw [convList]
    refine (hC.2 e s (he e List.mem_cons_self) hs).bind fun s1 h1 => ?_
    exact ih s1 (fun x hx => he x (List.mem_cons_of_mem _ hx)) (hs.frame (hC.1 e s s1 h1))

theorem NPC.formula (hC : NPC spec C) {cs : List Elem} (s : CState) (he : Sound spec (.node .itemFormula cs)) (hs : Ind s) :
    NP (convFormula C (.node .itemFormula cs) s) := by
  unfold convFormula
  refine NP.bind NP.ok fun a ha => ?_
  cases ha
  refine NP.ite (fun _ => NP.fail) fun _ => ?_
  dsimp only
  refine (hC.list cs _ (fun e h => he.child rfl h) ?_).bind fun s1 h1 => NP.ok
  refine Ind.setMode ?_ _
  exact Ind.ite (Ind.ite hs hs) hs

theorem NPC.curly (hC : NPC spec C) {cs : List Elem} (s : CState) (he : Sound spec (.node .itemCurly cs)) (hs : Ind s) :
    NP (convCurly C (.node .itemCurly cs) s) := by
  unfold convCurly
  refine NP.bind NP.ok fun a ha => ?_
  cases ha
  dsimp only
  by_cases hm : s.mode = .math ∧ s.env ≠ .subStack
  · have hd : decide (s.mode = .math ∧ s.env ≠ .subStack) = true := decide_eq_true hm
    rw [hd]
    simp only [if_true]
    refine (hC.list cs _ (fun e h => he.child rfl h) (Ind.enter _)).bind fun s1 h1 => ?_
    have h2 := (Inside.enter .mathCurlyGroup s).then (hC.1.list _ _ _ h1)
    refine NP.ite (fun _ => ?_) fun _ => NP.ok
    have h3 : Inside .mathCurlyGroup (inIndent .mathCurlyGroup s.indent) s.mode s
        (if (cs.all fun c => isBlankKind c.kind) = true then s1.write t!"zws " else s1) := by
      split
      · exact h2.write _
      · exact h2
    obtain ⟨c, hc, _⟩ := h3.exit
    rw [hc]
    exact NP.ok
  · have hd : decide (s.mode = .math ∧ s.env ≠ .subStack) = false := decide_eq_false hm
    rw [hd]
    simp only [Bool.false_eq_true, if_false]
    refine (hC.list cs _ (fun e h => he.child rfl h) hs).bind fun s1 h1 => ?_
    exact NP.ite (fun _ => NP.ok) fun _ => NP.ok

theorem NPC.lrArgs (hC : NPC spec C) (as : List Elem) (s : CState) (he : ∀ e ∈ as, Sound spec e) (hs : Ind s) :
    NP (convLRArgs C as s) := by
  induction as generalizing s with
  | nil => exact NP.ok
  | cons e es ih =>
    rw [convLRArgs]
    have h1 : NP (convLRArg C e s) := by
      unfold convLRArg
      split
      · exact NP.ok
      · exact hC.2 _ s (he _ List.mem_cons_self) hs
    refine h1.bind fun s1 h1 => ?_
    exact ih _ (fun x hx => he x (List.mem_cons_of_mem _ hx)) (hs.frame ((hC.1.lrArg e s s1 h1).write _))

theorem dropOne_bs (t : Text) : dropOne ('\\' :: t) = .ok t := by
  unfold dropOne
  have : dropBytes 1 ('\\' :: t) = some t := by
    rw [dropBytes, show utf8Len '\\' = 1 by decide]
    cases t <;> rfl
  rw [this]

theorem NPC.clauseLR (hC : NPC spec C) {cs : List Elem} (s : CState) (he : Sound spec (.node .clauseLR cs)) (hs : Ind s) :
    NP (convClauseLR C (.node .clauseLR cs) s) := by
  have hf := (Forall_node _ _ _).1 he.1
  obtain ⟨name, args, rfl, ha⟩ := hf.1.2.2.2.1 rfl
  unfold convClauseLR
  refine NP.bind NP.ok fun a h => ?_
  cases h
  dsimp only
  refine NP.bind NP.ok fun a h => ?_
  cases h
  rw [dropOne_bs, ok_bind]
  refine (hC.lrArgs args _ (fun e h => ⟨hf.2 e (List.mem_cons_of_mem _ h), ha e h⟩) ?_).bind fun s1 _ => NP.ok
  exact Ind.ite hs hs

theorem NPC.attachLoop (hC : NPC spec C) (cs : List Elem) (b f : Bool) (s : CState) (he : ∀ e ∈ cs, Sound spec e) (hs : Ind s) :
    NP (convAttachLoop C cs b f s) := by
  induction cs generalizing b f s with
  | nil => exact NP.ok
  | cons c cs ih =>
    have hc := he c List.mem_cons_self
    have ht : ∀ x ∈ cs, Sound spec x := fun x hx => he x (List.mem_cons_of_mem _ hx)
    rw [convAttachLoop.eq_def]
    dsimp only
    split
    · split
      · exact ih _ _ _ ht (((Ind.ite hs hs : Ind (if b = true then s else s.write t!"zws")).write _).write _)
      · exact ih _ _ _ ht (((Ind.ite hs hs : Ind (if b = true then s else s.write t!"zws")).write _).write _)
      · exact (hC.2 _ s hc hs).bind fun s1 h1 => ih _ _ _ ht (hs.frame (hC.1 _ s s1 h1))
      · exact (hC.2 _ s hc hs).bind fun s1 h1 => ih _ _ _ ht (hs.frame (hC.1 _ s s1 h1))
    · exact (hC.2 _ s hc hs).bind fun s1 h1 => ih _ _ _ ht (hs.frame (hC.1 _ s s1 h1))

theorem NPC.attach (hC : NPC spec C) {cs : List Elem} (s : CState) (he : Sound spec (.node .itemAttachComponent cs)) (hs : Ind s) :
    NP (convAttach C (.node .itemAttachComponent cs) s) := by
  unfold convAttach
  refine NP.bind NP.ok fun a h => ?_
  cases h
  refine NP.ite (fun _ => ?_) fun _ => hC.list cs s (fun e h => he.child rfl h) hs
  exact (hC.attachLoop cs _ _ s (fun e h => he.child rfl h) hs).bind fun r _ => NP.ok

theorem np_commandSym {t : Text} (s : CState) (h : t.head? = some '\\') : NP (convCommandSym spec (.token .tokenCommandSym t) s) := by
  obtain ⟨n, rfl⟩ : ∃ n, t = '\\' :: n := by
    cases t with
    | nil => cases h
    | cons c cs => cases h; exact ⟨cs, rfl⟩
  unfold convCommandSym
  refine NP.bind NP.ok fun a h => ?_
  cases h
  rw [dropOne_bs, ok_bind]
  split
  · exact NP.fail
  · exact NP.ok

theorem np_item {s : CState} (hs : Ind s) : NP (convItem s) := by
  unfold convItem
  refine NP.ite (fun hl => NP.ite (fun h => ?_) fun _ => NP.ok) fun _ => NP.fail
  have := hs hl
  omega

theorem takeBytes_append (t : Text) (u : Text) : takeBytes (byteLen t) (t ++ u) = some t := by
  induction t with
  | nil => cases u <;> rfl
  | cons c t ih =>
    have hp : 0 < utf8Len c := by unfold utf8Len; split <;> (try split) <;> (try split) <;> omega
    rw [byteLen, List.cons_append]
    obtain ⟨k, hk⟩ : ∃ k, utf8Len c + byteLen t = k + 1 := ⟨utf8Len c + byteLen t - 1, by omega⟩
    rw [hk, takeBytes, if_pos (by omega), show k + 1 - utf8Len c = byteLen t by omega, ih]
    rfl

theorem byteLen_append' (a b : Text) : byteLen (a ++ b) = byteLen a + byteLen b := by
  induction a with
  | nil => simp [byteLen]
  | cons c a ih => simp only [List.cons_append, byteLen, ih]; omega

theorem np_stripEnds {t : Text} (h : Delimited t) : ∃ u, stripEnds t = .ok u := by
  obtain ⟨a, inner, b, rfl, ha, hb⟩ := h
  unfold stripEnds
  have hl : byteLen (a :: (inner ++ [b])) = byteLen inner + 2 := by
    rw [byteLen, byteLen_append', byteLen, byteLen, ha, hb]; omega
  have h1 : byteLen (a :: inner) = byteLen inner + 1 := by rw [byteLen, ha]; omega
  rw [if_neg (by omega), hl, show byteLen inner + 2 - 1 = byteLen (a :: inner) by omega,
    show a :: (inner ++ [b]) = (a :: inner) ++ [b] from rfl, takeBytes_append]
  dsimp only
  rw [dropBytes, ha]
  refine ⟨inner, ?_⟩
  cases inner <;> rfl

theorem np_label {e : Elem} (s : CState) (h : ∃ a as, e.arguments = a :: as ∧ Delimited a.text) : NP (convLabel e s) := by
  obtain ⟨a, as, ha, hd⟩ := h
  obtain ⟨u, hu⟩ := np_stripEnds hd
  unfold convLabel
  rw [ha]
  dsimp only
  rw [hu, ok_bind]
  split <;> exact NP.ok

theorem findArg_spec (k : Kind) (as : List Elem) (h : ∀ a ∈ as, a.childNodes ≠ []) :
    ∃ o, findArg k as = .ok o ∧ (∀ a, o = some a → a ∈ as) ∧
      ((∃ a ∈ as, ∃ c cs, a.childNodes = c :: cs ∧ c.kind = k) → ∃ a, o = some a) := by
  induction as with
  | nil => exact ⟨none, rfl, fun a ha => (by cases ha), fun ⟨a, ha, _⟩ => (by cases ha)⟩
  | cons a as ih =>
    rw [findArg.eq_def]
    dsimp only
    cases hc : a.childNodes with
    | nil => exact absurd hc (h a List.mem_cons_self)
    | cons c cs =>
      dsimp only
      by_cases hk : c.kind = k
      · rw [if_pos hk]
        exact ⟨some a, rfl, fun b hb => (by cases hb; exact List.mem_cons_self), fun _ => ⟨a, rfl⟩⟩
      · rw [if_neg hk]
        obtain ⟨o, h1, h2, h3⟩ := ih fun b hb => h b (List.mem_cons_of_mem _ hb)
        refine ⟨o, h1, fun b hb => List.mem_cons_of_mem _ (h2 b hb), ?_⟩
        rintro ⟨b, hb, c', cs', hc', hk'⟩
        rcases List.mem_cons.1 hb with rfl | hb
        · rw [hc] at hc'; cases hc'; exact absurd hk' hk
        · exact h3 ⟨b, hb, c', cs', hc', hk'⟩

theorem np_image {e : Elem} (s : CState) (h : (∀ a ∈ e.arguments, Delimited a.text ∧ a.childNodes ≠ []) ∧
    ∃ a ∈ e.arguments, ∃ c cs, a.childNodes = c :: cs ∧ c.kind = .itemCurly) : NP (convImage e s) := by
  obtain ⟨h1, h2⟩ := h
  have h3 : ∀ a ∈ e.arguments, a.childNodes ≠ [] := fun a ha => (h1 a ha).2
  obtain ⟨o, ho, hom, _⟩ := findArg_spec .itemBracket e.arguments h3
  obtain ⟨p, hp, hpm, hpe⟩ := findArg_spec .itemCurly e.arguments h3
  obtain ⟨a, rfl⟩ := hpe h2
  unfold convImage
  rw [ho, ok_bind, hp, ok_bind]
  dsimp only
  obtain ⟨u, hu⟩ := np_stripEnds (h1 a (hpm a rfl)).1
  rw [hu, ok_bind]
  refine NP.bind ?_ fun s1 _ => NP.ok
  unfold convImageOpt
  cases o with
  | none => exact NP.ok
  | some b =>
    dsimp only
    obtain ⟨u, hu⟩ := np_stripEnds (h1 b (hom b rfl)).1
    rw [hu, ok_bind]
    exact NP.ok

theorem NPC.colorBody (hC : NPC spec C) (es : List Elem) (s : CState) (he : ∀ e ∈ es, Sound spec e) (hs : Ind s) :
    NP (convColorBody C es s) := by
  induction es generalizing s with
  | nil => exact NP.ok
  | cons e es ih =>
    rw [convColorBody]
    have h1 : NP (convColorOne C e s) := by
      unfold convColorOne
      refine NP.ite (fun _ => ?_) fun _ => hC.2 _ _ (he _ List.mem_cons_self) hs
      exact (hC.2 _ _ (he _ List.mem_cons_self) (hs.write _)).bind fun _ _ => NP.ok
    refine h1.bind fun s1 h1 => ?_
    exact ih _ (fun x hx => he x (List.mem_cons_of_mem _ hx)) (hs.frame (hC.1.colorOne e s s1 h1))

theorem takeModel_sub (es : List Elem) : ∀ x ∈ (takeModel es).2, x ∈ es := by
  induction es with
  | nil => intro x hx; exact hx
  | cons e es ih =>
    rw [takeModel]
    split
    · intro x hx; exact List.mem_cons_of_mem _ hx
    · intro x hx; exact List.mem_cons_of_mem _ (ih x hx)

theorem colorArgs_sub (es : List Elem) : ∀ x ∈ (colorArgs es).2.1.toList ++ (colorArgs es).2.2, x ∈ es := by
  have sk : ∀ l : List Elem, ∀ x ∈ skipTrivia l, x ∈ l := fun l x hx => (List.dropWhile_sublist _).subset hx
  have key : ∀ l : List Elem, ∀ x ∈ (skipTrivia l).head?.toList ++ (skipTrivia l).tail, x ∈ l := by
    intro l x hx
    apply sk
    cases hl : skipTrivia l with
    | nil => rw [hl] at hx; exact hx
    | cons a as => rw [hl] at hx; simpa using hx
  intro x hx
  unfold colorArgs at hx
  dsimp only at hx
  have h2 := key _ x hx
  split at h2
  · rename_i e rest hsk
    split at h2
    · apply sk; rw [hsk]; exact List.mem_cons_of_mem _ (takeModel_sub _ _ h2)
    · apply sk; exact h2
  · cases h2

/-- The children of arguments may be converted. -/
theorem Sound.arg {e a : Elem} (h : Sound spec e) (ha : a ∈ e.arguments) : Sound spec a ∧ ∃ cs, a = .node .clauseArgument cs := by
  cases e with
  | token k t => cases ha
  | node k cs =>
    unfold Elem.arguments Elem.childNodes at ha
    obtain ⟨h1, h2⟩ := List.mem_filter.1 ha
    obtain ⟨h3, h4⟩ := List.mem_filter.1 h1
    have hf := ((Forall_node _ _ _).1 h.1).2 a h3
    refine ⟨.isNode hf h4, ?_⟩
    cases a with
    | token => cases h4
    | node k' cs' => have : k' = .clauseArgument := of_decide_eq_true h2; subst this; exact ⟨cs', rfl⟩

theorem textColorArgs_spec (args : List Elem) :
    ∃ r, textColorArgs args = .ok r ∧ ∀ x ∈ r.2.1.toList ++ r.2.2, x ∈ args := by
  unfold textColorArgs
  cases args with
  | nil => exact ⟨_, rfl, fun x hx => hx⟩
  | cons a as =>
    dsimp only
    have key : ∀ x ∈ as.head?.toList ++ as.tail, x ∈ a :: as := by
      intro x hx
      apply List.mem_cons_of_mem
      cases as with
      | nil => exact hx
      | cons b bs => simpa using hx
    split
    · split
      · exact ⟨_, rfl, key⟩
      · exact ⟨_, rfl, key⟩
    · exact ⟨_, rfl, fun x hx => by simpa using hx⟩

theorem colorParts_spec {e : Elem} (name : Text) (he : Sound spec e) (hn : name = t!"\\color" → e.arguments ≠ []) :
    ∃ r, colorParts name e = .ok r ∧ ∀ x ∈ r.2.1.toList ++ r.2.2, Sound spec x := by
  unfold colorParts
  by_cases hc : name = t!"\\color"
  · simp only [hc, if_true]
    cases ha : e.arguments with
    | nil => exact absurd ha (hn hc)
    | cons a as =>
      dsimp only
      have ha' : a ∈ e.arguments := by rw [ha]; exact List.mem_cons_self
      obtain ⟨h1, cs, rfl⟩ := he.arg ha'
      exact ⟨_, rfl, fun x hx => h1.child rfl (colorArgs_sub _ x hx)⟩
  · simp only [hc, if_false]
    obtain ⟨r, h1, h2⟩ := textColorArgs_spec e.arguments
    exact ⟨r, h1, fun x hx => (he.arg (h2 x hx)).1⟩

theorem NPC.color (hC : NPC spec C) (sp : CommandSpec) (name : Text) (e : Elem) (s : CState) (he : Sound spec e) (hs : Ind s)
    (hn : name = t!"\\color" → e.arguments ≠ []) : NP (convColor C sp name e s) := by
  obtain ⟨r, h1, h2⟩ := colorParts_spec name he hn
  obtain ⟨model, color, body⟩ := r
  unfold convColor
  rw [h1, ok_bind]
  dsimp only
  have hw : ∀ {s' : CState}, Frame s s' → Ind s' := fun h => hs.frame h
  have n1 : ∀ s', Ind s' → NP (convColorName C color s') := by
    intro s' hs'
    unfold convColorName
    cases color with
    | none => exact NP.ok
    | some c =>
      dsimp only
      exact (hC.2 c _ (h2 c (by simp)) (hs'.setMode _)).bind fun _ _ => NP.ok
  have rest : ∀ s0, Frame s s0 → NP (do
      let s ← convColorName C color s0
      let s := (s.write t!"])").write ['[']
      let s ← convColorBody C body s
      let s := s.write [']']
      .ok (if s.mode = .text then s.write [';'] else s)) := by
    intro s0 f0
    refine (n1 _ (hw f0)).bind fun s1 h3 => ?_
    have f1 := f0.trans (hC.1.colorName _ _ s1 h3)
    exact (hC.colorBody body _ (fun x hx => h2 x (List.mem_append_right _ hx)) (hw ((f1.write _).write _))).bind fun s2 _ => NP.ok
  cases model with
  | none => exact rest _ (((((Frame.refl s).write _).write _).write _).write _)
  | some m => exact rest _ (((((((Frame.refl s).write _).write _).write _).write _).write _).write _)

theorem NPC.args (hC : NPC spec C) (k : Kind) (as : List Elem) (s : CState) (he : ∀ e ∈ as, Sound spec e) (hs : Ind s) :
    NP (convArgs C k as s) := by
  induction as generalizing s with
  | nil => exact NP.ok
  | cons e es ih =>
    rw [convArgs]
    refine (hC.2 e s (he e List.mem_cons_self) hs).bind fun s1 h1 => ?_
    have := hs.frame (hC.1 e s s1 h1)
    exact ih _ (fun x hx => he x (List.mem_cons_of_mem _ hx)) (Ind.ite this this)

theorem NPC.textArgs (hC : NPC spec C) (as : List Elem) (s : CState) (he : ∀ e ∈ as, Sound spec e) (hs : Ind s) :
    NP (convTextArgs C as s) := by
  induction as generalizing s with
  | nil => exact NP.ok
  | cons e es ih =>
    have ht : ∀ x ∈ es, Sound spec x := fun x hx => he x (List.mem_cons_of_mem _ hx)
    rw [convTextArgs]
    refine NP.ite (fun _ => ?_) fun _ => ih _ ht hs
    dsimp only
    refine (hC.2 e _ (he e List.mem_cons_self) ((hs.write _).setMode _)).bind fun s1 h1 => ?_
    have h2 : Ind s1 := ((hs.write ['[']).setMode .text).frame (hC.1 e _ s1 h1)
    exact ih _ ht ((h2.setMode _).write _)

theorem NPC.normalArgs (hC : NPC spec C) (sh : CmdShape) (tn : Text) (args : List Elem) (s : CState) (he : ∀ e ∈ args, Sound spec e)
    (hs : Ind s) (hg : sh.args = .right .greedy → ∃ k as rest, args = .node k as :: rest ∧ k.ownsSym = false) :
    NP (convNormalArgs C sh tn args s) := by
  unfold convNormalArgs
  refine NP.ite (fun _ => NP.ok) fun _ => NP.ite (fun hgr => ?_) fun _ => NP.ite (fun _ => ?_) fun _ => ?_
  · obtain ⟨k, as, rest, rfl, hk⟩ := hg hgr
    dsimp only
    refine NP.bind NP.ok fun a ha => ?_
    cases ha
    exact (hC.args _ as _ (fun x hx => (he _ List.mem_cons_self).child hk hx) (hs.write _)).bind fun _ _ => NP.ok
  · exact (hC.args _ args _ he (hs.write _)).bind fun _ _ => NP.ok
  · exact (hC.textArgs args _ he hs).bind fun _ _ => NP.ok

theorem NPC.normal (hC : NPC spec C) {cs : List Elem} (s : CState) (he : Sound spec (.node .itemCmd cs)) (hs : Ind s) :
    NP (convNormal C spec (.node .itemCmd cs) s) := by
  have hf := (Forall_node _ _ _).1 he.1
  obtain ⟨name, hname, hg, _⟩ := hf.1.2.2.1 rfl
  unfold convNormal
  have : cmdNameOf (.node .itemCmd cs) = .ok ('\\' :: name) := by unfold cmdNameOf; rw [hname]
  rw [this, ok_bind, dropOne_bs, ok_bind]
  dsimp only
  split
  · exact NP.fail
  · rename_i sh hsh
    have hargs : ∀ e ∈ (Elem.node .itemCmd cs).children.filter fun c => decide (c.kind ≠ .clauseCommandName), Sound spec e :=
      fun e h => he.child rfl (List.mem_filter.1 h).1
    by_cases hsub : typstName s.mode name sh = t!"substack"
    · have hd : decide (typstName s.mode name sh = t!"substack") = true := decide_eq_true hsub
      rw [hd]
      simp only [if_true]
      have h0 := Inside.enter .subStack (s.write (typstName s.mode name sh))
      refine (hC.normalArgs sh _ _ _ hargs (Ind.enter _) (hg sh hsh)).bind fun s1 h1 => ?_
      have h2 := h0.then (hC.1.normalArgs _ _ _ _ s1 h1)
      obtain ⟨c, hc, _⟩ := h2.exit
      rw [hc]
      exact NP.ok
    · have hd : decide (typstName s.mode name sh = t!"substack") = false := decide_eq_false hsub
      rw [hd]
      simp only [Bool.false_eq_true, if_false]
      exact (hC.normalArgs sh _ _ _ hargs (hs.write _) (hg sh hsh)).bind fun s1 h1 => NP.ok

theorem isCommand_of {cs : List Elem} {n : Text} (h : (Elem.node .itemCmd cs).cmdName = some n) :
    isCommand n (.node .itemCmd cs) = true := by
  unfold isCommand
  rw [h]
  simp [Elem.kind]

theorem NPC.cmd (hC : NPC spec C) {cs : List Elem} (s : CState) (he : Sound spec (.node .itemCmd cs)) (hs : Ind s) :
    NP (convCmd C spec (.node .itemCmd cs) s) := by
  have hf := (Forall_node _ _ _).1 he.1
  obtain ⟨name, hname, hg, hcol⟩ := hf.1.2.2.1 rfl
  have hp := hf.1.2.2.2.2.2
  unfold convCmd
  have : cmdNameOf (.node .itemCmd cs) = .ok ('\\' :: name) := by unfold cmdNameOf; rw [hname]
  rw [this, ok_bind, dropOne_bs, ok_bind]
  refine NP.ite (fun _ => np_item hs) fun _ => NP.ite (fun hn => ?_) fun _ => NP.ite (fun hn => ?_) fun _ =>
    NP.ite (fun hn => ?_) fun _ => hC.normal s he hs
  · subst hn; exact np_label s (hp.1 (isCommand_of hname))
  · subst hn; exact np_image s (hp.2.1 (isCommand_of hname))
  · refine hC.color spec _ _ s he hs fun h => hcol ?_
    cases h; rfl

theorem NPC.namedArgs (hC : NPC spec C) (i : Nat) (as : List Elem) (s : CState) (he : ∀ e ∈ as, Sound spec e) (hs : Ind s) :
    NP (convNamedArgs C i as s) := by
  induction as generalizing i s with
  | nil => exact NP.ok
  | cons e es ih =>
    rw [convNamedArgs]
    refine (hC.2 e _ (he e List.mem_cons_self) (hs.write _)).bind fun s1 h1 => ?_
    have : Ind s1 := (hs.write _).frame (hC.1 e _ s1 h1)
    exact ih _ _ (fun x hx => he x (List.mem_cons_of_mem _ hx)) (this.write _)

/-- A sound element that is a command has a name. -/
theorem Sound.cmdName {e : Elem} (h : Sound spec e) (hk : e.kind = .itemCmd) :
    ∃ name, e.cmdName = some ('\\' :: name) ∧ cmdNameOf e = .ok ('\\' :: name) := by
  obtain ⟨cs, hcs⟩ := h.as_node (by rw [hk]; decide)
  rw [hk] at hcs
  subst hcs
  obtain ⟨name, hname, _⟩ := ((Forall_node _ _ _).1 h.1).1.2.2.1 rfl
  exact ⟨name, hname, by unfold cmdNameOf; rw [hname]⟩

theorem np_named {e : Elem} (h : Sound spec e) : NP (isNamedArg e) := by
  unfold isNamedArg
  refine NP.ite (fun hk => ?_) fun _ => NP.ok
  obtain ⟨name, _, h2⟩ := h.cmdName hk
  rw [h2, ok_bind]
  exact NP.ok

theorem np_findCaption (es : List Elem) (cap : Option Elem) (he : ∀ e ∈ es, Sound spec e)
    (hc : ∀ c ∈ es, isCommand t!"\\caption" c = true → c.arguments ≠ []) : NP (findCaption es cap) := by
  induction es generalizing cap with
  | nil => exact NP.ok
  | cons e es ih =>
    have ih' : ∀ cap, NP (findCaption es cap) := fun cap =>
      ih cap (fun x hx => he x (List.mem_cons_of_mem _ hx)) fun x hx => hc x (List.mem_cons_of_mem _ hx)
    rw [findCaption]
    refine (np_named (he e List.mem_cons_self)).bind fun b hb => NP.ite (fun hbt => ?_) fun _ => ih' _
    have hk : e.kind = .itemCmd := by
      unfold isNamedArg at hb
      split at hb
      · assumption
      · cases hb; cases hbt
    obtain ⟨name, h1, h2⟩ := (he e List.mem_cons_self).cmdName hk
    rw [h2, ok_bind, dropOne_bs, ok_bind]
    refine NP.ite (fun hn => ?_) fun _ => ih' _
    subst hn
    have := hc e List.mem_cons_self (by unfold isCommand; rw [h1, hk]; decide)
    cases ha : e.arguments with
    | nil => exact absurd ha this
    | cons a as => exact ih' _

theorem NPC.figureBody (hC : NPC spec C) (es : List Elem) (s : CState) (he : ∀ e ∈ es, Sound spec e) (hs : Ind s) :
    NP (convFigureBody C es s) := by
  induction es generalizing s with
  | nil => exact NP.ok
  | cons e es ih =>
    have ht : ∀ x ∈ es, Sound spec x := fun x hx => he x (List.mem_cons_of_mem _ hx)
    rw [convFigureBody]
    refine NP.ite (fun _ => ih s ht hs) fun _ => ?_
    refine (np_named (he e List.mem_cons_self)).bind fun b hb => NP.ite (fun hbt => ih s ht hs) fun _ => ?_
    exact (hC.2 e s (he e List.mem_cons_self) hs).bind fun s1 h1 => ih s1 ht (hs.frame (hC.1 e s s1 h1))

/-- What an environment node says about its parts. -/
theorem Sound.env {cs : List Elem} (he : Sound spec (.node .itemEnv cs)) :
    (∀ e ∈ cs, Sound spec e) ∧ ∀ e ∈ (Elem.node .itemEnv cs).envArguments, Sound spec e := by
  refine ⟨fun e h => he.child rfl h, fun e h => ?_⟩
  unfold Elem.envArguments at h
  split at h
  · rename_i b hb
    have hm := List.mem_of_find?_eq_some hb
    have hb' := List.mem_filter.1 hm
    have hf := ((Forall_node _ _ _).1 he.1).2 b hb'.1
    exact ((Sound.isNode hf hb'.2).arg h).1
  · cases h

theorem NPC.caption (hC : NPC spec C) (o : Option Elem) (s : CState) (ho : ∀ c, o = some c → Sound spec c) (hs : Ind s) :
    NP (convCaption C o s) := by
  unfold convCaption
  cases o with
  | none => exact NP.ok
  | some c => exact (hC.2 c _ (ho c rfl) (hs.write _)).bind fun _ _ => NP.ok

theorem findCaption_sound (es : List Elem) (cap : Option Elem) (he : ∀ e ∈ es, Sound spec e) (hc : ∀ c, cap = some c → Sound spec c) :
    IfOk (fun o => ∀ c, o = some c → Sound spec c) (findCaption es cap) := by
  induction es generalizing cap with
  | nil => exact IfOk.ok hc
  | cons e es ih =>
    have ih' : ∀ cap, (∀ c, cap = some c → Sound spec c) → IfOk (fun o => ∀ c, o = some c → Sound spec c) (findCaption es cap) :=
      fun cap => ih cap (fun x hx => he x (List.mem_cons_of_mem _ hx))
    rw [findCaption]
    refine (IfOk.any _).bind fun b _ => IfOk.ite (fun _ => ?_) fun _ => ih' _ hc
    refine (IfOk.any _).bind fun _ _ => (IfOk.any _).bind fun _ _ => IfOk.ite (fun _ => ?_) fun _ => ih' _ hc
    cases ha : e.arguments with
    | nil => exact IfOk.error
    | cons a as =>
      refine ih' _ fun c hcc => ?_
      cases hcc
      exact ((he e List.mem_cons_self).arg (by rw [ha]; exact List.mem_cons_self)).1

theorem NPC.figure (hC : NPC spec C) (tn : Text) {cs : List Elem} (s : CState) (he : Sound spec (.node .itemEnv cs)) (hs : Ind s)
    (hc : ∀ c ∈ cs, isCommand t!"\\caption" c = true → c.arguments ≠ []) : NP (convFigure C .figure tn (.node .itemEnv cs) s) := by
  unfold convFigure
  refine NP.bind NP.ok fun a ha => ?_
  cases ha
  refine (np_findCaption cs none he.env.1 hc).bind fun cap hcap => ?_
  have hcs := findCaption_sound cs none he.env.1 (fun c h => (by cases h)) cap hcap
  dsimp only
  have i0 := (((Inside.enter .figure s).write ['#']).write tn).write ['(']
  refine (hC.caption cap _ hcs ((((Ind.enter _).write _).write _).write _)).bind fun s1 h1 => ?_
  have i1 := i0.then (hC.1.caption _ _ s1 h1)
  have ind1 : Ind (s1.write t!")[") := by
    intro hl
    have : (s1.write t!")[").env = .figure := i1.2.1
    rw [this] at hl; cases hl
  refine (hC.figureBody cs _ he.env.1 ind1).bind fun s2 h2 => ?_
  obtain ⟨c, hc, _⟩ := (((i1.write _).then (hC.1.figureBody _ _ s2 h2)).write t!"];").exit
  rw [hc]
  exact NP.ok

theorem NPC.tableLoop (hC : NPC spec C) (es : List Elem) (ext : Bool) (s : CState) (he : ∀ e ∈ es, Sound spec e) (hs : Ind s) :
    NP (tableLoop C es ext s) := by
  induction es generalizing ext s with
  | nil => exact NP.ok
  | cons e es ih =>
    have ht : ∀ x ∈ es, Sound spec x := fun x hx => he x (List.mem_cons_of_mem _ hx)
    have hh := he e List.mem_cons_self
    rw [Mitex.tableLoop]
    refine NP.ite (fun _ => ih _ s ht hs) fun _ => ?_
    have int : ∀ s', Ind s' → NP (tableInterior C e s') := by
      intro s' hs'
      unfold Mitex.tableInterior
      split
      · exact NP.ok
      · exact NP.ok
      · exact (hC.2 e s' hh hs').bind fun _ _ => NP.ok
    have extn : NP (tableExterior e s) := by
      unfold Mitex.tableExterior
      split
      · exact NP.ok
      · exact NP.ok
      · exact NP.ok
      · exact NP.ok
      · rename_i hk
        obtain ⟨name, _, h2⟩ := hh.cmdName hk
        rw [h2, ok_bind, dropOne_bs, ok_bind]
        split <;> exact NP.ok
      · exact NP.ok
    have step : NP (Mitex.tableStep C e ext s) := by
      unfold Mitex.tableStep
      refine NP.ite (fun _ => ?_) fun _ => int s hs
      exact extn.bind fun r hr => NP.ite (fun _ => NP.ok) fun _ => int _ (hs.frame (tableExterior_frame e s r hr))
    exact step.bind fun r hr => ih _ _ ht (hs.frame (hC.1.tableStep e ext s r hr))

theorem np_splitAlign (t : Text) (i : Nat) : NP (splitAlign t i) := by
  induction t generalizing i with
  | nil => exact NP.ok
  | cons c t ih =>
    rw [splitAlign]
    refine NP.ite (fun _ => (ih _).bind fun _ _ => NP.ok) fun _ => NP.ite (fun _ => (ih _).bind fun _ _ => NP.ok) fun _ => NP.fail

theorem NPC.table (hC : NPC spec C) (tn : Text) {cs : List Elem} (s : CState) (he : Sound spec (.node .itemEnv cs))
    (ht : ∃ a as, (Elem.node .itemEnv cs).envArguments = a :: as ∧ Delimited a.text) :
    NP (convTable C .table tn (.node .itemEnv cs) s) := by
  obtain ⟨a, as, ha, hd⟩ := ht
  obtain ⟨u, hu⟩ := np_stripEnds hd
  unfold convTable
  refine NP.bind NP.ok fun b hb => ?_
  cases hb
  rw [ha]
  dsimp only
  rw [hu, ok_bind]
  refine (np_splitAlign _ _).bind fun r _ => ?_
  obtain ⟨al, vl⟩ := r
  dsimp only
  have i0 := (Inside.enter .table s).write (tableHeader tn al vl)
  refine (hC.tableLoop cs true _ he.env.1 ((Ind.enter _).write _)).bind fun s1 h1 => ?_
  obtain ⟨c, hc, _⟩ := ((i0.then (hC.1.tableLoop _ _ _ s1 h1)).write t!");").exit
  rw [hc]
  exact NP.ok

theorem envBody_sub {cs : List Elem} : ∀ e ∈ envBody (.node .itemEnv cs), e ∈ cs := fun _ h => (List.mem_filter.1 h).1

theorem NPC.mathEnv (hC : NPC spec C) (kind : LEnv) (tn : Text) {cs : List Elem} (s : CState) (he : Sound spec (.node .itemEnv cs)) :
    NP (convMathEnv C kind tn (.node .itemEnv cs) s) := by
  unfold convMathEnv
  dsimp only
  generalize hd : decide (s.mode = .text) = dollar
  have i0 : Inside kind (inIndent kind s.indent) .math s
      (((if dollar = true then ((s.enterEnv kind).setMode .math).write t!"$ " else (s.enterEnv kind).setMode .math).write tn).write ['(']) := by
    refine Inside.write (Inside.write ?_ _) _
    split
    · exact ((Inside.enter kind s).setMode).write _
    · exact (Inside.enter kind s).setMode
  have ind : ∀ s', Inside kind (inIndent kind s.indent) .math s s' → Ind s' := by
    intro s' h hl
    rw [h.2.1] at hl
    rw [h.2.2.1, inIndent, if_pos hl]
    omega
  refine (hC.namedArgs 0 _ _ he.env.2 (ind _ i0)).bind fun s1 h1 => ?_
  have i1 := i0.then (hC.1.namedArgs _ _ _ s1 h1)
  refine (hC.list _ _ (fun e h => he.env.1 e (envBody_sub e h)) (ind _ i1)).bind fun s2 h2 => ?_
  obtain ⟨c, hc, _⟩ := ((i1.then (hC.1.list _ _ s2 h2)).write [')']).exit
  rw [hc, ok_bind]
  exact NP.ok

theorem NPC.normalEnv (hC : NPC spec C) (kind : LEnv) (tn : Text) {cs : List Elem} (s : CState) (he : Sound spec (.node .itemEnv cs)) :
    NP (convNormalEnv C kind tn (.node .itemEnv cs) s) := by
  unfold convNormalEnv
  dsimp only
  have i0 := (((Inside.enter kind s).write ['#']).write tn).write ['[']
  refine (hC.list _ _ (fun e h => he.env.1 e (envBody_sub e h)) ((((Ind.enter _).write _).write _).write _)).bind fun s2 h2 => ?_
  obtain ⟨c, hc, _⟩ := ((i0.then (hC.1.list _ _ s2 h2)).write t!"];").exit
  rw [hc]
  exact NP.ok

theorem NPC.listEnv (hC : NPC spec C) (kind : LEnv) {cs : List Elem} (s : CState) (he : Sound spec (.node .itemEnv cs)) :
    NP (convListEnv C kind (.node .itemEnv cs) s) := by
  unfold convListEnv
  dsimp only
  refine (hC.list _ _ (fun e h => he.env.1 e (envBody_sub e h)) (Ind.enter _)).bind fun s2 h2 => ?_
  obtain ⟨c, hc, _⟩ := ((Inside.enter kind s).then (hC.1.list _ _ s2 h2)).exit
  rw [hc]
  exact NP.ok

theorem ctx_figure {c : CtxFeature} (h : c.env = .figure) : c = .isFigure := by cases c <;> first | rfl | cases h
theorem ctx_table {c : CtxFeature} (h : c.env = .table) : c = .isTable := by cases c <;> first | rfl | cases h

theorem NPC.env (hC : NPC spec C) {cs : List Elem} (s : CState) (he : Sound spec (.node .itemEnv cs)) (hs : Ind s) :
    NP (convEnv C spec (.node .itemEnv cs) s) := by
  have hf := (Forall_node _ _ _).1 he.1
  obtain ⟨n, hn⟩ := hf.1.2.2.2.2.1 rfl
  have hp := hf.1.2.2.2.2.2.2.2 n
  unfold convEnv
  rw [hn]
  dsimp only
  split
  · exact NP.fail
  · rename_i sh hsh
    have hp' := hp sh rfl hn hsh
    refine NP.ite (fun _ => hC.listEnv _ s he) fun _ => NP.bind ?_ fun _ _ => NP.ok
    unfold convEnvKind
    refine NP.ite (fun _ => hC.mathEnv _ _ s he) fun _ => ?_
    split
    · rename_i hk
      rw [hk]
      exact hC.figure _ s he hs (hp'.1 (ctx_figure hk))
    · rename_i hk
      rw [hk]
      exact hC.table _ s he (hp'.2 (ctx_table hk))
    · exact hC.normalEnv _ _ s he

theorem NPC.kind (hC : NPC spec C) (e : Elem) (s : CState) (he : Sound spec e) (hs : Ind s) : NP (convKind spec C e s) := by
  have node : ∀ k, e.kind = k → k ∉ leafKinds → ∃ cs, e = .node k cs := by
    intro k hk hl; subst hk; exact he.as_node hl
  have tok : ∀ k, e.kind = k → k ∈ leafKinds → k ≠ .tokenError → ∃ t, e = .token k t := by
    intro k hk hl hne; subst hk; exact he.as_token hl hne
  unfold convKind
  split
  all_goals first | exact NP.ok | exact NP.fail | skip
  all_goals rename_i hk
  all_goals first
    | (obtain ⟨cs, rfl⟩ := node _ hk (by decide)
       first
         | (refine NP.bind NP.ok fun a ha => ?_
            cases ha
            exact hC.list _ s (fun e h => he.child rfl h) hs)
         | exact hC.formula s he hs
         | exact hC.curly s he hs
         | exact hC.clauseLR s he hs
         | exact hC.attach s he hs
         | exact hC.cmd s he hs
         | exact hC.env s he hs
         | exact NP.bind NP.ok fun _ _ => NP.ok)
    | (obtain ⟨t, rfl⟩ := tok _ hk (by decide) (by decide)
       first
         | exact np_commandSym s (he.2 t rfl)
         | exact NP.bind NP.ok fun a ha => NP.ite (fun _ => NP.ok) fun _ => NP.ok
         | exact NP.bind NP.ok fun a ha => NP.ok
         | exact NP.ite (fun _ => NP.ok) fun _ => NP.ok
         | exact NP.ite (fun _ => NP.ok) fun _ => NP.bind NP.ok fun _ _ => NP.ok
         | (split <;> exact NP.ok))

theorem NPC.body (hC : NPC spec C) : NPC spec (convBody spec C) := by
  refine ⟨hC.1.body spec, fun e s he hs => ?_⟩
  unfold convBody
  exact hC.kind e _ he (Ind.ite hs hs)

end

theorem convert_np (spec : CommandSpec) (n : Nat) : NPC spec (convert spec n) := by
  induction n with
  | zero => exact ⟨convert_framed spec 0, fun e s _ _ h => (by cases h)⟩
  | succ n ih => exact ih.body

end Mitex
