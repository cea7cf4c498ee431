/-
Converting an element converts its parts, each in its context, and keeps what they wrote.
-/
import Verif.Proof.ConvFrame
import Verif.Proof.ConvRel
import Verif.Spec.Conversion

namespace Mitex

theorem IfOk.and {α : Type} {Q R : α → Prop} {r : Res α} (h : IfOk Q r) (k : IfOk R r) : IfOk (fun a => Q a ∧ R a) r :=
  fun a ha => ⟨h a ha, k a ha⟩

theorem IfOk.self {α : Type} (r : Res α) : IfOk (fun a => r = .ok a) r := fun _ h => h

theorem Frame.pre {s s' : CState} (h : Frame s s') : s.out <+: s'.out := by
  obtain ⟨_, _, _, o, ho⟩ := h
  exact ⟨o, ho.symm⟩

theorem Inside.pre {e : LEnv} {i : Nat} {m : Mode} {s s' : CState} (h : Inside e i m s s') : s.out <+: s'.out := by
  obtain ⟨_, _, _, o, ho⟩ := h
  exact ⟨o, ho.symm⟩

theorem At.frame {x : Place} {s s' : CState} (h : At x s) (k : Frame s s') : At x s' :=
  ⟨k.1.trans h.1, k.2.1.trans h.2.1, k.2.2.1.trans h.2.2⟩

theorem At.write {x : Place} {s : CState} (h : At x s) (t : Text) : At x (s.write t) := h

theorem At.setMode {x : Place} {s : CState} (h : At x s) (m : Mode) : At ⟨m, x.env, x.lists⟩ (s.setMode m) :=
  ⟨rfl, h.2.1, h.2.2⟩

/-- The number of lists inside an environment. -/
def inLists (e : LEnv) (n : Nat) : Nat := if CState.isList e then n + 1 else n

theorem At.enter {x : Place} {s : CState} (h : At x s) (e : LEnv) : At ⟨x.mode, e, inLists e x.lists⟩ (s.enterEnv e) := by
  refine ⟨h.1, rfl, ?_⟩
  have := h.2.2
  unfold CState.enterEnv inLists
  dsimp only
  split <;> omega

/-- `c` was converted in the place `x`, after `s` and before `s'`, and what it wrote was kept. -/
def Did (C : ConvFn) (s s' : CState) (x : Place) (c : Elem) : Prop :=
  ∃ s1 s2, At x s1 ∧ C c s1 = .ok s2 ∧ s.out <+: s1.out ∧ s2.out <+: s'.out

theorem Did.mono {C : ConvFn} {s s' t t' : CState} {x : Place} {c : Elem} (h : Did C s s' x c) (h1 : t.out <+: s.out)
    (h2 : s'.out <+: t'.out) : Did C t t' x c := by
  obtain ⟨s1, s2, ha, hc, hp, hq⟩ := h
  exact ⟨s1, s2, ha, hc, h1.trans hp, hq.trans h2⟩

theorem Did.intro {C : ConvFn} {s s' t : CState} {x : Place} {c : Elem} (hx : At x s) (h : C c s = .ok t) (h2 : t.out <+: s'.out) :
    Did C s s' x c := ⟨s, t, hx, h, List.prefix_rfl, h2⟩

theorem pre_write (s : CState) (t : Text) : s.out <+: (s.write t).out := ⟨t, rfl⟩

theorem pre_ite {o : Text} {a b : CState} {p : Prop} [Decidable p] (ha : o <+: a.out) (hb : o <+: b.out) :
    o <+: (if p then a else b).out := by split <;> assumption

theorem Framed.listDid {C : ConvFn} (hC : Framed C) {x : Place} (es : List Elem) (s : CState) (hx : At x s) :
    IfOk (fun s' => ∀ c ∈ es, Did C s s' x c) (convList C es s) := by
  induction es generalizing s with
  | nil => exact IfOk.ok (by simp)
  | cons e es ih =>
    rw [convList]
    refine ((hC e s).and (IfOk.self _)).bind fun a ha => ?_
    refine ((ih a (hx.frame ha.1)).and (hC.list es a)).mono fun b hb => ?_
    intro c hc
    rcases List.mem_cons.mp hc with rfl | hc
    · exact Did.intro hx ha.2 hb.2.pre
    · exact (hb.1 c hc).mono ha.1.pre List.prefix_rfl

theorem Framed.formulaDid {C : ConvFn} (hC : Framed C) {x : Place} (e : Elem) (s : CState) (hx : At x s) :
    IfOk (fun s' => ∀ c ∈ e.children, Did C s s' ⟨.math, x.env, x.lists⟩ c) (convFormula C e s) := by
  unfold convFormula
  cases e with
  | token k t => exact IfOk.error
  | node k cs =>
    refine (IfOk.self (asNode (.node k cs))).bind fun cs' hcs => ?_
    cases hcs
    refine IfOk.ite (fun _ => IfOk.error) fun _ => ?_
    refine IfOk.bind (Q := fun s2 => ∀ c ∈ cs, Did C s s2 ⟨.math, x.env, x.lists⟩ c) ?_ fun s2 h2 => IfOk.ok ?_
    · refine (hC.listDid (x := ⟨.math, x.env, x.lists⟩) cs _ ?_).mono fun s2 h2 c hc => (h2 c hc).mono ?_ List.prefix_rfl
      · refine At.setMode ?_ _
        split
        · split <;> exact hx
        · exact hx
      · show s.out <+: (CState.out (if _ then _ else _))
        exact pre_ite (pre_ite (pre_write _ _) (pre_write _ _)) List.prefix_rfl
    · intro c hc
      refine (h2 c hc).mono List.prefix_rfl ?_
      exact pre_ite (pre_ite (pre_write (CState.setMode _ s2) _) (pre_write (CState.setMode _ s2) _)) List.prefix_rfl

theorem exit_out {s s' : CState} {e : LEnv} (h : s.exitEnv e = .ok s') : s'.out = s.out := by
  unfold CState.exitEnv at h
  split at h
  · split at h
    · cases h; rfl
    · cases h
  · cases h; rfl

theorem exit_pre {s : CState} {e : LEnv} : IfOk (fun s' => s.out <+: s'.out) (s.exitEnv e) :=
  fun s' h => by show s.out <+: s'.out; rw [exit_out h]; exact List.prefix_rfl

theorem Framed.curlyDid {C : ConvFn} (hC : Framed C) {x : Place} (e : Elem) (s : CState) (hx : At x s) :
    IfOk (fun s' => ∀ c ∈ e.children,
      Did C s s' ⟨x.mode, if x.mode = .math ∧ x.env ≠ .subStack then .mathCurlyGroup else x.env, x.lists⟩ c)
      (convCurly C e s) := by
  unfold convCurly
  cases e with
  | token k t => exact IfOk.error
  | node k cs =>
    refine (IfOk.self (asNode (.node k cs))).bind fun cs' hcs => ?_
    cases hcs
    have hd : decide (s.mode = .math ∧ s.env ≠ .subStack) = decide (x.mode = .math ∧ x.env ≠ .subStack) := by
      rw [hx.1, hx.2.1]
    rw [hd]
    by_cases hm : x.mode = .math ∧ x.env ≠ .subStack
    · rw [if_pos hm, decide_eq_true hm]
      refine (hC.listDid (x := ⟨x.mode, .mathCurlyGroup, x.lists⟩) cs _ (hx.enter .mathCurlyGroup)).bind fun s' h' => ?_
      refine IfOk.ite (fun _ => ?_) fun _ => IfOk.ok h'
      refine exit_pre.mono fun t ht c hc => (h' c hc).mono List.prefix_rfl (List.IsPrefix.trans ?_ ht)
      exact pre_ite (pre_write _ _) List.prefix_rfl
    · rw [if_neg hm, decide_eq_false hm]
      refine (hC.listDid (x := x) cs _ hx).bind fun s' h' => ?_
      refine IfOk.ite (fun _ => IfOk.ok ?_) fun _ => IfOk.ok h'
      intro c hc
      exact (h' c hc).mono List.prefix_rfl (pre_ite (pre_write _ _) List.prefix_rfl)

theorem Framed.lrArgsDid {C : ConvFn} (hC : Framed C) {x : Place} (as : List Elem) (s : CState) (hx : At x s) :
    IfOk (fun s' => ∀ c ∈ as, ¬ (c.kind = .tokenWord ∧ c.text = ['.']) → Did C s s' x c) (convLRArgs C as s) := by
  induction as generalizing s with
  | nil => exact IfOk.ok (by simp)
  | cons a as ih =>
    rw [convLRArgs]
    refine ((hC.lrArg a s).and (IfOk.self _)).bind fun b hb => ?_
    have hx' : At x (b.write [' ']) := (hx.frame hb.1).write _
    refine ((ih _ hx').and (hC.lrArgs as _)).mono fun t ht => ?_
    intro c hc hn
    rcases List.mem_cons.mp hc with rfl | hc
    · have hb2 := hb.2
      unfold convLRArg at hb2
      split at hb2
      · exact absurd ⟨rfl, rfl⟩ hn
      · exact Did.intro hx hb2 ((pre_write _ _).trans ht.2.pre)
    · exact (ht.1 c hc hn).mono (hb.1.pre.trans (pre_write _ _)) List.prefix_rfl

theorem Framed.clauseLRDid {C : ConvFn} (hC : Framed C) {x : Place} (e : Elem) (s : CState) (hx : At x s) :
    IfOk (fun s' => ∀ c ∈ e.children.tail, ¬ (c.kind = .tokenWord ∧ c.text = ['.']) → Did C s s' x c)
      (convClauseLR C e s) := by
  unfold convClauseLR
  cases e with
  | token k t => exact IfOk.error
  | node k cs =>
    refine (IfOk.self (asNode (.node k cs))).bind fun cs' hcs => ?_
    cases hcs
    cases cs with
    | nil => exact IfOk.error
    | cons hd args =>
      refine (IfOk.any _).bind fun t _ => (IfOk.any _).bind fun name _ => ?_
      have h0 : At x (if name = t!"left" then s.write t!"lr(" else s) := by split <;> exact hx
      refine (hC.lrArgsDid args _ h0).bind fun s1 h1 => IfOk.ok ?_
      intro c hc hn
      refine (h1 c hc hn).mono (pre_ite (pre_write _ _) List.prefix_rfl) (pre_ite (pre_write _ _) List.prefix_rfl)

theorem Framed.attachLoopDid {C : ConvFn} (hC : Framed C) {x : Place} (cs : List Elem) (b f : Bool) (s : CState) (hx : At x s) :
    IfOk (fun r => ∀ c ∈ cs, c.kind ≠ .tokenUnderscore → c.kind ≠ .tokenCaret → Did C s r.2 x c)
      (convAttachLoop C cs b f s) := by
  induction cs generalizing b f s with
  | nil => exact IfOk.ok (by simp)
  | cons c cs ih =>
    rw [convAttachLoop.eq_def]
    dsimp only
    have conv : ∀ (b f : Bool), IfOk (fun r => ∀ d ∈ c :: cs, d.kind ≠ .tokenUnderscore → d.kind ≠ .tokenCaret → Did C s r.2 x d)
        (C c s >>= fun s => convAttachLoop C cs b f s) := by
      intro b f
      refine ((hC c s).and (IfOk.self _)).bind fun a ha => ?_
      refine ((ih b f a (hx.frame ha.1)).and (hC.attachLoop cs b f a)).mono fun r hr => ?_
      intro d hd h1 h2
      rcases List.mem_cons.mp hd with rfl | hd
      · exact Did.intro hx ha.2 hr.2.pre
      · exact (hr.1 d hd h1 h2).mono ha.1.pre List.prefix_rfl
    have mark : ∀ (b f : Bool) (s' : CState), At x s' → s.out <+: s'.out → (c.kind = .tokenUnderscore ∨ c.kind = .tokenCaret) →
        IfOk (fun r => ∀ d ∈ c :: cs, d.kind ≠ .tokenUnderscore → d.kind ≠ .tokenCaret → Did C s r.2 x d)
        (convAttachLoop C cs b f s') := by
      intro b f s' hx' hp hk
      refine (ih b f s' hx').mono fun r hr => ?_
      intro d hd h1 h2
      rcases List.mem_cons.mp hd with rfl | hd
      · rcases hk with hk | hk
        · exact absurd hk h1
        · exact absurd hk h2
      · exact (hr d hd h1 h2).mono hp List.prefix_rfl
    split
    · split
      · refine mark _ _ _ ?_ ?_ (Or.inl rfl)
        · refine At.write (At.write ?_ _) _
          split <;> exact hx
        · exact List.IsPrefix.trans (pre_ite List.prefix_rfl (pre_write _ _)) ((pre_write _ _).trans (pre_write _ _))
      · refine mark _ _ _ ?_ ?_ (Or.inr rfl)
        · refine At.write (At.write ?_ _) _
          split <;> exact hx
        · exact List.IsPrefix.trans (pre_ite List.prefix_rfl (pre_write _ _)) ((pre_write _ _).trans (pre_write _ _))
      · exact conv _ _
      · exact conv _ _
    · exact conv _ _

theorem Framed.attachDid {C : ConvFn} (hC : Framed C) {x : Place} (e : Elem) (s : CState) (hx : At x s) :
    IfOk (fun s' => ∀ c ∈ e.children, c.kind ≠ .tokenUnderscore → c.kind ≠ .tokenCaret → Did C s s' x c)
      (convAttach C e s) := by
  unfold convAttach
  cases e with
  | token k t => exact IfOk.error
  | node k cs =>
    refine (IfOk.self (asNode (.node k cs))).bind fun cs' hcs => ?_
    cases hcs
    refine IfOk.ite (fun _ => ?_) fun _ => (hC.listDid cs s hx).mono fun a ha c hc _ _ => ha c hc
    refine (hC.attachLoopDid cs false true s hx).bind fun r hr => IfOk.ok ?_
    intro c hc h1 h2
    exact (hr c hc h1 h2).mono List.prefix_rfl (pre_ite List.prefix_rfl (pre_write _ _))

/-! ### Commands -/

theorem Framed.colorBodyDid {C : ConvFn} (hC : Framed C) {x : Place} (es : List Elem) (s : CState) (hx : At x s) :
    IfOk (fun s' => ∀ c ∈ es, Did C s s' x c) (convColorBody C es s) := by
  induction es generalizing s with
  | nil => exact IfOk.ok (by simp)
  | cons e es ih =>
    rw [convColorBody]
    have one : IfOk (fun s' => Did C s s' x e) (convColorOne C e s) := by
      unfold convColorOne
      refine IfOk.ite (fun _ => ?_) fun _ => (IfOk.self _).mono fun a ha => Did.intro hx ha List.prefix_rfl
      refine (IfOk.self _).bind fun a ha => IfOk.ok ?_
      exact (Did.intro (hx.write _) ha (pre_write _ _)).mono (pre_write _ _) List.prefix_rfl
    refine ((hC.colorOne e s).and one).bind fun a ha => ?_
    refine ((ih a (hx.frame ha.1)).and (hC.colorBody es a)).mono fun b hb => ?_
    intro c hc
    rcases List.mem_cons.mp hc with rfl | hc
    · exact ha.2.mono List.prefix_rfl hb.2.pre
    · exact (hb.1 c hc).mono ha.1.pre List.prefix_rfl

theorem Framed.colorNameDid {C : ConvFn} {x : Place} (c : Elem) (s : CState) (hx : At x s) :
    IfOk (fun s' => Did C s s' ⟨.text, x.env, x.lists⟩ c) (convColorName C (some c) s) := by
  unfold convColorName
  refine (IfOk.self _).bind fun a ha => IfOk.ok ?_
  exact ⟨_, a, hx.setMode .text, ha, List.prefix_rfl, List.prefix_rfl⟩

theorem takeModel_snd (es : List Elem) : (takeModel es).2 = afterBracket es := by
  induction es with
  | nil => rfl
  | cons e es ih =>
    rw [takeModel, afterBracket, List.dropWhile_cons]
    by_cases h : e.kind = .tokenRBracket
    · simp [h]
    · simp only [h, if_false, ne_eq, not_false_eq_true, decide_true, if_true]
      exact ih

/-- The color and the body of a color command, together. -/
theorem colorParts_eq (name : Text) (e : Elem) :
    IfOk (fun r => coloredParts name e = r.2.1.toList ++ r.2.2 ∧ (r.2.1 = none → r.2.2 = [])) (colorParts name e) := by
  have hh : ∀ l : List Elem, l = l.head?.toList ++ l.tail ∧ (l.head? = none → l.tail = []) := by
    intro l; cases l <;> simp
  unfold colorParts coloredParts
  by_cases hn : name = t!"\\color"
  · simp only [hn, if_true]
    cases e.arguments with
    | nil => exact IfOk.error
    | cons a as =>
      refine IfOk.ok ?_
      unfold colorArgs skipTrivia
      rw [isTrivia_eq]
      dsimp only
      cases hd : a.children.dropWhile (fun e => blankKind e.kind) with
      | nil => exact hh []
      | cons b cs =>
        dsimp only
        by_cases hb : b.kind = .tokenLBracket
        · simp only [hb, if_true]
          rw [takeModel_snd]
          exact hh _
        · simp only [hb, if_false]
          exact hh _
  · simp only [hn, if_false]
    unfold textColorArgs
    cases e.arguments with
    | nil => exact IfOk.ok (by simp)
    | cons a as =>
      dsimp only
      have hm : (isModel a.text = true) ↔ (a.text.head? = some '[' ∧ a.text.getLast? = some ']' ∧ 2 ≤ byteLen a.text) := by
        unfold isModel
        simp [and_assoc]
      by_cases hb : isModel a.text = true
      · rw [if_pos hb, if_pos (hm.mp hb)]
        cases stripEnds a.text <;> exact IfOk.ok (hh as)
      · rw [if_neg hb, if_neg fun h => hb (hm.mpr h)]
        exact IfOk.ok (by simp)

theorem Framed.colorDid {C : ConvFn} (hC : Framed C) {x : Place} (spec : CommandSpec) (name : Text) (e : Elem) (s : CState)
    (hx : At x s) :
    IfOk (fun s' => (∀ c, (coloredParts name e).head? = some c → Did C s s' ⟨.text, x.env, x.lists⟩ c) ∧
      ∀ c ∈ (coloredParts name e).tail, Did C s s' x c) (convColor C spec name e s) := by
  unfold convColor
  refine (colorParts_eq name e).bind fun r hr => ?_
  obtain ⟨model, color, body⟩ := r
  obtain ⟨hr, hr'⟩ := hr
  dsimp only at hr hr' ⊢
  have key : ∀ s0 : CState, At x s0 → s.out <+: s0.out → IfOk (fun s' =>
      (∀ c, (coloredParts name e).head? = some c → Did C s s' ⟨.text, x.env, x.lists⟩ c) ∧
      ∀ c ∈ (coloredParts name e).tail, Did C s s' x c) (do
        let s1 ← convColorName C color s0
        let s2 ← convColorBody C body ((s1.write t!"])").write ['['])
        .ok (if (s2.write [']']).mode = .text then (s2.write [']']).write [';'] else s2.write [']'])) := by
    intro s0 hx0 hp
    cases color with
    | none =>
      have : coloredParts name e = [] := by rw [hr, hr' rfl]; rfl
      rw [this]
      exact (IfOk.any _).mono fun _ _ => by simp
    | some c0 =>
      refine ((Framed.colorNameDid c0 s0 hx0).and (hC.colorName (some c0) s0)).bind fun s1 h1 => ?_
      have hx1 : At x ((s1.write t!"])").write ['[']) := ((hx0.frame h1.2).write _).write _
      refine ((hC.colorBodyDid body _ hx1).and (hC.colorBody body _)).bind fun s2 h2 => IfOk.ok ?_
      have he : coloredParts name e = c0 :: body := hr
      rw [he]
      have hend : s2.out <+: (if (s2.write [']']).mode = .text then (s2.write [']']).write [';'] else s2.write [']']).out :=
        pre_ite ((pre_write _ _).trans (pre_write _ _)) (pre_write _ _)
      have hw : s1.out <+: ((s1.write t!"])").write ['[']).out := (pre_write _ _).trans (pre_write _ _)
      refine ⟨fun c hc => ?_, fun c hc => ?_⟩
      · cases hc
        exact h1.1.mono hp ((hw.trans h2.2.pre).trans hend)
      · exact (h2.1 c hc).mono ((hp.trans h1.2.pre).trans hw) hend
  refine key _ ?_ ?_
  · cases model <;> exact hx
  · cases model with
    | none => exact ((pre_write _ _).trans (pre_write _ _)).trans ((pre_write _ _).trans (pre_write _ _))
    | some m => exact ((pre_write _ _).trans (pre_write _ _)).trans ((((pre_write _ _).trans (pre_write _ _)).trans (pre_write _ _)).trans (pre_write _ _))

theorem Framed.argsDid {C : ConvFn} (hC : Framed C) {x : Place} (k : Kind) (as : List Elem) (s : CState) (hx : At x s) :
    IfOk (fun s' => ∀ c ∈ as, Did C s s' x c) (convArgs C k as s) := by
  induction as generalizing s with
  | nil => exact IfOk.ok (by simp)
  | cons a as ih =>
    rw [convArgs]
    refine ((hC a s).and (IfOk.self _)).bind fun b hb => ?_
    have hb1 := hx.frame hb.1
    have hx' : At x (if a.kind = k ∧ as ≠ [] then b.write [','] else b) := by split <;> exact hb1
    have hp : b.out <+: (if a.kind = k ∧ as ≠ [] then b.write [','] else b).out := pre_ite (pre_write _ _) List.prefix_rfl
    refine ((ih _ hx').and (hC.args k as _)).mono fun t ht => ?_
    intro c hc
    rcases List.mem_cons.mp hc with rfl | hc
    · exact Did.intro hx hb.2 (hp.trans ht.2.pre)
    · exact (ht.1 c hc).mono (hb.1.pre.trans hp) List.prefix_rfl

theorem Framed.textArgsDid {C : ConvFn} (hC : Framed C) {x : Place} (as : List Elem) (s : CState) (hx : At x s) :
    IfOk (fun s' => ∀ c ∈ as, c.kind = .clauseArgument → Did C s s' ⟨.text, x.env, x.lists⟩ c) (convTextArgs C as s) := by
  induction as generalizing s with
  | nil => exact IfOk.ok (by simp)
  | cons a as ih =>
    rw [convTextArgs]
    by_cases ha : a.kind = .clauseArgument
    · simp only [ha, if_true]
      refine ((hC a _).and (IfOk.self _)).bind fun b hb => ?_
      have hx' : At x ((b.setMode (s.write ['[']).mode).write [']']) :=
        ⟨hx.1, hb.1.2.1.trans hx.2.1, hb.1.2.2.1.trans hx.2.2⟩
      have hp : b.out <+: ((b.setMode (s.write ['[']).mode).write [']']).out := pre_write (b.setMode (s.write ['[']).mode) _
      refine ((ih _ hx').and (hC.textArgs as _)).mono fun t ht => ?_
      intro c hc hk
      rcases List.mem_cons.mp hc with rfl | hc
      · exact (Did.intro ((hx.write ['[']).setMode .text) hb.2 (hp.trans ht.2.pre)).mono (pre_write _ _) List.prefix_rfl
      · exact (ht.1 c hc hk).mono (((pre_write s ['[']).trans hb.1.pre).trans hp) List.prefix_rfl
    · simp only [ha, if_false]
      refine (ih s hx).mono fun t ht c hc hk => ?_
      rcases List.mem_cons.mp hc with rfl | hc
      · exact absurd hk ha
      · exact ht c hc hk

theorem Framed.normalArgsDid {C : ConvFn} (hC : Framed C) {x : Place} (sh : CmdShape) (tn : Text) (args : List Elem) (s : CState)
    (hx : At x s) :
    IfOk (fun s' => ∀ p ∈ argParts x sh tn args, Did C s s' p.1 p.2) (convNormalArgs C sh tn args s) := by
  unfold convNormalArgs
  refine IfOk.ite (fun h => ?_) fun h1 => IfOk.ite (fun h => ?_) fun h2 => ?_
  · exact IfOk.ok (by simp [argParts, h])
  · simp only [argParts, h]
    cases args with
    | nil => exact IfOk.error
    | cons a as =>
      dsimp only
      cases a with
      | token k t => exact IfOk.error
      | node k cs =>
        refine (IfOk.self (asNode (.node k cs))).bind fun cs' hcs => ?_
        cases hcs
        refine (hC.argsDid (x := x) _ cs _ (hx.write _)).bind fun b hb => IfOk.ok ?_
        intro p hp
        obtain ⟨c, hc, rfl⟩ := List.mem_map.mp hp
        exact (hb c hc).mono (pre_write _ _) (pre_write _ _)
  · have he : argParts x sh tn args = if x.mode = .math ∧ tn.head? ≠ some '#' then args.map fun c => (x, c)
      else (args.filter fun c => decide (c.kind = .clauseArgument)).map fun c => ({ x with mode := .text }, c) := by
      unfold argParts
      split
      · rename_i h; exact absurd h h1
      · rename_i h; exact absurd h h2
      · rfl
    rw [he, hx.1]
    by_cases hm : x.mode = .math ∧ tn.head? ≠ some '#'
    · rw [if_pos hm, if_pos hm]
      refine (hC.argsDid (x := x) _ args _ (hx.write _)).bind fun b hb => IfOk.ok ?_
      intro p hp
      obtain ⟨c, hc, rfl⟩ := List.mem_map.mp hp
      exact (hb c hc).mono (pre_write _ _) (pre_write _ _)
    · rw [if_neg hm, if_neg hm]
      refine (hC.textArgsDid args _ hx).bind fun b hb => IfOk.ok ?_
      intro p hp
      obtain ⟨c, hc, rfl⟩ := List.mem_map.mp hp
      obtain ⟨hc1, hc2⟩ := List.mem_filter.mp hc
      exact (hb c hc1 (of_decide_eq_true hc2)).mono List.prefix_rfl (pre_write _ _)

theorem typstName_eq (m : Mode) (name : Text) (sh : CmdShape) : typstName m name sh = writtenName m name sh := by
  unfold typstName writtenName
  cases sh.alias <;> rfl

theorem dropOne_tail {t u : Text} (h : dropOne t = .ok u) : u = t.tail := by
  obtain ⟨c, rfl⟩ := dropOne_ok h
  rfl

theorem Framed.normalDid {C : ConvFn} (hC : Framed C) {x : Place} (spec : CommandSpec) (e : Elem) (s : CState) (hx : At x s)
    {full : Text} (hf : e.cmdName = some full) (h1 : ¬ isLeafCommand full.tail) (h2 : ¬ isColorCommand full.tail) :
    IfOk (fun s' => (∃ sh, spec full.tail = some (.cmd sh)) ∧ ∀ p ∈ cmdParts spec x full e, Did C s s' p.1 p.2)
      (convNormal C spec e s) := by
  unfold convNormal
  refine (IfOk.self _).bind fun full' hf' => ?_
  have := (cmdNameOf_ok hf').symm.trans hf
  cases this
  refine (IfOk.self _).bind fun name hn => ?_
  have hn := dropOne_tail hn
  subst hn
  unfold getCmd cmdParts
  simp only [h1, h2, if_false]
  cases hs : spec full.tail with
  | none => exact IfOk.error
  | some it =>
    cases it with
    | env sh => exact IfOk.error
    | cmd sh =>
      dsimp only
      rw [typstName_eq, hx.1]
      generalize htn : writtenName x.mode full.tail sh = tn
      refine IfOk.and (fun _ _ => ⟨sh, rfl⟩) ?_
      have hx1 : At ⟨x.mode, if tn = t!"substack" then .subStack else x.env, x.lists⟩
          (if decide (tn = t!"substack") = true then (s.write tn).enterEnv .subStack else s.write tn) := by
        by_cases ht : tn = t!"substack"
        · simp only [ht, decide_true, if_true]
          exact (hx.write _).enter .subStack
        · simp only [ht, decide_false, if_false, Bool.false_eq_true]
          exact hx.write _
      have hp1 : s.out <+: (if decide (tn = t!"substack") = true then (s.write tn).enterEnv .subStack else s.write tn).out :=
        pre_ite (pre_write s tn) (pre_write s tn)
      refine (hC.normalArgsDid sh tn _ _ hx1).bind fun s1 hs1 => ?_
      refine IfOk.ite (fun _ => ?_) fun _ => ?_
      · exact exit_pre.mono fun t ht p hp => (hs1 p hp).mono hp1 ht
      · exact IfOk.ok fun p hp => (hs1 p hp).mono hp1 List.prefix_rfl

theorem Framed.cmdDid {C : ConvFn} (hC : Framed C) {x : Place} (spec : CommandSpec) (e : Elem) (s : CState) (hx : At x s) :
    IfOk (fun s' => ∃ full, e.cmdName = some full ∧
      (isLeafCommand full.tail ∨ isColorCommand full.tail ∨ ∃ sh, spec full.tail = some (.cmd sh)) ∧
      ∀ p ∈ cmdParts spec x full e, Did C s s' p.1 p.2) (convCmd C spec e s) := by
  unfold convCmd
  refine (IfOk.self _).bind fun full hf => ?_
  have hf := cmdNameOf_ok hf
  refine (IfOk.self _).bind fun name hn => ?_
  have hn := dropOne_tail hn
  subst hn
  have leaf : isLeafCommand full.tail → ∀ r : Res CState, IfOk (fun s' => ∃ full, e.cmdName = some full ∧
      (isLeafCommand full.tail ∨ isColorCommand full.tail ∨ ∃ sh, spec full.tail = some (.cmd sh)) ∧
      ∀ p ∈ cmdParts spec x full e, Did C s s' p.1 p.2) r := by
    intro h r a _
    refine ⟨full, hf, Or.inl h, ?_⟩
    unfold cmdParts
    simp only [h, if_true]
    intro p hp; cases hp
  refine IfOk.ite (fun h => leaf (Or.inl h) _) fun h1 => ?_
  refine IfOk.ite (fun h => leaf (Or.inr (Or.inl h)) _) fun h2 => ?_
  refine IfOk.ite (fun h => leaf (Or.inr (Or.inr h)) _) fun h3 => ?_
  have hl : ¬ isLeafCommand full.tail := by
    rintro (h | h | h)
    · exact h1 h
    · exact h2 h
    · exact h3 h
  refine IfOk.ite (fun h => ?_) fun h4 => ?_
  · refine (hC.colorDid spec full e s hx).mono fun a ha => ?_
    refine ⟨full, hf, Or.inr (Or.inl h), ?_⟩
    have hcol : isColorCommand full.tail := h
    unfold cmdParts
    simp only [hl, hcol, if_true, if_false]
    intro p hp
    cases hcp : coloredParts full e with
    | nil => rw [hcp] at hp; cases hp
    | cons c body =>
      rw [hcp] at hp ha
      rcases List.mem_cons.mp hp with rfl | hp
      · exact ha.1 c rfl
      · obtain ⟨b, hb, rfl⟩ := List.mem_map.mp hp
        exact ha.2 b hb
  · refine (hC.normalDid spec e s hx hf hl h4).mono fun a ha => ?_
    exact ⟨full, hf, Or.inr (Or.inr ha.1), ha.2⟩

/-! ### Environments -/

theorem envBody_eq (e : Elem) : envBody e = between e := by
  unfold envBody between isBeginEnd
  congr 1
  funext c
  cases c.kind <;> rfl

theorem Framed.listEnvDid {C : ConvFn} (hC : Framed C) {x : Place} (kind : LEnv) (e : Elem) (s : CState) (hx : At x s) :
    IfOk (fun s' => ∀ c ∈ between e, Did C s s' ⟨x.mode, kind, inLists kind x.lists⟩ c) (convListEnv C kind e s) := by
  unfold convListEnv
  rw [envBody_eq]
  refine (hC.listDid _ _ (hx.enter kind)).bind fun s1 h1 => ?_
  exact exit_pre.mono fun t ht c hc => (h1 c hc).mono List.prefix_rfl ht

theorem Framed.normalEnvDid {C : ConvFn} (hC : Framed C) {x : Place} (kind : LEnv) (tn : Text) (e : Elem) (s : CState)
    (hx : At x s) :
    IfOk (fun s' => ∀ c ∈ between e, Did C s s' ⟨x.mode, kind, inLists kind x.lists⟩ c) (convNormalEnv C kind tn e s) := by
  unfold convNormalEnv
  rw [envBody_eq]
  refine (hC.listDid _ _ ((((hx.enter kind).write _).write _).write _)).bind fun s1 h1 => ?_
  refine exit_pre.mono fun t ht c hc => (h1 c hc).mono ?_ ((pre_write _ _).trans ht)
  exact ((pre_write (s.enterEnv kind) _).trans (pre_write _ _)).trans (pre_write _ _)

theorem Framed.namedArgsDid {C : ConvFn} (hC : Framed C) {x : Place} (i : Nat) (as : List Elem) (s : CState) (hx : At x s) :
    IfOk (fun s' => ∀ c ∈ as, Did C s s' x c) (convNamedArgs C i as s) := by
  induction as generalizing i s with
  | nil => exact IfOk.ok (by simp)
  | cons a as ih =>
    rw [convNamedArgs]
    refine ((hC a _).and (IfOk.self _)).bind fun b hb => ?_
    have hx' : At x (b.write [',']) := ((hx.write _).frame hb.1).write _
    refine ((ih _ _ hx').and (hC.namedArgs _ as _)).mono fun t ht => ?_
    intro c hc
    rcases List.mem_cons.mp hc with rfl | hc
    · exact (Did.intro (hx.write _) hb.2 ((pre_write _ _).trans ht.2.pre)).mono (pre_write _ _) List.prefix_rfl
    · exact (ht.1 c hc).mono (((pre_write _ _).trans hb.1.pre).trans (pre_write _ _)) List.prefix_rfl

theorem Framed.mathEnvDid {C : ConvFn} (hC : Framed C) {x : Place} (kind : LEnv) (tn : Text) (e : Elem) (s : CState)
    (hx : At x s) :
    IfOk (fun s' => ∀ c ∈ e.envArguments ++ between e, Did C s s' ⟨.math, kind, inLists kind x.lists⟩ c)
      (convMathEnv C kind tn e s) := by
  unfold convMathEnv
  rw [envBody_eq]
  dsimp only
  have key : ∀ s0 : CState, At ⟨.math, kind, inLists kind x.lists⟩ s0 → s.out <+: s0.out → IfOk (fun s' =>
      ∀ c ∈ e.envArguments ++ between e, Did C s s' ⟨.math, kind, inLists kind x.lists⟩ c) (do
        let s1 ← convNamedArgs C 0 e.envArguments s0
        let s2 ← convList C (between e) s1
        let s3 ← (s2.write [')']).exitEnv s.env
        .ok (if decide (s.mode = .text) = true then (s3.write t!" $").setMode s.mode else s3)) := by
    intro s0 hx0 hp
    refine ((hC.namedArgsDid 0 _ s0 hx0).and (hC.namedArgs 0 _ s0)).bind fun s1 h1 => ?_
    refine ((hC.listDid _ s1 (hx0.frame h1.2)).and (hC.list _ s1)).bind fun s2 h2 => ?_
    refine exit_pre.bind fun s3 h3 => IfOk.ok ?_
    have hend : s2.out <+: (if decide (s.mode = .text) = true then (s3.write t!" $").setMode s.mode else s3).out :=
      ((pre_write s2 [')']).trans h3).trans (pre_ite (pre_write s3 t!" $") List.prefix_rfl)
    intro c hc
    rcases List.mem_append.mp hc with hc | hc
    · exact (h1.1 c hc).mono hp (h2.2.pre.trans hend)
    · exact (h2.1 c hc).mono (hp.trans h1.2.pre) hend
  refine key _ ?_ ?_
  · have h0 : At ⟨.math, kind, inLists kind x.lists⟩ ((s.enterEnv kind).setMode .math) := (hx.enter kind).setMode .math
    refine At.write (At.write ?_ _) _
    split <;> exact h0
  · refine List.IsPrefix.trans ?_ ((pre_write _ _).trans (pre_write _ _))
    exact pre_ite (pre_write ((s.enterEnv kind).setMode .math) _) List.prefix_rfl

theorem isNamedArg_eq (e : Elem) :
    IfOk (fun b => b = (isCommand t!"\\caption" e || isCommand t!"\\centering" e)) (isNamedArg e) := by
  unfold isNamedArg isCommand
  generalize t!"\\caption" = a
  generalize t!"\\centering" = b
  by_cases hk : e.kind = .itemCmd
  · rw [if_pos hk, decide_eq_true hk, Bool.true_and, Bool.true_and]
    refine (IfOk.self _).bind fun n hn => IfOk.ok ?_
    rw [cmdNameOf_ok hn]
    simp only [Option.some.injEq, Bool.decide_or]
  · rw [if_neg hk, decide_eq_false hk, Bool.false_and, Bool.false_and, Bool.or_false]
    exact IfOk.ok rfl

theorem Framed.figureBodyDid {C : ConvFn} (hC : Framed C) {x : Place} (es : List Elem) (s : CState) (hx : At x s) :
    IfOk (fun s' => ∀ c ∈ es, isBeginEnd c = false →
      (isCommand t!"\\caption" c || isCommand t!"\\centering" c) = false → Did C s s' x c)
      (convFigureBody C es s) := by
  induction es generalizing s with
  | nil => exact IfOk.ok (by simp)
  | cons e es ih =>
    rw [convFigureBody]
    refine IfOk.ite (fun h => ?_) fun h => ?_
    · refine (ih s hx).mono fun t ht c hc h1 h2 => ?_
      rcases List.mem_cons.mp hc with rfl | hc
      · rw [h] at h1; cases h1
      · exact ht c hc h1 h2
    · refine (isNamedArg_eq e).bind fun na hna => IfOk.ite (fun h3 => ?_) fun h3 => ?_
      · refine (ih s hx).mono fun t ht c hc h1 h2 => ?_
        rcases List.mem_cons.mp hc with rfl | hc
        · rw [hna, h2] at h3; cases h3
        · exact ht c hc h1 h2
      · refine ((hC e s).and (IfOk.self _)).bind fun a ha => ?_
        refine ((ih a (hx.frame ha.1)).and (hC.figureBody es a)).mono fun b hb => ?_
        intro c hc h1 h2
        rcases List.mem_cons.mp hc with rfl | hc
        · exact Did.intro hx ha.2 hb.2.pre
        · exact (hb.1 c hc h1 h2).mono ha.1.pre List.prefix_rfl

theorem findCaption_eq (es : List Elem) (cap : Option Elem) :
    IfOk (fun r => r.toList = match (es.filter (isCommand t!"\\caption")).getLast? with
      | some c => c.arguments.take 1
      | none => cap.toList) (findCaption es cap) := by
  induction es generalizing cap with
  | nil => exact IfOk.ok rfl
  | cons e es ih =>
    rw [findCaption]
    refine (isNamedArg_eq e).bind fun na hna => ?_
    have notcap : isCommand t!"\\caption" e = false → IfOk (fun r => r.toList =
        match ((e :: es).filter (isCommand t!"\\caption")).getLast? with
        | some c => c.arguments.take 1
        | none => cap.toList) (findCaption es cap) := by
      intro h
      rw [List.filter_cons, h]
      exact ih cap
    refine IfOk.ite (fun h => ?_) fun h => ?_
    · refine (IfOk.self _).bind fun full hf => (IfOk.self _).bind fun name hn => ?_
      have hf := cmdNameOf_ok hf
      have hn := dropOne_tail hn
      subst hn
      have hk : e.kind = .itemCmd := by
        rw [h] at hna
        unfold isCommand at hna
        by_cases hk : e.kind = .itemCmd
        · exact hk
        · simp [hk] at hna
      have hcap : full.tail = t!"caption" ↔ isCommand t!"\\caption" e = true := by
        rw [h] at hna
        unfold isCommand at hna ⊢
        rw [hf] at hna ⊢
        simp only [hk, decide_true, Bool.true_and, Option.some.injEq] at hna ⊢
        rw [decide_eq_true_eq]
        constructor
        · intro ht
          rcases Bool.or_eq_true _ _ |>.mp hna.symm with h1 | h1
          · exact of_decide_eq_true h1
          · have := of_decide_eq_true h1
            rw [this] at ht
            exact absurd ht (by decide)
        · intro ht; rw [ht]; rfl
      refine IfOk.ite (fun hc => ?_) fun hc => ?_
      · have hc := hcap.mp hc
        cases ha : e.arguments with
        | nil => exact IfOk.error
        | cons a as =>
          refine (ih (some a)).mono fun r hr => ?_
          rw [hr, List.filter_cons, hc, if_pos rfl]
          cases hl : es.filter (isCommand t!"\\caption") with
          | nil => simp [ha]
          | cons b bs =>
            rw [List.getLast?_cons_cons]
            cases hg : (b :: bs).getLast? with
            | none => simp at hg
            | some y => rfl
      · refine notcap ?_
        cases hx : isCommand t!"\\caption" e with
        | false => rfl
        | true => exact absurd (hcap.mpr hx) hc
    · refine notcap ?_
      have : na = false := by simpa using h
      rw [this] at hna
      exact (Bool.or_eq_false_iff.mp hna.symm).1

theorem Framed.captionDid {C : ConvFn} {x : Place} (o : Option Elem) (s : CState) (hx : At x s) :
    IfOk (fun s' => ∀ c ∈ o.toList, Did C s s' x c) (convCaption C o s) := by
  unfold convCaption
  cases o with
  | none => exact IfOk.ok (by simp)
  | some c0 =>
    refine (IfOk.self _).bind fun a ha => IfOk.ok ?_
    intro c hc
    have : c = c0 := by simpa using hc
    subst this
    exact (Did.intro (hx.write _) ha (pre_write _ _)).mono (pre_write _ _) List.prefix_rfl

theorem between_mem {e c : Elem} (h : c ∈ between e) : c ∈ e.children ∧ isBeginEnd c = false := by
  rw [← envBody_eq, envBody] at h
  have := List.mem_filter.mp h
  exact ⟨this.1, by simpa using this.2⟩

theorem Framed.figureDid {C : ConvFn} (hC : Framed C) {x : Place} (kind : LEnv) (tn : Text) (e : Elem) (s : CState)
    (hx : At x s) :
    IfOk (fun s' => ∀ c ∈ Mitex.caption e ++ (between e).filter
        (fun c => !isCommand t!"\\caption" c && !isCommand t!"\\centering" c),
        Did C s s' ⟨x.mode, kind, inLists kind x.lists⟩ c)
      (convFigure C kind tn e s) := by
  unfold convFigure
  cases e with
  | token k t => exact IfOk.error
  | node k cs =>
    refine (IfOk.self (asNode (.node k cs))).bind fun cs' hcs => ?_
    cases hcs
    refine (findCaption_eq cs none).bind fun cap hcap => ?_
    have hcap : cap.toList = Mitex.caption (.node k cs) := hcap
    dsimp only
    have hx0 : At ⟨x.mode, kind, inLists kind x.lists⟩ ((((s.enterEnv kind).write ['#']).write tn).write ['(']) :=
      (((hx.enter kind).write _).write _).write _
    have hp0 : s.out <+: ((((s.enterEnv kind).write ['#']).write tn).write ['(']).out :=
      ((pre_write (s.enterEnv kind) _).trans (pre_write _ _)).trans (pre_write _ _)
    refine ((Framed.captionDid cap _ hx0).and (hC.caption cap _)).bind fun s1 h1 => ?_
    have hx1 : At ⟨x.mode, kind, inLists kind x.lists⟩ (s1.write t!")[") := (hx0.frame h1.2).write _
    refine ((hC.figureBodyDid cs _ hx1).and (hC.figureBody cs _)).bind fun s2 h2 => ?_
    refine exit_pre.mono fun t ht c hc => ?_
    have hend : s2.out <+: t.out := (pre_write s2 _).trans ht
    rcases List.mem_append.mp hc with hc | hc
    · rw [← hcap] at hc
      exact (h1.1 c hc).mono hp0 (((pre_write s1 _).trans h2.2.pre).trans hend)
    · obtain ⟨hc, hn⟩ := List.mem_filter.mp hc
      have hb := between_mem hc
      refine (h2.1 c hb.1 hb.2 ?_).mono ((hp0.trans h1.2.pre).trans (pre_write _ _)) hend
      simpa using hn

theorem dropOne_cons {full name : Text} (h : dropOne full = .ok name) : ∃ c, full = c :: name ∧ utf8Len c = 1 := by
  unfold dropOne at h
  cases full with
  | nil => cases h
  | cons c r =>
    have hpos : 1 ≤ utf8Len c := by unfold utf8Len; split <;> (try split) <;> (try split) <;> omega
    rw [dropBytes] at h
    by_cases hc : utf8Len c = 1
    · rw [if_pos (by omega), hc] at h
      refine ⟨c, ?_, hc⟩
      cases r <;> (cases h; rfl)
    · rw [if_neg (by omega)] at h
      cases h

theorem isRule_eq {e : Elem} {full name : Text} (hk : e.kind = .itemCmd) (hf : cmdNameOf e = .ok full) (hn : dropOne full = .ok name) :
    isRule e = (ruleText name).isSome := by
  obtain ⟨c, rfl, hc⟩ := dropOne_cons hn
  unfold isRule
  rw [cmdNameOf_ok hf, hk]
  unfold ruleText
  by_cases h1 : name = t!"hline"
  · simp [h1, hc]
  by_cases h2 : name = t!"toprule"
  · simp [h2, hc]
  by_cases h3 : name = t!"midrule"
  · simp [h3, hc]
  by_cases h4 : name = t!"bottomrule"
  · simp [h4, hc]
  simp [h1, h2, h3, h4, hc]

theorem tableInteriorDid {C : ConvFn} {x : Place} (e : Elem) (s : CState) (hx : At x s) :
    IfOk (fun r => isTableMark e = false → Did C s r.2 x e) (tableInterior C e s) := by
  unfold tableInterior
  split
  · rename_i h
    exact IfOk.ok fun hm => by simp [isTableMark, h] at hm
  · rename_i h
    exact IfOk.ok fun hm => by simp [isTableMark, h] at hm
  · exact (IfOk.self _).bind fun a ha => IfOk.ok fun _ => Did.intro hx ha List.prefix_rfl

theorem tableExterior_mark (e : Elem) (s : CState) : IfOk (fun r => r.1 = true → isTableMark e = true) (tableExterior e s) := by
  unfold tableExterior
  split
  · rename_i h; exact IfOk.ok fun _ => by simp [isTableMark, h]
  · rename_i h; exact IfOk.ok fun _ => by simp [isTableMark, h]
  · rename_i h; exact IfOk.ok fun _ => by simp [isTableMark, h]
  · rename_i h; exact IfOk.ok fun _ => by simp [isTableMark, h]
  · rename_i h
    refine (IfOk.self _).bind fun full hf => (IfOk.self _).bind fun name hn => ?_
    have := isRule_eq h hf hn
    split
    · rename_i hr
      rw [hr] at this
      refine IfOk.ok fun _ => ?_
      simp [isTableMark, this]
    · exact IfOk.ok fun h => by cases h
  · exact IfOk.ok fun h => by cases h

theorem Framed.tableStepDid {C : ConvFn} {x : Place} (e : Elem) (ext : Bool) (s : CState) (hx : At x s) :
    IfOk (fun r => isTableMark e = false → Did C s r.2 x e) (Mitex.tableStep C e ext s) := by
  unfold Mitex.tableStep
  refine IfOk.ite (fun _ => ?_) fun _ => tableInteriorDid e s hx
  refine ((tableExterior_frame e s).and (tableExterior_mark e s)).bind fun r hr => ?_
  refine IfOk.ite (fun h => ?_) fun _ => ?_
  · exact IfOk.ok fun hm => by rw [hr.2 h] at hm; cases hm
  · exact (tableInteriorDid e _ (hx.frame hr.1)).mono fun q hq hm => (hq hm).mono hr.1.pre List.prefix_rfl

theorem Framed.tableLoopDid {C : ConvFn} (hC : Framed C) {x : Place} (es : List Elem) (ext : Bool) (s : CState) (hx : At x s) :
    IfOk (fun s' => ∀ c ∈ es, isBeginEnd c = false → isTableMark c = false → Did C s s' x c) (Mitex.tableLoop C es ext s) := by
  induction es generalizing ext s with
  | nil => exact IfOk.ok (by simp)
  | cons e es ih =>
    rw [Mitex.tableLoop]
    refine IfOk.ite (fun h => ?_) fun h => ?_
    · refine (ih ext s hx).mono fun t ht c hc h1 h2 => ?_
      rcases List.mem_cons.mp hc with rfl | hc
      · rw [h] at h1; cases h1
      · exact ht c hc h1 h2
    · refine ((hC.tableStep e ext s).and (Framed.tableStepDid e ext s hx)).bind fun r hr => ?_
      refine ((ih _ _ (hx.frame hr.1)).and (hC.tableLoop es _ _)).mono fun b hb => ?_
      intro c hc h1 h2
      rcases List.mem_cons.mp hc with rfl | hc
      · exact (hr.2 h2).mono List.prefix_rfl hb.2.pre
      · exact (hb.1 c hc h1 h2).mono hr.1.pre List.prefix_rfl

theorem Framed.tableDid {C : ConvFn} (hC : Framed C) {x : Place} (kind : LEnv) (tn : Text) (e : Elem) (s : CState)
    (hx : At x s) :
    IfOk (fun s' => ∀ c ∈ (between e).filter (fun c => !isTableMark c), Did C s s' ⟨x.mode, kind, inLists kind x.lists⟩ c)
      (convTable C kind tn e s) := by
  unfold convTable
  cases e with
  | token k t => exact IfOk.error
  | node k cs =>
    refine (IfOk.self (asNode (.node k cs))).bind fun cs' hcs => ?_
    cases hcs
    split
    · exact IfOk.error
    · refine (IfOk.any _).bind fun a _ => (IfOk.any _).bind fun r _ => ?_
      obtain ⟨al, vl⟩ := r
      dsimp only
      refine (hC.tableLoopDid cs true _ ((hx.enter kind).write _)).bind fun s1 h1 => ?_
      refine exit_pre.mono fun t ht c hc => ?_
      obtain ⟨hc, hn⟩ := List.mem_filter.mp hc
      have hb := between_mem hc
      exact (h1 c hb.1 hb.2 (by simpa using hn)).mono (pre_write (s.enterEnv kind) _) ((pre_write _ _).trans ht)

theorem Framed.envDid {C : ConvFn} (hC : Framed C) {x : Place} (spec : CommandSpec) (e : Elem) (s : CState) (hx : At x s) :
    IfOk (fun s' => ∃ n sh, e.envName = some n ∧ getEnv spec (trim n) = some sh ∧
      ∀ p ∈ envParts x sh e, Did C s s' p.1 p.2) (convEnv C spec e s) := by
  unfold convEnv
  cases e with
  | token k t => exact IfOk.error
  | node k cs =>
    dsimp only
    cases hn : (Elem.node k cs).envName with
    | none => exact IfOk.error
    | some n =>
      dsimp only
      cases hs : getEnv spec (trim n) with
      | none => exact IfOk.error
      | some sh =>
        dsimp only
        have step : ∀ r : Res CState, IfOk (fun s' => ∀ p ∈ envParts x sh (.node k cs), Did C s s' p.1 p.2) r →
            IfOk (fun s' => ∃ n' sh', some n = some n' ∧ getEnv spec (trim n') = some sh' ∧
              ∀ p ∈ envParts x sh' (.node k cs), Did C s s' p.1 p.2) r := by
          intro r hr a ha
          exact ⟨n, sh, rfl, hs, hr a ha⟩
        refine step _ ?_
        have tomap : ∀ (s' : CState) (y : Place) (es : List Elem), (∀ c ∈ es, Did C s s' y c) →
            ∀ p ∈ es.map (fun c => (y, c)), Did C s s' p.1 p.2 := by
          intro s' y es h p hp
          obtain ⟨c, hc, rfl⟩ := List.mem_map.mp hp
          exact h c hc
        have flush : ∀ r : Res CState, IfOk (fun s' => ∀ p ∈ envParts x sh (.node k cs), Did C s s' p.1 p.2) r →
            IfOk (fun s' => ∀ p ∈ envParts x sh (.node k cs), Did C s s' p.1 p.2) (r >>= fun s => .ok (flushLabel s)) := by
          intro r hr
          exact hr.bind fun a ha => IfOk.ok fun p hp => (ha p hp).mono List.prefix_rfl (flushLabel_frame a).pre
        unfold envParts at flush ⊢
        cases hc : sh.ctx with
        | isItemize =>
          rw [if_pos (show CState.isList (CtxFeature.env _) = true from rfl)]
          exact (hC.listEnvDid .itemize _ s hx).mono fun a ha => tomap a _ _ ha
        | isEnumerate =>
          rw [if_pos (show CState.isList (CtxFeature.env _) = true from rfl)]
          exact (hC.listEnvDid .enumerate _ s hx).mono fun a ha => tomap a _ _ ha
        | isMath =>
          rw [hc] at flush
          exact flush _ ((hC.mathEnvDid .math _ _ s hx).mono fun a ha => tomap a _ _ ha)
        | isMatrix =>
          rw [hc] at flush
          exact flush _ ((hC.mathEnvDid .matrix _ _ s hx).mono fun a ha => tomap a _ _ ha)
        | isCases =>
          rw [hc] at flush
          exact flush _ ((hC.mathEnvDid .cases _ _ s hx).mono fun a ha => tomap a _ _ ha)
        | isFigure =>
          rw [hc] at flush
          exact flush _ ((hC.figureDid .figure _ _ s hx).mono fun a ha => tomap a _ _ ha)
        | isTable =>
          rw [hc] at flush
          exact flush _ ((hC.tableDid .table _ _ s hx).mono fun a ha => tomap a _ _ ha)
        | none =>
          rw [hc] at flush
          exact flush _ ((hC.normalEnvDid .none _ _ s hx).mono fun a ha => tomap a _ _ ha)

/-- What a successful conversion of an element says about the element itself. -/
def Fine (spec : CommandSpec) (x : Place) (e : Elem) : Prop :=
  e.kind ≠ .tokenError ∧
  (e.kind = .tokenCommandSym → ∃ t sh, e = .token .tokenCommandSym t ∧ spec t.tail = some (.cmd sh)) ∧
  (e.kind = .itemCmd → ∃ full, e.cmdName = some full ∧
    (isLeafCommand full.tail ∨ isColorCommand full.tail ∨ ∃ sh, spec full.tail = some (.cmd sh)) ∧
    (full.tail = t!"item" → x.env = .itemize ∨ x.env = .enumerate)) ∧
  (e.kind = .itemEnv → ∃ n sh, e.envName = some n ∧ spec (trim n) = some (.env sh))

theorem Framed.kindDid {C : ConvFn} (hC : Framed C) {x : Place} (spec : CommandSpec) (e : Elem) (s : CState) (hx : At x s) :
    IfOk (fun s' => ∀ p ∈ parts spec x e, Did C s s' p.1 p.2) (convKind spec C e s) := by
  have tomap : ∀ (s' : CState) (y : Place) (es : List Elem), (∀ c ∈ es, Did C s s' y c) →
      ∀ p ∈ es.map (fun c => (y, c)), Did C s s' p.1 p.2 := by
    intro s' y es h p hp
    obtain ⟨c, hc, rfl⟩ := List.mem_map.mp hp
    exact h c hc
  have nodes : IfOk (fun s' => ∀ p ∈ e.children.map (fun c => (x, c)), Did C s s' p.1 p.2) (do
      let cs ← asNode e
      convList C cs s) := by
    cases e with
    | token k t => exact IfOk.error
    | node k cs => exact (hC.listDid cs s hx).mono fun a ha => tomap a _ _ ha
  unfold convKind parts
  cases hk : e.kind <;> dsimp only <;> first
    | exact nodes
    | exact (IfOk.any _).mono fun _ _ p hp => (by cases hp)
    | exact (hC.formulaDid e s hx).mono fun a ha => tomap a _ _ ha
    | exact (hC.curlyDid e s hx).mono fun a ha => tomap a _ _ ha
    | skip
  · refine (hC.clauseLRDid e s hx).mono fun a ha => tomap a _ _ fun c hc => ?_
    obtain ⟨hc, hn⟩ := List.mem_filter.mp hc
    refine ha c hc fun h => ?_
    simp [h.1, h.2] at hn
  · refine (hC.cmdDid spec e s hx).mono fun a ha => ?_
    obtain ⟨full, hf, _, h⟩ := ha
    rw [hf]
    exact h
  · refine (hC.envDid spec e s hx).mono fun a ha => ?_
    obtain ⟨n, sh, hn, hs, h⟩ := ha
    rw [hn]
    dsimp only
    rw [hs]
    exact h
  · refine (hC.attachDid e s hx).mono fun a ha => tomap a _ _ fun c hc => ?_
    obtain ⟨hc, hn⟩ := List.mem_filter.mp hc
    have := of_decide_eq_true hn
    exact ha c hc this.1 this.2

/-- Converting an element converts its parts. -/
theorem convert_parts (spec : CommandSpec) (n : Nat) {x : Place} (e : Elem) (s s' : CState) (hx : At x s)
    (h : convert spec (n + 1) e s = .ok s') : ∀ p ∈ parts spec x e, Did (convert spec n) s s' p.1 p.2 := by
  have hx' : At x (if e.kind = .tokenWhiteSpace then s else { s with skip := false }) := by split <;> exact hx
  intro p hp
  refine ((convert_framed spec n).kindDid spec e _ hx' s' h p hp).mono ?_ List.prefix_rfl
  split <;> exact List.prefix_rfl

theorem child_depth {e c : Elem} (h : c ∈ e.children) : c.depth < e.depth := by
  cases e with
  | token k t => cases h
  | node k cs =>
    have := depth_go_le (n := Elem.depth.go cs) (Nat.le_refl _) c h
    rw [Elem.depth]
    omega

theorem argument_child {e c : Elem} (h : c ∈ e.arguments) : c ∈ e.children := by
  unfold Elem.arguments Elem.childNodes at h
  exact (List.mem_filter.mp (List.mem_filter.mp h).1).1

theorem dropWhile_mem {α : Type} {p : α → Bool} {l : List α} {a : α} (h : a ∈ l.dropWhile p) : a ∈ l :=
  (List.dropWhile_sublist p).mem h

theorem colored_depth {name : Text} {e c : Elem} (h : c ∈ coloredParts name e) : c.depth < e.depth := by
  unfold coloredParts at h
  by_cases hn : name = t!"\\color"
  · simp only [hn, if_true] at h
    cases ha : e.arguments with
    | nil => rw [ha] at h; cases h
    | cons a as =>
      rw [ha] at h
      dsimp only at h
      have h1 : a.depth < e.depth := child_depth (argument_child (by rw [ha]; exact List.mem_cons_self))
      have h2 : c ∈ a.children := by
        cases hd : a.children.dropWhile (fun c => blankKind c.kind) with
        | nil => rw [hd] at h; cases h
        | cons b cs =>
          rw [hd] at h
          have hsub : ∀ x ∈ b :: cs, x ∈ a.children := fun x hx => dropWhile_mem (by rw [hd]; exact hx)
          have h := dropWhile_mem h
          refine hsub c ?_
          split at h
          · unfold afterBracket at h
            exact List.mem_cons_of_mem _ (dropWhile_mem (List.mem_of_mem_tail h))
          · exact h
      exact Nat.lt_trans (child_depth h2) h1
  · simp only [hn, if_false] at h
    cases ha : e.arguments with
    | nil => rw [ha] at h; cases h
    | cons a as =>
      rw [ha] at h
      refine child_depth (argument_child ?_)
      rw [ha]
      dsimp only at h
      split at h
      · exact List.mem_cons_of_mem _ h
      · exact h

theorem argParts_depth {x : Place} {sh : CmdShape} {tn : Text} {e : Elem} {args : List Elem} (ha : ∀ a ∈ args, a ∈ e.children)
    {p : Place × Elem} (h : p ∈ argParts x sh tn args) : p.2.depth < e.depth := by
  unfold argParts at h
  split at h
  · cases h
  · cases args with
    | nil => cases h
    | cons a as =>
      obtain ⟨c, hc, rfl⟩ := List.mem_map.mp h
      exact Nat.lt_trans (child_depth hc) (child_depth (ha a List.mem_cons_self))
  · split at h
    · obtain ⟨c, hc, rfl⟩ := List.mem_map.mp h
      exact child_depth (ha c hc)
    · obtain ⟨c, hc, rfl⟩ := List.mem_map.mp h
      exact child_depth (ha c (List.mem_filter.mp hc).1)

theorem envArguments_depth {e c : Elem} (h : c ∈ e.envArguments) : c.depth < e.depth := by
  unfold Elem.envArguments at h
  split at h
  · rename_i b hb
    have : b ∈ e.children := by
      unfold Elem.envBegin Elem.childNodes at hb
      exact (List.mem_filter.mp (List.mem_of_find?_eq_some hb)).1
    exact Nat.lt_trans (child_depth (argument_child h)) (child_depth this)
  · cases h

theorem caption_depth {e c : Elem} (h : c ∈ caption e) : c.depth < e.depth := by
  unfold caption at h
  split at h
  · rename_i d hd
    have : d ∈ e.children := (List.mem_filter.mp (List.mem_of_getLast? hd)).1
    exact Nat.lt_trans (child_depth (argument_child (List.mem_of_mem_take h))) (child_depth this)
  · cases h

/-- Parts are lower than the whole. -/
theorem parts_depth {spec : CommandSpec} {x : Place} {e : Elem} {p : Place × Elem} (h : p ∈ parts spec x e) :
    p.2.depth < e.depth := by
  have kids : ∀ (y : Place) (es : List Elem), (∀ c ∈ es, c.depth < e.depth) → p ∈ es.map (fun c => (y, c)) →
      p.2.depth < e.depth := by
    intro y es hes hp
    obtain ⟨c, hc, rfl⟩ := List.mem_map.mp hp
    exact hes c hc
  have all : ∀ c ∈ e.children, c.depth < e.depth := fun c hc => child_depth hc
  have bet : ∀ c ∈ between e, c.depth < e.depth := fun c hc => child_depth (between_mem hc).1
  unfold parts at h
  split at h
  all_goals first
    | exact kids _ _ all h
    | cases h
    | skip
  · exact kids _ _ (fun c hc => all c (List.mem_of_mem_tail (List.mem_filter.mp hc).1)) h
  · exact kids _ _ (fun c hc => all c (List.mem_filter.mp hc).1) h
  · split at h
    · unfold cmdParts at h
      dsimp only at h
      split at h
      · cases h
      · split at h
        · split at h
          · cases h
          · rename_i c body hc
            have hcol : ∀ d ∈ c :: body, d.depth < e.depth := fun d hd => colored_depth (by rw [hc]; exact hd)
            rcases List.mem_cons.mp h with rfl | h
            · exact hcol c List.mem_cons_self
            · exact kids _ _ (fun d hd => hcol d (List.mem_cons_of_mem _ hd)) h
        · split at h
          · exact argParts_depth (fun a ha => (List.mem_filter.mp ha).1) h
          · cases h
    · cases h
  · split at h
    · split at h
      · unfold envParts at h
        have args : ∀ c ∈ e.envArguments ++ between e, c.depth < e.depth := by
          intro c hc
          rcases List.mem_append.mp hc with hc | hc
          · exact envArguments_depth hc
          · exact bet c hc
        split at h
        all_goals first
          | exact kids _ _ bet h
          | exact kids _ _ args h
          | exact kids _ _ (fun c hc => bet c (List.mem_filter.mp hc).1) h
          | skip
        refine kids _ _ (fun c hc => ?_) h
        rcases List.mem_append.mp hc with hc | hc
        · exact caption_depth hc
        · exact bet c (List.mem_filter.mp hc).1
      · cases h
    · cases h

/-- Converting an element converts everything that is converted with it. -/
theorem convert_converted (spec : CommandSpec) {x y : Place} {e c : Elem} (k : Converted spec x e y c) (n : Nat) (s s' : CState)
    (hn : e.depth ≤ n) (hx : At x s) (h : convert spec n e s = .ok s') : ∃ m, c.depth ≤ m ∧ Did (convert spec m) s s' y c := by
  induction k generalizing n s s' with
  | self x e => exact ⟨n, hn, Did.intro hx h List.prefix_rfl⟩
  | part hp _ ih =>
    cases n with
    | zero => cases h
    | succ n =>
      have hd := parts_depth hp
      obtain ⟨s1, s2, ha, hc, hp, hq⟩ := convert_parts spec n _ s s' hx h _ hp
      obtain ⟨m, hm, hd⟩ := ih n s1 s2 (by dsimp only at hd; omega) ha hc
      exact ⟨m, hm, hd.mono hp hq⟩

theorem convItem_env (s : CState) : IfOk (fun _ => s.env = .itemize ∨ s.env = .enumerate) (convItem s) := by
  unfold convItem
  refine IfOk.ite (fun h _ _ => ?_) fun _ => IfOk.error
  cases he : s.env <;> rw [he] at h <;> simp [CState.isList] at h <;> simp

theorem convert_fine (spec : CommandSpec) (n : Nat) {x : Place} (e : Elem) (s s' : CState) (hx : At x s)
    (h : convert spec n e s = .ok s') : Fine spec x e := by
  cases n with
  | zero => cases h
  | succ n =>
    have hC := convert_framed spec n
    have hx' : At x (if e.kind = .tokenWhiteSpace then s else { s with skip := false }) := by split <;> exact hx
    have h : convKind spec (convert spec n) e (if e.kind = .tokenWhiteSpace then s else { s with skip := false }) = .ok s' := h
    revert h hx'
    generalize (if e.kind = .tokenWhiteSpace then s else { s with skip := false }) = t
    intro hx' h
    unfold convKind at h
    refine ⟨?_, ?_, ?_, ?_⟩
    · intro hk
      rw [hk] at h
      cases h
    · intro hk
      rw [hk] at h
      cases e with
      | node k cs => cases h
      | token k u =>
        cases hk
        have h : convCommandSym spec (.token .tokenCommandSym u) t = .ok s' := h
        unfold convCommandSym at h
        have : IfOk (fun _ => ∃ sh, spec u.tail = some (.cmd sh)) (convCommandSym spec (.token .tokenCommandSym u) t) := by
          unfold convCommandSym
          refine (IfOk.self (asToken _)).bind fun u' hu => ?_
          cases hu
          refine (IfOk.self _).bind fun name hn => ?_
          have hn := dropOne_tail hn
          subst hn
          unfold getCmd
          cases hs : spec u.tail with
          | none => exact IfOk.error
          | some it =>
            cases it with
            | env sh => exact IfOk.error
            | cmd sh => exact IfOk.ok ⟨sh, rfl⟩
        obtain ⟨sh, hs⟩ := this s' h
        exact ⟨u, sh, rfl, hs⟩
    · intro hk
      rw [hk] at h
      have h : convCmd (convert spec n) spec e t = .ok s' := h
      obtain ⟨full, hf, h1, _⟩ := hC.cmdDid spec e t hx' s' h
      refine ⟨full, hf, h1, fun hi => ?_⟩
      have : IfOk (fun _ => x.env = .itemize ∨ x.env = .enumerate) (convCmd (convert spec n) spec e t) := by
        unfold convCmd
        refine (IfOk.self _).bind fun full' hf' => ?_
        have := (cmdNameOf_ok hf').symm.trans hf
        cases this
        refine (IfOk.self _).bind fun name hn => ?_
        have hn := dropOne_tail hn
        subst hn
        rw [if_pos hi]
        rw [← hx'.2.1]
        exact convItem_env t
      exact this s' h
    · intro hk
      rw [hk] at h
      have h : convEnv (convert spec n) spec e t = .ok s' := h
      obtain ⟨m, sh, hf, hs, _⟩ := hC.envDid spec e t hx' s' h
      refine ⟨m, sh, hf, ?_⟩
      unfold getEnv at hs
      split at hs
      · cases hs; assumption
      · cases hs

end Mitex
