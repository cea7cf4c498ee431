/-
The converter restores mode, environment and indentation and only appends to the output.
-/
import Verif.Model.Convert

namespace Mitex

/-- A successful result satisfies `Q`. -/
def IfOk {α : Type} (Q : α → Prop) (r : Res α) : Prop := ∀ a, r = .ok a → Q a

theorem IfOk.bind {α β : Type} {Q : α → Prop} {R : β → Prop} {r : Res α} {f : α → Res β}
    (h : IfOk Q r) (k : ∀ a, Q a → IfOk R (f a)) : IfOk R (r >>= f) := by
  cases r with
  | error x => intro b hb; cases hb
  | ok a => exact k a (h a rfl)

theorem IfOk.any {α : Type} (r : Res α) : IfOk (fun _ => True) r := fun _ _ => trivial

theorem IfOk.ok {α : Type} {Q : α → Prop} {a : α} (h : Q a) : IfOk Q (.ok a) := by
  intro b hb; cases hb; exact h

theorem IfOk.error {α : Type} {Q : α → Prop} {x : Stop} : IfOk Q (.error x : Res α) := by
  intro b hb; cases hb

theorem IfOk.mono {α : Type} {Q R : α → Prop} {r : Res α} (h : IfOk Q r) (k : ∀ a, Q a → R a) : IfOk R r :=
  fun a ha => k a (h a ha)

theorem IfOk.ite {α : Type} {Q : α → Prop} {p : Prop} [Decidable p] {a b : Res α} (ha : p → IfOk Q a)
    (hb : ¬ p → IfOk Q b) : IfOk Q (if p then a else b) := by
  split
  · exact ha ‹_›
  · exact hb ‹_›

/-- Mode, environment and indentation are the same, the output has only grown. -/
def Frame (s s' : CState) : Prop :=
  s'.mode = s.mode ∧ s'.env = s.env ∧ s'.indent = s.indent ∧ ∃ o, s'.out = s.out ++ o

theorem Frame.refl (s : CState) : Frame s s := ⟨rfl, rfl, rfl, [], by simp⟩

theorem Frame.trans {a b c : CState} (h : Frame a b) (k : Frame b c) : Frame a c := by
  obtain ⟨h1, h2, h3, o, h4⟩ := h
  obtain ⟨k1, k2, k3, o', k4⟩ := k
  exact ⟨k1.trans h1, k2.trans h2, k3.trans h3, o ++ o', by rw [k4, h4, List.append_assoc]⟩

theorem Frame.write {a b : CState} (h : Frame a b) (t : Text) : Frame a (b.write t) :=
  h.trans ⟨rfl, rfl, rfl, t, rfl⟩

theorem Frame.skip {a b : CState} (h : Frame a b) (v : Bool) : Frame a { b with skip := v } := h

theorem Frame.label {a b : CState} (h : Frame a b) (l : Option Text) : Frame a { b with label := l } := h

theorem Frame.ite {a b c : CState} {p : Prop} [Decidable p] (hb : p → Frame a b) (hc : ¬ p → Frame a c) :
    Frame a (if p then b else c) := by
  split
  · exact hb ‹_›
  · exact hc ‹_›

/-- Frame up to mode and environment: the state between entering and leaving. -/
def Inside (e : LEnv) (i : Nat) (m : Mode) (s s' : CState) : Prop :=
  s'.mode = m ∧ s'.env = e ∧ s'.indent = i ∧ ∃ o, s'.out = s.out ++ o

theorem Inside.then {e : LEnv} {i : Nat} {m : Mode} {a b c : CState} (h : Inside e i m a b) (k : Frame b c) :
    Inside e i m a c := by
  obtain ⟨h1, h2, h3, o, h4⟩ := h
  obtain ⟨k1, k2, k3, o', k4⟩ := k
  exact ⟨k1.trans h1, k2.trans h2, k3.trans h3, o ++ o', by rw [k4, h4, List.append_assoc]⟩

theorem Inside.write {e : LEnv} {i : Nat} {m : Mode} {a b : CState} (h : Inside e i m a b) (t : Text) :
    Inside e i m a (b.write t) := h.then ((Frame.refl _).write t)

/-- The indentation inside an environment. -/
def inIndent (e : LEnv) (i : Nat) : Nat := if CState.isList e then i + 2 else i

theorem Inside.enter (e : LEnv) (s : CState) : Inside e (inIndent e s.indent) s.mode s (s.enterEnv e) :=
  ⟨rfl, rfl, rfl, [], by simp [CState.enterEnv]⟩

theorem Inside.setMode {e : LEnv} {i : Nat} {m m' : Mode} {a b : CState} (h : Inside e i m a b) :
    Inside e i m' a (b.setMode m') := ⟨rfl, h.2.1, h.2.2.1, h.2.2.2⟩

theorem Inside.mode (m : Mode) (s : CState) : Inside s.env s.indent m s (s.setMode m) :=
  ⟨rfl, rfl, rfl, [], by simp [CState.setMode]⟩

/-- Leaving an environment: never an underflow, everything is restored but the mode. -/
theorem Inside.exit {e : LEnv} {m : Mode} {a b : CState} (h : Inside e (inIndent e a.indent) m a b) :
    ∃ c, b.exitEnv a.env = .ok c ∧ Inside a.env a.indent m a c ∧ c.out = b.out ∧ c.label = b.label ∧ c.skip = b.skip := by
  obtain ⟨h1, h2, h3, h4⟩ := h
  unfold CState.exitEnv
  rw [h2]
  by_cases hl : CState.isList e = true
  · simp only [inIndent, hl, if_true] at h3
    refine ⟨{ b with env := a.env, indent := b.indent - 2 }, ?_, ⟨h1, rfl, ?_, h4⟩, rfl, rfl, rfl⟩
    · rw [if_pos hl, if_pos (by omega)]
    · show b.indent - 2 = a.indent
      omega
  · simp only [inIndent, hl] at h3
    exact ⟨{ b with env := a.env }, by rw [if_neg hl], ⟨h1, rfl, h3, h4⟩, rfl, rfl, rfl⟩

theorem Inside.frame {a b : CState} (h : Inside a.env a.indent a.mode a b) : Frame a b := h

/-- The nested converter frames. -/
def Framed (C : ConvFn) : Prop := ∀ e s, IfOk (Frame s) (C e s)

theorem Framed.list {C : ConvFn} (hC : Framed C) (es : List Elem) (s : CState) : IfOk (Frame s) (convList C es s) := by
  induction es generalizing s with
  | nil => exact IfOk.ok (Frame.refl _)
  | cons e es ih =>
    rw [convList]
    exact (hC e s).bind fun a ha => (ih a).mono fun b hb => ha.trans hb

theorem convList_fold (C : ConvFn) (es : List Elem) (s : CState) : convList C es s = es.foldlM (fun s e => C e s) s := by
  induction es generalizing s with
  | nil => rfl
  | cons e es ih =>
    rw [convList, List.foldlM_cons]
    cases h : C e s with
    | error x => rfl
    | ok a => exact ih a

theorem Framed.formula {C : ConvFn} (hC : Framed C) (e : Elem) (s : CState) : IfOk (Frame s) (convFormula C e s) := by
  unfold convFormula
  refine (IfOk.any _).bind fun cs _ => ?_
  refine IfOk.ite (fun _ => IfOk.error) fun _ => ?_
  have key : ∀ s1, Frame s s1 → IfOk (Frame s) (do
      let s2 ← convList C cs (s1.setMode .math)
      .ok (if (s2.setMode s1.mode).mode = .text then
        (if e.isInline then (s2.setMode s1.mode).write t!"$);" else (s2.setMode s1.mode).write t!" $")
        else (s2.setMode s1.mode))) := by
    intro s1 h1
    refine (hC.list cs _).bind fun s2 h2 => IfOk.ok ?_
    have h3 : Frame s1 (s2.setMode s1.mode) := ((Inside.mode .math s1).then h2).setMode
    refine h1.trans ?_
    exact Frame.ite (fun _ => Frame.ite (fun _ => h3.write _) fun _ => h3.write _) fun _ => h3
  refine key _ ?_
  exact Frame.ite (fun _ => Frame.ite (fun _ => (Frame.refl _).write _) fun _ => (Frame.refl _).write _) fun _ => Frame.refl _

/-- Running something inside an environment. -/
theorem inside_bind {e : LEnv} {s0 s : CState} {r : Res CState} (w : Text)
    (h0 : Inside e (inIndent e s0.indent) s0.mode s0 s) (h : IfOk (Frame s) r) :
    IfOk (Frame s0) (r >>= fun s' => (s'.write w).exitEnv s0.env) := by
  refine h.bind fun s' h' => ?_
  obtain ⟨c, hc, hin, _⟩ := ((h0.then h').write w).exit
  rw [hc]
  exact IfOk.ok hin

theorem Framed.curly {C : ConvFn} (hC : Framed C) (e : Elem) (s : CState) : IfOk (Frame s) (convCurly C e s) := by
  unfold convCurly
  refine (IfOk.any _).bind fun cs _ => ?_
  by_cases hm : s.mode = .math ∧ s.env ≠ .subStack
  · have hd : decide (s.mode = .math ∧ s.env ≠ .subStack) = true := decide_eq_true hm
    rw [hd]
    dsimp only
    simp only [if_true]
    have h0 := Inside.enter .mathCurlyGroup s
    refine (hC.list cs _).bind fun s' h' => ?_
    have h1 := h0.then h'
    have h2 : s'.mode = .math := h1.1.trans hm.1
    simp only [h2, if_true]
    have h3 : Inside .mathCurlyGroup (inIndent .mathCurlyGroup s.indent) s.mode s
        (if (cs.all fun c => isBlankKind c.kind) = true then s'.write t!"zws " else s') := by
      split
      · exact h1.write _
      · exact h1
    obtain ⟨c, hc, hin, _⟩ := h3.exit
    rw [hc]
    exact IfOk.ok hin
  · have hd : decide (s.mode = .math ∧ s.env ≠ .subStack) = false := decide_eq_false hm
    rw [hd]
    dsimp only
    refine (hC.list cs _).bind fun s' h' => ?_
    simp only [Bool.false_eq_true, if_false] at h' ⊢
    refine IfOk.ite (fun _ => IfOk.ok ?_) fun _ => IfOk.ok h'
    exact Frame.ite (fun _ => h'.write _) fun _ => h'

theorem Framed.lrArg {C : ConvFn} (hC : Framed C) (a : Elem) (s : CState) : IfOk (Frame s) (convLRArg C a s) := by
  unfold convLRArg
  split
  · exact IfOk.ok (Frame.refl _)
  · exact hC _ _

theorem Framed.lrArgs {C : ConvFn} (hC : Framed C) (as : List Elem) (s : CState) :
    IfOk (Frame s) (convLRArgs C as s) := by
  induction as generalizing s with
  | nil => exact IfOk.ok (Frame.refl _)
  | cons a as ih =>
    rw [convLRArgs]
    exact (hC.lrArg a s).bind fun b hb => (ih _).mono fun c hc => (hb.write _).trans hc

theorem Framed.clauseLR {C : ConvFn} (hC : Framed C) (e : Elem) (s : CState) : IfOk (Frame s) (convClauseLR C e s) := by
  unfold convClauseLR
  refine (IfOk.any _).bind fun cs _ => ?_
  cases cs with
  | nil => exact IfOk.error
  | cons hd args =>
    refine (IfOk.any _).bind fun t _ => (IfOk.any _).bind fun name _ => ?_
    refine (hC.lrArgs args _).bind fun s1 h1 => IfOk.ok ?_
    have h2 : Frame s s1 := (Frame.ite (fun _ => (Frame.refl s).write t!"lr(") fun _ => Frame.refl s).trans h1
    exact Frame.ite (fun _ => h2.write _) fun _ => h2

theorem Framed.attachLoop {C : ConvFn} (hC : Framed C) (cs : List Elem) (b f : Bool) (s : CState) :
    IfOk (fun r => Frame s r.2) (convAttachLoop C cs b f s) := by
  induction cs generalizing b f s with
  | nil => exact IfOk.ok (Frame.refl _)
  | cons c cs ih =>
    rw [convAttachLoop.eq_def]
    dsimp only
    split
    · split
      · refine (ih _ _ _).mono fun r hr => Frame.trans ?_ hr
        exact ((Frame.ite (fun _ => Frame.refl _) fun _ => (Frame.refl _).write _).write _).write _
      · refine (ih _ _ _).mono fun r hr => Frame.trans ?_ hr
        exact ((Frame.ite (fun _ => Frame.refl _) fun _ => (Frame.refl _).write _).write _).write _
      · exact (hC _ _).bind fun a ha => (ih _ _ _).mono fun r hr => ha.trans hr
      · exact (hC _ _).bind fun a ha => (ih _ _ _).mono fun r hr => ha.trans hr
    · exact (hC _ _).bind fun a ha => (ih _ _ _).mono fun r hr => ha.trans hr

theorem Framed.attach {C : ConvFn} (hC : Framed C) (e : Elem) (s : CState) : IfOk (Frame s) (convAttach C e s) := by
  unfold convAttach
  refine (IfOk.any _).bind fun cs _ => ?_
  refine IfOk.ite (fun _ => ?_) fun _ => hC.list _ _
  refine (hC.attachLoop _ _ _ _).bind fun r hr => IfOk.ok ?_
  exact Frame.ite (fun _ => hr) fun _ => hr.write _

theorem convCommandSym_frame (spec : CommandSpec) (e : Elem) (s : CState) : IfOk (Frame s) (convCommandSym spec e s) := by
  unfold convCommandSym
  refine (IfOk.any _).bind fun t _ => (IfOk.any _).bind fun name _ => ?_
  split
  · exact IfOk.error
  · exact IfOk.ok ((Frame.refl _).write _)

theorem convItem_frame (s : CState) : IfOk (Frame s) (convItem s) := by
  unfold convItem
  refine IfOk.ite (fun _ => IfOk.ite (fun _ => IfOk.error) fun _ => IfOk.ok ?_) fun _ => IfOk.error
  exact (((Frame.refl _).write _).write _).write _

theorem convLabel_frame (e : Elem) (s : CState) : IfOk (Frame s) (convLabel e s) := by
  unfold convLabel
  split
  · exact IfOk.error
  · refine (IfOk.any _).bind fun l _ => ?_
    simp only
    split
    all_goals first
      | exact IfOk.ok (Frame.ite (fun _ => (((Frame.refl _).write _).write _).write _) fun _ => Frame.refl _)
      | exact IfOk.ok (Frame.refl s)

theorem convImageOpt_frame (o : Option Elem) (s : CState) : IfOk (Frame s) (convImageOpt o s) := by
  unfold convImageOpt
  cases o with
  | none => exact IfOk.ok (Frame.refl _)
  | some o => exact (IfOk.any _).bind fun t _ => IfOk.ok ((Frame.refl _).write _)

theorem convImage_frame (e : Elem) (s : CState) : IfOk (Frame s) (convImage e s) := by
  unfold convImage
  refine (IfOk.any _).bind fun o _ => (IfOk.any _).bind fun arg _ => ?_
  cases arg with
  | none => exact IfOk.error
  | some arg =>
    refine (IfOk.any _).bind fun b _ => ?_
    refine (convImageOpt_frame _ _).bind fun s1 hs1 => IfOk.ok ?_
    exact ((((((Frame.refl s).write _).trans hs1).write _).write _).write _)

theorem Framed.colorOne {C : ConvFn} (hC : Framed C) (e : Elem) (s : CState) :
    IfOk (Frame s) (convColorOne C e s) := by
  unfold convColorOne
  refine IfOk.ite (fun _ => ?_) fun _ => hC _ _
  exact (hC _ _).bind fun a ha => IfOk.ok ((((Frame.refl _).write _).trans ha).write _)

theorem Framed.colorBody {C : ConvFn} (hC : Framed C) (es : List Elem) (s : CState) :
    IfOk (Frame s) (convColorBody C es s) := by
  induction es generalizing s with
  | nil => exact IfOk.ok (Frame.refl _)
  | cons e es ih =>
    rw [convColorBody]
    exact (hC.colorOne e s).bind fun a ha => (ih a).mono fun b hb => ha.trans hb

theorem Framed.colorName {C : ConvFn} (hC : Framed C) (c : Option Elem) (s : CState) :
    IfOk (Frame s) (convColorName C c s) := by
  unfold convColorName
  cases c with
  | none => exact IfOk.ok ((Frame.refl _).write _)
  | some c => exact (hC _ _).bind fun a ha => IfOk.ok ((Inside.mode .text s).then ha).setMode

theorem Framed.color {C : ConvFn} (hC : Framed C) (spec : CommandSpec) (name : Text) (e : Elem) (s : CState) :
    IfOk (Frame s) (convColor C spec name e s) := by
  unfold convColor
  refine (IfOk.any _).bind fun r _ => ?_
  obtain ⟨model, color, body⟩ := r
  dsimp only
  refine (hC.colorName color _).bind fun s1 h1 => (hC.colorBody body _).bind fun s2 h2 => IfOk.ok ?_
  have h0 : Frame s s1 := by
    refine Frame.trans ?_ h1
    cases model with
    | none => exact ((((Frame.refl s).write _).write _).write _).write _
    | some m => exact ((((((Frame.refl s).write _).write _).write _).write _).write _).write _
  have h3 := ((h0.write _).write _).trans h2
  exact Frame.ite (fun _ => (h3.write _).write _) fun _ => h3.write _

theorem Framed.args {C : ConvFn} (hC : Framed C) (k : Kind) (as : List Elem) (s : CState) :
    IfOk (Frame s) (convArgs C k as s) := by
  induction as generalizing s with
  | nil => exact IfOk.ok (Frame.refl _)
  | cons a as ih =>
    rw [convArgs]
    refine (hC a s).bind fun b hb => (ih _).mono fun c hc => Frame.trans ?_ hc
    exact Frame.ite (fun _ => hb.write _) fun _ => hb

theorem Framed.textArgs {C : ConvFn} (hC : Framed C) (as : List Elem) (s : CState) :
    IfOk (Frame s) (convTextArgs C as s) := by
  induction as generalizing s with
  | nil => exact IfOk.ok (Frame.refl _)
  | cons a as ih =>
    rw [convTextArgs]
    refine IfOk.ite (fun _ => ?_) fun _ => ih _
    refine (hC _ _).bind fun b hb => (ih _).mono fun c hc => Frame.trans ?_ hc
    have h1 : Frame (s.write ['[']) (b.setMode (s.write ['[']).mode) := ((Inside.mode .text (s.write ['['])).then hb).setMode
    exact (((Frame.refl s).write _).trans h1).write _

theorem Framed.normalArgs {C : ConvFn} (hC : Framed C) (sh : CmdShape) (tn : Text) (args : List Elem) (s : CState) :
    IfOk (Frame s) (convNormalArgs C sh tn args s) := by
  unfold convNormalArgs
  refine IfOk.ite (fun _ => IfOk.ok ((Frame.refl _).write _)) fun _ => ?_
  refine IfOk.ite (fun _ => ?_) fun _ => IfOk.ite (fun _ => ?_) fun _ => ?_
  · cases args with
    | nil => exact IfOk.error
    | cons a as =>
      refine (IfOk.any _).bind fun cs _ => (hC.args _ _ _).bind fun b hb => IfOk.ok ?_
      exact (((Frame.refl s).write _).trans hb).write _
  · exact (hC.args _ _ _).bind fun b hb => IfOk.ok ((((Frame.refl s).write _).trans hb).write _)
  · exact (hC.textArgs _ _).bind fun b hb => IfOk.ok (hb.write _)

theorem Framed.normal {C : ConvFn} (hC : Framed C) (spec : CommandSpec) (e : Elem) (s : CState) :
    IfOk (Frame s) (convNormal C spec e s) := by
  unfold convNormal
  refine (IfOk.any _).bind fun full _ => (IfOk.any _).bind fun name _ => ?_
  dsimp only
  split
  · exact IfOk.error
  · rename_i sh _
    generalize typstName s.mode name sh = tn
    by_cases hs : tn = t!"substack"
    · have hd : decide (tn = t!"substack") = true := decide_eq_true hs
      rw [hd]
      simp only [if_true]
      refine (hC.normalArgs sh tn _ _).bind fun b hb => ?_
      have h0 : Frame s (s.write tn) := (Frame.refl s).write _
      have h1 := (Inside.enter .subStack (s.write tn)).then hb
      obtain ⟨c, hc, hin, _⟩ := h1.exit
      rw [hc]
      exact IfOk.ok (h0.trans hin)
    · have hd : decide (tn = t!"substack") = false := decide_eq_false hs
      rw [hd]
      simp only [Bool.false_eq_true, if_false]
      exact (hC.normalArgs sh tn _ _).bind fun b hb => IfOk.ok (((Frame.refl s).write _).trans hb)

theorem Framed.namedArgs {C : ConvFn} (hC : Framed C) (i : Nat) (as : List Elem) (s : CState) :
    IfOk (Frame s) (convNamedArgs C i as s) := by
  induction as generalizing i s with
  | nil => exact IfOk.ok (Frame.refl _)
  | cons a as ih =>
    rw [convNamedArgs]
    exact (hC _ _).bind fun b hb => (ih _ _).mono fun c hc => ((((Frame.refl s).write _).trans hb).write _).trans hc

theorem Framed.figureBody {C : ConvFn} (hC : Framed C) (es : List Elem) (s : CState) :
    IfOk (Frame s) (convFigureBody C es s) := by
  induction es generalizing s with
  | nil => exact IfOk.ok (Frame.refl _)
  | cons e es ih =>
    rw [convFigureBody]
    refine IfOk.ite (fun _ => ih _) fun _ => (IfOk.any _).bind fun na _ => ?_
    refine IfOk.ite (fun _ => ih _) fun _ => ?_
    exact (hC _ _).bind fun b hb => (ih _).mono fun c hc => hb.trans hc

theorem Framed.caption {C : ConvFn} (hC : Framed C) (c : Option Elem) (s : CState) :
    IfOk (Frame s) (convCaption C c s) := by
  unfold convCaption
  cases c with
  | none => exact IfOk.ok (Frame.refl _)
  | some c => exact (hC _ _).bind fun b hb => IfOk.ok ((((Frame.refl s).write _).trans hb).write _)

theorem Framed.figure {C : ConvFn} (hC : Framed C) (kind : LEnv) (tn : Text) (e : Elem) (s : CState) :
    IfOk (Frame s) (convFigure C kind tn e s) := by
  unfold convFigure
  refine (IfOk.any _).bind fun cs _ => (IfOk.any _).bind fun cap _ => ?_
  dsimp only
  refine (hC.caption cap _).bind fun s1 h1 => ?_
  exact inside_bind _ ((((((Inside.enter kind s).write _).write _).write _).then h1).write _) (hC.figureBody cs _)

theorem tableExterior_frame (e : Elem) (s : CState) : IfOk (fun r => Frame s r.2) (tableExterior e s) := by
  unfold tableExterior
  split
  · exact IfOk.ok (Frame.refl _)
  · exact IfOk.ok (Frame.refl _)
  · exact IfOk.ok ((Frame.refl _).write _)
  · exact IfOk.ok ((Frame.refl _).write _)
  · refine (IfOk.any _).bind fun full _ => (IfOk.any _).bind fun name _ => ?_
    split
    · exact IfOk.ok ((Frame.refl _).write _)
    · exact IfOk.ok ((Frame.refl _).write _)
  · exact IfOk.ok ((Frame.refl _).write _)

theorem Framed.tableInterior {C : ConvFn} (hC : Framed C) (e : Elem) (s : CState) :
    IfOk (fun r => Frame s r.2) (tableInterior C e s) := by
  unfold Mitex.tableInterior
  split
  · exact IfOk.ok ((Frame.refl _).write _)
  · exact IfOk.ok ((Frame.refl _).write _)
  · exact (hC _ _).bind fun b hb => IfOk.ok hb

theorem Framed.tableStep {C : ConvFn} (hC : Framed C) (e : Elem) (ext : Bool) (s : CState) :
    IfOk (fun r => Frame s r.2) (tableStep C e ext s) := by
  unfold Mitex.tableStep
  refine IfOk.ite (fun _ => ?_) fun _ => hC.tableInterior _ _
  refine (tableExterior_frame e s).bind fun r hr => ?_
  exact IfOk.ite (fun _ => IfOk.ok hr) fun _ => (hC.tableInterior _ _).mono fun q hq => hr.trans hq

theorem Framed.tableLoop {C : ConvFn} (hC : Framed C) (es : List Elem) (ext : Bool) (s : CState) :
    IfOk (Frame s) (tableLoop C es ext s) := by
  induction es generalizing ext s with
  | nil => exact IfOk.ok (Frame.refl _)
  | cons e es ih =>
    rw [Mitex.tableLoop]
    refine IfOk.ite (fun _ => ih _ _) fun _ => ?_
    exact (hC.tableStep _ _ _).bind fun r hr => (ih _ _).mono fun c hc => hr.trans hc

theorem Framed.table {C : ConvFn} (hC : Framed C) (kind : LEnv) (tn : Text) (e : Elem) (s : CState) :
    IfOk (Frame s) (convTable C kind tn e s) := by
  unfold convTable
  refine (IfOk.any _).bind fun cs _ => ?_
  split
  · exact IfOk.error
  · refine (IfOk.any _).bind fun a _ => (IfOk.any _).bind fun r _ => ?_
    obtain ⟨al, vl⟩ := r
    dsimp only
    exact inside_bind _ ((Inside.enter kind s).write _) (hC.tableLoop _ _ _)

theorem flushLabel_frame (s : CState) : Frame s (flushLabel s) := by
  unfold flushLabel
  refine Frame.ite (fun _ => ?_) fun _ => Frame.refl _
  split
  · exact (((Frame.refl s).write _).write _).write _
  · exact Frame.refl _

theorem Framed.mathEnv {C : ConvFn} (hC : Framed C) (kind : LEnv) (tn : Text) (e : Elem) (s : CState) :
    IfOk (Frame s) (convMathEnv C kind tn e s) := by
  unfold convMathEnv
  dsimp only
  refine (hC.namedArgs _ _ _).bind fun s1 h1 => (hC.list _ _).bind fun s2 h2 => ?_
  have h0 : Inside kind (inIndent kind s.indent) .math s ((s.enterEnv kind).setMode .math) := (Inside.enter kind s).setMode
  have h3 : Inside kind (inIndent kind s.indent) .math s s2 := by
    refine Inside.then (Inside.then ?_ h1) h2
    refine Inside.write (Inside.write ?_ _) _
    split
    · exact h0.write _
    · exact h0
  obtain ⟨c, hc, hin, _⟩ := (h3.write [')']).exit
  rw [hc, show ∀ f : CState → Res CState, ((Except.ok c : Res CState) >>= f) = f c from fun _ => rfl]
  refine IfOk.ok ?_
  by_cases hm : s.mode = .text
  · rw [if_pos (decide_eq_true hm)]
    exact ((hin.write _).setMode : Inside s.env s.indent s.mode s _)
  · rw [if_neg (by simpa using hm)]
    have : s.mode = .math := by cases h : s.mode <;> simp_all
    refine (?_ : Inside s.env s.indent s.mode s c)
    rw [this]; exact hin

theorem Framed.normalEnv {C : ConvFn} (hC : Framed C) (kind : LEnv) (tn : Text) (e : Elem) (s : CState) :
    IfOk (Frame s) (convNormalEnv C kind tn e s) := by
  unfold convNormalEnv
  exact inside_bind _ ((((Inside.enter kind s).write _).write _).write _) (hC.list _ _)

theorem Framed.listEnv {C : ConvFn} (hC : Framed C) (kind : LEnv) (e : Elem) (s : CState) :
    IfOk (Frame s) (convListEnv C kind e s) := by
  unfold convListEnv
  refine (hC.list _ _).bind fun s' h' => ?_
  obtain ⟨c, hc, hin, _⟩ := ((Inside.enter kind s).then h').exit
  rw [hc]
  exact IfOk.ok hin

theorem Framed.envKind {C : ConvFn} (hC : Framed C) (kind : LEnv) (tn : Text) (e : Elem) (s : CState) :
    IfOk (Frame s) (convEnvKind C kind tn e s) := by
  unfold convEnvKind
  refine IfOk.ite (fun _ => hC.mathEnv _ _ _ _) fun _ => ?_
  split
  · exact hC.figure _ _ _ _
  · exact hC.table _ _ _ _
  · exact hC.normalEnv _ _ _ _

theorem Framed.env {C : ConvFn} (hC : Framed C) (spec : CommandSpec) (e : Elem) (s : CState) :
    IfOk (Frame s) (convEnv C spec e s) := by
  unfold convEnv
  split
  · exact IfOk.error
  · split
    · exact IfOk.error
    · dsimp only
      split
      · exact IfOk.error
      · refine IfOk.ite (fun _ => hC.listEnv _ _ _) fun _ => ?_
        exact (hC.envKind _ _ _ _).bind fun b hb => IfOk.ok (hb.trans (flushLabel_frame _))

theorem Framed.cmd {C : ConvFn} (hC : Framed C) (spec : CommandSpec) (e : Elem) (s : CState) :
    IfOk (Frame s) (convCmd C spec e s) := by
  unfold convCmd
  refine (IfOk.any _).bind fun full _ => (IfOk.any _).bind fun name _ => ?_
  refine IfOk.ite (fun _ => convItem_frame _) fun _ => ?_
  refine IfOk.ite (fun _ => convLabel_frame _ _) fun _ => ?_
  refine IfOk.ite (fun _ => convImage_frame _ _) fun _ => ?_
  exact IfOk.ite (fun _ => hC.color _ _ _ _) fun _ => hC.normal _ _ _

theorem Framed.kind {C : ConvFn} (hC : Framed C) (spec : CommandSpec) (e : Elem) (s : CState) :
    IfOk (Frame s) (convKind spec C e s) := by
  have w : ∀ t, IfOk (Frame s) (.ok (s.write t)) := fun t => IfOk.ok ((Frame.refl s).write t)
  unfold convKind
  split
  case h_1 => exact IfOk.error
  all_goals first
    | exact IfOk.error
    | exact w _
    | exact IfOk.ok (Frame.refl s)
    | exact (IfOk.any _).bind fun cs _ => hC.list _ _
    | exact hC.formula _ _
    | exact hC.curly _ _
    | exact hC.clauseLR _ _
    | exact hC.attach _ _
    | exact hC.cmd _ _ _
    | exact hC.env _ _ _
    | exact convCommandSym_frame _ _ _
    | exact IfOk.ite (fun _ => w _) fun _ => w _
    | exact (IfOk.any _).bind fun t _ => IfOk.ite (fun _ => w _) fun _ => w _
    | exact (IfOk.any _).bind fun t _ => w _
    | exact IfOk.ite (fun _ => IfOk.ok (Frame.refl s)) fun _ => (IfOk.any _).bind fun t _ => w _
    | exact (IfOk.any _).bind fun t _ => IfOk.ok (((Frame.refl s).write _).write _)
    | (split <;> first | exact w _ | exact IfOk.ok (Frame.refl s))

theorem Framed.body {C : ConvFn} (hC : Framed C) (spec : CommandSpec) : Framed (convBody spec C) := by
  intro e s
  unfold convBody
  refine (hC.kind spec e _).mono fun a ha => Frame.trans ?_ ha
  exact Frame.ite (fun _ => Frame.refl _) fun _ => Frame.refl _

theorem convert_framed (spec : CommandSpec) (n : Nat) : Framed (convert spec n) := by
  induction n with
  | zero => intro e s; exact IfOk.error
  | succ n ih => exact ih.body spec

end Mitex
