/-
Two conversions of trees that differ in comments only, from states that differ in the output only, with any sufficient
fuel, give related results.
-/
import Verif.Model.Convert
import Verif.Spec.Conversion
import Verif.Proof.Lex

namespace Mitex

/-! ## Related results -/

/-- Both succeed with related values, or both fail in the same way, but not for lack of fuel. -/
def RR {α β : Type} (R : α → β → Prop) : Res α → Res β → Prop
  | .ok a, .ok b => R a b
  | .error x, .error y => x = y ∧ x ≠ .fuel
  | _, _ => False

theorem RR.bind {α β γ δ : Type} {R : α → β → Prop} {S : γ → δ → Prop} {r : Res α} {r' : Res β} {f : α → Res γ}
    {g : β → Res δ} (h : RR R r r') (k : ∀ a b, R a b → RR S (f a) (g b)) : RR S (r >>= f) (r' >>= g) := by
  cases r with
  | error x => cases r' with
    | error y => exact h
    | ok b => exact h.elim
  | ok a => cases r' with
    | error y => exact h.elim
    | ok b => exact k a b h

theorem RR.mono {α β : Type} {R S : α → β → Prop} {r : Res α} {r' : Res β} (h : RR R r r') (k : ∀ a b, R a b → S a b) :
    RR S r r' := by
  cases r with
  | error x => cases r' with
    | error y => exact h
    | ok b => exact h.elim
  | ok a => cases r' with
    | error y => exact h.elim
    | ok b => exact k a b h

/-- Equal results that are not a lack of fuel. -/
theorem RR.same {α : Type} {r : Res α} (h : r ≠ .error .fuel) : RR Eq r r := by
  cases r with
  | error x => exact ⟨rfl, fun e => h (by rw [e])⟩
  | ok a => exact rfl

theorem RR.panic {α β : Type} {R : α → β → Prop} : RR R (.error .panic) (.error .panic) := ⟨rfl, fun h => (by cases h)⟩

theorem RR.fail {α β : Type} {R : α → β → Prop} (m : Text) : RR R (failWith m) (failWith m) := ⟨rfl, fun h => (by cases h)⟩

theorem RR.ite {α β : Type} {R : α → β → Prop} {p q : Prop} [Decidable p] [Decidable q] {a b : Res α} {a' b' : Res β}
    (h : p ↔ q) (h1 : p → RR R a a') (h2 : ¬ p → RR R b b') : RR R (if p then a else b) (if q then a' else b') := by
  by_cases hp : p
  · rw [if_pos hp, if_pos (h.1 hp)]; exact h1 hp
  · rw [if_neg hp, if_neg (fun hq => hp (h.2 hq))]; exact h2 hp

/-! ## Related states -/

variable {P : Text → Text → Prop}

/-- Equal but for the outputs, which are related. -/
def RelS (P : Text → Text → Prop) (s s' : CState) : Prop :=
  s'.mode = s.mode ∧ s'.env = s.env ∧ s'.indent = s.indent ∧ s'.label = s.label ∧ s'.skip = s.skip ∧ P s.out s'.out

/-- The relation is kept by writing the same text. -/
def Appends (P : Text → Text → Prop) : Prop := ∀ a b t, P a b → P (a ++ t) (b ++ t)

theorem RelS.write {s s' : CState} (hP : Appends P) (h : RelS P s s') (t : Text) : RelS P (s.write t) (s'.write t) :=
  ⟨h.1, h.2.1, h.2.2.1, h.2.2.2.1, h.2.2.2.2.1, hP _ _ _ h.2.2.2.2.2⟩

theorem RelS.ite {s s' t t' : CState} {p q : Prop} [Decidable p] [Decidable q] (h : p ↔ q) (h1 : p → RelS P s s')
    (h2 : ¬ p → RelS P t t') : RelS P (if p then s else t) (if q then s' else t') := by
  by_cases hp : p
  · rw [if_pos hp, if_pos (h.1 hp)]; exact h1 hp
  · rw [if_neg hp, if_neg (fun hq => hp (h.2 hq))]; exact h2 hp

theorem RelS.setMode {s s' : CState} (h : RelS P s s') (m : Mode) : RelS P (s.setMode m) (s'.setMode m) :=
  ⟨rfl, h.2⟩

theorem RelS.enter {s s' : CState} (h : RelS P s s') (e : LEnv) : RelS P (s.enterEnv e) (s'.enterEnv e) :=
  ⟨h.1, rfl, by unfold CState.enterEnv; simp only [h.2.2.1], h.2.2.2.1, h.2.2.2.2.1, h.2.2.2.2.2⟩

theorem RelS.exit {s s' : CState} (h : RelS P s s') (e : LEnv) : RR (RelS P) (s.exitEnv e) (s'.exitEnv e) := by
  obtain ⟨h1, h2, h3, h4, h5, h6⟩ := h
  unfold CState.exitEnv
  rw [h2, h3]
  split
  · split
    · exact ⟨h1, rfl, rfl, h4, h5, h6⟩
    · exact RR.panic
  · exact ⟨h1, rfl, rfl, h4, h5, h6⟩

theorem RelS.mode {s s' : CState} (h : RelS P s s') : s'.mode = s.mode := h.1
theorem RelS.env {s s' : CState} (h : RelS P s s') : s'.env = s.env := h.2.1
theorem RelS.modeIff {s s' : CState} (h : RelS P s s') (m : Mode) : s.mode = m ↔ s'.mode = m := by rw [h.1]

/-! ## Related elements -/

/-- Same but for comments, and not too high. -/
def Sim (n m : Nat) (e e' : Elem) : Prop := Same e e' ∧ e.depth ≤ n ∧ e'.depth ≤ m

/-- Position by position. -/
inductive SimL (n m : Nat) : List Elem → List Elem → Prop
  | nil : SimL n m [] []
  | cons {e e' : Elem} {es es' : List Elem} (h : Sim n m e e') (hs : SimL n m es es') : SimL n m (e :: es) (e' :: es')

theorem Same.kind {e e' : Elem} (h : Same e e') : e'.kind = e.kind := by cases h <;> rfl

theorem Same.isNode {e e' : Elem} (h : Same e e') : e'.isNode = e.isNode := by cases h <;> rfl

theorem Sim.kind {n m : Nat} {e e' : Elem} (h : Sim n m e e') : e'.kind = e.kind := h.1.kind

theorem depth_go_le {cs : List Elem} {n : Nat} (h : Elem.depth.go cs ≤ n) : ∀ c ∈ cs, c.depth ≤ n := by
  induction cs with
  | nil => intro c hc; cases hc
  | cons a cs ih =>
    rw [Elem.depth.go] at h
    intro c hc
    rcases List.mem_cons.1 hc with rfl | hc
    · omega
    · exact ih (by omega) c hc

theorem SameList.sim {n m : Nat} {cs cs' : List Elem} (h : SameList cs cs') (h1 : Elem.depth.go cs ≤ n)
    (h2 : Elem.depth.go cs' ≤ m) : SimL n m cs cs' := by
  induction cs generalizing cs' with
  | nil => cases h; exact .nil
  | cons a cs ih =>
    cases h with
    | cons h hs =>
      rw [Elem.depth.go] at h1 h2
      exact .cons ⟨h, by omega, by omega⟩ (ih hs (by omega) (by omega))

theorem SimL.mono {n m n' m' : Nat} {cs cs' : List Elem} (h : SimL n m cs cs') (h1 : n ≤ n') (h2 : m ≤ m') :
    SimL n' m' cs cs' := by
  induction h with
  | nil => exact .nil
  | cons h hs ih => exact .cons ⟨h.1, Nat.le_trans h.2.1 h1, Nat.le_trans h.2.2 h2⟩ ih

/-- A node that is no block comment: its children are related. -/
theorem Sim.node {n m : Nat} {k : Kind} {cs cs' : List Elem} (hk : k ≠ .itemBlockComment)
    (h : Sim (n + 1) (m + 1) (.node k cs) (.node k cs')) : SimL n m cs cs' := by
  obtain ⟨h, h1, h2⟩ := h
  rw [Elem.depth] at h1 h2
  cases h with
  | block => exact absurd rfl hk
  | node _ hl _ _ => exact hl.sim (by omega) (by omega)

theorem Sim.children {n m : Nat} {e e' : Elem} (hk : e.kind ≠ .itemBlockComment) (h : Sim (n + 1) (m + 1) e e') :
    SimL n m e.children e'.children := by
  have hh := h
  obtain ⟨h, h1, h2⟩ := h
  cases h with
  | comment => exact .nil
  | token => exact .nil
  | block => exact absurd rfl hk
  | node k hl hv hb => exact hh.node hk

theorem Sim.children' {n m : Nat} {e e' : Elem} (hk : e.kind ≠ .itemBlockComment) (h : Sim n m e e') :
    SimL n m e.children e'.children := by
  have : Sim (n + 1) (m + 1) e e' := ⟨h.1, by have := h.2.1; omega, by have := h.2.2; omega⟩
  exact this.children hk

theorem Sim.succ {n m : Nat} {e e' : Elem} (h : Sim n m e e') : Sim (n + 1) (m + 1) e e' :=
  ⟨h.1, by have := h.2.1; omega, by have := h.2.2; omega⟩

theorem SimL.filter {n m : Nat} {cs cs' : List Elem} (h : SimL n m cs cs') {p q : Elem → Bool}
    (hp : ∀ a b, Same a b → q b = p a) : SimL n m (cs.filter p) (cs'.filter q) := by
  induction h with
  | nil => exact .nil
  | cons h hs ih =>
    rename_i a b as bs
    rw [List.filter_cons, List.filter_cons, hp a b h.1]
    split
    · exact .cons h ih
    · exact ih

theorem SimL.find {n m : Nat} {cs cs' : List Elem} (h : SimL n m cs cs') {p q : Elem → Bool}
    (hp : ∀ a b, Same a b → q b = p a) :
    (cs.find? p = none ∧ cs'.find? q = none) ∨ ∃ a b, cs.find? p = some a ∧ cs'.find? q = some b ∧ Sim n m a b := by
  induction h with
  | nil => exact Or.inl ⟨rfl, rfl⟩
  | cons h hs ih =>
    rename_i a b as bs
    rw [List.find?_cons, List.find?_cons, hp a b h.1]
    cases p a with
    | true => exact Or.inr ⟨a, b, rfl, rfl, h⟩
    | false => exact ih

theorem SimL.dropWhile {n m : Nat} {cs cs' : List Elem} (h : SimL n m cs cs') {p q : Elem → Bool}
    (hp : ∀ a b, Same a b → q b = p a) : SimL n m (cs.dropWhile p) (cs'.dropWhile q) := by
  induction h with
  | nil => exact .nil
  | cons h hs ih =>
    rename_i a b as bs
    rw [List.dropWhile_cons, List.dropWhile_cons, hp a b h.1]
    split
    · exact ih
    · exact .cons h hs

theorem SimL.childNodes {n m : Nat} {e e' : Elem} (hk : e.kind ≠ .itemBlockComment) (h : Sim (n + 1) (m + 1) e e') :
    SimL n m e.childNodes e'.childNodes :=
  (h.children hk).filter fun _ _ hs => hs.isNode

theorem Sim.arguments {n m : Nat} {e e' : Elem} (hk : e.kind ≠ .itemBlockComment) (h : Sim (n + 1) (m + 1) e e') :
    SimL n m e.arguments e'.arguments :=
  (SimL.childNodes hk h).filter fun _ _ hs => by rw [hs.kind]

theorem Sim.cmdName {n m : Nat} {e e' : Elem} (hk : e.kind ≠ .itemBlockComment) (h : Sim (n + 1) (m + 1) e e') :
    e'.cmdName = e.cmdName := by
  unfold Elem.cmdName
  rcases (h.children hk).find (p := fun c => !c.isNode && decide (c.kind = .clauseCommandName))
    (q := fun c => !c.isNode && decide (c.kind = .clauseCommandName)) (fun a b hs => by rw [hs.kind, hs.isNode]) with
    ⟨h1, h2⟩ | ⟨a, b, h1, h2, hs⟩
  · rw [h1, h2]
  · rw [h1, h2]
    have := List.find?_some h1
    cases hs.1 with
    | comment => exact absurd this (by simp [Elem.kind])
    | token => rfl
    | block => exact absurd this (by simp [Elem.isNode])
    | node => exact absurd this (by simp [Elem.isNode])

/-! ## The loops -/

/-- The nested converters are related. -/
def RelC (P : Text → Text → Prop) (n m : Nat) (C C' : ConvFn) : Prop :=
  ∀ e e' s s', Sim n m e e' → RelS P s s' → RR (RelS P) (C e s) (C' e' s')

section
variable {n m : Nat} {C C' : ConvFn}

theorem RelC.list (hC : RelC P n m C C') {es es' : List Elem} (h : SimL n m es es') {s s' : CState} (hs : RelS P s s') :
    RR (RelS P) (convList C es s) (convList C' es' s') := by
  induction h generalizing s s' with
  | nil => exact hs
  | cons h _ ih =>
    rw [convList, convList]
    exact (hC _ _ _ _ h hs).bind fun a b hab => ih hab

/-- The children of a node, with their relation; a token is a panic on both sides. -/
theorem asNode_rel {e e' : Elem} (h : Sim (n + 1) (m + 1) e e') (hk : e.kind ≠ .itemBlockComment) :
    RR (fun cs cs' => SimL n m cs cs' ∧ cs = e.children ∧ cs' = e'.children) (asNode e) (asNode e') := by
  have hh := h
  cases h.1 with
  | comment => exact RR.panic
  | token => exact RR.panic
  | block => exact absurd rfl hk
  | node k hl hv hb => exact ⟨hh.node hk, rfl, rfl⟩

theorem asToken_rel {e e' : Elem} (h : Sim n m e e') (hk : e.kind ≠ .tokenComment) :
    RR Eq (asToken e) (asToken e') := by
  cases h.1 with
  | comment => exact absurd rfl hk
  | token => exact rfl
  | block => exact RR.panic
  | node => exact RR.panic

theorem dropOne_same (t : Text) : RR Eq (dropOne t) (dropOne t) := by
  refine RR.same ?_
  unfold dropOne
  split <;> intro h <;> cases h

theorem stripEnds_same (t : Text) : RR Eq (stripEnds t) (stripEnds t) := by
  refine RR.same ?_
  unfold stripEnds
  split
  · intro h; cases h
  · split
    · intro h; cases h
    · split <;> intro h <;> cases h

theorem cmdNameOf_rel {e e' : Elem} (h : Sim (n + 1) (m + 1) e e') (hk : e.kind ≠ .itemBlockComment) :
    RR Eq (cmdNameOf e) (cmdNameOf e') := by
  unfold cmdNameOf
  have hn := h.cmdName hk
  cases h.1 with
  | comment => exact RR.panic
  | token => exact RR.panic
  | block => exact absurd rfl hk
  | node k hl hv hb =>
    simp only
    rw [hn]
    split
    · exact RR.panic
    · exact rfl

theorem firstToken_formula {e e' : Elem} (h : Same e e') (hk : e.kind = .itemFormula) :
    e'.firstToken = e.firstToken ∧ e'.lastToken = e.lastToken := by
  cases h with
  | comment => cases hk
  | token => exact ⟨rfl, rfl⟩
  | block => cases hk
  | node k hl hv hb =>
    simp only [Elem.kind] at hk
    subst hk
    simp only [verbatim, Elem.kind] at hv
    have ht : ∀ {a b : Option (Kind × Text)}, a.toList = b.toList → b = a := by
      intro a b h
      cases a <;> cases b <;> simp_all [Option.toList]
    injection hv with h1 h2
    injection h2 with h2 h3
    exact ⟨ht h1, ht h2⟩

theorem RelC.formula (hC : RelC P n m C C') (hP : Appends P) {e e' : Elem} (h : Sim (n + 1) (m + 1) e e')
    (hk : e.kind = .itemFormula) {s s' : CState} (hs : RelS P s s') :
    RR (RelS P) (convFormula C e s) (convFormula C' e' s') := by
  unfold convFormula
  have hft := firstToken_formula h.1 hk
  have hv : e'.isValidFormula = e.isValidFormula := by unfold Elem.isValidFormula; rw [hft.1, hft.2]
  have hi : e'.isInline = e.isInline := by unfold Elem.isInline; rw [hft.1]
  refine (asNode_rel h (by rw [hk]; decide)).bind fun cs cs' hcs => ?_
  rw [hv, hi]
  refine RR.ite Iff.rfl (fun _ => RR.fail _) fun _ => ?_
  have hpre : RelS P (if s.mode = .text then (if e.isInline = true then s.write t!"#math.equation(block: false, $"
      else s.write t!"$ ") else s) (if s'.mode = .text then (if e.isInline = true then
      s'.write t!"#math.equation(block: false, $" else s'.write t!"$ ") else s') :=
    RelS.ite (hs.modeIff _) (fun _ => RelS.ite Iff.rfl (fun _ => hs.write hP _) fun _ => hs.write hP _) fun _ => hs
  refine (hC.list hcs.1 (hpre.setMode _)).bind fun a b hab => ?_
  dsimp only
  rw [hpre.mode]
  have h2 := hab.setMode (if s.mode = .text then (if e.isInline = true then s.write t!"#math.equation(block: false, $"
      else s.write t!"$ ") else s).mode
  exact RelS.ite (h2.modeIff _) (fun _ => RelS.ite Iff.rfl (fun _ => h2.write hP _) fun _ => h2.write hP _) fun _ => h2

theorem SimL.all_kind {cs cs' : List Elem} (h : SimL n m cs cs') (f : Kind → Bool) :
    (cs'.all fun c => f c.kind) = cs.all fun c => f c.kind := by
  induction h with
  | nil => rfl
  | cons h hs ih => simp only [List.all_cons]; rw [ih, h.kind]

theorem RelC.curly (hC : RelC P n m C C') (hP : Appends P) {e e' : Elem} (h : Sim (n + 1) (m + 1) e e')
    (hk : e.kind ≠ .itemBlockComment) {s s' : CState} (hs : RelS P s s') :
    RR (RelS P) (convCurly C e s) (convCurly C' e' s') := by
  unfold convCurly
  refine (asNode_rel h hk).bind fun cs cs' hcs => ?_
  dsimp only
  rw [hs.mode, hs.env, hcs.1.all_kind]
  refine (hC.list hcs.1 (RelS.ite Iff.rfl (fun _ => hs.enter _) fun _ => hs)).bind fun a b hab => ?_
  refine RR.ite (hab.modeIff _) (fun _ => ?_) fun _ => hab
  have h2 : RelS P (if (cs.all fun c => isBlankKind c.kind) = true then a.write t!"zws " else a)
      (if (cs.all fun c => isBlankKind c.kind) = true then b.write t!"zws " else b) :=
    RelS.ite Iff.rfl (fun _ => hab.write hP _) fun _ => hab
  exact RR.ite Iff.rfl (fun _ => h2.exit _) fun _ => h2

theorem RelC.lrArg (hC : RelC P n m C C') {a a' : Elem} (h : Sim n m a a') {s s' : CState} (hs : RelS P s s') :
    RR (RelS P) (convLRArg C a s) (convLRArg C' a' s') := by
  have hr := hC _ _ _ _ h hs
  unfold convLRArg
  cases h.1 with
  | comment => exact hr
  | block => exact hr
  | node => exact hr
  | token k t =>
    split
    · exact hs
    · exact hr

theorem RelC.lrArgs (hC : RelC P n m C C') (hP : Appends P) {as as' : List Elem} (h : SimL n m as as') {s s' : CState}
    (hs : RelS P s s') : RR (RelS P) (convLRArgs C as s) (convLRArgs C' as' s') := by
  induction h generalizing s s' with
  | nil => exact hs
  | cons h _ ih =>
    rw [convLRArgs, convLRArgs]
    exact (hC.lrArg h hs).bind fun a b hab => ih (hab.write hP _)

theorem RelC.clauseLR (hC : RelC P n m C C') (hP : Appends P) {e e' : Elem} (h : Sim (n + 1) (m + 1) e e')
    (hk : e.kind = .clauseLR) {s s' : CState} (hs : RelS P s s') :
    RR (RelS P) (convClauseLR C e s) (convClauseLR C' e' s') := by
  unfold convClauseLR
  cases h.1 with
  | comment => cases hk
  | token => exact RR.panic
  | block => cases hk
  | node k hl hv hb =>
    simp only [Elem.kind] at hk
    subst hk
    have hcs := h.node (by decide)
    simp only [asNode]
    cases hcs with
    | nil => exact RR.panic
    | cons hh hr =>
      rename_i hd hd' args args'
      have ht : RR Eq (asToken hd) (asToken hd') := by
        cases hh.1 with
        | comment t t' =>
          simp only [verbatim, Elem.kind, Elem.firstToken, Option.toList] at hv
          injection hv with hv
          injection hv with hv
          injection hv
        | token => exact rfl
        | block => exact RR.panic
        | node => exact RR.panic
      refine ht.bind fun t t' ht => ?_
      subst ht
      refine (dropOne_same t).bind fun name name' hn => ?_
      subst hn
      refine (hC.lrArgs hP hr (RelS.ite Iff.rfl (fun _ => hs.write hP _) fun _ => hs)).bind fun a b hab => ?_
      exact RelS.ite Iff.rfl (fun _ => hab.write hP _) fun _ => hab

/-- Related attachment loops. -/
theorem RelC.attachLoop (hC : RelC P n m C C') (hP : Appends P) {cs cs' : List Elem} (h : SimL n m cs cs')
    {b f : Bool} {s s' : CState} (hs : RelS P s s') :
    RR (fun r r' => r'.1 = r.1 ∧ RelS P r.2 r'.2) (convAttachLoop C cs b f s) (convAttachLoop C' cs' b f s') := by
  induction h generalizing b f s s' with
  | nil => exact ⟨rfl, hs⟩
  | cons h hr ih =>
    rename_i c c' cs cs'
    rw [convAttachLoop.eq_def, convAttachLoop.eq_def]
    dsimp only
    have hc := hC _ _ _ _ h hs
    have go : ∀ b' f', RR (fun r r' => r'.1 = r.1 ∧ RelS P r.2 r'.2)
        (C c s >>= fun s => convAttachLoop C cs b' f' s) (C' c' s' >>= fun s => convAttachLoop C' cs' b' f' s) :=
      fun b' f' => hc.bind fun x y hxy => ih hxy
    refine RR.ite Iff.rfl (fun _ => ?_) fun _ => go _ _
    cases h.1 with
    | comment => exact go _ _
    | block => exact go _ _
    | node => exact go _ _
    | token k t =>
      split
      · refine ih (RelS.write hP (RelS.write hP ?_ _) _)
        exact RelS.ite Iff.rfl (fun _ => hs) fun _ => hs.write hP _
      · refine ih (RelS.write hP (RelS.write hP ?_ _) _)
        exact RelS.ite Iff.rfl (fun _ => hs) fun _ => hs.write hP _
      · exact go _ _
      · exact go _ _

theorem RelC.attach (hC : RelC P n m C C') (hP : Appends P) {e e' : Elem} (h : Sim (n + 1) (m + 1) e e')
    (hk : e.kind ≠ .itemBlockComment) {s s' : CState} (hs : RelS P s s') :
    RR (RelS P) (convAttach C e s) (convAttach C' e' s') := by
  unfold convAttach
  refine (asNode_rel h hk).bind fun cs cs' hcs => ?_
  refine RR.ite (hs.modeIff _) (fun _ => ?_) fun _ => hC.list hcs.1 hs
  refine (hC.attachLoop hP hcs.1 hs).bind fun r r' hr => ?_
  obtain ⟨f, a⟩ := r
  obtain ⟨f', b⟩ := r'
  obtain ⟨h1, h2⟩ := hr
  dsimp only at h1 h2 ⊢
  subst h1
  exact RelS.ite Iff.rfl (fun _ => h2) fun _ => h2.write hP _

theorem commandSym_rel (spec : CommandSpec) (hP : Appends P) {e e' : Elem} (h : Sim n m e e') (hk : e.kind ≠ .tokenComment)
    {s s' : CState} (hs : RelS P s s') : RR (RelS P) (convCommandSym spec e s) (convCommandSym spec e' s') := by
  unfold convCommandSym
  refine (asToken_rel h hk).bind fun t t' ht => ?_
  subst ht
  refine (dropOne_same t).bind fun name name' hn => ?_
  subst hn
  split
  · exact RR.fail _
  · exact hs.write hP _

theorem item_rel (hP : Appends P) {s s' : CState} (hs : RelS P s s') : RR (RelS P) (convItem s) (convItem s') := by
  unfold convItem
  rw [hs.env, hs.2.2.1]
  refine RR.ite Iff.rfl (fun _ => RR.ite Iff.rfl (fun _ => RR.panic) fun _ => ?_) fun _ => RR.fail _
  have e : (if s'.env = .itemize then t!"- " else t!"+ ") =
      (if s.env = .itemize then t!"- " else t!"+ ") := by rw [hs.env]
  show RelS P _ (CState.write (if s'.env = .itemize then t!"- " else t!"+ ") _)
  rw [e]
  exact ((hs.write hP _).write hP _).write hP _

theorem text_of_leaves {e e' : Elem} (h : e.leaves = e'.leaves) : e'.text = e.text := by
  unfold Elem.text; rw [h]

/-- The first arguments of two commands have the same text. -/
theorem label_rel (hP : Appends P) {e e' : Elem} (hl : e.arguments.map Elem.leaves = e'.arguments.map Elem.leaves)
    {s s' : CState} (hs : RelS P s s') : RR (RelS P) (convLabel e s) (convLabel e' s') := by
  unfold convLabel
  cases h1 : e.arguments with
  | nil =>
    cases h2 : e'.arguments with
    | nil => exact RR.panic
    | cons b bs => rw [h1, h2] at hl; cases hl
  | cons a as =>
    cases h2 : e'.arguments with
    | nil => rw [h1, h2] at hl; cases hl
    | cons b bs =>
      rw [h1, h2] at hl
      injection hl with hl _
      simp only [text_of_leaves hl]
      refine (stripEnds_same _).bind fun l l' he => ?_
      subst he
      rw [hs.env]
      have hw := fun t => hs.write hP t
      split
      · exact RelS.ite (hs.modeIff _) (fun _ => ((hs.write hP _).write hP _).write hP _) fun _ => hs
      · exact RelS.ite (hs.modeIff _) (fun _ => ((hs.write hP _).write hP _).write hP _) fun _ => hs
      · exact RelS.ite (hs.modeIff _) (fun _ => ((hs.write hP _).write hP _).write hP _) fun _ => hs
      · exact ⟨hs.1, rfl, hs.2.2.1, rfl, hs.2.2.2.2.1, hs.2.2.2.2.2⟩

/-- Two elements with the same leaves. -/
def SameText (a b : Elem) : Prop := b.text = a.text

theorem childNodes_nil {cs cs' : List Elem} (h : SimL n m cs cs') : cs = [] ↔ cs' = [] := by
  cases h <;> simp

theorem findArg_rel (k : Kind) {as as' : List Elem} (h : SimL n m as as') (hk : ∀ a ∈ as, a.kind = .clauseArgument)
    (hl : as.map Elem.leaves = as'.map Elem.leaves) :
    RR (fun o o' => (o = none ∧ o' = none) ∨ ∃ a b, o = some a ∧ o' = some b ∧ b.text = a.text)
      (findArg k as) (findArg k as') := by
  induction h with
  | nil => exact Or.inl ⟨rfl, rfl⟩
  | cons h hr ih =>
    rename_i a a' as as'
    injection hl with hl1 hl2
    have hka := hk a List.mem_cons_self
    have hcn := SimL.childNodes (by rw [hka]; decide) h.succ
    rw [findArg, findArg]
    generalize a.childNodes = x at hcn
    generalize a'.childNodes = y at hcn
    cases hcn with
    | nil => exact RR.panic
    | cons hc _ =>
      dsimp only
      rw [hc.kind]
      refine RR.ite Iff.rfl (fun _ => ?_) fun _ => ih (fun a ha => hk a (List.mem_cons_of_mem _ ha)) hl2
      exact Or.inr ⟨a, a', rfl, rfl, text_of_leaves hl1⟩

theorem arguments_kind (e : Elem) : ∀ a ∈ e.arguments, a.kind = .clauseArgument := by
  intro a ha
  unfold Elem.arguments at ha
  exact of_decide_eq_true (List.mem_filter.1 ha).2

theorem image_rel (hP : Appends P) {e e' : Elem} (h : Sim (n + 1) (m + 1) e e') (hk : e.kind ≠ .itemBlockComment)
    (hl : e.arguments.map Elem.leaves = e'.arguments.map Elem.leaves) {s s' : CState} (hs : RelS P s s') :
    RR (RelS P) (convImage e s) (convImage e' s') := by
  unfold convImage
  have ha := h.arguments hk
  refine (findArg_rel .itemBracket ha (arguments_kind e) hl).bind fun o o' ho => ?_
  refine (findArg_rel .itemCurly ha (arguments_kind e) hl).bind fun c c' hc => ?_
  rcases hc with ⟨rfl, rfl⟩ | ⟨a, b, rfl, rfl, hab⟩
  · exact RR.panic
  · simp only [hab]
    refine (stripEnds_same _).bind fun l l' he => ?_
    subst he
    have hw := hs.write hP t!"#image("
    have hopt : RR (RelS P) (convImageOpt o (s.write t!"#image(")) (convImageOpt o' (s'.write t!"#image(")) := by
      unfold convImageOpt
      rcases ho with ⟨rfl, rfl⟩ | ⟨x, y, rfl, rfl, hxy⟩
      · exact hw
      · simp only [hxy]
        refine (stripEnds_same _).bind fun l l' he => ?_
        subst he
        exact hw.write hP _
    exact hopt.bind fun a b hab => ((hab.write hP _).write hP _).write hP _

theorem RelC.colorOne (hC : RelC P n m C C') (hP : Appends P) {e e' : Elem} (h : Sim n m e e') {s s' : CState}
    (hs : RelS P s s') : RR (RelS P) (convColorOne C e s) (convColorOne C' e' s') := by
  unfold convColorOne
  refine RR.ite (hs.modeIff _) (fun _ => ?_) fun _ => hC _ _ _ _ h hs
  exact (hC _ _ _ _ h (hs.write hP _)).bind fun a b hab => hab.write hP _

theorem RelC.colorBody (hC : RelC P n m C C') (hP : Appends P) {es es' : List Elem} (h : SimL n m es es')
    {s s' : CState} (hs : RelS P s s') : RR (RelS P) (convColorBody C es s) (convColorBody C' es' s') := by
  induction h generalizing s s' with
  | nil => exact hs
  | cons h _ ih =>
    rw [convColorBody, convColorBody]
    exact (hC.colorOne hP h hs).bind fun a b hab => ih hab

/-- Two options, both empty or with related elements. -/
def SimO (n m : Nat) (o o' : Option Elem) : Prop :=
  (o = none ∧ o' = none) ∨ ∃ a b, o = some a ∧ o' = some b ∧ Sim n m a b

theorem RelC.colorName (hC : RelC P n m C C') (hP : Appends P) {o o' : Option Elem} (h : SimO n m o o')
    {s s' : CState} (hs : RelS P s s') : RR (RelS P) (convColorName C o s) (convColorName C' o' s') := by
  unfold convColorName
  rcases h with ⟨rfl, rfl⟩ | ⟨a, b, rfl, rfl, hab⟩
  · exact hs.write hP _
  · dsimp only
    rw [hs.mode]
    exact (hC _ _ _ _ hab (hs.setMode _)).bind fun x y hxy => hxy.setMode _

theorem SimL.head {cs cs' : List Elem} (h : SimL n m cs cs') : SimO n m cs.head? cs'.head? := by
  cases h with
  | nil => exact Or.inl ⟨rfl, rfl⟩
  | cons h hs => exact Or.inr ⟨_, _, rfl, rfl, h⟩

theorem SimL.tail {cs cs' : List Elem} (h : SimL n m cs cs') : SimL n m cs.tail cs'.tail := by
  cases h with
  | nil => exact .nil
  | cons h hs => exact hs

theorem takeModel_rel {cs cs' : List Elem} (h : SimL n m cs cs')
    (hl : (cs.takeWhile fun c => decide (c.kind ≠ .tokenRBracket)).map Elem.leaves =
      (cs'.takeWhile fun c => decide (c.kind ≠ .tokenRBracket)).map Elem.leaves) :
    (takeModel cs').1 = (takeModel cs).1 ∧ SimL n m (takeModel cs).2 (takeModel cs').2 := by
  induction h with
  | nil => exact ⟨rfl, .nil⟩
  | cons h hs ih =>
    rename_i e e' es es'
    rw [List.takeWhile_cons, List.takeWhile_cons, h.kind] at hl
    rw [takeModel, takeModel, h.kind]
    by_cases hk : e.kind = .tokenRBracket
    · simp only [hk, if_true]
      exact ⟨trivial, hs⟩
    · simp only [hk, ne_eq, not_false_eq_true, decide_true, if_true] at hl
      injection hl with h1 h2
      simp only [hk, if_false]
      have := ih h2
      exact ⟨by rw [this.1, text_of_leaves h1], this.2⟩

/-- The raw part of the argument of `\color`. -/
def colorRaw (cs : List Elem) : List (List (Kind × Text)) :=
  match cs.dropWhile fun c => blankKind c.kind with
  | [] => []
  | b :: cs => if b.kind = .tokenLBracket then (cs.takeWhile fun c => decide (c.kind ≠ .tokenRBracket)).map Elem.leaves else []

theorem colorArgs_rel {cs cs' : List Elem} (h : SimL n m cs cs') (hl : colorRaw cs = colorRaw cs') :
    (colorArgs cs').1 = (colorArgs cs).1 ∧ SimO n m (colorArgs cs).2.1 (colorArgs cs').2.1 ∧
      SimL n m (colorArgs cs).2.2 (colorArgs cs').2.2 := by
  have hd := h.dropWhile (p := fun c => blankKind c.kind) (q := fun c => blankKind c.kind) fun a b hab => by rw [hab.kind]
  unfold colorArgs skipTrivia
  rw [isTrivia_eq]
  unfold colorRaw at hl
  generalize cs.dropWhile (fun c => blankKind c.kind) = x at hd hl
  generalize cs'.dropWhile (fun c => blankKind c.kind) = y at hd hl
  have fin : ∀ {u v : List Elem}, SimL n m u v →
      SimO n m (u.dropWhile fun e => blankKind e.kind).head? (v.dropWhile fun e => blankKind e.kind).head? ∧
      SimL n m (u.dropWhile fun e => blankKind e.kind).tail (v.dropWhile fun e => blankKind e.kind).tail := by
    intro u v huv
    have := huv.dropWhile (p := fun c => blankKind c.kind) (q := fun c => blankKind c.kind) fun a b hab => by rw [hab.kind]
    exact ⟨this.head, this.tail⟩
  cases hd with
  | nil => exact ⟨rfl, fin .nil⟩
  | cons hh hr =>
    rename_i b b' es es'
    dsimp only at hl ⊢
    rw [hh.kind] at hl ⊢
    by_cases hk : b.kind = .tokenLBracket
    · simp only [hk, if_true] at hl ⊢
      have := takeModel_rel hr hl
      exact ⟨by rw [this.1], fin this.2⟩
    · simp only [hk, if_false]
      exact ⟨trivial, fin (.cons hh hr)⟩

theorem textColorArgs_rel {as as' : List Elem} (h : SimL n m as as')
    (hl : (as.take 1).map Elem.leaves = (as'.take 1).map Elem.leaves) :
    RR (fun r r' => r'.1 = r.1 ∧ SimO n m r.2.1 r'.2.1 ∧ SimL n m r.2.2 r'.2.2)
      (textColorArgs as) (textColorArgs as') := by
  unfold textColorArgs
  cases h with
  | nil => exact ⟨rfl, Or.inl ⟨rfl, rfl⟩, .nil⟩
  | cons h hs =>
    rename_i a a' as as'
    have ht : a'.text = a.text := by
      simp only [List.take_succ_cons, List.take_zero, List.map_cons, List.map_nil] at hl
      injection hl with hl _
      exact text_of_leaves hl
    dsimp only
    rw [ht]
    refine RR.ite Iff.rfl (fun _ => ?_) fun _ => ?_
    · cases stripEnds a.text with
      | ok v => exact ⟨rfl, hs.head, hs.tail⟩
      | error x => exact ⟨rfl, hs.head, hs.tail⟩
    · exact ⟨rfl, Or.inr ⟨_, _, rfl, rfl, h⟩, hs⟩

theorem verbatim_cmd {e e' : Elem} (h : Sim (n + 1) (m + 1) e e') (hk : e.kind = .itemCmd) {c : Char} {name : Text}
    (hn : e.cmdName = some (c :: name)) :
    ((name = t!"label" ∨ name = t!"includegraphics") →
      e.arguments.map Elem.leaves = e'.arguments.map Elem.leaves) ∧
    (c :: name = t!"\\color" → (match e.arguments with
      | [] => []
      | a :: _ => colorRaw a.children) = (match e'.arguments with
      | [] => []
      | a :: _ => colorRaw a.children)) ∧
    (c :: name ≠ t!"\\color" →
      (name = t!"color" ∨ name = t!"textcolor" ∨ name = t!"colorbox") →
      (e.arguments.take 1).map Elem.leaves = (e'.arguments.take 1).map Elem.leaves) := by
  have hk' : e.kind ≠ .itemBlockComment := by rw [hk]; decide
  have hn' := h.cmdName hk'
  have hv : verbatim e = verbatim e' := by
    cases h.1 with
    | comment => cases hk
    | token => rfl
    | block => cases hk
    | node k hl hv hb => exact hv
  unfold verbatim at hv
  rw [h.kind, hk, hn', hn] at hv
  simp only [Option.map_some, List.tail_cons, Option.some.injEq] at hv
  refine ⟨fun hl => ?_, fun hc => ?_, fun hc hl => ?_⟩
  · simpa only [hl, if_true] using hv
  · have hnm : name = t!"color" := by injection hc
    have d1 : ¬ (name = t!"label" ∨ name = t!"includegraphics") := by rw [hnm]; decide
    simp only [d1, if_false, hc, if_true] at hv
    exact hv
  · have d1 : ¬ (name = t!"label" ∨ name = t!"includegraphics") := by
      rcases hl with rfl | rfl | rfl <;> decide
    simpa only [d1, if_false, hc, hl, if_true] using hv

theorem colorParts_rel {c : Char} {name : Text} {e e' : Elem} (h : Sim (n + 1) (m + 1) e e') (hk : e.kind = .itemCmd)
    (hn : e.cmdName = some (c :: name))
    (hc : name = t!"color" ∨ name = t!"textcolor" ∨ name = t!"colorbox") :
    RR (fun r r' => r'.1 = r.1 ∧ SimO n m r.2.1 r'.2.1 ∧ SimL n m r.2.2 r'.2.2)
      (colorParts (c :: name) e) (colorParts (c :: name) e') := by
  have hk' : e.kind ≠ .itemBlockComment := by rw [hk]; decide
  have ha := h.arguments hk'
  obtain ⟨_, hv2, hv3⟩ := verbatim_cmd h hk hn
  unfold colorParts
  by_cases hcol : c :: name = t!"\\color"
  · have hv := hv2 hcol
    rw [if_pos hcol, if_pos hcol]
    have hak := arguments_kind e
    generalize e.arguments = x at ha hv hak
    generalize e'.arguments = y at ha hv
    cases ha with
    | nil => exact RR.panic
    | cons hh hr =>
      have hch := hh.children' (by rw [hak _ List.mem_cons_self]; decide)
      exact colorArgs_rel hch hv
  · rw [if_neg hcol, if_neg hcol]
    exact textColorArgs_rel ha (hv3 hcol hc)

theorem RelC.color (hC : RelC P n m C C') (hP : Appends P) (spec : CommandSpec) {c : Char} {name : Text} {e e' : Elem}
    (h : Sim (n + 1) (m + 1) e e') (hk : e.kind = .itemCmd) (hn : e.cmdName = some (c :: name))
    (hc : name = t!"color" ∨ name = t!"textcolor" ∨ name = t!"colorbox") {s s' : CState}
    (hs : RelS P s s') : RR (RelS P) (convColor C spec (c :: name) e s) (convColor C' spec (c :: name) e' s') := by
  unfold convColor
  refine (colorParts_rel h hk hn hc).bind fun r r' hr => ?_
  obtain ⟨model, color, body⟩ := r
  obtain ⟨model', color', body'⟩ := r'
  obtain ⟨h1, h2, h3⟩ := hr
  dsimp only at h1 h2 h3 ⊢
  subst h1
  refine (hC.colorName hP h2 ?_).bind fun a b hab => (hC.colorBody hP h3 ((hab.write hP _).write hP _)).bind fun c d hcd => ?_
  · cases model' with
    | none => exact (((hs.write hP _).write hP _).write hP _).write hP _
    | some t => exact (((((hs.write hP _).write hP _).write hP _).write hP _).write hP _).write hP _
  · have hw := hcd.write hP [']']
    exact RelS.ite (hw.modeIff _) (fun _ => hw.write hP _) fun _ => hw

theorem RelC.args (hC : RelC P n m C C') (hP : Appends P) (k : Kind) {as as' : List Elem} (h : SimL n m as as')
    {s s' : CState} (hs : RelS P s s') : RR (RelS P) (convArgs C k as s) (convArgs C' k as' s') := by
  induction h generalizing s s' with
  | nil => exact hs
  | cons h hr ih =>
    rw [convArgs, convArgs]
    refine (hC _ _ _ _ h hs).bind fun a b hab => ih ?_
    rw [h.kind]
    refine RelS.ite ?_ (fun _ => hab.write hP _) fun _ => hab
    have := childNodes_nil hr
    constructor <;> intro hx <;> refine ⟨hx.1, fun he => hx.2 ?_⟩
    · exact this.2 he
    · exact this.1 he

theorem RelC.textArgs (hC : RelC P n m C C') (hP : Appends P) {as as' : List Elem} (h : SimL n m as as')
    {s s' : CState} (hs : RelS P s s') : RR (RelS P) (convTextArgs C as s) (convTextArgs C' as' s') := by
  induction h generalizing s s' with
  | nil => exact hs
  | cons h hr ih =>
    rw [convTextArgs, convTextArgs]
    refine RR.ite (by rw [h.kind]) (fun _ => ?_) fun _ => ih hs
    dsimp only
    have hw := hs.write hP ['[']
    rw [hw.mode]
    exact (hC _ _ _ _ h (hw.setMode _)).bind fun a b hab => ih ((hab.setMode _).write hP _)

/-- The first argument of a command with greedy arguments. -/
def GreedyOk (n m : Nat) (as as' : List Elem) : Prop :=
  ∀ a bs a' bs', as = a :: bs → as' = a' :: bs' →
    RR (fun cs cs' => SimL n m cs cs') (asNode a) (asNode a')

theorem RelC.normalArgs (hC : RelC P n m C C') (hP : Appends P) (sh : CmdShape) (tn : Text) {as as' : List Elem}
    (h : SimL n m as as') (hb : GreedyOk n m as as') {s s' : CState} (hs : RelS P s s') :
    RR (RelS P) (convNormalArgs C sh tn as s) (convNormalArgs C' sh tn as' s') := by
  unfold convNormalArgs
  refine RR.ite Iff.rfl (fun _ => hs.write hP _) fun _ => RR.ite Iff.rfl (fun _ => ?_) fun _ => ?_
  · cases h with
    | nil => exact RR.panic
    | cons h hr =>
      refine (hb _ _ _ _ rfl rfl).bind fun cs cs' hcs => ?_
      exact (hC.args hP _ hcs (hs.write hP _)).bind fun a b hab => hab.write hP _
  · refine RR.ite (by rw [hs.mode]) (fun _ => ?_) fun _ => ?_
    · exact (hC.args hP _ h (hs.write hP _)).bind fun a b hab => hab.write hP _
    · exact (hC.textArgs hP h hs).bind fun a b hab => hab.write hP _

theorem SameList.refl' {cs : List Elem} (h : ∀ c ∈ cs, Same c c) : SameList cs cs := by
  induction cs with
  | nil => exact .nil
  | cons c cs ih => exact .cons (h c List.mem_cons_self) (ih fun x hx => h x (List.mem_cons_of_mem _ hx))

theorem Same.refl (e : Elem) : Same e e :=
  Elem.rec (motive_1 := fun e => Same e e) (motive_2 := fun cs => ∀ c ∈ cs, Same c c) (fun k t => .token k t)
    (fun k _ h => .node k (SameList.refl' h) rfl fun _ => rfl) (fun _ h => (by cases h))
    (fun c cs h hs x hx => by
      rcases List.mem_cons.1 hx with e | hx
      · rw [e]; exact h
      · exact hs x hx) e

theorem SimL.refl {cs : List Elem} (h1 : Elem.depth.go cs ≤ n) (h2 : Elem.depth.go cs ≤ m) : SimL n m cs cs :=
  (SameList.refl' fun c _ => Same.refl c).sim h1 h2

/-- The head of a filtered list, when everything before satisfies another filter. -/
theorem filter_first {cs as : List Elem} {a : Elem} (h : cs.filter (fun c => decide (c.kind ≠ .clauseCommandName)) = a :: as)
    (hk : isBlock a = true) : ∃ r, cs.filter isBlock = a :: r := by
  induction cs with
  | nil => cases h
  | cons c cs ih =>
    rw [List.filter_cons] at h ⊢
    by_cases hc : c.kind = .clauseCommandName
    · simp only [hc, ne_eq, not_true_eq_false, decide_false, Bool.false_eq_true, if_false] at h
      have : isBlock c = false := by unfold isBlock; rw [hc]; rfl
      rw [this]
      exact ih h
    · simp only [hc, ne_eq, not_false_eq_true, decide_true, if_true] at h
      injection h with h1 h2
      subst h1
      rw [if_pos hk]
      exact ⟨_, rfl⟩

theorem greedyOk {e e' : Elem} (h : Sim (n + 1) (m + 1) e e') (hk : e.kind = .itemCmd) :
    GreedyOk n m (e.children.filter fun c => decide (c.kind ≠ .clauseCommandName))
      (e'.children.filter fun c => decide (c.kind ≠ .clauseCommandName)) := by
  have hk' : e.kind ≠ .itemBlockComment := by rw [hk]; decide
  have hl := (h.children hk').filter (p := fun c => decide (c.kind ≠ .clauseCommandName))
    (q := fun c => decide (c.kind ≠ .clauseCommandName)) fun a b hab => by rw [hab.kind]
  intro a bs a' bs' ha ha'
  rw [ha, ha'] at hl
  cases hl with
  | cons hh hr =>
    by_cases hb : a.kind = .itemBlockComment
    · have he : e.children.filter isBlock = e'.children.filter isBlock := by
        cases h.1 with
        | comment => cases hk
        | token => rfl
        | block => cases hk
        | node k hl hv hb => exact hb hk
      obtain ⟨r, hr1⟩ := filter_first ha (by unfold isBlock; rw [hb]; rfl)
      obtain ⟨r', hr2⟩ := filter_first ha' (by unfold isBlock; rw [hh.kind, hb]; rfl)
      rw [hr1, hr2] at he
      injection he with he _
      subst he
      cases a with
      | token k t => exact RR.panic
      | node k cs =>
        have h1 := hh.2.1
        have h2 := hh.2.2
        rw [Elem.depth] at h1 h2
        exact SimL.refl (by omega) (by omega)
    · exact (asNode_rel hh.succ hb).mono fun cs cs' hcs => hcs.1

theorem RelC.normal (hC : RelC P n m C C') (hP : Appends P) (spec : CommandSpec) {e e' : Elem}
    (h : Sim (n + 1) (m + 1) e e') (hk : e.kind = .itemCmd) {s s' : CState}
    (hs : RelS P s s') : RR (RelS P) (convNormal C spec e s) (convNormal C' spec e' s') := by
  have hk' : e.kind ≠ .itemBlockComment := by rw [hk]; decide
  unfold convNormal
  refine (cmdNameOf_rel h hk').bind fun full full' hf => ?_
  subst hf
  refine (dropOne_same full).bind fun name name' hn => ?_
  subst hn
  have hg := greedyOk h hk
  have hl := (h.children hk').filter (p := fun c => decide (c.kind ≠ .clauseCommandName))
    (q := fun c => decide (c.kind ≠ .clauseCommandName)) fun a b hab => by rw [hab.kind]
  dsimp only
  split
  · exact RR.fail _
  · rename_i sh _
    rw [hs.mode]
    have hw := hs.write hP (typstName s.mode name sh)
    rw [hw.env]
    refine (hC.normalArgs hP sh _ hl hg ?_).bind fun a b hab => ?_
    · exact RelS.ite Iff.rfl (fun _ => hw.enter _) fun _ => hw
    · exact RR.ite Iff.rfl (fun _ => hab.exit _) fun _ => hab

theorem RelC.namedArgs (hC : RelC P n m C C') (hP : Appends P) (i : Nat) {as as' : List Elem} (h : SimL n m as as')
    {s s' : CState} (hs : RelS P s s') : RR (RelS P) (convNamedArgs C i as s) (convNamedArgs C' i as' s') := by
  induction h generalizing i s s' with
  | nil => exact hs
  | cons h hr ih =>
    rw [convNamedArgs, convNamedArgs]
    exact (hC _ _ _ _ h (hs.write hP _)).bind fun a b hab => ih _ (hab.write hP _)

theorem isNamedArg_rel {e e' : Elem} (h : Sim n m e e') : RR Eq (isNamedArg e) (isNamedArg e') := by
  unfold isNamedArg
  rw [h.kind]
  by_cases hk : e.kind = .itemCmd
  · rw [if_pos hk, if_pos hk]
    refine (cmdNameOf_rel h.succ (by rw [hk]; decide)).bind fun a b hab => ?_
    subst hab
    exact rfl
  · rw [if_neg hk, if_neg hk]
    exact rfl

theorem isNamedArg_kind {e : Elem} (h : isNamedArg e = .ok true) : e.kind = .itemCmd := by
  unfold isNamedArg at h
  by_cases hk : e.kind = .itemCmd
  · exact hk
  · rw [if_neg hk] at h; cases h

theorem findCaption_rel {es es' : List Elem} (h : SimL n m es es') {o o' : Option Elem} (ho : SimO n m o o') :
    RR (SimO n m) (findCaption es o) (findCaption es' o') := by
  induction h generalizing o o' with
  | nil => exact ho
  | cons h hr ih =>
    rename_i e e' es es'
    rw [findCaption, findCaption]
    have hn := isNamedArg_rel h
    cases he : isNamedArg e with
    | error x =>
      rw [he] at hn
      cases he' : isNamedArg e' with
      | error y => rw [he'] at hn; exact hn
      | ok v => rw [he'] at hn; exact hn.elim
    | ok v =>
      rw [he] at hn
      cases he' : isNamedArg e' with
      | error y => rw [he'] at hn; exact hn.elim
      | ok v' =>
        rw [he'] at hn
        have hv : v = v' := hn
        subst hv
        show RR _ (if v = true then _ else _) (if v = true then _ else _)
        cases v with
        | false => exact ih ho
        | true =>
          simp only [if_true]
          have hk := isNamedArg_kind he
          have hk' : e.kind ≠ .itemBlockComment := by rw [hk]; decide
          refine (cmdNameOf_rel h.succ hk').bind fun full full' hf => ?_
          subst hf
          refine (dropOne_same full).bind fun name name' hn => ?_
          subst hn
          refine RR.ite Iff.rfl (fun _ => ?_) fun _ => ih ho
          have ha := h.succ.arguments hk'
          generalize e.arguments = x at ha
          generalize e'.arguments = y at ha
          cases ha with
          | nil => exact RR.panic
          | cons hh _ => exact ih (Or.inr ⟨_, _, rfl, rfl, hh⟩)

theorem isBeginEnd_rel {e e' : Elem} (h : Same e e') : isBeginEnd e' = isBeginEnd e := by
  unfold isBeginEnd; rw [h.kind]

theorem RelC.figureBody (hC : RelC P n m C C') {es es' : List Elem} (h : SimL n m es es')
    {s s' : CState} (hs : RelS P s s') : RR (RelS P) (convFigureBody C es s) (convFigureBody C' es' s') := by
  induction h generalizing s s' with
  | nil => exact hs
  | cons h hr ih =>
    rw [convFigureBody, convFigureBody, isBeginEnd_rel h.1]
    refine RR.ite Iff.rfl (fun _ => ih hs) fun _ => ?_
    refine (isNamedArg_rel h).bind fun a b hab => ?_
    subst hab
    refine RR.ite Iff.rfl (fun _ => ih hs) fun _ => ?_
    exact (hC _ _ _ _ h hs).bind fun a b hab => ih hab

theorem RelC.caption (hC : RelC P n m C C') (hP : Appends P) {o o' : Option Elem} (h : SimO n m o o')
    {s s' : CState} (hs : RelS P s s') : RR (RelS P) (convCaption C o s) (convCaption C' o' s') := by
  unfold convCaption
  rcases h with ⟨rfl, rfl⟩ | ⟨a, b, rfl, rfl, hab⟩
  · exact hs
  · exact (hC _ _ _ _ hab (hs.write hP _)).bind fun x y hxy => hxy.write hP _

theorem RelC.figure (hC : RelC P n m C C') (hP : Appends P) (kind : LEnv) (tn : Text) {e e' : Elem}
    (h : Sim (n + 1) (m + 1) e e') (hk : e.kind ≠ .itemBlockComment) {s s' : CState} (hs : RelS P s s') :
    RR (RelS P) (convFigure C kind tn e s) (convFigure C' kind tn e' s') := by
  unfold convFigure
  refine (asNode_rel h hk).bind fun cs cs' hcs => ?_
  refine (findCaption_rel hcs.1 (Or.inl ⟨rfl, rfl⟩)).bind fun o o' ho => ?_
  dsimp only
  rw [hs.env]
  refine (hC.caption hP ho ((((hs.enter _).write hP _).write hP _).write hP _)).bind fun a b hab => ?_
  refine (hC.figureBody hcs.1 (hab.write hP _)).bind fun c d hcd => ?_
  exact (hcd.write hP _).exit _

/-- Related pairs of a flag and a state. -/
def RelB (P : Text → Text → Prop) (r r' : Bool × CState) : Prop := r'.1 = r.1 ∧ RelS P r.2 r'.2

theorem tableExterior_rel (hP : Appends P) {e e' : Elem} (h : Sim n m e e') {s s' : CState} (hs : RelS P s s') :
    RR (RelB P) (tableExterior e s) (tableExterior e' s') := by
  have w : ∀ b t, RR (RelB P) (.ok (b, s.write t)) (.ok (b, s'.write t)) := fun b t => ⟨rfl, hs.write hP t⟩
  have hn := cmdNameOf_rel h.succ
  unfold tableExterior
  rw [h.kind]
  split
  · exact ⟨rfl, hs⟩
  · exact ⟨rfl, hs⟩
  · exact w _ _
  · exact w _ _
  · rename_i hk
    refine (hn (by rw [hk]; decide)).bind fun full full' hf => ?_
    subst hf
    refine (dropOne_same full).bind fun name name' hn => ?_
    subst hn
    split
    · exact w _ _
    · exact w _ _
  · exact w _ _

theorem RelC.tableInterior (hC : RelC P n m C C') (hP : Appends P) {e e' : Elem} (h : Sim n m e e') {s s' : CState}
    (hs : RelS P s s') : RR (RelB P) (tableInterior C e s) (tableInterior C' e' s') := by
  unfold Mitex.tableInterior
  rw [h.kind]
  split
  · exact ⟨rfl, hs.write hP _⟩
  · exact ⟨rfl, hs.write hP _⟩
  · exact (hC _ _ _ _ h hs).bind fun a b hab => ⟨rfl, hab⟩

theorem RelC.tableStep (hC : RelC P n m C C') (hP : Appends P) {e e' : Elem} (h : Sim n m e e') (ext : Bool)
    {s s' : CState} (hs : RelS P s s') : RR (RelB P) (tableStep C e ext s) (tableStep C' e' ext s') := by
  unfold Mitex.tableStep
  refine RR.ite Iff.rfl (fun _ => ?_) fun _ => hC.tableInterior hP h hs
  refine (tableExterior_rel hP h hs).bind fun r r' hr => ?_
  obtain ⟨b, s1⟩ := r
  obtain ⟨b', s1'⟩ := r'
  obtain ⟨h1, h2⟩ := hr
  dsimp only at h1 h2 ⊢
  subst h1
  exact RR.ite Iff.rfl (fun _ => ⟨rfl, h2⟩) fun _ => hC.tableInterior hP h h2

theorem RelC.tableLoop (hC : RelC P n m C C') (hP : Appends P) {es es' : List Elem} (h : SimL n m es es') (ext : Bool)
    {s s' : CState} (hs : RelS P s s') : RR (RelS P) (tableLoop C es ext s) (tableLoop C' es' ext s') := by
  induction h generalizing ext s s' with
  | nil => exact hs
  | cons h hr ih =>
    rw [Mitex.tableLoop, Mitex.tableLoop, isBeginEnd_rel h.1]
    refine RR.ite Iff.rfl (fun _ => ih _ hs) fun _ => ?_
    refine (hC.tableStep hP h ext hs).bind fun r r' hr => ?_
    rw [hr.1]
    exact ih _ hr.2

theorem splitAlign_same (t : Text) (i : Nat) : RR Eq (splitAlign t i) (splitAlign t i) := by
  induction t generalizing i with
  | nil => exact rfl
  | cons c t ih =>
    rw [splitAlign]
    refine RR.ite Iff.rfl (fun _ => ?_) fun _ => RR.ite Iff.rfl (fun _ => ?_) fun _ => RR.fail _
    · exact (ih _).bind fun a b hab => by subst hab; exact rfl
    · exact (ih _).bind fun a b hab => by subst hab; exact rfl

theorem Sim.envBegin {e e' : Elem} (hk : e.kind ≠ .itemBlockComment) (h : Sim (n + 1) (m + 1) e e') :
    (e.envBegin = none ∧ e'.envBegin = none) ∨
      ∃ a b, e.envBegin = some a ∧ e'.envBegin = some b ∧ Sim n m a b ∧ a.kind = .itemBegin := by
  unfold Elem.envBegin
  have hf := (SimL.childNodes hk h).find (p := fun c => decide (c.kind = .itemBegin))
    (q := fun c => decide (c.kind = .itemBegin)) (fun a b hs => by rw [hs.kind])
  rcases hf with ⟨h1, h2⟩ | ⟨a, b, h1, h2, hs⟩
  · exact Or.inl ⟨h1, h2⟩
  · exact Or.inr ⟨a, b, h1, h2, hs, by simpa using List.find?_some h1⟩

theorem Sim.envArguments {e e' : Elem} (hk : e.kind ≠ .itemBlockComment) (h : Sim (n + 1) (m + 1) e e') :
    SimL n m e.envArguments e'.envArguments := by
  unfold Elem.envArguments
  rcases h.envBegin hk with ⟨h1, h2⟩ | ⟨a, b, h1, h2, hs, hka⟩
  · rw [h1, h2]; exact .nil
  · rw [h1, h2]; exact hs.succ.arguments (by rw [hka]; decide)

theorem RelC.table (hC : RelC P n m C C') (hP : Appends P) (kind : LEnv) (tn : Text) {e e' : Elem}
    (h : Sim (n + 1) (m + 1) e e') (hk : e.kind = .itemEnv) {s s' : CState} (hs : RelS P s s') :
    RR (RelS P) (convTable C kind tn e s) (convTable C' kind tn e' s') := by
  unfold convTable
  have hk' : e.kind ≠ .itemBlockComment := by rw [hk]; decide
  have hv : e.envArguments.map Elem.leaves = e'.envArguments.map Elem.leaves := by
    cases h.1 with
    | comment => cases hk
    | token => rfl
    | block => cases hk
    | node k hl hv hb =>
      simp only [Elem.kind] at hk
      subst hk
      simp only [verbatim, Elem.kind] at hv
      injection hv
  have ha := h.envArguments hk'
  refine (asNode_rel h hk').bind fun cs cs' hcs => ?_
  generalize e.envArguments = x at ha hv
  generalize e'.envArguments = y at ha hv
  cases ha with
  | nil => exact RR.panic
  | cons hh hr =>
    injection hv with hv _
    simp only [text_of_leaves hv]
    refine (stripEnds_same _).bind fun t t' ht => ?_
    subst ht
    refine (splitAlign_same _ _).bind fun r r' hr => ?_
    subst hr
    rw [hs.env]
    refine (hC.tableLoop hP hcs.1 _ ((hs.enter _).write hP _)).bind fun a b hab => ?_
    exact (hab.write hP _).exit _

theorem flushLabel_rel (hP : Appends P) {s s' : CState} (hs : RelS P s s') : RelS P (flushLabel s) (flushLabel s') := by
  unfold flushLabel
  refine RelS.ite (hs.modeIff _) (fun _ => ?_) fun _ => hs
  rw [hs.2.2.2.1]
  cases s.label with
  | none => exact hs
  | some l =>
    have hw := ((hs.write hP ['<']).write hP l).write hP ['>']
    exact ⟨hw.1, hw.2.1, hw.2.2.1, rfl, hw.2.2.2.2.1, hw.2.2.2.2.2⟩

theorem Sim.envBody {e e' : Elem} (hk : e.kind ≠ .itemBlockComment) (h : Sim (n + 1) (m + 1) e e') :
    SimL n m (envBody e) (envBody e') :=
  (h.children hk).filter fun a b hs => by rw [isBeginEnd_rel hs]

theorem RelC.mathEnv (hC : RelC P n m C C') (hP : Appends P) (kind : LEnv) (tn : Text) {e e' : Elem}
    (h : Sim (n + 1) (m + 1) e e') (hk : e.kind ≠ .itemBlockComment) {s s' : CState} (hs : RelS P s s') :
    RR (RelS P) (convMathEnv C kind tn e s) (convMathEnv C' kind tn e' s') := by
  unfold convMathEnv
  dsimp only
  rw [hs.mode, hs.env]
  refine (hC.namedArgs hP _ (h.envArguments hk) ?_).bind fun a b hab => ?_
  · refine RelS.write hP (RelS.write hP ?_ _) _
    exact RelS.ite Iff.rfl (fun _ => ((hs.enter _).setMode _).write hP _) fun _ => (hs.enter _).setMode _
  · refine (hC.list (h.envBody hk) hab).bind fun c d hcd => ?_
    refine ((hcd.write hP _).exit _).bind fun x y hxy => ?_
    exact RelS.ite Iff.rfl (fun _ => (hxy.write hP _).setMode _) fun _ => hxy

theorem RelC.normalEnv (hC : RelC P n m C C') (hP : Appends P) (kind : LEnv) (tn : Text) {e e' : Elem}
    (h : Sim (n + 1) (m + 1) e e') (hk : e.kind ≠ .itemBlockComment) {s s' : CState} (hs : RelS P s s') :
    RR (RelS P) (convNormalEnv C kind tn e s) (convNormalEnv C' kind tn e' s') := by
  unfold convNormalEnv
  dsimp only
  rw [hs.env]
  refine (hC.list (h.envBody hk) ((((hs.enter _).write hP _).write hP _).write hP _)).bind fun c d hcd => ?_
  exact (hcd.write hP _).exit _

theorem RelC.listEnv (hC : RelC P n m C C') (kind : LEnv) {e e' : Elem}
    (h : Sim (n + 1) (m + 1) e e') (hk : e.kind ≠ .itemBlockComment) {s s' : CState} (hs : RelS P s s') :
    RR (RelS P) (convListEnv C kind e s) (convListEnv C' kind e' s') := by
  unfold convListEnv
  dsimp only
  rw [hs.env]
  exact (hC.list (h.envBody hk) (hs.enter _)).bind fun c d hcd => hcd.exit _

theorem RelC.envKind (hC : RelC P n m C C') (hP : Appends P) (kind : LEnv) (tn : Text) {e e' : Elem}
    (h : Sim (n + 1) (m + 1) e e') (hk : e.kind = .itemEnv) {s s' : CState} (hs : RelS P s s') :
    RR (RelS P) (convEnvKind C kind tn e s) (convEnvKind C' kind tn e' s') := by
  have hk' : e.kind ≠ .itemBlockComment := by rw [hk]; decide
  unfold convEnvKind
  refine RR.ite Iff.rfl (fun _ => hC.mathEnv hP _ _ h hk' hs) fun _ => ?_
  split
  · exact hC.figure hP _ _ h hk' hs
  · exact hC.table hP _ _ h hk hs
  · exact hC.normalEnv hP _ _ h hk' hs

theorem Sim.envName {e e' : Elem} (h : Sim n m e e') (hk : e.kind = .itemEnv) : e'.envName = e.envName := by
  have hv : (e.envBegin.bind Elem.firstToken).toList = (e'.envBegin.bind Elem.firstToken).toList := by
    cases h.1 with
    | comment => cases hk
    | token => rfl
    | block => cases hk
    | node k hl hv hb =>
      simp only [Elem.kind] at hk
      subst hk
      simp only [verbatim, Elem.kind] at hv
      injection hv
  have ht : ∀ {a b : Option (Kind × Text)}, a.toList = b.toList → b = a := by
    intro a b h
    cases a <;> cases b <;> simp_all [Option.toList]
  have he := ht hv
  have key : ∀ x : Elem, x.envName = (match x.envBegin.bind Elem.firstToken with
      | some (.tokenCommandSym, t) => some t
      | _ => none) := by
    intro x
    unfold Elem.envName
    cases x.envBegin with
    | none => rfl
    | some b => rfl
  rw [key, key, he]

theorem RelC.env (hC : RelC P n m C C') (hP : Appends P) (spec : CommandSpec) {e e' : Elem}
    (h : Sim (n + 1) (m + 1) e e') (hk : e.kind = .itemEnv) {s s' : CState} (hs : RelS P s s') :
    RR (RelS P) (convEnv C spec e s) (convEnv C' spec e' s') := by
  have hk' : e.kind ≠ .itemBlockComment := by rw [hk]; decide
  have hn := h.envName hk
  have hle := fun kind => hC.listEnv kind h hk' hs
  have hee := fun kind tn => hC.envKind hP kind tn h hk hs
  unfold convEnv
  cases h.1 with
  | comment => cases hk
  | token => exact RR.panic
  | block => cases hk
  | node k hl hv hb =>
    dsimp only
    rw [hn]
    split
    · exact RR.panic
    · split
      · exact RR.fail _
      · refine RR.ite Iff.rfl (fun _ => hle _) fun _ => ?_
        exact (hee _ _).bind fun a b hab => flushLabel_rel hP hab

theorem cmdNameOf_ok {e : Elem} {full : Text} (h : cmdNameOf e = .ok full) : e.cmdName = some full := by
  unfold cmdNameOf at h
  split at h
  · cases h
  · split at h
    · cases h
    · cases h; assumption

theorem dropOne_ok {t name : Text} (h : dropOne t = .ok name) : ∃ c, t = c :: name := by
  unfold dropOne at h
  cases t with
  | nil => cases h
  | cons c t =>
    rw [dropBytes] at h
    by_cases hc : utf8Len c ≤ 0 + 1
    · have : 0 + 1 - utf8Len c = 0 := by
        have : 0 < utf8Len c := utf8Len_pos c
        omega
      rw [if_pos hc, this] at h
      cases t <;> (simp only [dropBytes] at h; cases h; exact ⟨c, rfl⟩)
    · rw [if_neg hc] at h; cases h

theorem RelC.cmd (hC : RelC P n m C C') (hP : Appends P) (spec : CommandSpec) {e e' : Elem}
    (h : Sim (n + 1) (m + 1) e e') (hk : e.kind = .itemCmd) {s s' : CState} (hs : RelS P s s') :
    RR (RelS P) (convCmd C spec e s) (convCmd C' spec e' s') := by
  have hk' : e.kind ≠ .itemBlockComment := by rw [hk]; decide
  unfold convCmd
  have hf := cmdNameOf_rel h hk'
  cases he : cmdNameOf e with
  | error x =>
    rw [he] at hf
    cases he' : cmdNameOf e' with
    | error y => rw [he'] at hf; exact hf
    | ok v => rw [he'] at hf; exact hf.elim
  | ok full =>
    rw [he] at hf
    cases he' : cmdNameOf e' with
    | error y => rw [he'] at hf; exact hf.elim
    | ok v =>
      rw [he'] at hf
      have hv : full = v := hf
      subst hv
      show RR _ (dropOne full >>= _) (dropOne full >>= _)
      cases hd : dropOne full with
      | error x =>
        have := dropOne_same full
        rw [hd] at this
        exact ⟨rfl, this.2⟩
      | ok name =>
        obtain ⟨c, rfl⟩ := dropOne_ok hd
        have hn := cmdNameOf_ok he
        obtain ⟨hv1, _, _⟩ := verbatim_cmd h hk hn
        show RR _ (if name = t!"item" then _ else _) (if name = t!"item" then _ else _)
        refine RR.ite Iff.rfl (fun _ => item_rel hP hs) fun _ => ?_
        refine RR.ite Iff.rfl (fun hx => label_rel hP (hv1 (Or.inl hx)) hs) fun _ => ?_
        refine RR.ite Iff.rfl (fun hx => image_rel hP h hk' (hv1 (Or.inr hx)) hs) fun _ => ?_
        exact RR.ite Iff.rfl (fun hx => hC.color hP spec h hk hn hx hs) fun _ => hC.normal hP spec h hk hs

theorem RelC.kind (hC : RelC P n m C C') (hP : Appends P) (spec : CommandSpec) {e e' : Elem}
    (h : Sim (n + 1) (m + 1) e e') {s s' : CState} (hs : RelS P s s') :
    RR (RelS P) (convKind spec C e s) (convKind spec C' e' s') := by
  have w : ∀ t, RR (RelS P) (.ok (s.write t)) (.ok (s'.write t)) := fun t => hs.write hP t
  have hv : e.kind ≠ .tokenComment → e.kind ≠ .itemBlockComment → verbatim e = verbatim e' := by
    intro h1 h2
    cases h.1 with
    | comment => exact absurd rfl h1
    | token => rfl
    | block => exact absurd rfl h2
    | node k hl hv hb => exact hv
  have ht : e.kind = .tokenError ∨ e.kind = .itemTypstCode → e'.text = e.text := by
    intro hk
    refine text_of_leaves ?_
    have h1 := hv (by rcases hk with hk | hk <;> rw [hk] <;> decide) (by rcases hk with hk | hk <;> rw [hk] <;> decide)
    unfold verbatim at h1
    rw [h.kind] at h1
    rcases hk with hk | hk
    · rw [hk] at h1; simp only at h1; injection h1
    · rw [hk] at h1; simp only at h1; injection h1
  unfold convKind
  rw [h.kind]
  split
  case h_1 hk => rw [ht (Or.inl hk)]; exact RR.fail _
  all_goals rename_i hk
  all_goals first
    | exact RR.fail _
    | exact w _
    | exact hs
    | exact (asNode_rel h (by rw [hk]; decide)).bind fun cs cs' hcs => hC.list hcs.1 hs
    | exact hC.formula hP h hk hs
    | exact hC.curly hP h (by rw [hk]; decide) hs
    | exact hC.clauseLR hP h hk hs
    | exact hC.attach hP h (by rw [hk]; decide) hs
    | exact hC.cmd hP spec h hk hs
    | exact hC.env hP spec h hk hs
    | exact commandSym_rel spec hP h (by rw [hk]; decide) hs
    | exact RR.ite (hs.modeIff _) (fun _ => w _) fun _ => w _
    | exact RR.ite (by rw [hs.env]) (fun _ => w _) fun _ => w _
    | exact (asToken_rel h (by rw [hk]; decide)).bind fun t t' ht =>
        (by subst ht; exact RR.ite (hs.modeIff _) (fun _ => w _) fun _ => w _)
    | exact RR.ite (by rw [hs.2.2.2.2.1]) (fun _ => ⟨hs.1, hs.2.1, hs.2.2.1, hs.2.2.2.1, rfl, hs.2.2.2.2.2⟩)
        fun _ => (asToken_rel h (by rw [hk]; decide)).bind fun t t' ht => (by subst ht; exact w _)
    | (rw [ht (Or.inr hk)]
       exact (asNode_rel h (by rw [hk]; decide)).bind fun _ _ _ => w _)
    | (rw [hs.env]; split <;> first | exact w _ | exact hs)
    | skip
  · refine (asToken_rel h (by rw [hk]; decide)).bind fun t t' ht => ?_
    subst ht
    have h1 := hs.write hP t
    have e1 : (s'.write t).indent = (s.write t).indent := hs.2.2.1
    show RelS P { (s.write t).write (List.replicate (s.write t).indent ' ') with skip := true }
      { (s'.write t).write (List.replicate (s'.write t).indent ' ') with skip := true }
    rw [e1]
    have h2 := h1.write hP (List.replicate (s.write t).indent ' ')
    exact ⟨h2.1, h2.2.1, h2.2.2.1, h2.2.2.2.1, rfl, h2.2.2.2.2.2⟩

theorem RelC.body (hC : RelC P n m C C') (hP : Appends P) (spec : CommandSpec) :
    RelC P (n + 1) (m + 1) (convBody spec C) (convBody spec C') := by
  intro e e' s s' h hs
  unfold convBody
  refine hC.kind hP spec h ?_
  rw [h.kind]
  exact RelS.ite Iff.rfl (fun _ => hs) fun _ => ⟨hs.1, hs.2.1, hs.2.2.1, hs.2.2.2.1, rfl, hs.2.2.2.2.2⟩

end

theorem depth_pos (e : Elem) : 0 < e.depth := by cases e <;> simp [Elem.depth]

/-- The conversions of trees that differ only in comments, from states that differ only in their related outputs, with
sufficient fuel, are related; none runs out of fuel. -/
theorem convert_rel (spec : CommandSpec) (hP : Appends P) (n m : Nat) : RelC P n m (convert spec n) (convert spec m) := by
  induction n generalizing m with
  | zero => intro e e' s s' h _; have := depth_pos e; have := h.2.1; omega
  | succ n ih =>
    cases m with
    | zero => intro e e' s s' h _; have := depth_pos e'; have := h.2.2; omega
    | succ m => exact (ih m).body hP spec

end Mitex
