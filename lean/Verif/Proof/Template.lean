/-
The converter writes what the templates say.
-/
import Verif.Proof.ConvParts
import Verif.Proof.Table
import Verif.Spec.Template

namespace Mitex

/-! ### Running templates -/

/-- The memory of a converter state. -/
def CState.mem (s : CState) : Mem := ⟨s.label, s.skip⟩

/-- The state after writing `t`, with the memory `m`. -/
def CState.after (s : CState) (t : Text) (m : Mem) : CState := { s with out := s.out ++ t, label := m.label, skip := m.skip }

/-- A converter in terms of places and memory. -/
abbrev Renderer := Place → Elem → Mem → Res (Text × Mem)

/-- One after the other. -/
def andThen (o : Res (Text × Mem)) (f : Mem → Res (Text × Mem)) : Res (Text × Mem) :=
  match o with
  | .error x => .error x
  | .ok (t, m) => match f m with
    | .error x => .error x
    | .ok (u, m') => .ok (t ++ u, m')

/-- One piece. -/
def runOne (D : Renderer) : Piece → Mem → Res (Text × Mem)
  | .text t, m => .ok (t, m)
  | .part x e, m => D x e m
  | .blank e, m =>
    if m.skip then .ok ([], { m with skip := false })
    else match e with
      | .token _ t => .ok (t, m)
      | .node .. => .error .panic
  | .dropBlank, m => .ok ([], { m with skip := true })
  | .keepLabel l, m => .ok ([], { m with label := some l })
  | .putLabel, m =>
    match m.label with
    | some l => .ok (t!"<" ++ l ++ t!">", { m with label := none })
    | none => .ok ([], m)

/-- All pieces. -/
def runAll (D : Renderer) : List Piece → Mem → Res (Text × Mem)
  | [], m => .ok ([], m)
  | p :: ps, m => andThen (runOne D p m) (runAll D ps)

/-- The templates as a function; commands without names crash at once. -/
def render (spec : CommandSpec) : Nat → Renderer
  | 0 => fun _ e _ => if e.kind = .itemCmd ∧ bareName e = none then .error .panic else .error .fuel
  | n + 1 => fun x e m =>
    match template spec x e with
    | .error f => .error f
    | .ok ps => runAll (render spec n) ps (if e.kind = .tokenWhiteSpace then m else { m with skip := false })

theorem andThen_ok (t : Text) (m : Mem) (f : Mem → Res (Text × Mem)) :
    andThen (.ok (t, m)) f = (f m).map fun q => (t ++ q.1, q.2) := by
  unfold andThen
  dsimp only
  cases f m <;> rfl

theorem andThen_assoc (o : Res (Text × Mem)) (f g : Mem → Res (Text × Mem)) :
    andThen (andThen o f) g = andThen o fun m => andThen (f m) g := by
  cases o with
  | error x => rfl
  | ok p =>
    obtain ⟨t, m⟩ := p
    rw [andThen_ok, andThen_ok]
    cases hf : f m with
    | error x => rfl
    | ok q =>
      obtain ⟨u, m'⟩ := q
      rw [andThen_ok]
      show andThen (.ok (t ++ u, m')) g = _
      rw [andThen_ok]
      cases g m' with
      | error x => rfl
      | ok q => simp [Except.map]

theorem andThen_nil (o : Res (Text × Mem)) : andThen o (fun m => .ok ([], m)) = o := by
  cases o with
  | error x => rfl
  | ok p => rw [andThen_ok]; simp [Except.map]

theorem nil_andThen (m : Mem) (f : Mem → Res (Text × Mem)) : andThen (.ok ([], m)) f = f m := by
  rw [andThen_ok]
  cases f m <;> rfl

theorem runAll_append (D : Renderer) (ps qs : List Piece) (m : Mem) :
    runAll D (ps ++ qs) m = andThen (runAll D ps m) (runAll D qs) := by
  induction ps generalizing m with
  | nil => rw [List.nil_append, runAll, nil_andThen]
  | cons p ps ih =>
    rw [List.cons_append, runAll, runAll, andThen_assoc]
    congr 1
    funext m'
    exact ih m'

/-! ### Agreement -/

/-- The result of the converter, started in `s`, is the one of the templates (unless the converter ran out of fuel). -/
def Agrees (s : CState) (r : Res CState) (o : Res (Text × Mem)) : Prop :=
  match r, o with
  | .ok s', .ok (t, m) => s' = s.after t m
  | .error x, .error y => x = .fuel ∨ x = y
  | _, _ => False

theorem after_after (s : CState) (t u : Text) (m m' : Mem) : (s.after t m).after u m' = s.after (t ++ u) m' := by
  simp [CState.after]

theorem after_mem (s : CState) (t : Text) (m : Mem) : (s.after t m).mem = m := rfl

theorem after_write (s : CState) (t u : Text) (m : Mem) : (s.after t m).write u = s.after (t ++ u) m := by
  simp [CState.after, CState.write]

theorem after_nil (s : CState) : s.after [] s.mem = s := by
  simp [CState.after, CState.mem]

theorem write_eq (s : CState) (t : Text) : s.write t = s.after t s.mem := rfl

theorem At.after {x : Place} {s : CState} (h : At x s) (t : Text) (m : Mem) : At x (s.after t m) := h

theorem Agrees.bind {s0 s : CState} {r : Res CState} {f : CState → Res CState} {o : Res (Text × Mem)}
    {o' : Mem → Res (Text × Mem)} (h : Agrees s0 r o) (k : ∀ t m, Agrees (s.after t m) (f (s0.after t m)) (o' m)) :
    Agrees s (r >>= f) (andThen o o') := by
  cases r with
  | error x =>
    cases o with
    | error y => exact h
    | ok p => exact h.elim
  | ok s' =>
    cases o with
    | error y => exact h.elim
    | ok p =>
      obtain ⟨t, m⟩ := p
      have hs : s' = s0.after t m := h
      subst hs
      rw [andThen_ok]
      have hk := k t m
      show Agrees s (f (s0.after t m)) _
      cases hf : f (s0.after t m) with
      | error x =>
        rw [hf] at hk
        cases ho : o' m with
        | error y => rw [ho] at hk; exact hk
        | ok q => rw [ho] at hk; exact hk.elim
      | ok s2 =>
        rw [hf] at hk
        cases ho : o' m with
        | error y => rw [ho] at hk; exact hk.elim
        | ok q =>
          rw [ho] at hk
          have : s2 = (s.after t m).after q.1 q.2 := hk
          rw [this, after_after]
          rfl

/-- A binding whose converter part agrees and whose rest agrees with the rest of the template. -/
theorem Agrees.seq {D : Renderer} {ps qs : List Piece} {s0 s : CState} {m0 : Mem} {r : Res CState} {f : CState → Res CState}
    (h : Agrees s0 r (runAll D ps m0)) (k : ∀ t m, Agrees (s.after t m) (f (s0.after t m)) (runAll D qs m)) :
    Agrees s (r >>= f) (runAll D (ps ++ qs) m0) := by
  rw [runAll_append]
  exact h.bind k

theorem Agrees.text {D : Renderer} {ps : List Piece} {s : CState} {m : Mem} {r : Res CState} (t : Text)
    (h : Agrees (s.write t) r (runAll D ps m)) : Agrees s r (runAll D (.text t :: ps) m) := by
  rw [runAll, runOne, andThen_ok]
  cases r with
  | error x =>
    cases ho : runAll D ps m with
    | error y => rw [ho] at h; exact h
    | ok p => rw [ho] at h; exact h.elim
  | ok s' =>
    cases ho : runAll D ps m with
    | error y => rw [ho] at h; exact h.elim
    | ok p =>
      rw [ho] at h
      have hs : s' = (s.write t).after p.1 p.2 := h
      subst hs
      show _ = s.after (t ++ p.1) p.2
      rw [write_eq, after_after]

theorem Agrees.text' {D : Renderer} {ps : List Piece} {s s0 : CState} {r : Res CState} (t : Text) (hs : s0 = s.write t)
    (h : Agrees s0 r (runAll D ps s0.mem)) : Agrees s r (runAll D (.text t :: ps) s.mem) := by
  subst hs
  exact Agrees.text t h

theorem Agrees.done {D : Renderer} {s : CState} : Agrees s (.ok s) (runAll D [] s.mem) := (after_nil s).symm

theorem Agrees.wrote {D : Renderer} {s : CState} (t : Text) : Agrees s (.ok (s.write t)) (runAll D [.text t] s.mem) :=
  Agrees.text t (Agrees.done (s := s.write t))

theorem Agrees.fail {s : CState} {x : Stop} : Agrees s (.error x) (.error x) := Or.inr rfl

/-- `C` converts as `D` renders. -/
def Faithful (C : ConvFn) (D : Renderer) : Prop := ∀ x e s, At x s → Agrees s (C e s) (D x e s.mem)

theorem Faithful.part {C : ConvFn} {D : Renderer} (h : Faithful C D) {x : Place} (e : Elem) {s : CState} (hx : At x s) :
    Agrees s (C e s) (runAll D [.part x e] s.mem) := by
  rw [runAll, runOne]
  show Agrees s _ (andThen _ (fun m => .ok ([], m)))
  rw [andThen_nil]
  exact h x e s hx

/-- One part, and then the rest. -/
theorem Faithful.step {C : ConvFn} {D : Renderer} (h : Faithful C D) {x : Place} (e : Elem) {s : CState} (hx : At x s)
    {f : CState → Res CState} {ps : List Piece} (k : ∀ s', At x s' → Agrees s' (f s') (runAll D ps s'.mem)) :
    Agrees s (C e s >>= f) (runAll D (.part x e :: ps) s.mem) :=
  Agrees.seq (ps := [.part x e]) (h.part e hx) fun t m => k (s.after t m) hx

/-- Same place before and after. -/
theorem Agrees.next {D : Renderer} {ps qs : List Piece} {x : Place} {s : CState} {r : Res CState} {f : CState → Res CState}
    (hx : At x s) (h : Agrees s r (runAll D ps s.mem)) (k : ∀ s', At x s' → Agrees s' (f s') (runAll D qs s'.mem)) :
    Agrees s (r >>= f) (runAll D (ps ++ qs) s.mem) :=
  Agrees.seq h fun t m => k (s.after t m) hx

theorem exit_after {s : CState} {e : LEnv} (t : Text) (m : Mem) : ((s.enterEnv e).after t m).exitEnv s.env = .ok (s.after t m) := by
  unfold CState.exitEnv CState.enterEnv CState.after
  dsimp only
  split
  · rw [if_pos (by omega)]
    simp
  · rfl

section
variable {C : ConvFn} {D : Renderer} (hC : Faithful C D)
include hC

theorem Faithful.list {x : Place} (es : List Elem) (s : CState) (hx : At x s) :
    Agrees s (convList C es s) (runAll D (each x es) s.mem) := by
  induction es generalizing s with
  | nil => exact Agrees.done
  | cons e es ih =>
    rw [convList]
    exact hC.step e hx ih

theorem Faithful.formula {x : Place} (k : Kind) (cs : List Elem) (s : CState) (hx : At x s) :
    Agrees s (convFormula C (.node k cs) s) ((formulaTemplate x (.node k cs)).bind fun ps => runAll D ps s.mem) := by
  unfold convFormula formulaTemplate inMode
  show Agrees s (if _ then _ else _) _
  cases hv : (Elem.node k cs).isValidFormula with
  | false => simp only [Bool.not_false, if_true]; exact Agrees.fail
  | true =>
    simp only [Bool.not_true, Bool.false_eq_true, if_false, if_true]
    have key : ∀ (a b : Text), Agrees s (convList C cs ((s.write a).setMode .math) >>= fun s1 => .ok ((s1.setMode s.mode).write b))
        (runAll D ([.text a] ++ each { x with mode := .math } cs ++ [.text b]) s.mem) := by
      intro a b
      refine Agrees.text a ?_
      refine Agrees.seq (s := s.write a) (hC.list cs _ ((hx.write a).setMode .math)) fun t m => ?_
      exact Agrees.wrote (s := (s.write a).after t m) b
    have key2 : Agrees s (convList C cs (s.setMode .math) >>= fun s1 => .ok (s1.setMode s.mode))
        (runAll D ([] ++ each { x with mode := .math } cs ++ []) s.mem) := by
      refine Agrees.seq (s := s) (hC.list cs _ (hx.setMode .math)) fun t m => ?_
      exact Agrees.done (s := s.after t m)
    generalize (Elem.node k cs).isInline = inl
    have hm := hx.1
    obtain ⟨sm, se, si, sl, ss, so⟩ := s
    dsimp only at hm
    rw [← hm]
    cases sm <;> cases inl
    · exact key t!"$ " t!" $"
    · exact key t!"#math.equation(block: false, $" t!"$);"
    · exact key2
    · exact key2

omit hC in
theorem isBlank_eq (cs : List Elem) : (cs.all fun c => isBlankKind c.kind) = cs.all isEmptyGroupPart := by
  congr 1
  funext c
  unfold isBlankKind isEmptyGroupPart
  cases c.kind <;> rfl

theorem Faithful.curly {x : Place} (k : Kind) (cs : List Elem) (s : CState) (hx : At x s) :
    Agrees s (convCurly C (.node k cs) s) (runAll D (curlyTemplate x (.node k cs)) s.mem) := by
  unfold convCurly curlyTemplate inMode
  show Agrees s (convList C cs _ >>= fun s' => if s'.mode = .math then
    (if decide (s.mode = .math ∧ s.env ≠ .subStack) then
      CState.exitEnv s.env (if (cs.all fun c => isBlankKind c.kind) then s'.write t!"zws " else s') else _) else _)
    (runAll D (each _ cs ++ (if _ then (if cs.all isEmptyGroupPart then _ else _) else _)) s.mem)
  rw [isBlank_eq]
  rw [hx.1, hx.2.1]
  generalize cs.all isEmptyGroupPart = bl
  by_cases hm : x.mode = .math
  · by_cases he : x.env = .subStack
    · simp only [hm, he, ne_eq, not_true_eq_false, and_false, decide_false, Bool.false_eq_true, if_false, if_true]
      have hx' : At ⟨.math, .subStack, x.lists⟩ s := ⟨hx.1.trans hm, hx.2.1.trans he, hx.2.2⟩
      refine Agrees.next hx' (hC.list cs s hx') fun s' hx' => ?_
      rw [hx'.1]
      cases bl
      · exact Agrees.done
      · exact Agrees.wrote _
    · simp only [hm, he, ne_eq, not_false_eq_true, and_self, decide_true, if_true]
      have hx' : At ⟨.math, x.env, x.lists⟩ s := ⟨hx.1.trans hm, hx.2.1, hx.2.2⟩
      refine Agrees.seq (s := s) (hC.list cs _ (hx'.enter .mathCurlyGroup)) fun t m => ?_
      have : ((s.enterEnv .mathCurlyGroup).after t m).mode = .math := hx'.1
      simp only [this, if_true]
      rw [← hx.2.1]
      cases bl
      · rw [if_neg (by simp), exit_after]
        exact Agrees.done (s := s.after t m)
      · rw [if_pos rfl, after_write, exit_after, ← after_write]
        exact Agrees.wrote (s := s.after t m) _
  · simp only [hm, false_and, decide_false, Bool.false_eq_true, if_false]
    refine Agrees.next hx (hC.list cs s hx) fun s' hx' => ?_
    have : ¬ s'.mode = .math := by rw [hx'.1]; exact hm
    simp only [this, if_false]
    exact Agrees.done

theorem Faithful.lrArgs {x : Place} (ds : List Elem) (s : CState) (hx : At x s) :
    Agrees s (convLRArgs C ds s)
      (runAll D (ds.flatMap fun d => (if isDot d then [] else [.part x d]) ++ [.text t!" "]) s.mem) := by
  induction ds generalizing s with
  | nil => exact Agrees.done
  | cons d ds ih =>
    rw [convLRArgs, List.flatMap_cons, List.append_assoc]
    have one : Agrees s (convLRArg C d s) (runAll D (if isDot d then [] else [.part x d]) s.mem) := by
      unfold convLRArg
      split
      · exact Agrees.done
      · rename_i h
        have : isDot d = false := by
          unfold isDot
          split
          · rename_i t; exact decide_eq_false fun ht => h (by rw [ht])
          · rfl
        rw [this]
        exact hC.part d hx
    exact Agrees.next hx one fun s' hx' => Agrees.text _ (ih _ (hx'.write _))

omit hC in
theorem dropOne_after (t : Text) : dropOne t = match afterBackslash t with
    | some n => .ok n
    | none => .error .panic := by
  unfold dropOne afterBackslash
  cases t with
  | nil => rfl
  | cons c n =>
    rw [dropBytes]
    have hpos : 1 ≤ utf8Len c := by unfold utf8Len; split <;> (try split) <;> (try split) <;> omega
    by_cases h : utf8Len c = 1
    · rw [if_pos (by omega)]
      simp only [h, if_true]
      cases n <;> rfl
    · rw [if_neg (by omega)]
      simp only [h, if_false]

theorem Faithful.clauseLR {x : Place} (k : Kind) (cs : List Elem) (s : CState) (hx : At x s) :
    Agrees s (convClauseLR C (.node k cs) s) ((delimiterTemplate x (.node k cs)).bind fun ps => runAll D ps s.mem) := by
  unfold convClauseLR delimiterTemplate
  cases cs with
  | nil => exact Agrees.fail
  | cons hd ds =>
    cases hd with
    | node => exact Agrees.fail
    | token k' t =>
      show Agrees s (dropOne t >>= _) (((orCrash (afterBackslash t)).map _).bind _)
      rw [dropOne_after]
      cases afterBackslash t with
      | none => exact Agrees.fail
      | some name =>
        show Agrees s (convLRArgs C ds _ >>= _) (runAll D _ s.mem)
        dsimp only
        rw [List.append_assoc]
        have rest : ∀ s : CState, At x s → Agrees s (convLRArgs C ds s >>= fun s' => .ok (if name = t!"right" then s'.write [')'] else s'))
            (runAll D ((ds.flatMap fun d => (if isDot d then [] else [.part x d]) ++ [.text t!" "]) ++
              (if name = t!"right" then [.text t!")"] else [])) s.mem) := by
          intro s hx
          refine Agrees.next hx (hC.lrArgs ds s hx) fun s' _ => ?_
          by_cases h : name = t!"right"
          · simp only [h, if_true]; exact Agrees.wrote _
          · simp only [h, if_false]; exact Agrees.done
        by_cases h : name = t!"left"
        · simp only [h, if_true] at rest ⊢
          exact Agrees.text _ (rest _ (hx.write _))
        · simp only [h, if_false]
          exact rest s hx

/-- After the script mark. -/
theorem Faithful.attachScript {x : Place} (cs : List Elem) (b : Bool) (s : CState) (hx : At x s) :
    Agrees s (convAttachLoop C cs b false s >>= fun r => .ok (if r.1 then r.2 else r.2.write [')']))
      (runAll D (each x cs ++ [.text t!")"]) s.mem) := by
  induction cs generalizing s with
  | nil => exact Agrees.wrote _
  | cons c cs ih =>
    rw [convAttachLoop.eq_def]
    dsimp only
    rw [if_neg (by simp), bind_assoc]
    exact hC.step c hx ih

/-- Before the script mark. -/
theorem Faithful.attachBase {x : Place} (cs : List Elem) (b : Bool) (s : CState) (hx : At x s) :
    Agrees s (convAttachLoop C cs b true s >>= fun r => .ok (if r.1 then r.2 else r.2.write [')']))
      (runAll D (each x (cs.takeWhile fun c => !isScriptMark c) ++ match cs.dropWhile fun c => !isScriptMark c with
        | [] => []
        | mark :: script => (if b || (cs.takeWhile fun c => !isScriptMark c).any (fun c => !isSpaceToken c) then [] else [.text t!"zws"])
          ++ [.text (mark.text ++ t!"(")] ++ each x script ++ [.text t!")"]) s.mem) := by
  induction cs generalizing s b with
  | nil => exact Agrees.done
  | cons c cs ih =>
    rw [convAttachLoop.eq_def]
    dsimp only
    rw [if_pos rfl]
    have mark : ∀ (k : Kind) (t : Text), c = .token k t → isScriptMark c = true →
        Agrees s (convAttachLoop C cs b false (((if b then s else s.write t!"zws").write t).write ['(']) >>=
          fun r => .ok (if r.1 then r.2 else r.2.write [')']))
        (runAll D (each x ((c :: cs).takeWhile fun c => !isScriptMark c) ++ match (c :: cs).dropWhile fun c => !isScriptMark c with
          | [] => []
          | mark :: script => (if b || ((c :: cs).takeWhile fun c => !isScriptMark c).any (fun c => !isSpaceToken c) then [] else [.text t!"zws"])
            ++ [.text (mark.text ++ t!"(")] ++ each x script ++ [.text t!")"]) s.mem) := by
      intro k t hc hm
      have ht : c.text = t := by rw [hc]; simp [Elem.text, Elem.leaves]
      rw [List.takeWhile_cons, List.dropWhile_cons, hm]
      simp only [Bool.not_true, Bool.false_eq_true, if_false, List.any_nil, Bool.or_false]
      rw [ht, List.append_assoc, List.append_assoc]
      have rest : ∀ s : CState, At x s → Agrees s (convAttachLoop C cs b false ((s.write t).write ['(']) >>=
          fun r => .ok (if r.1 then r.2 else r.2.write [')'])) (runAll D ([.text (t ++ t!"(")] ++ (each x cs ++ [.text t!")"])) s.mem) := by
        intro s hx
        refine Agrees.text _ ?_
        have : (s.write t).write ['('] = s.write (t ++ t!"(") := by simp [CState.write]
        rw [this]
        exact hC.attachScript cs b _ (hx.write _)
      cases b
      · exact Agrees.text _ (rest _ (hx.write _))
      · exact rest s hx
    have other : ∀ (b' : Bool), isScriptMark c = false → b' = (b || !isSpaceToken c) →
        Agrees s ((C c s >>= fun s => convAttachLoop C cs b' true s) >>= fun r => .ok (if r.1 then r.2 else r.2.write [')']))
        (runAll D (each x ((c :: cs).takeWhile fun c => !isScriptMark c) ++ match (c :: cs).dropWhile fun c => !isScriptMark c with
          | [] => []
          | mark :: script => (if b || ((c :: cs).takeWhile fun c => !isScriptMark c).any (fun c => !isSpaceToken c) then [] else [.text t!"zws"])
            ++ [.text (mark.text ++ t!"(")] ++ each x script ++ [.text t!")"]) s.mem) := by
      intro b' hm hb
      rw [List.takeWhile_cons, List.dropWhile_cons, hm]
      simp only [Bool.not_false, if_true, List.any_cons]
      rw [← Bool.or_assoc, ← hb, bind_assoc]
      exact hC.step c hx fun s' hx' => ih b' s' hx'
    split
    · exact mark _ _ rfl rfl
    · exact mark _ _ rfl rfl
    · refine other _ rfl ?_
      show b = (b || false)
      simp
    · rename_i h1 h2 h3
      refine other _ ?_ ?_
      · cases c with
        | node => rfl
        | token k t =>
          unfold isScriptMark
          refine (Bool.true_and _).trans (decide_eq_false ?_)
          rintro (h | h)
          · exact h1 t (by rw [← h]; rfl)
          · exact h2 t (by rw [← h]; rfl)
      · have : isSpaceToken c = false := by
          cases c with
          | node => rfl
          | token k t =>
            unfold isSpaceToken
            exact (Bool.true_and _).trans (decide_eq_false fun h => h3 t (by rw [← h]; rfl))
        rw [this]; simp

theorem Faithful.attach {x : Place} (k : Kind) (cs : List Elem) (s : CState) (hx : At x s) :
    Agrees s (convAttach C (.node k cs) s) (runAll D (if x.mode = .math then scriptTemplate x cs else each x cs) s.mem) := by
  unfold convAttach
  show Agrees s (if s.mode = .math then _ else _) _
  rw [hx.1]
  by_cases hm : x.mode = .math
  · rw [if_pos hm, if_pos hm]
    have := hC.attachBase cs false s hx
    unfold scriptTemplate
    dsimp only
    cases hd : cs.dropWhile fun c => !isScriptMark c with
    | nil =>
      rw [hd] at this
      have ht : (cs.takeWhile fun c => !isScriptMark c) = cs := by
        have := List.takeWhile_append_dropWhile (p := fun c => !isScriptMark c) (l := cs)
        rw [hd, List.append_nil] at this
        exact this
      rw [ht, List.append_nil] at this
      exact this
    | cons mark script =>
      rw [hd] at this
      dsimp only at this ⊢
      rw [List.append_assoc, List.append_assoc, List.append_assoc]
      rw [List.append_assoc, List.append_assoc] at this
      have hb : (if false || (cs.takeWhile fun c => !isScriptMark c).any (fun c => !isSpaceToken c) then ([] : List Piece) else [.text t!"zws"])
          = if (cs.takeWhile fun c => !isScriptMark c).all isSpaceToken then [.text t!"zws"] else [] := by
        rw [Bool.false_or, ← List.not_all_eq_any_not]
        cases (cs.takeWhile fun c => !isScriptMark c).all isSpaceToken <;> rfl
      rw [hb] at this
      exact this
  · rw [if_neg hm, if_neg hm]
    exact hC.list cs s hx

/-! ### Commands -/

omit hC in
theorem commandSym_agrees (spec : CommandSpec) {x : Place} (t : Text) (s : CState) :
    Agrees s (convCommandSym spec (.token .tokenCommandSym t) s)
      ((tokenTemplate spec x .tokenCommandSym t).bind fun ps => runAll D ps s.mem) := by
  unfold convCommandSym tokenTemplate
  show Agrees s (dropOne t >>= _) (((orCrash (afterBackslash t)).bind _).bind _)
  rw [dropOne_after]
  cases afterBackslash t with
  | none => exact Agrees.fail
  | some name =>
    show Agrees s (match getCmd spec name with | none => _ | some sh => _) (Except.bind (match spec name with | some (.cmd sh) => _ | _ => _) _)
    unfold getCmd
    cases spec name with
    | none => exact Agrees.fail
    | some i =>
      cases i with
      | env => exact Agrees.fail
      | cmd sh => exact Agrees.wrote _

omit hC in
theorem item_agrees {x : Place} (s : CState) (hx : At x s) :
    Agrees s (convItem s) ((itemTemplate x).bind fun ps => runAll D ps s.mem) := by
  unfold convItem itemTemplate
  have hi := hx.2.2
  rw [hx.2.1]
  by_cases hl : x.lists = 0
  · have : s.indent < 2 := by omega
    simp only [hl, this, if_true]
    cases x.env <;> exact Agrees.fail
  · simp only [hl, if_false]
    have hs : ¬ s.indent < 2 := by omega
    have he : s.indent - 2 = 2 * (x.lists - 1) := by omega
    simp only [hs, if_false, he]
    have key : ∀ mark : Text, Agrees s (.ok (((s.write ['\n']).write (List.replicate (2 * (x.lists - 1)) ' ')).write mark))
        (runAll D [.text (t!"\n" ++ List.replicate (2 * (x.lists - 1)) ' ' ++ mark)] s.mem) := by
      intro mark
      have : ((s.write ['\n']).write (List.replicate (2 * (x.lists - 1)) ' ')).write mark
          = s.write (t!"\n" ++ List.replicate (2 * (x.lists - 1)) ' ' ++ mark) := by
        simp [CState.write]
      rw [this]
      exact Agrees.wrote _
    have hen : ((s.write ['\n']).write (List.replicate (2 * (x.lists - 1)) ' ')).env = x.env := hx.2.1
    rw [hen]
    cases x.env
    all_goals first
      | exact key _
      | exact Agrees.fail

omit hC in
theorem takeBytes_all (t u : Text) : takeBytes (byteLen t) (t ++ u) = some t := by
  induction t with
  | nil => cases u <;> rfl
  | cons c t ih =>
    have hpos : 1 ≤ utf8Len c := by unfold utf8Len; split <;> (try split) <;> (try split) <;> omega
    rw [byteLen, List.cons_append]
    obtain ⟨n, hn⟩ : ∃ n, utf8Len c + byteLen t = n + 1 := ⟨utf8Len c + byteLen t - 1, by omega⟩
    rw [hn, takeBytes, if_pos (by omega)]
    have : n + 1 - utf8Len c = byteLen t := by omega
    rw [this, ih]
    rfl

omit hC in
theorem utf8_pos (c : Char) : 1 ≤ utf8Len c := by unfold utf8Len; split <;> (try split) <;> (try split) <;> omega

omit hC in
/-- Cutting inside the last character fails. -/
theorem takeBytes_last (t : Text) (l : Char) (h : utf8Len l ≠ 1) : takeBytes (byteLen t + utf8Len l - 1) (t ++ [l]) = none := by
  have hl := utf8_pos l
  induction t with
  | nil =>
    obtain ⟨n, hn⟩ : ∃ n, utf8Len l - 1 = n + 1 := ⟨utf8Len l - 2, by omega⟩
    rw [byteLen, Nat.zero_add, hn, List.nil_append, takeBytes, if_neg (by omega)]
  | cons c t ih =>
    have hpos := utf8_pos c
    rw [byteLen, List.cons_append]
    obtain ⟨n, hn⟩ : ∃ n, utf8Len c + byteLen t + utf8Len l - 1 = n + 1 := ⟨utf8Len c + byteLen t + utf8Len l - 2, by omega⟩
    rw [hn, takeBytes, if_pos (by omega)]
    have : n + 1 - utf8Len c = byteLen t + utf8Len l - 1 := by omega
    rw [this, ih]
    rfl

omit hC in
theorem byteLen_snoc (t : Text) (l : Char) : byteLen (t ++ [l]) = byteLen t + utf8Len l := by
  induction t with
  | nil => simp [byteLen]
  | cons c t ih => rw [List.cons_append, byteLen, byteLen, ih]; omega

omit hC in
theorem stripEnds_eq (t : Text) : stripEnds t = match undelimited t with
    | some u => .ok u
    | none => .error .panic := by
  unfold undelimited
  cases t with
  | nil => rfl
  | cons c r =>
    cases r with
    | nil =>
      dsimp only
      unfold stripEnds
      split
      · rfl
      · rename_i h
        have hc : byteLen [c] = utf8Len c := by simp [byteLen]
        rw [hc] at h ⊢
        have := takeBytes_last [] c (by omega)
        rw [byteLen, Nat.zero_add, List.nil_append] at this
        rw [this]
    | cons d r =>
      obtain ⟨i, l, hl⟩ : ∃ i l, d :: r = i ++ [l] := ⟨(d :: r).dropLast, (d :: r).getLast (by simp), (List.dropLast_concat_getLast _).symm⟩
      have hg : (c :: d :: r).getLast? = some l := by rw [hl, ← List.cons_append, List.getLast?_concat]
      rw [hg]
      dsimp only
      have hdl : (d :: r).dropLast = i := by rw [hl]; simp
      rw [hdl, hl]
      have hc := utf8_pos c
      have hl1 := utf8_pos l
      unfold stripEnds
      have hb : byteLen (c :: (i ++ [l])) = utf8Len c + byteLen i + utf8Len l := by
        rw [byteLen, byteLen_snoc]; omega
      rw [if_neg (by omega)]
      by_cases hl2 : utf8Len l = 1
      · have : byteLen (c :: (i ++ [l])) - 1 = byteLen (c :: i) := by rw [hb, byteLen]; omega
        rw [this, ← List.cons_append, takeBytes_all]
        dsimp only
        rw [dropBytes]
        by_cases hc2 : utf8Len c = 1
        · rw [if_pos (by omega), hc2]
          simp only [hl2, and_self, if_true]
          cases i <;> rfl
        · rw [if_neg (by omega)]
          simp only [hc2, false_and, if_false]
      · have : byteLen (c :: (i ++ [l])) - 1 = byteLen (c :: i) + utf8Len l - 1 := by rw [hb, byteLen]
        rw [this, ← List.cons_append, takeBytes_last _ _ hl2]
        simp only [hl2, and_false, if_false]

omit hC in
theorem label_agrees {x : Place} (e : Elem) (s : CState) (hx : At x s) :
    Agrees s (convLabel e s) ((labelTemplate x e).bind fun ps => runAll D ps s.mem) := by
  unfold convLabel labelTemplate inMode
  cases e.arguments with
  | nil => exact Agrees.fail
  | cons a as =>
    show Agrees s (stripEnds a.text >>= _) (((orCrash (undelimited a.text)).bind _).bind _)
    rw [stripEnds_eq]
    cases undelimited a.text with
    | none => exact Agrees.fail
    | some l =>
      show Agrees s (match s.env with | .none | .itemize | .enumerate => _ | _ => _) (Except.bind (if _ then _ else _) _)
      have here : Agrees s (.ok (if s.mode = .text then ((s.write ['<']).write (trim l)).write ['>'] else s))
          (runAll D (if x.mode = .text then [.text (t!"<" ++ trim l ++ t!">")] else []) s.mem) := by
        rw [hx.1]
        by_cases hm : x.mode = .text
        · rw [if_pos hm, if_pos hm]
          have : ((s.write ['<']).write (trim l)).write ['>'] = s.write (t!"<" ++ trim l ++ t!">") := by simp [CState.write]
          rw [this]
          exact Agrees.wrote _
        · rw [if_neg hm, if_neg hm]
          exact Agrees.done
      have later : Agrees s (.ok { s with label := some (trim l) }) (runAll D [.keepLabel (trim l)] s.mem) := by
        show _ = _
        simp [CState.after, CState.mem]
      rw [hx.2.1] at later ⊢
      revert later
      cases x.env
      all_goals intro later
      all_goals first
        | exact here
        | exact later

omit hC in
theorem findArg_eq (k : Kind) (args : List Elem) : findArg k args = groupArgument k args := by
  unfold groupArgument
  induction args with
  | nil => rfl
  | cons a as ih =>
    rw [findArg, List.dropWhile_cons]
    unfold startsOther
    cases hn : a.childNodes with
    | nil => simp [hn, crash]
    | cons c cs =>
      dsimp only [List.head?_cons]
      by_cases hk : c.kind = k
      · simp [hk, hn]
      · simp only [hk, if_false, ne_eq, not_false_eq_true, decide_true, if_true]
        exact ih

omit hC in
theorem splitChar_ne (c : Char) (t : Text) : splitChar c t ≠ [] := by
  cases t with
  | nil => simp [splitChar]
  | cons d ds =>
    rw [splitChar]
    split
    · simp
    · split <;> simp

omit hC in
theorem splitChar_mem (c : Char) (t w : Text) (h : w ∈ splitChar c t) : ¬ c ∈ w := by
  induction t generalizing w with
  | nil => rw [splitChar, List.mem_singleton] at h; subst h; simp
  | cons d ds ih =>
    rw [splitChar] at h
    split at h
    · rcases List.mem_cons.mp h with rfl | h
      · simp
      · exact ih w h
    · rename_i hd
      split at h
      · rename_i he; exact absurd he (splitChar_ne c ds)
      · rename_i v vs he
        rcases List.mem_cons.mp h with rfl | h
        · intro hc
          rcases List.mem_cons.mp hc with hc | hc
          · exact hd hc.symm
          · exact ih v (by rw [he]; simp) hc
        · exact ih w (by rw [he]; exact List.mem_cons_of_mem _ h)

omit hC in
theorem splitChar_join (c : Char) (t : Text) : [c].intercalate (splitChar c t) = t := by
  induction t with
  | nil => simp [splitChar, List.intercalate]
  | cons d ds ih =>
    rw [splitChar]
    have hne := splitChar_ne c ds
    cases hs : splitChar c ds with
    | nil => exact absurd hs hne
    | cons w ws =>
      rw [hs] at ih
      split
      · rename_i hd
        subst hd
        have : [d].intercalate ([] :: w :: ws) = d :: [d].intercalate (w :: ws) := by simp [List.intercalate]
        rw [this, ih]
      · dsimp only
        have : [c].intercalate ((d :: w) :: ws) = d :: [c].intercalate (w :: ws) := by
          cases ws <;> simp [List.intercalate]
        rw [this, ih]

omit hC in
theorem splitChar_eq (c : Char) (t : Text) : splitChar c t = t.splitOn c := by
  have := List.splitOn_intercalate (ls := splitChar c t) c (splitChar_mem c t) (splitChar_ne c t)
  rw [splitChar_join] at this
  exact this.symm

omit hC in
theorem trimEndMatches_eq (suf : Text) (hs : suf ≠ []) (n : Nat) (t : Text) (h : t.length ≤ n) :
    trimEndMatches suf n t = withoutEnd suf t := by
  have hl : suf.length ≠ 0 := fun h0 => hs (List.eq_nil_of_length_eq_zero h0)
  induction n generalizing t with
  | zero =>
    have : t = [] := List.eq_nil_of_length_eq_zero (by omega)
    subst this
    rw [trimEndMatches, withoutEnd]
    rw [dif_neg]
    rintro ⟨_, h⟩
    have := h.length_le
    simp at this
    exact hs this
  | succ n ih =>
    rw [trimEndMatches, withoutEnd]
    unfold endsWith
    by_cases he : suf <:+ t
    · rw [if_pos (List.isSuffixOf_iff_suffix.mpr he), dif_pos ⟨hs, he⟩]
      refine ih _ ?_
      have := he.length_le
      rw [List.length_take]
      omega
    · rw [if_neg fun h => he (List.isSuffixOf_iff_suffix.mp h), dif_neg fun h => he h.2]

omit hC in
theorem imageLength_eq (v : Text) : imageLength v = lengthText v := by
  unfold imageLength lengthText
  unfold endsWith
  rw [trimEndMatches_eq _ (by simp) _ _ (Nat.le_refl _), trimEndMatches_eq _ (by simp) _ _ (Nat.le_refl _)]
  simp only [List.isSuffixOf_iff_suffix]

omit hC in
theorem imageOpts_eq (os : List Text) : imageOpts (os.map keyValue) = os.flatMap imageOption := by
  unfold imageOpts
  rw [List.map_map, ← List.flatMap_def]
  congr 1
  funext o
  unfold imageOption keyValue
  dsimp only [Function.comp]
  simp only [splitChar_eq]
  have hne : (trim o).splitOn '=' ≠ [] := by rw [← splitChar_eq]; exact splitChar_ne _ _
  rcases hw : (trim o).splitOn '=' with _ | ⟨k, _ | ⟨v, _ | ⟨w, ws⟩⟩⟩
  · exact absurd hw hne
  · simp [imageLength_eq]
  · simp [imageLength_eq]
  · simp [imageLength_eq]

omit hC in
theorem image_agrees (e : Elem) (s : CState) :
    Agrees s (convImage e s) ((imageTemplate e).bind fun ps => runAll D ps s.mem) := by
  unfold convImage imageTemplate
  rw [findArg_eq, findArg_eq]
  cases groupArgument .itemBracket e.arguments with
  | error => exact Agrees.fail
  | ok opt =>
    cases groupArgument .itemCurly e.arguments with
    | error => exact Agrees.fail
    | ok file =>
      cases file with
      | none => exact Agrees.fail
      | some file =>
        show Agrees s (stripEnds file.text >>= _) (((orCrash (undelimited file.text)).bind _).bind _)
        rw [stripEnds_eq]
        cases undelimited file.text with
        | none => exact Agrees.fail
        | some f =>
          have fin : ∀ o : Text, Agrees s (.ok ((((((s.write t!"#image(").write o).write ['"']).write (trim f)).write ['"', ')'])))
              (runAll D [.text (t!"#image(" ++ o ++ t!"\"" ++ trim f ++ t!"\")")] s.mem) := by
            intro o
            have : (((((s.write t!"#image(").write o).write ['"']).write (trim f)).write ['"', ')'])
                = s.write (t!"#image(" ++ o ++ t!"\"" ++ trim f ++ t!"\")") := by simp [CState.write]
            rw [this]
            exact Agrees.wrote _
          cases opt with
          | none =>
            have := fin []
            have hw : (s.write t!"#image(").write [] = s.write t!"#image(" := by simp [CState.write]
            rw [hw] at this
            exact this
          | some o =>
            show Agrees s ((stripEnds o.text >>= _) >>= _) (Except.bind (((orCrash (undelimited o.text)).map _).bind _) _)
            rw [stripEnds_eq]
            cases undelimited o.text with
            | none => exact Agrees.fail
            | some t =>
              have := fin (((trim t).splitOn ',').flatMap imageOption)
              have ho : imageOpts ((splitChar ',' (trim t)).map keyValue) = ((trim t).splitOn ',').flatMap imageOption := by
                rw [splitChar_eq, imageOpts_eq]
              have hw : ∀ s : CState, s.write (((trim t).splitOn ',').flatMap imageOption)
                  = s.write (imageOpts ((splitChar ',' (trim t)).map keyValue)) := fun s => by rw [ho]
              rw [hw] at this
              exact this

omit hC in
theorem takeModel_fst (es : List Elem) :
    (takeModel es).1 = (es.takeWhile fun c => decide (c.kind ≠ .tokenRBracket)).flatMap Elem.text := by
  induction es with
  | nil => rfl
  | cons e es ih =>
    rw [takeModel, List.takeWhile_cons]
    by_cases h : e.kind = .tokenRBracket
    · simp [h]
    · simp only [h, if_false, ne_eq, not_false_eq_true, decide_true, if_true, List.flatMap_cons]
      rw [ih]

omit hC in
/-- The pieces of a color command. -/
theorem colorParts_all (full : Text) (e : Elem) : colorParts full e =
    if full = t!"\\color" ∧ e.arguments.isEmpty then .error .panic
    else .ok (colorModel full e, (coloredParts full e).head?, (coloredParts full e).tail) := by
  unfold colorParts colorModel coloredParts
  by_cases hn : full = t!"\\color"
  · simp only [hn, if_true, true_and]
    cases e.arguments with
    | nil => rfl
    | cons a as =>
      simp only [List.isEmpty_cons, Bool.false_eq_true, if_false]
      unfold colorArgs skipTrivia
      rw [isTrivia_eq]
      cases a.children.dropWhile (fun e => blankKind e.kind) with
      | nil => rfl
      | cons b cs =>
        dsimp only
        by_cases hb : b.kind = .tokenLBracket
        · simp only [hb, if_true]
          rw [takeModel_snd, takeModel_fst]
        · simp only [hb, if_false]
  · simp only [hn, if_false, false_and]
    unfold textColorArgs
    cases e.arguments with
    | nil => rfl
    | cons a as =>
      dsimp only
      have hm : (isModel a.text = true) ↔ (a.text.head? = some '[' ∧ a.text.getLast? = some ']' ∧ 2 ≤ byteLen a.text) := by
        unfold isModel
        simp [and_assoc]
      by_cases hb : isModel a.text = true
      · obtain ⟨h1, h2, h3⟩ := hm.mp hb
        rw [if_pos hb, if_pos (hm.mp hb), if_pos (hm.mp hb)]
        have hs : stripEnds a.text = .ok a.text.tail.dropLast := by
          rw [stripEnds_eq]
          unfold undelimited
          rw [h2]
          rcases ht : a.text with _ | ⟨c, _ | ⟨d, r⟩⟩
          · rw [ht] at h1; cases h1
          · rw [ht] at h1 h2
            cases h1
            cases h2
          · rw [ht] at h1
            cases h1
            rfl
        rw [hs]
      · rw [if_neg hb, if_neg fun h => hb (hm.mpr h), if_neg fun h => hb (hm.mpr h)]
        rfl

theorem Faithful.colorBody {x : Place} (es : List Elem) (s : CState) (hx : At x s) :
    Agrees s (convColorBody C es s)
      (runAll D (es.flatMap fun b => inMode .math x [.text t!"$"] ++ [.part x b] ++ inMode .math x [.text t!"$"]) s.mem) := by
  induction es generalizing s with
  | nil => exact Agrees.done
  | cons e es ih =>
    rw [convColorBody, List.flatMap_cons]
    refine Agrees.next hx ?_ ih
    unfold convColorOne inMode
    rw [hx.1]
    by_cases hm : x.mode = .math
    · simp only [hm, if_true]
      refine Agrees.text _ ?_
      have hx' : At ⟨.math, x.env, x.lists⟩ (s.write ['$']) := ⟨hx.1.trans hm, hx.2.1, hx.2.2⟩
      have he : x = ⟨.math, x.env, x.lists⟩ := by rw [← hm]
      rw [he]
      exact hC.step e hx' fun s' _ => Agrees.wrote _
    · simp only [hm, if_false]
      exact hC.part e hx

omit hC in
theorem getCmd_alias (spec : CommandSpec) (full : Text) :
    ((getCmd spec (colorBare full)).bind CmdShape.alias).getD t!"mitexcolor" = colorFunction spec full := by
  have : colorBare full = (if full.head? = some '\\' then full.tail else []) := by
    cases full with
    | nil => rfl
    | cons c r =>
      by_cases h : c = '\\'
      · subst h; rfl
      · have : ¬ some c = some '\\' := fun h' => h (Option.some.inj h')
        simp only [List.head?_cons, this, if_false]
        unfold colorBare
        split
        · rename_i h'; cases h'; exact absurd rfl h
        · rfl
  unfold colorFunction getCmd
  rw [this]
  cases spec _ with
  | none => rfl
  | some i => cases i <;> rfl

theorem Faithful.color {x : Place} (spec : CommandSpec) (full : Text) (e : Elem) (s : CState) (hx : At x s) :
    Agrees s (convColor C spec full e s) ((colorTemplate spec x full e).bind fun ps => runAll D ps s.mem) := by
  unfold convColor colorTemplate
  rw [colorParts_all]
  dsimp only
  rw [getCmd_alias]
  by_cases h : full = t!"\\color" ∧ e.arguments.isEmpty
  · rw [if_pos h, if_pos h]; exact Agrees.fail
  · rw [if_neg h, if_neg h]
    show Agrees s (_ >>= _) (runAll D _ s.mem)
    generalize colorModel full e = model
    generalize coloredParts full e = cp
    have hbody := hC.colorBody (x := x) cp.tail
    obtain ⟨bd, hbd⟩ : ∃ b : List Piece, b = cp.tail.flatMap
      fun b => inMode .math x [.text t!"$"] ++ [.part x b] ++ inMode .math x [.text t!"$"] := ⟨_, rfl⟩
    rw [← hbd] at hbody ⊢
    have core : ∀ s : CState, At x s → Agrees s (convColorName C cp.head? s >>= fun s => convColorBody C cp.tail ((s.write t!"])").write ['[']) >>= fun s' =>
        .ok (if (s'.write [']']).mode = .text then (s'.write [']']).write [';'] else s'.write [']']))
        (runAll D ([colorPiece x cp] ++ (.text t!"])[" :: (bd ++ (.text t!"]" :: inMode .text x [.text t!";"])))) s.mem) := by
      intro s hx
      refine Agrees.next hx ?_ fun s hx => ?_
      · unfold convColorName colorPiece
        cases cp with
        | nil => exact Agrees.wrote _
        | cons c cs =>
          show Agrees s (C c (s.setMode .text) >>= _) _
          have := hC.part c (hx.setMode .text)
          refine Agrees.seq (qs := []) this fun t m => ?_
          exact Agrees.done (s := s.after t m)
      · refine Agrees.text' t!"])[" (s0 := (s.write t!"])").write ['[']) (by simp [CState.write]) ?_
        refine Agrees.next (x := x) hx (hbody _ hx) fun s' hx' => Agrees.text _ ?_
        unfold inMode
        have : (s'.write [']']).mode = x.mode := hx'.1
        rw [this]
        by_cases ht : x.mode = .text
        · rw [if_pos ht, if_pos ht]; exact Agrees.wrote _
        · rw [if_neg ht, if_neg ht]; exact Agrees.done
    simp only [List.append_assoc, List.cons_append, List.nil_append] at core ⊢
    cases model with
    | none => exact Agrees.text' _ (by simp [CState.write]) (core ((((s.write (colorFunction spec full)).write ['(']).write t!"none, ").write ['[']) hx)
    | some m =>
      exact Agrees.text' _ (by simp [CState.write])
        (core ((((((s.write (colorFunction spec full)).write ['(']).write ['[']).write m).write t!"], ").write ['[']) hx)

theorem Faithful.args {x : Place} (k : Kind) (as : List Elem) (s : CState) (hx : At x s) :
    Agrees s (convArgs C k as s) (runAll D (commaList k x as) s.mem) := by
  induction as generalizing s with
  | nil => exact Agrees.done
  | cons a as ih =>
    rw [convArgs]
    cases as with
    | nil =>
      rw [commaList]
      refine hC.step a hx fun s' hx' => ?_
      rw [if_neg (by simp)]
      exact ih s' hx'
    | cons b bs =>
      rw [commaList]
      refine hC.step a hx fun s' hx' => ?_
      by_cases h : a.kind = k
      · rw [if_pos ⟨h, by simp⟩, if_pos h]
        exact Agrees.text _ (ih _ (hx'.write _))
      · rw [if_neg fun h' => h h'.1, if_neg h]
        exact ih s' hx'

theorem Faithful.textArgs {x : Place} (as : List Elem) (s : CState) (hx : At x s) :
    Agrees s (convTextArgs C as s) (runAll D ((as.filter fun a => decide (a.kind = .clauseArgument)).flatMap
        (fun a => [.text t!"[", .part { x with mode := .text } a, .text t!"]"])) s.mem) := by
  induction as generalizing s with
  | nil => exact Agrees.done
  | cons a as ih =>
    rw [convTextArgs, List.filter_cons]
    by_cases h : a.kind = .clauseArgument
    · simp only [h, if_true, decide_true, List.flatMap_cons]
      refine Agrees.text _ ?_
      have := hC.part a ((hx.write ['[']).setMode .text)
      refine Agrees.seq (qs := .text t!"]" :: _) this fun t m => ?_
      refine Agrees.text _ ?_
      exact ih (((s.write ['[']).after t m).write [']']) hx
    · simp only [h, if_false, decide_false, Bool.false_eq_true]
      exact ih s hx

theorem Faithful.normalArgs {x : Place} (sh : CmdShape) (tn : Text) (args : List Elem) (s : CState) (hx : At x s) :
    Agrees s (convNormalArgs C sh tn args s) ((argumentsTemplate x sh tn args).bind fun ps => runAll D ps s.mem) := by
  have rest : sh.args ≠ .right .none → sh.args ≠ .right .greedy → Agrees s (convNormalArgs C sh tn args s)
      ((if x.mode = .math ∧ tn.head? ≠ some '#' then .ok ([.text t!"("] ++ commaList .clauseArgument x args ++ [.text t!")"])
        else .ok ((args.filter fun a => decide (a.kind = .clauseArgument)).flatMap
          (fun a => [.text t!"[", .part { x with mode := .text } a, .text t!"]"]) ++ [.text t!";"]) : Res (List Piece)).bind fun ps => runAll D ps s.mem) := by
    intro h1 h2
    unfold convNormalArgs
    rw [if_neg h1, if_neg h2, hx.1]
    by_cases hm : x.mode = .math ∧ tn.head? ≠ some '#'
    · rw [if_pos hm, if_pos hm]
      refine Agrees.text _ ?_
      exact Agrees.next (hx.write _) (hC.args _ args _ (hx.write _)) fun s' _ => Agrees.wrote _
    · rw [if_neg hm, if_neg hm]
      exact Agrees.next hx (hC.textArgs args s hx) fun s' _ => Agrees.wrote _
  unfold argumentsTemplate
  split
  · rename_i h
    unfold convNormalArgs
    rw [if_pos h]
    exact Agrees.wrote _
  · rename_i h
    unfold convNormalArgs
    rw [if_neg (by rw [h]; simp), if_pos h]
    cases args with
    | nil => exact Agrees.fail
    | cons a as =>
      cases a with
      | token => exact Agrees.fail
      | node k cs =>
        refine Agrees.text _ ?_
        exact Agrees.next (hx.write _) (hC.args _ cs _ (hx.write _)) fun s' _ => Agrees.wrote _
  · rename_i h1 h2
    exact rest h1 h2

theorem Faithful.normal {x : Place} (spec : CommandSpec) (e : Elem) (name : Text) (s : CState) (hx : At x s)
    (hn : (cmdNameOf e >>= dropOne) = .ok name) :
    Agrees s (convNormal C spec e s) ((normalTemplate spec x name e).bind fun ps => runAll D ps s.mem) := by
  unfold convNormal normalTemplate
  cases hc : cmdNameOf e with
  | error => rw [hc] at hn; cases hn
  | ok full =>
    rw [hc] at hn
    have hd : dropOne full = .ok name := hn
    show Agrees s (dropOne full >>= _) _
    rw [hd]
    show Agrees s (match getCmd spec name with | none => _ | some sh => _) _
    unfold getCmd
    cases spec name with
    | none => exact Agrees.fail
    | some i =>
      cases i with
      | env => exact Agrees.fail
      | cmd sh =>
        dsimp only
        rw [typstName_eq, hx.1]
        generalize writtenName x.mode name sh = tn
        generalize (e.children.filter fun c => decide (c.kind ≠ .clauseCommandName)) = args
        by_cases hs : tn = t!"substack"
        · simp only [hs, decide_true, if_true]
          have := hC.normalArgs sh t!"substack" args _ ((hx.write t!"substack").enter .subStack)
          have he : inLists .subStack x.lists = x.lists := rfl
          rw [he] at this
          cases ha : argumentsTemplate ⟨x.mode, .subStack, x.lists⟩ sh t!"substack" args with
          | error =>
            rw [ha] at this
            cases hr : convNormalArgs C sh t!"substack" args ((s.write t!"substack").enterEnv .subStack) with
            | error => rw [hr] at this; exact this
            | ok => rw [hr] at this; exact this.elim
          | ok ps =>
            rw [ha] at this
            refine Agrees.text _ ?_
            have hp : ps = ps ++ [] := by simp
            rw [hp]
            refine Agrees.seq (s := s.write t!"substack") this fun t m => ?_
            have := exit_after (s := s.write t!"substack") (e := .subStack) t m
            rw [this]
            exact Agrees.done (s := (s.write t!"substack").after t m)
        · simp only [hs, decide_false, Bool.false_eq_true, if_false]
          have := hC.normalArgs sh tn args _ (hx.write tn)
          cases ha : argumentsTemplate x sh tn args with
          | error =>
            rw [ha] at this
            cases hr : convNormalArgs C sh tn args (s.write tn) with
            | error => rw [hr] at this; exact this
            | ok => rw [hr] at this; exact this.elim
          | ok ps =>
            rw [ha] at this
            refine Agrees.text _ ?_
            have hp : ps = ps ++ [] := by simp
            rw [hp]
            exact Agrees.next (hx.write tn) this fun s' _ => Agrees.done

theorem Faithful.cmd {x : Place} (spec : CommandSpec) (k : Kind) (cs : List Elem) (s : CState) (hx : At x s) :
    Agrees s (convCmd C spec (.node k cs) s) ((commandTemplate spec x (.node k cs)).bind fun ps => runAll D ps s.mem) := by
  unfold convCmd commandTemplate bareName
  have hc : cmdNameOf (.node k cs) = match (Elem.node k cs).cmdName with
      | none => .error .panic
      | some n => .ok n := rfl
  cases hn : (Elem.node k cs).cmdName with
  | none => rw [hc, hn]; exact Agrees.fail
  | some full =>
    rw [hn] at hc
    rw [hc]
    show Agrees s (dropOne full >>= _) (Except.bind (match some full, afterBackslash full with | some full, some name => _ | _, _ => _) _)
    cases ha : afterBackslash full with
    | none => rw [dropOne_after, ha]; exact Agrees.fail
    | some name =>
      have hd : dropOne full = .ok name := by rw [dropOne_after, ha]
      rw [hd]
      show Agrees s (if _ then _ else _) (Except.bind (if _ then _ else _) _)
      by_cases h1 : name = t!"item"
      · rw [if_pos h1, if_pos h1]; exact item_agrees s hx
      · rw [if_neg h1, if_neg h1]
        by_cases h2 : name = t!"label"
        · rw [if_pos h2, if_pos h2]; exact label_agrees _ s hx
        · rw [if_neg h2, if_neg h2]
          by_cases h3 : name = t!"includegraphics"
          · rw [if_pos h3, if_pos h3]; exact image_agrees _ s
          · rw [if_neg h3, if_neg h3]
            by_cases h4 : isColorCommand name
            · rw [if_pos (show name = t!"color" ∨ name = t!"textcolor" ∨ name = t!"colorbox" from h4), if_pos h4]
              exact hC.color spec full _ s hx
            · rw [if_neg (show ¬ (name = t!"color" ∨ name = t!"textcolor" ∨ name = t!"colorbox") from h4), if_neg h4]
              exact hC.normal spec _ name s hx (by rw [hc]; exact hd)

/-! ### Environments -/

omit hC in
theorem flush_agrees {x : Place} (s : CState) (hx : At x s) :
    Agrees s (.ok (flushLabel s)) (runAll D (inMode .text x [.putLabel]) s.mem) := by
  unfold flushLabel inMode
  rw [hx.1]
  by_cases ht : x.mode = .text
  · rw [if_pos ht, if_pos ht]
    rw [runAll, runOne]
    have hm : s.mem.label = s.label := rfl
    rw [hm]
    cases hl : s.label with
    | none => exact Agrees.done (D := D)
    | some l =>
      show _ = _
      simp [CState.after, CState.write, CState.mem]
  · rw [if_neg ht, if_neg ht]
    exact Agrees.done

theorem Faithful.namedArgs {x : Place} (i : Nat) (as : List Elem) (s : CState) (hx : At x s) :
    Agrees s (convNamedArgs C i as s)
      (runAll D ((as.zipIdx i).flatMap fun a => [.text (t!"arg" ++ decimal a.2 ++ t!": "), .part x a.1, .text t!","]) s.mem) := by
  induction as generalizing s i with
  | nil => exact Agrees.done
  | cons a as ih =>
    rw [convNamedArgs, List.zipIdx_cons, List.flatMap_cons, natText_eq]
    refine Agrees.text _ ?_
    exact hC.step a (hx.write _) fun s' hx' => Agrees.text _ (ih (i + 1) _ (hx'.write _))

theorem Faithful.mathEnv {x : Place} (kind : LEnv) (hk : CState.isList kind = false) (tn : Text) (e : Elem) (s : CState) (hx : At x s) :
    Agrees s (convMathEnv C kind tn e s) (runAll D (mathEnvTemplate x kind tn e) s.mem) := by
  unfold convMathEnv mathEnvTemplate
  rw [envBody_eq]
  dsimp only
  have hin : ∀ s' : CState, At x s' → At ⟨.math, kind, x.lists⟩ ((s'.enterEnv kind).setMode .math) := by
    intro s' h
    have := (h.enter kind).setMode .math
    unfold inLists at this
    rw [hk] at this
    exact this
  have hna := hC.namedArgs (x := ⟨.math, kind, x.lists⟩) 0 e.envArguments
  obtain ⟨na, hna'⟩ : ∃ b : List Piece, b = e.envArguments.zipIdx.flatMap
    fun a => [.text (t!"arg" ++ decimal a.2 ++ t!": "), .part ⟨.math, kind, x.lists⟩ a.1, .text t!","] := ⟨_, rfl⟩
  rw [← hna'] at hna ⊢
  have core : ∀ (s : CState) (g : CState → CState) (ws : List Piece), At x s →
      (∀ t m, Agrees (s.after t m) (.ok (g ((s.setMode .math).after t m))) (runAll D ws m)) →
      Agrees s (convNamedArgs C 0 e.envArguments ((((s.enterEnv kind).setMode .math).write tn).write ['(']) >>= fun s1 =>
      convList C (between e) s1 >>= fun s2 => (s2.write [')']).exitEnv s.env >>= fun s3 => .ok (g s3))
      (runAll D (.text (tn ++ t!"(") :: (na ++ (each ⟨.math, kind, x.lists⟩ (between e) ++ (.text t!")" :: ws)))) s.mem) := by
    intro s g ws hx hg
    refine Agrees.text _ ?_
    have h0 := hna ((((s.enterEnv kind).setMode .math).write tn).write ['(']) (hin s hx)
    refine Agrees.seq (s := s.write (tn ++ t!"(")) h0 fun t m => ?_
    have h1 := hC.list (between e) (((((s.enterEnv kind).setMode .math).write tn).write ['(']).after t m) (hin s hx)
    refine Agrees.seq (s := (s.write (tn ++ t!"(")).after t m) h1 fun t' m' => ?_
    refine Agrees.text _ ?_
    have hex : CState.exitEnv s.env (((((((s.enterEnv kind).setMode .math).write tn).write ['(']).after t m).after t' m').write [')']) =
        .ok ((s.setMode .math).after (tn ++ t!"(" ++ t ++ t' ++ t!")") m') := by
      unfold CState.exitEnv
      have : (((((((s.enterEnv kind).setMode .math).write tn).write ['(']).after t m).after t' m').write [')']).env = kind := rfl
      rw [this, hk]
      simp only [Bool.false_eq_true, if_false]
      simp [CState.write, CState.after, CState.setMode, CState.enterEnv, hk]
    rw [hex]
    have := hg (tn ++ t!"(" ++ t ++ t' ++ t!")") m'
    have hs : s.after (tn ++ t!"(" ++ t ++ t' ++ t!")") m' = CState.write t!")" (((s.write (tn ++ t!"(")).after t m).after t' m') := by
      simp [CState.write, CState.after]
    rw [hs] at this
    exact this
  have hm := hx.1
  unfold inMode
  by_cases ht : x.mode = .text
  · have hst : s.mode = .text := hm.trans ht
    simp only [ht, hst, if_true, decide_true]
    simp only [List.append_assoc, List.cons_append, List.nil_append]
    refine Agrees.text _ ?_
    refine core (s.write t!"$ ") (fun s3 => (s3.write t!" $").setMode .text) [.text t!" $"] hx fun t m => ?_
    have : (((s.write t!"$ ").setMode .math).after t m |>.write t!" $").setMode .text = ((s.write t!"$ ").after t m).write t!" $" := by
      simp [CState.write, CState.after, CState.setMode, hst]
    show Agrees _ (.ok ((((s.write t!"$ ").setMode .math).after t m |>.write t!" $").setMode .text)) _
    rw [this]
    exact Agrees.wrote (s := (s.write t!"$ ").after t m) _
  · have hst : s.mode = .math := by
      rw [hm]
      cases h : x.mode
      · exact absurd h ht
      · rfl
    have hsn : ¬ s.mode = .text := by rw [hst]; simp
    simp only [ht, hsn, if_false, decide_false, Bool.false_eq_true]
    simp only [List.append_assoc, List.cons_append, List.nil_append]
    refine core s (fun s3 => s3) [] hx fun t m => ?_
    have : s.setMode .math = s := by rw [← hst]; rfl
    rw [this]
    exact Agrees.done (s := s.after t m)

theorem Faithful.normalEnv {x : Place} (tn : Text) (e : Elem) (s : CState) (hx : At x s) :
    Agrees s (convNormalEnv C .none tn e s)
      (runAll D ([.text (t!"#" ++ tn ++ t!"[")] ++ each ⟨x.mode, .none, x.lists⟩ (between e) ++ [.text t!"];"]) s.mem) := by
  unfold convNormalEnv
  rw [envBody_eq]
  dsimp only
  refine Agrees.text' (s0 := ((s.write ['#']).write tn).write ['[']) _ (by simp [CState.write]) ?_
  have := hC.list (between e) ((((s.write ['#']).write tn).write ['[']).enterEnv .none) (((hx.write ['#']).write tn).write ['['] |>.enter .none)
  refine Agrees.seq (s := ((s.write ['#']).write tn).write ['[']) this fun t m => ?_
  rw [after_write]
  have hex := exit_after (s := ((s.write ['#']).write tn).write ['[']) (e := .none) (t ++ t!"];") m
  have he : (((s.write ['#']).write tn).write ['[']).env = s.env := rfl
  rw [he] at hex
  rw [hex, ← after_write]
  exact Agrees.wrote (s := (((s.write ['#']).write tn).write ['[']).after t m) _

theorem Faithful.listEnv {x : Place} (kind : LEnv) (e : Elem) (s : CState) (hx : At x s) :
    Agrees s (convListEnv C kind e s) (runAll D (each ⟨x.mode, kind, inLists kind x.lists⟩ (between e)) s.mem) := by
  unfold convListEnv
  rw [envBody_eq]
  have hp : each ⟨x.mode, kind, inLists kind x.lists⟩ (between e) = each ⟨x.mode, kind, inLists kind x.lists⟩ (between e) ++ [] := by simp
  rw [hp]
  refine Agrees.seq (s := s) (hC.list (between e) _ (hx.enter kind)) fun t m => ?_
  rw [exit_after]
  exact Agrees.done (s := s.after t m)

/-- What a figure needs of its commands. -/
abbrev figureCmdOk (c : Elem) : Bool :=
  decide (c.kind = .itemCmd → c.cmdName ≠ none ∧ (c.cmdName = some t!"\\caption" → ¬ c.arguments.isEmpty))

omit hC in
theorem isNamedArg_all (e : Elem) : isNamedArg e = if e.kind = .itemCmd ∧ e.cmdName = none then .error .panic
    else .ok (isCommand t!"\\caption" e || isCommand t!"\\centering" e) := by
  unfold isNamedArg isCommand
  by_cases hk : e.kind = .itemCmd
  · simp only [hk, if_true, true_and, decide_true, Bool.true_and]
    unfold cmdNameOf
    cases e with
    | token k t =>
      have : (Elem.token k t).cmdName = none := rfl
      simp only [this, if_true]
      rfl
    | node k cs =>
      dsimp only
      cases hn : (Elem.node k cs).cmdName with
      | none => rfl
      | some n =>
        rw [if_neg (by simp)]
        show Except.ok _ = Except.ok _
        congr 1
        rw [Bool.decide_or]
        congr 1 <;> simp
  · simp only [hk, if_false, false_and, decide_false, Bool.false_and, Bool.or_false]

omit hC in
theorem findCaption_all (es : List Elem) (cap : Option Elem) : findCaption es cap =
    if es.all figureCmdOk then .ok (match (es.filter (isCommand t!"\\caption")).getLast? with
      | some c => c.arguments.head?
      | none => cap)
    else .error .panic := by
  induction es generalizing cap with
  | nil => rfl
  | cons e es ih =>
    rw [findCaption, isNamedArg_all, List.all_cons, List.filter_cons]
    by_cases h : e.kind = .itemCmd ∧ e.cmdName = none
    · rw [if_pos h]
      have : figureCmdOk e = false := decide_eq_false fun h' => (h' h.1).1 h.2
      rw [this, Bool.false_and, if_neg (by simp)]
      rfl
    · rw [if_neg h]
      show (if (isCommand t!"\\caption" e || isCommand t!"\\centering" e) = true then _ else _) = _
      by_cases hc : isCommand t!"\\caption" e = true
      · obtain ⟨hk, hn⟩ : e.kind = .itemCmd ∧ e.cmdName = some t!"\\caption" := by
          unfold isCommand at hc
          simpa using hc
        rw [hc]
        simp only [Bool.true_or, if_true]
        have hnn : cmdNameOf e = .ok t!"\\caption" := by
          cases e with
          | token => cases hn
          | node => unfold cmdNameOf; rw [hn]
        rw [hnn]
        show (if t!"caption" = t!"caption" then (match e.arguments with
          | [] => Except.error Stop.panic
          | a :: _ => findCaption es (some a)) else findCaption es cap) = _
        rw [if_pos rfl]
        cases ha : e.arguments with
        | nil =>
          have : figureCmdOk e = false := decide_eq_false fun h' => (h' hk).2 hn (by rw [ha]; rfl)
          rw [this, Bool.false_and, if_neg (by simp)]
        | cons a as =>
          have : figureCmdOk e = true := decide_eq_true fun _ => ⟨by rw [hn]; simp, fun _ => by rw [ha]; simp⟩
          rw [this, Bool.true_and]
          dsimp only
          rw [ih]
          congr 2
          cases hl : (es.filter (isCommand t!"\\caption")).getLast? with
          | none =>
            have : es.filter (isCommand t!"\\caption") = [] := List.getLast?_eq_none_iff.mp hl
            rw [this]
            simp [ha]
          | some c =>
            have hne : es.filter (isCommand t!"\\caption") ≠ [] := by intro h0; rw [h0] at hl; cases hl
            rw [List.getLast?_cons, hl]
            simp
      · have hcf : isCommand t!"\\caption" e = false := by simpa using hc
        have hok : figureCmdOk e = true := by
          refine decide_eq_true fun hk => ⟨fun hn => h ⟨hk, hn⟩, fun hn => ?_⟩
          refine absurd ?_ hc
          unfold isCommand
          simp [hk, hn]
        rw [hcf, hok, Bool.false_or, Bool.true_and, if_neg (by simp : ¬ (false = true))]
        by_cases h2 : isCommand t!"\\centering" e = true
        · rw [if_pos h2]
          obtain ⟨hk, hn⟩ : e.kind = .itemCmd ∧ e.cmdName = some t!"\\centering" := by
            unfold isCommand at h2
            simpa using h2
          have hnn : cmdNameOf e = .ok t!"\\centering" := by
            cases e with
            | token => cases hn
            | node => unfold cmdNameOf; rw [hn]
          rw [hnn]
          show (if t!"centering" = t!"caption" then (match e.arguments with
            | [] => Except.error Stop.panic
            | a :: _ => findCaption es (some a)) else findCaption es cap) = _
          rw [if_neg (by simp)]
          exact ih cap
        · rw [if_neg h2]
          exact ih cap

theorem Faithful.figureBody {y : Place} (es : List Elem) (hes : es.all figureCmdOk = true) (s : CState) (hx : At y s) :
    Agrees s (convFigureBody C es s) (runAll D (each y ((es.filter fun c => decide (c.kind ≠ .itemBegin ∧ c.kind ≠ .itemEnd)).filter
      fun c => !isCommand t!"\\caption" c && !isCommand t!"\\centering" c)) s.mem) := by
  induction es generalizing s with
  | nil => exact Agrees.done
  | cons e es ih =>
    rw [List.all_cons, Bool.and_eq_true] at hes
    rw [convFigureBody, List.filter_cons]
    have hb : isBeginEnd e = !decide (e.kind ≠ .itemBegin ∧ e.kind ≠ .itemEnd) := by
      unfold isBeginEnd
      cases e.kind <;> rfl
    cases hd : decide (e.kind ≠ .itemBegin ∧ e.kind ≠ .itemEnd) with
    | false =>
      rw [hd] at hb
      simp only [hb, Bool.not_false, if_true, Bool.false_eq_true, if_false]
      exact ih hes.2 s hx
    | true =>
      rw [hd] at hb
      simp only [hb, Bool.not_true, Bool.false_eq_true, if_false, if_true]
      rw [isNamedArg_all, List.filter_cons]
      have hn : ¬ (e.kind = .itemCmd ∧ e.cmdName = none) := fun h => (of_decide_eq_true hes.1 h.1).1 h.2
      rw [if_neg hn]
      show Agrees s (if (isCommand t!"\\caption" e || isCommand t!"\\centering" e) = true then _ else _) _
      rw [← Bool.not_or]
      cases isCommand t!"\\caption" e || isCommand t!"\\centering" e with
      | true => exact ih hes.2 s hx
      | false => exact hC.step e hx (ih hes.2)

theorem Faithful.captionPart {y : Place} (c : Option Elem) (s : CState) (hx : At y s) :
    Agrees s (convCaption C c s)
      (runAll D (c.toList.flatMap (fun c => [.text t!"caption: [", .part y c, .text t!"],"])) s.mem) := by
  cases c with
  | none => exact Agrees.done
  | some c => exact Agrees.text _ (hC.step c (hx.write _) fun s' _ => Agrees.wrote _)

theorem Faithful.figure {x : Place} (tn : Text) (k : Kind) (cs : List Elem) (s : CState) (hx : At x s) :
    Agrees s (convFigure C .figure tn (.node k cs) s) ((figureTemplate x tn (.node k cs)).bind fun ps => runAll D ps s.mem) := by
  unfold convFigure figureTemplate
  show Agrees s (findCaption cs none >>= _) (Except.bind (if cs.all figureCmdOk then _ else _) _)
  rw [findCaption_all]
  by_cases hok : cs.all figureCmdOk = true
  · rw [if_pos hok, if_pos hok]
    have hcap : (caption (.node k cs)) = (match (cs.filter (isCommand t!"\\caption")).getLast? with
        | some c => c.arguments.head?
        | none => none).toList := by
      unfold caption
      show (match (cs.filter _).getLast? with | some c => _ | none => _) = _
      cases (cs.filter (isCommand t!"\\caption")).getLast? with
      | none => rfl
      | some c => dsimp only; cases c.arguments <;> rfl
    rw [hcap]
    generalize (match (cs.filter (isCommand t!"\\caption")).getLast? with
        | some c => c.arguments.head?
        | none => none) = cap
    show Agrees s (convCaption C cap _ >>= _) (runAll D _ s.mem)
    have hcp := hC.captionPart (y := ⟨x.mode, .figure, x.lists⟩) cap
    obtain ⟨cps, hcps⟩ : ∃ b : List Piece, b = cap.toList.flatMap
      (fun c => [.text t!"caption: [", .part ⟨x.mode, .figure, x.lists⟩ c, .text t!"],"]) := ⟨_, rfl⟩
    rw [← hcps] at hcp ⊢
    simp only [List.append_assoc, List.cons_append, List.nil_append]
    refine Agrees.text' (s0 := ((s.write ['#']).write tn).write ['(']) _ (by simp [CState.write]) ?_
    have hin : At ⟨x.mode, .figure, x.lists⟩ ((((s.write ['#']).write tn).write ['(']).enterEnv .figure) :=
      (((hx.write ['#']).write tn).write ['(']).enter .figure
    refine Agrees.seq (s := ((s.write ['#']).write tn).write ['(']) (hcp _ hin) fun t m => ?_
    refine Agrees.text _ ?_
    have hb := hC.figureBody (y := ⟨x.mode, .figure, x.lists⟩) cs hok
      (((((((s.write ['#']).write tn).write ['(']).enterEnv .figure).after t m)).write t!")[") hin
    refine Agrees.seq (s := (((((s.write ['#']).write tn).write ['(']).after t m)).write t!")[") hb fun t' m' => ?_
    have e1 : ((((((((s.write ['#']).write tn).write ['(']).enterEnv .figure).after t m).write t!")[").after t' m').write t!"];")
        = (((((s.write ['#']).write tn).write ['(']).enterEnv .figure).after (t ++ t!")[" ++ t' ++ t!"];") m') := by
      simp [CState.write, CState.after]
    have hex := exit_after (s := ((s.write ['#']).write tn).write ['(']) (e := .figure) (t ++ t!")[" ++ t' ++ t!"];") m'
    have he : (((s.write ['#']).write tn).write ['(']).env = s.env := rfl
    rw [he] at hex
    show Agrees _ (CState.exitEnv s.env _) _
    rw [e1, hex]
    have e2 : (((s.write ['#']).write tn).write ['(']).after (t ++ t!")[" ++ t' ++ t!"];") m'
        = (((((((s.write ['#']).write tn).write ['(']).after t m).write t!")[").after t' m').write t!"];") := by
      simp [CState.write, CState.after]
    rw [e2]
    exact Agrees.wrote (s := (((((s.write ['#']).write tn).write ['(']).after t m).write t!")[").after t' m') _
  · rw [if_neg hok, if_neg hok]
    exact Agrees.fail

/-! ### Tables -/

omit hC in
theorem runAll_merge (a b : Text) (ps : List Piece) (m : Mem) :
    runAll D (.text a :: .text b :: ps) m = runAll D (.text (a ++ b) :: ps) m := by
  simp only [runAll, runOne, andThen_ok]
  cases runAll D ps m <;> simp [Except.map]

omit hC in
theorem runAll_empty (ps : List Piece) (m : Mem) : runAll D (.text [] :: ps) m = runAll D ps m := by
  simp only [runAll, runOne, andThen_ok]
  cases runAll D ps m <;> simp [Except.map]

/-- The template of cells. -/
def cellsTemplateOf (y : Place) (r : List (List Elem × Elem) × List Elem) : List Piece :=
  r.1.flatMap (fun c =>
    [.text (leadLines c.1 ++ t!"[")] ++ each y (cellContent c.1) ++ [.text (t!"]" ++ separatorText c.2)])
  ++ [.text (leadLines r.2)]
  ++ (if (cellContent r.2).isEmpty then [] else .text t!"[" :: each y (cellContent r.2))

/-- The template of cells when the first one is open already. -/
def insideTemplate (y : Place) (r : List (List Elem × Elem) × List Elem) : List Piece :=
  match r.1 with
  | [] => each y r.2
  | (c, sep) :: cs => each y c ++ .text (t!"]" ++ separatorText sep) :: cellsTemplateOf y (cs, r.2)

omit hC in
theorem inside_nil (y : Place) : insideTemplate y (cellsOf []) = [] := rfl

omit hC in
theorem inside_sep (y : Place) (e : Elem) (es : List Elem) (h : isSeparator e = true) :
    insideTemplate y (cellsOf (e :: es)) = .text (t!"]" ++ separatorText e) :: cellsTemplateOf y (cellsOf es) := by
  rw [cellsOf, if_pos h]
  rfl

omit hC in
theorem inside_other (y : Place) (e : Elem) (es : List Elem) (h : isSeparator e = false) :
    insideTemplate y (cellsOf (e :: es)) = .part y e :: insideTemplate y (cellsOf es) := by
  rw [cellsOf, if_neg (by rw [h]; simp)]
  unfold insideTemplate
  cases (cellsOf es).1 with
  | nil => rfl
  | cons p ps => rfl

omit hC in
theorem cells_sep (y : Place) (e : Elem) (es : List Elem) (m : Mem) (h : isSeparator e = true) :
    runAll D (cellsTemplateOf y (cellsOf (e :: es))) m
      = runAll D (.text (t!"[]" ++ separatorText e) :: cellsTemplateOf y (cellsOf es)) m := by
  rw [cellsOf, if_pos h]
  show runAll D (.text ([] ++ t!"[") :: .text (t!"]" ++ separatorText e) :: cellsTemplateOf y (cellsOf es)) m = _
  rw [runAll_merge]
  rfl

omit hC in
theorem cells_lead (y : Place) (e : Elem) (es : List Elem) (m : Mem) (h : isSeparator e = false) (hl : isLead e = true) :
    runAll D (cellsTemplateOf y (cellsOf (e :: es))) m
      = runAll D (.text (ruleLine e) :: cellsTemplateOf y (cellsOf es)) m := by
  rw [cellsOf, if_neg (by rw [h]; simp)]
  have h1 : ∀ c, leadLines (e :: c) = ruleLine e ++ leadLines c := by
    intro c
    unfold leadLines
    rw [List.takeWhile_cons, if_pos hl]
    rfl
  have h2 : ∀ c, cellContent (e :: c) = cellContent c := by
    intro c
    unfold cellContent
    rw [List.dropWhile_cons, if_pos hl]
  unfold cellsTemplateOf
  cases hc : (cellsOf es).1 with
  | nil =>
    dsimp only
    rw [h1, h2]
    show runAll D (.text (ruleLine e ++ leadLines _) :: _) m = runAll D (.text (ruleLine e) :: .text (leadLines _) :: _) m
    rw [runAll_merge]
  | cons p ps =>
    obtain ⟨c, sep⟩ := p
    dsimp only
    rw [List.flatMap_cons, List.flatMap_cons]
    dsimp only
    rw [h1, h2, List.append_assoc (ruleLine e)]
    show runAll D (.text (ruleLine e ++ (leadLines c ++ t!"[")) :: _) m = runAll D (.text (ruleLine e) :: .text (leadLines c ++ t!"[") :: _) m
    rw [runAll_merge]

omit hC in
theorem cells_other (y : Place) (e : Elem) (es : List Elem) (m : Mem) (h : isSeparator e = false) (hl : isLead e = false) :
    runAll D (cellsTemplateOf y (cellsOf (e :: es))) m
      = runAll D (.text t!"[" :: .part y e :: insideTemplate y (cellsOf es)) m := by
  rw [← inside_other y e es h]
  rw [cellsOf, if_neg (by rw [h]; simp)]
  have h1 : ∀ c, leadLines (e :: c) = [] := by
    intro c
    unfold leadLines
    rw [List.takeWhile_cons, if_neg (by rw [hl]; simp)]
    rfl
  have h2 : ∀ c, cellContent (e :: c) = e :: c := by
    intro c
    unfold cellContent
    rw [List.dropWhile_cons, if_neg (by rw [hl]; simp)]
  unfold cellsTemplateOf insideTemplate
  cases hc : (cellsOf es).1 with
  | nil =>
    dsimp only
    rw [h1, h2]
    show runAll D (.text [] :: .text t!"[" :: each y (e :: (cellsOf es).2)) m = _
    rw [runAll_empty]
  | cons p ps =>
    obtain ⟨c, sep⟩ := p
    dsimp only
    rw [List.flatMap_cons]
    dsimp only
    rw [h1, h2, List.nil_append]
    simp only [List.append_assoc, List.cons_append, List.nil_append]
    unfold cellsTemplateOf
    simp only [List.append_assoc, List.cons_append, List.nil_append]

omit hC in
theorem cmdNameOf_bare (e : Elem) : (cmdNameOf e >>= dropOne) = match bareName e with
    | some n => .ok n
    | none => .error .panic := by
  unfold cmdNameOf bareName
  cases e with
  | token => rfl
  | node k cs =>
    dsimp only
    cases (Elem.node k cs).cmdName with
    | none => rfl
    | some n => exact dropOne_after n

omit hC in
theorem tableExterior_cmd (e : Elem) (s : CState) (hk : e.kind = .itemCmd) : tableExterior e s =
    ((cmdNameOf e >>= dropOne) >>= fun name => match ruleText name with
      | some r => .ok (true, s.write r)
      | none => .ok (false, s.write ['['])) := by
  unfold tableExterior
  rw [hk]
  dsimp only
  rw [bind_assoc]
  rfl

omit hC in
theorem bare_names {e : Elem} {name : Text} (h : bareName e = some name) :
    ∃ full, cmdNameOf e = .ok full ∧ dropOne full = .ok name := by
  have := cmdNameOf_bare e
  rw [h] at this
  cases hc : cmdNameOf e with
  | error => rw [hc] at this; cases this
  | ok full => rw [hc] at this; exact ⟨full, rfl, this⟩

omit hC in
theorem isRule_named {e : Elem} (h : bareName e = none) : isRule e = false := by
  unfold isRule
  unfold bareName at h
  cases hn : e.cmdName with
  | none => simp
  | some n =>
    rw [hn] at h
    cases n with
    | nil => simp
    | cons c n =>
      have h : afterBackslash (c :: n) = none := h
      unfold afterBackslash at h
      dsimp only at h
      split at h
      · cases h
      · rename_i hc; simp [hc]

theorem Faithful.tableLoop {y : Place} (hD : ∀ e m, e.kind = .itemCmd → bareName e = none → D y e m = .error .panic)
    (es : List Elem) (hb : ∀ e ∈ es, isBeginEnd e = false) (ext : Bool) (s : CState) (hx : At y s) :
    Agrees s (tableLoop C es ext s)
      (runAll D (if ext then cellsTemplateOf y (cellsOf es) else insideTemplate y (cellsOf es)) s.mem) := by
  induction es generalizing s ext with
  | nil =>
    rw [Mitex.tableLoop]
    cases ext
    · exact Agrees.done
    · show Agrees s _ (runAll D [.text []] s.mem)
      rw [runAll_empty]
      exact Agrees.done
  | cons e es ih =>
    have ih := ih (fun c hc => hb c (List.mem_cons_of_mem _ hc))
    rw [Mitex.tableLoop, hb e List.mem_cons_self]
    simp only [Bool.false_eq_true, if_false]
    -- inside of a cell
    have inner : ∀ s, At y s → Agrees s (tableInterior C e s >>= fun r => Mitex.tableLoop C es r.1 r.2)
        (runAll D (insideTemplate y (cellsOf (e :: es))) s.mem) := by
      intro s hx
      unfold tableInterior
      have sep : ∀ t : Text, isSeparator e = true → t = t!"]" ++ separatorText e →
          Agrees s (.ok (true, s.write t) >>= fun r : Bool × CState => Mitex.tableLoop C es r.1 r.2)
          (runAll D (insideTemplate y (cellsOf (e :: es))) s.mem) := by
        intro t h ht
        subst ht
        rw [inside_sep y e es h]
        exact Agrees.text _ (ih true _ (hx.write _))
      split
      · rename_i h
        exact sep _ (by unfold isSeparator; rw [h]; rfl) (by unfold separatorText; rw [h]; rfl)
      · rename_i h
        exact sep _ (by unfold isSeparator; rw [h]; rfl) (by unfold separatorText; rw [h]; rfl)
      · rename_i h1 h2
        have hs : isSeparator e = false := by
          unfold isSeparator
          exact decide_eq_false (fun h => h.elim h1 h2)
        rw [inside_other y e es hs, bind_assoc]
        exact hC.step e hx fun s' hx' => ih false s' hx'
    unfold tableStep
    cases ext with
    | false => exact inner s hx
    | true =>
      simp only [if_true]
      -- outside of cells
      have other : isSeparator e = false → isLead e = false → Agrees s ((tableInterior C e (s.write ['['])) >>= fun r => Mitex.tableLoop C es r.1 r.2)
          (runAll D (cellsTemplateOf y (cellsOf (e :: es))) s.mem) := by
        intro h1 h2
        rw [cells_other y e es _ h1 h2, ← inside_other y e es h1]
        exact Agrees.text _ (inner _ (hx.write _))
      have lead : ∀ (t : Text) (s' : CState), isSeparator e = false → isLead e = true → ruleLine e = t → s' = s.write t →
          Agrees s (Mitex.tableLoop C es true s') (runAll D (cellsTemplateOf y (cellsOf (e :: es))) s.mem) := by
        intro t s' h1 h2 h3 h4
        rw [cells_lead y e es _ h1 h2, h3, h4]
        exact Agrees.text _ (ih true _ (hx.write _))
      by_cases hk : e.kind = .itemCmd
      · have hs : isSeparator e = false := by unfold isSeparator; rw [hk]; rfl
        rw [tableExterior_cmd e s hk, cmdNameOf_bare]
        cases hbn : bareName e with
        | none =>
          have hr : isRule e = false := isRule_named hbn
          have hl : isLead e = false := by unfold isLead; rw [hr, hk]; rfl
          rw [cells_other y e es _ hs hl]
          simp only [runAll, runOne, andThen_ok]
          rw [hD e _ hk hbn]
          exact Agrees.fail
        | some name =>
          obtain ⟨full, hf, hn⟩ := bare_names hbn
          show Agrees s (((match ruleText name with
            | some r => Except.ok (true, s.write r)
            | none => Except.ok (false, s.write ['['])) >>= _) >>= _) _
          have hre := isRule_eq hk hf hn
          cases hrt : ruleText name with
          | some r =>
            rw [hrt] at hre
            exact lead r _ hs (by unfold isLead; rw [hre]; rfl) (ruleLine_eq hk hf hn hrt) rfl
          | none =>
            rw [hrt] at hre
            exact other hs (by unfold isLead; rw [hre, hk]; rfl)
      · have hr : isRule e = false := by unfold isRule; rw [decide_eq_false hk]; rfl
        have hrl : ruleLine e = [] := by unfold ruleLine; rw [hr]; rfl
        unfold tableExterior
        split
        · rename_i h
          exact lead [] s (by unfold isSeparator; rw [h]; rfl) (by unfold isLead; rw [hr, h]; rfl) hrl (by simp [CState.write])
        · rename_i h
          exact lead [] s (by unfold isSeparator; rw [h]; rfl) (by unfold isLead; rw [hr, h]; rfl) hrl (by simp [CState.write])
        · rename_i h
          rw [cells_sep y e es _ (by unfold isSeparator; rw [h]; rfl)]
          have : t!"[]" ++ separatorText e = t!"[], " := by unfold separatorText; rw [h]; rfl
          rw [this]
          exact Agrees.text _ (ih true _ (hx.write _))
        · rename_i h
          rw [cells_sep y e es _ (by unfold isSeparator; rw [h]; rfl)]
          have : t!"[]" ++ separatorText e = t!"[],\n" := by unfold separatorText; rw [h]; rfl
          rw [this]
          exact Agrees.text _ (ih true _ (hx.write _))
        · rename_i h; exact absurd h hk
        · rename_i h1 h2 h3 h4 h5
          refine other ?_ ?_
          · unfold isSeparator; exact decide_eq_false (fun h => h.elim h3 h4)
          · unfold isLead; rw [hr, Bool.false_or]; exact decide_eq_false (fun h => h.elim h1 h2)

omit hC in
theorem cellsTemplate_eq (y : Place) (es : List Elem) : cellsTemplate y es = cellsTemplateOf y (cellsOf es) := rfl

omit hC in
theorem split_columns (a : Text) : splitAlign a 0 = match a.find? (fun c => decide (¬ isColumnChar c)) with
    | some c => .error (.error (t!"unknown alignment: " ++ [c]))
    | none => .ok (columnLetters a, barPositions a) := by
  cases hf : a.find? (fun c => decide (¬ isColumnChar c)) with
  | none =>
    have h : ∀ c ∈ a, isColumnChar c := by
      intro c hc
      have := List.find?_eq_none.mp hf c hc
      simpa using this
    exact splitAlign_ok a [] h
  | some c =>
    obtain ⟨h1, pre, post, h2, h3⟩ := List.find?_eq_some_iff_append.mp hf
    rw [h2]
    refine splitAlign_bad pre c post 0 (fun d hd => ?_) (by simpa using h1)
    have := h3 d hd
    simpa using this

theorem Faithful.table {x : Place} (hD : ∀ y e m, e.kind = .itemCmd → bareName e = none → D y e m = .error .panic)
    (tn : Text) (k : Kind) (cs : List Elem) (s : CState) (hx : At x s) :
    Agrees s (convTable C .table tn (.node k cs) s) ((tableTemplate x tn (.node k cs)).bind fun ps => runAll D ps s.mem) := by
  unfold convTable tableTemplate
  show Agrees s (match (Elem.node k cs).envArguments with | [] => _ | arg :: _ => _) _
  cases (Elem.node k cs).envArguments with
  | nil => exact Agrees.fail
  | cons arg as =>
    dsimp only
    rw [stripEnds_eq]
    show Agrees s _ (Except.bind (Except.bind (orCrash (undelimited arg.text)) _) _)
    cases undelimited arg.text with
    | none => exact Agrees.fail
    | some a =>
      show Agrees s (splitAlign (trim a) 0 >>= _) (Except.bind (match (trim a).find? _ with | some c => _ | none => _) _)
      have hbt : ∀ e ∈ between (.node k cs), isBeginEnd e = false := by
        intro e he
        have := (List.mem_filter.mp he).2
        unfold isBeginEnd
        have h2 := of_decide_eq_true this
        cases hk : e.kind <;> first | rfl | exact absurd hk h2.1 | exact absurd hk h2.2
      have hbe : cs.filter (fun c => !isBeginEnd c) = between (.node k cs) := by
        unfold between
        show _ = cs.filter _
        congr 1
        funext e
        unfold isBeginEnd
        cases e.kind <;> rfl
      have hin : At ⟨x.mode, .table, x.lists⟩ (s.enterEnv .table) := hx.enter .table
      rw [split_columns]
      cases hf : (trim a).find? (fun c => decide (¬ isColumnChar c)) with
      | some c => exact Agrees.fail
      | none =>
        have h2 : ∀ c ∈ trim a, isColumnChar c := by
          intro c hc
          have := List.find?_eq_none.mp hf c hc
          simpa using this
        show Agrees s (Mitex.tableLoop C cs true _ >>= _) (runAll D _ s.mem)
        rw [tableLoop_filter, hbe, tableHeader_eq tn _ h2]
        rw [cellsTemplate_eq]
        refine Agrees.text (tableStart tn (trim a)) ?_
        have hl := hC.tableLoop (hD ⟨x.mode, .table, x.lists⟩) _ hbt true
          ((s.enterEnv .table).write (tableStart tn (trim a))) (hin.write _)
        simp only [if_true] at hl
        refine Agrees.seq (s := s.write (tableStart tn (trim a))) hl fun t m => ?_
        have hex := exit_after (s := s) (e := .table) (tableStart tn (trim a) ++ t ++ t!");") m
        have e1 : ((((s.enterEnv .table).write (tableStart tn (trim a))).after t m).write t!");")
            = (s.enterEnv .table).after (tableStart tn (trim a) ++ t ++ t!");") m := by
          simp [CState.write, CState.after]
        rw [e1, hex]
        have e2 : s.after (tableStart tn (trim a) ++ t ++ t!");") m = (((s.write (tableStart tn (trim a))).after t m).write t!");") := by
          simp [CState.write, CState.after]
        rw [e2]
        exact Agrees.wrote _

omit hC in
theorem Agrees.opt_next {ps : Res (List Piece)} {qs : List Piece} {x : Place} {s : CState} {r : Res CState} {f : CState → Res CState}
    (hx : At x s) (h : Agrees s r (ps.bind fun ps => runAll D ps s.mem)) (k : ∀ s', At x s' → Agrees s' (f s') (runAll D qs s'.mem)) :
    Agrees s (r >>= f) ((ps.map (· ++ qs)).bind fun ps => runAll D ps s.mem) := by
  cases ps with
  | error =>
    cases r with
    | error => exact h
    | ok => exact h.elim
  | ok ps => exact Agrees.next hx h k

theorem Faithful.env (spec : CommandSpec) {x : Place}
    (hD : ∀ y e m, e.kind = .itemCmd → bareName e = none → D y e m = .error .panic) (k : Kind) (cs : List Elem) (s : CState) (hx : At x s) :
    Agrees s (convEnv C spec (.node k cs) s) ((environmentTemplate spec x (.node k cs)).bind fun ps => runAll D ps s.mem) := by
  unfold convEnv environmentTemplate
  dsimp only
  cases (Elem.node k cs).envName with
  | none => exact Agrees.fail
  | some n =>
    dsimp only
    unfold getEnv
    show Agrees s _ (Except.bind (match spec (trim n) with | some (.env sh) => _ | _ => _) _)
    cases spec (trim n) with
    | none => exact Agrees.fail
    | some it =>
      cases it with
      | cmd => exact Agrees.fail
      | env sh =>
        dsimp only
        have fl : ∀ s' : CState, At x s' → Agrees s' (.ok (flushLabel s')) (runAll D (inMode .text x [.putLabel]) s'.mem) :=
          fun s' hx' => flush_agrees s' hx'
        cases sh.ctx with
        | none =>
          exact Agrees.next hx (hC.normalEnv _ _ s hx) fl
        | isMath => exact Agrees.next hx (hC.mathEnv .math rfl _ _ s hx) fl
        | isMatrix => exact Agrees.next hx (hC.mathEnv .matrix rfl _ _ s hx) fl
        | isCases => exact Agrees.next hx (hC.mathEnv .cases rfl _ _ s hx) fl
        | isFigure => exact Agrees.opt_next hx (hC.figure _ _ _ s hx) fl
        | isTable => exact Agrees.opt_next hx (hC.table hD _ _ _ s hx) fl
        | isItemize => exact hC.listEnv .itemize _ s hx
        | isEnumerate => exact hC.listEnv .enumerate _ s hx


omit hC in
theorem Agrees.nothing {s : CState} : Agrees s (.ok s) ((.ok [] : Res (List Piece)).bind fun ps => runAll D ps s.mem) := Agrees.done (D := D)

omit hC in
theorem quoted_eq (t : Text) : debugText t = quoted t := by
  unfold debugText quoted
  rw [← List.flatMap_def]
  show '"' :: (_ ++ ['"']) = '"' :: (_ ++ ['"'])
  congr 2
  congr 1
  funext c
  simp only [List.lookup]
  by_cases h1 : c = '"'
  · simp [h1]
  by_cases h2 : c = '\\'
  · simp [h2]
  by_cases h3 : c = '\n'
  · simp [h3]
  by_cases h4 : c = '\r'
  · simp [h4]
  by_cases h5 : c = '\t'
  · simp [h5]
  have b1 : (c == '"') = false := beq_false_of_ne h1
  have b2 : (c == '\\') = false := beq_false_of_ne h2
  have b3 : (c == '\n') = false := beq_false_of_ne h3
  have b4 : (c == '\r') = false := beq_false_of_ne h4
  have b5 : (c == '\t') = false := beq_false_of_ne h5
  simp only [h1, h2, h3, h4, h5, b1, b2, b3, b4, b5, if_false]

theorem Faithful.kind (spec : CommandSpec) {x : Place}
    (hD : ∀ y e m, e.kind = .itemCmd → bareName e = none → D y e m = .error .panic) (e : Elem) (s : CState) (hx : At x s) :
    Agrees s (convKind spec C e s) ((template spec x e).bind fun ps => runAll D ps s.mem) := by
  have hw : ∀ t : Text, template spec x e = .ok [.text t] → Agrees s (.ok (s.write t)) ((template spec x e).bind fun ps => runAll D ps s.mem) := by
    intro t h
    rw [h]
    exact Agrees.wrote t
  have hm := hx.1
  have he := hx.2.1
  have hn := hx.2.2
  cases e with
  | token k t =>
    cases k <;> try first | exact Agrees.fail | exact Agrees.nothing | exact hw _ rfl
    case tokenError =>
      show Agrees s (.error (.error (t!"error unexpected: " ++ debugText (Elem.token .tokenError t).text)))
        (.error (.error (t!"error unexpected: " ++ quoted (Elem.token .tokenError t).text)))
      rw [quoted_eq]
      exact Agrees.fail
    case tokenWord =>
      show Agrees s (if s.mode = .math then _ else _) (runAll D [.text (wordText x.mode t)] s.mem)
      rw [hm]
      cases x.mode with
      | text => exact Agrees.wrote _
      | math =>
        show Agrees s (.ok (s.write (t.map fun c => [c, ' ']).flatten)) _
        exact Agrees.wrote _
    case tokenWhiteSpace =>
      show Agrees s (if s.skip then _ else _) (runAll D [.blank (.token .tokenWhiteSpace t)] s.mem)
      rw [runAll, runOne]
      show Agrees s _ (andThen _ (fun m => .ok ([], m)))
      rw [andThen_nil]
      show Agrees s _ (if s.skip then _ else _)
      cases s.skip with
      | true => simp [Agrees, CState.after, CState.mem]
      | false => rfl
    case tokenLineBreak =>
      show Agrees s (.ok { ((s.write t).write (List.replicate s.indent ' ')) with skip := true })
        (runAll D [.text (t ++ List.replicate (2 * x.lists) ' '), .dropBlank] s.mem)
      rw [hn]
      simp [Agrees, CState.after, CState.mem, CState.write, runAll, runOne, andThen_ok, Except.map]
    case tokenTilde =>
      show Agrees s (if s.mode = .math then _ else _) (runAll D [.text (if x.mode = .math then _ else _)] s.mem)
      rw [hm]
      cases x.mode <;> exact Agrees.wrote _
    case tokenAmpersand =>
      show Agrees s (if s.env = .matrix then _ else _) (runAll D [.text (if x.env = .matrix then _ else _)] s.mem)
      rw [he]
      split <;> exact Agrees.wrote _
    case itemNewLine =>
      show Agrees s (match s.env with | .matrix => _ | .cases => _ | .mathCurlyGroup => _ | _ => _) (runAll D [.text (newLineText x)] s.mem)
      unfold newLineText
      rw [he]
      cases x.env <;> first | exact Agrees.wrote _ | (rw [runAll_empty]; exact Agrees.done)
    case tokenCommandSym => exact commandSym_agrees (x := x) spec t s
  | node k cs =>
    cases k <;> try first | exact Agrees.fail | exact Agrees.nothing | exact hw _ rfl | exact hC.list cs s hx
    case tokenError =>
      show Agrees s (.error (.error (t!"error unexpected: " ++ debugText (Elem.node .tokenError cs).text)))
        (.error (.error (t!"error unexpected: " ++ quoted (Elem.node .tokenError cs).text)))
      rw [quoted_eq]
      exact Agrees.fail
    case tokenWhiteSpace =>
      show Agrees s (if s.skip then _ else _) (runAll D [.blank (.node .tokenWhiteSpace cs)] s.mem)
      rw [runAll, runOne]
      show Agrees s _ (andThen _ (fun m => .ok ([], m)))
      rw [andThen_nil]
      show Agrees s _ (if s.skip then _ else _)
      cases s.skip with
      | true => simp [Agrees, CState.after, CState.mem]
      | false => exact Agrees.fail
    case tokenTilde =>
      show Agrees s (if s.mode = .math then _ else _) (runAll D [.text (if x.mode = .math then _ else _)] s.mem)
      rw [hm]
      cases x.mode <;> exact Agrees.wrote _
    case tokenAmpersand =>
      show Agrees s (if s.env = .matrix then _ else _) (runAll D [.text (if x.env = .matrix then _ else _)] s.mem)
      rw [he]
      split <;> exact Agrees.wrote _
    case itemNewLine =>
      show Agrees s (match s.env with | .matrix => _ | .cases => _ | .mathCurlyGroup => _ | _ => _) (runAll D [.text (newLineText x)] s.mem)
      unfold newLineText
      rw [he]
      cases x.env <;> first | exact Agrees.wrote _ | (rw [runAll_empty]; exact Agrees.done)
    case itemFormula => exact hC.formula _ cs s hx
    case itemCurly => exact hC.curly _ cs s hx
    case clauseLR => exact hC.clauseLR _ cs s hx
    case itemAttachComponent => exact hC.attach _ cs s hx
    case itemCmd => exact hC.cmd spec _ cs s hx
    case itemEnv => exact hC.env spec hD _ cs s hx

end

theorem render_cmd (spec : CommandSpec) (n : Nat) (y : Place) (e : Elem) (m : Mem) (hk : e.kind = .itemCmd) (hb : bareName e = none) :
    render spec n y e m = .error .panic := by
  cases n with
  | zero => rw [render]; dsimp only; rw [if_pos ⟨hk, hb⟩]
  | succ n =>
    rw [render]
    dsimp only
    have : template spec y e = .error .panic := by
      cases e with
      | token k t => cases hk; rfl
      | node k cs =>
        cases hk
        show commandTemplate spec y _ = _
        unfold commandTemplate
        rw [hb]
        cases (Elem.node Kind.itemCmd cs).cmdName <;> rfl
    rw [this]

/-- The converter writes what the templates say. -/
theorem convert_faithful (spec : CommandSpec) (n : Nat) : Faithful (convert spec n) (render spec n) := by
  induction n with
  | zero =>
    intro x e s _
    show Agrees s (.error .fuel) (if _ then _ else _)
    split <;> exact Or.inl rfl
  | succ n ih =>
    intro x e s hx
    show Agrees s (convKind spec (convert spec n) e _) _
    have key : ∀ s0 : CState, At x s0 → s0.out = s.out → s.mode = s0.mode → s.env = s0.env → s.indent = s0.indent →
        Agrees s (convKind spec (convert spec n) e s0) ((template spec x e).bind fun ps => runAll (render spec n) ps s0.mem) := by
      intro s0 hx0 h1 h2 h3 h4
      have := ih.kind spec (fun y e m => render_cmd spec n y e m) e s0 hx0
      revert this
      cases convKind spec (convert spec n) e s0 with
      | error =>
        cases (template spec x e).bind fun ps => runAll (render spec n) ps s0.mem with
        | error => exact id
        | ok p => exact id
      | ok s' =>
        cases (template spec x e).bind fun ps => runAll (render spec n) ps s0.mem with
        | error => exact id
        | ok p =>
          intro h
          have h : s' = s0.after p.1 p.2 := h
          show s' = s.after p.1 p.2
          rw [h]
          unfold CState.after
          rw [h1, h2, h3, h4]
    have hr : render spec (n + 1) x e s.mem = (template spec x e).bind fun ps => runAll (render spec n) ps
        (if e.kind = .tokenWhiteSpace then s.mem else { s.mem with skip := false }) := by
      rw [render]
      dsimp only
      cases template spec x e <;> rfl
    rw [hr]
    by_cases hk : e.kind = .tokenWhiteSpace
    · rw [if_pos hk, if_pos hk]
      exact key s hx rfl rfl rfl rfl
    · rw [if_neg hk, if_neg hk]
      exact key { s with skip := false } hx rfl rfl rfl rfl

/-! ### The relation and the function -/

theorem runOne_printed {spec : CommandSpec} {D : Renderer} (hD : ∀ x e m t m', D x e m = .ok (t, m') → Printed spec x e m t m')
    {p : Piece} {ps : List Piece} {m m1 m2 : Mem} {a b : Text} (hp : runOne D p m = .ok (a, m1)) (ih : PrintedAll spec ps m1 b m2) :
    PrintedAll spec (p :: ps) m (a ++ b) m2 := by
  cases p with
  | text u => cases hp; exact .text _ ih
  | part x e => exact .part (hD _ _ _ _ _ hp) ih
  | blank e =>
    unfold runOne at hp
    dsimp only at hp
    split at hp
    · rename_i hs
      cases hp
      exact .dropped hs ih
    · rename_i hs
      cases e with
      | token k u => cases hp; exact .blank (by simpa using hs) ih
      | node => cases hp
  | dropBlank => cases hp; exact .dropBlank ih
  | keepLabel l => cases hp; exact .keepLabel ih
  | putLabel =>
    unfold runOne at hp
    cases hl : m.label with
    | some l =>
      simp only [hl] at hp
      cases hp
      exact .putLabel hl ih
    | none =>
      simp only [hl] at hp
      cases hp
      exact .noLabel hl ih

theorem runAll_printed {spec : CommandSpec} {D : Renderer} (hD : ∀ x e m t m', D x e m = .ok (t, m') → Printed spec x e m t m')
    (ps : List Piece) (m : Mem) (t : Text) (m' : Mem) (h : runAll D ps m = .ok (t, m')) : PrintedAll spec ps m t m' := by
  induction ps generalizing m t m' with
  | nil =>
    cases h
    exact .nil m
  | cons p ps ih =>
    rw [runAll] at h
    cases hp : runOne D p m with
    | error => rw [hp] at h; cases h
    | ok q =>
      obtain ⟨a, m1⟩ := q
      rw [hp, andThen_ok] at h
      cases hr : runAll D ps m1 with
      | error => rw [hr] at h; cases h
      | ok r =>
        obtain ⟨b, m2⟩ := r
        rw [hr] at h
        cases h
        exact runOne_printed hD hp (ih m1 b m2 hr)

theorem render_printed (spec : CommandSpec) (n : Nat) (x : Place) (e : Elem) (m : Mem) (t : Text) (m' : Mem)
    (h : render spec n x e m = .ok (t, m')) : Printed spec x e m t m' := by
  induction n generalizing x e m t m' with
  | zero =>
    rw [render] at h
    dsimp only at h
    split at h <;> cases h
  | succ n ih =>
    rw [render] at h
    dsimp only at h
    cases ht : template spec x e with
    | error => rw [ht] at h; cases h
    | ok ps =>
      rw [ht] at h
      exact .mk ht (runAll_printed ih ps _ _ _ h)

theorem runAll_failed {spec : CommandSpec} {D : Renderer} (hD : ∀ x e m t m', D x e m = .ok (t, m') → Printed spec x e m t m')
    (hF : ∀ x e m f, D x e m = .error f → f ≠ .fuel → Failed spec x e m f)
    (ps : List Piece) (m : Mem) (f : Stop) (h : runAll D ps m = .error f) (hf : f ≠ .fuel) : FailedAll spec ps m f := by
  induction ps generalizing m with
  | nil => cases h
  | cons p ps ih =>
    rw [runAll] at h
    cases hp : runOne D p m with
    | error y =>
      rw [hp] at h
      cases h
      cases p with
      | text u => cases hp
      | part x e => exact .part (hF _ _ _ _ hp hf)
      | blank e =>
        unfold runOne at hp
        dsimp only at hp
        split at hp
        · cases hp
        · rename_i hs
          cases e with
          | token k u => cases hp
          | node k cs => cases hp; exact .blank (by simpa using hs)
      | dropBlank => cases hp
      | keepLabel l => cases hp
      | putLabel =>
        unfold runOne at hp
        cases hl : m.label with
        | some l => simp only [hl] at hp; cases hp
        | none => simp only [hl] at hp; cases hp
    | ok q =>
      obtain ⟨a, m1⟩ := q
      rw [hp, andThen_ok] at h
      cases hr : runAll D ps m1 with
      | ok r => rw [hr] at h; cases h
      | error y =>
        rw [hr] at h
        cases h
        have := runOne_printed hD hp (.nil m1)
        exact .later this (ih m1 hr)

theorem render_failed (spec : CommandSpec) (n : Nat) (x : Place) (e : Elem) (m : Mem) (f : Stop)
    (h : render spec n x e m = .error f) (hf : f ≠ .fuel) : Failed spec x e m f := by
  induction n generalizing x e m f with
  | zero =>
    rw [render] at h
    dsimp only at h
    split at h
    · rename_i hb
      cases h
      have h1 := render_cmd spec 1 x e m hb.1 hb.2
      rw [render] at h1
      dsimp only at h1
      cases ht : template spec x e with
      | error y => rw [ht] at h1; cases h1; exact .here ht
      | ok ps =>
        exfalso
        cases e with
        | token k t => cases hb.1; cases ht
        | node k cs =>
          cases hb.1
          have ht : commandTemplate spec x _ = .ok ps := ht
          unfold commandTemplate at ht
          rw [hb.2] at ht
          cases hc : (Elem.node Kind.itemCmd cs).cmdName <;> (rw [hc] at ht; cases ht)
    · cases h; exact absurd rfl hf
  | succ n ih =>
    rw [render] at h
    dsimp only at h
    cases ht : template spec x e with
    | error y => rw [ht] at h; cases h; exact .here ht
    | ok ps =>
      rw [ht] at h
      exact .inside ht (runAll_failed (render_printed spec n) ih ps _ f h hf)

theorem printedAll_render {spec : CommandSpec} {ps : List Piece} {m : Mem} {t : Text} {m' : Mem} (h : PrintedAll spec ps m t m') :
    ∃ n, ∀ k, n ≤ k → runAll (render spec k) ps m = .ok (t, m') := by
  refine PrintedAll.rec (spec := spec) (motive_1 := fun x e m t m' _ => ∃ n, ∀ k, n ≤ k → render spec k x e m = .ok (t, m'))
    (motive_2 := fun ps m t m' _ => ∃ n, ∀ k, n ≤ k → runAll (render spec k) ps m = .ok (t, m')) ?_ ?_ ?_ ?_ ?_ ?_ ?_ ?_ ?_ ?_ h
  · rintro x e ps m m' t h _ ⟨n, hn⟩
    refine ⟨n + 1, fun k hk => ?_⟩
    obtain ⟨k, rfl⟩ : ∃ j, k = j + 1 := ⟨k - 1, by omega⟩
    rw [render]
    dsimp only
    rw [h]
    exact hn k (by omega)
  · intro m
    exact ⟨0, fun _ _ => rfl⟩
  · rintro ps m m' u t _ ⟨n, hn⟩
    refine ⟨n, fun k hk => ?_⟩
    rw [runAll, runOne, andThen_ok, hn k hk]
    rfl
  · rintro x e ps m m' m'' t u _ _ ⟨n, hn⟩ ⟨n', hn'⟩
    refine ⟨max n n', fun k hk => ?_⟩
    rw [runAll, runOne, hn k (by omega), andThen_ok, hn' k (by omega)]
    rfl
  · rintro k t ps m m' u h _ ⟨n, hn⟩
    refine ⟨n, fun k hk => ?_⟩
    rw [runAll, runOne, h]
    simp only [Bool.false_eq_true, if_false]
    rw [andThen_ok, hn k hk]
    rfl
  · rintro e ps m m' u h _ ⟨n, hn⟩
    refine ⟨n, fun k hk => ?_⟩
    rw [runAll, runOne.eq_def]
    dsimp only
    rw [h]
    simp only [if_true]
    rw [andThen_ok, hn k hk]
    rfl
  · rintro ps m m' u _ ⟨n, hn⟩
    refine ⟨n, fun k hk => ?_⟩
    rw [runAll, runOne, andThen_ok, hn k hk]
    rfl
  · rintro l ps m m' u _ ⟨n, hn⟩
    refine ⟨n, fun k hk => ?_⟩
    rw [runAll, runOne, andThen_ok, hn k hk]
    rfl
  · rintro l ps m m' u h _ ⟨n, hn⟩
    refine ⟨n, fun k hk => ?_⟩
    rw [runAll, runOne, h]
    dsimp only
    rw [andThen_ok, hn k hk]
    rfl
  · rintro ps m m' u h _ ⟨n, hn⟩
    refine ⟨n, fun k hk => ?_⟩
    rw [runAll, runOne, h]
    dsimp only
    rw [andThen_ok, hn k hk]
    rfl

theorem printed_render {spec : CommandSpec} {x : Place} {e : Elem} {m : Mem} {t : Text} {m' : Mem} (h : Printed spec x e m t m') :
    ∃ n, ∀ k, n ≤ k → render spec k x e m = .ok (t, m') := by
  cases h with
  | mk h hk =>
    obtain ⟨n, hn⟩ := printedAll_render hk
    refine ⟨n + 1, fun k hk => ?_⟩
    obtain ⟨k, rfl⟩ : ∃ j, k = j + 1 := ⟨k - 1, by omega⟩
    rw [render]
    dsimp only
    rw [h]
    exact hn k (by omega)

theorem failed_render {spec : CommandSpec} {x : Place} {e : Elem} {m : Mem} {f : Stop} (h : Failed spec x e m f) :
    ∃ n, ∀ k, n ≤ k → render spec k x e m = .error f := by
  refine Failed.rec (spec := spec) (motive_1 := fun x e m f _ => ∃ n, ∀ k, n ≤ k → render spec k x e m = .error f)
    (motive_2 := fun ps m f _ => ∃ n, ∀ k, n ≤ k → runAll (render spec k) ps m = .error f) ?_ ?_ ?_ ?_ ?_ h
  · rintro x e m f h
    refine ⟨1, fun k hk => ?_⟩
    obtain ⟨k, rfl⟩ : ∃ j, k = j + 1 := ⟨k - 1, by omega⟩
    rw [render]
    dsimp only
    rw [h]
  · rintro x e ps m f h _ ⟨n, hn⟩
    refine ⟨n + 1, fun k hk => ?_⟩
    obtain ⟨k, rfl⟩ : ∃ j, k = j + 1 := ⟨k - 1, by omega⟩
    rw [render]
    dsimp only
    rw [h]
    exact hn k (by omega)
  · rintro p ps m m' t f h _ ⟨n, hn⟩
    obtain ⟨n', hn'⟩ := printedAll_render h
    refine ⟨max n n', fun k hk => ?_⟩
    have h1 := hn' k (by omega)
    rw [runAll] at h1
    have h1 : runOne (render spec k) p m = .ok (t, m') := by
      have : runAll (render spec k) [] = fun m => .ok ([], m) := by funext m; rfl
      rw [this, andThen_nil] at h1
      exact h1
    rw [runAll, h1, andThen_ok, hn k (by omega)]
    rfl
  · rintro x e ps m f _ ⟨n, hn⟩
    refine ⟨n, fun k hk => ?_⟩
    rw [runAll, runOne, hn k hk]
    rfl
  · rintro k cs ps m h
    refine ⟨0, fun k _ => ?_⟩
    rw [runAll, runOne.eq_def]
    dsimp only
    rw [h]
    rfl

end Mitex
