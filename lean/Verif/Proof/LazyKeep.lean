/-
What the parser keeps while it pulls tokens from a lexer: any property of the lexer that `eat` and `consume_utf8_bytes`
keep, and the scope it is in.  So a parse that succeeds has seen the end of the tokens.
-/
import Verif.Proof.LazySim

namespace Mitex
namespace Lazy

variable {σ : Type} {L : LexerFns σ} {Q : σ → Prop} {sc : Scope}

/-- A property of lexer states that their operations keep. -/
structure Closed (L : LexerFns σ) (Q : σ → Prop) : Prop where
  eat : ∀ {s o s'}, Q s → L.eat s = .ok (o, s') → Q s'
  consume : ∀ {s s' cnt}, Q s → L.consumeBytes cnt s = .ok s' → Q s'

/-- If the result is a value, it has the property. -/
def Post {α : Type} (P : α → Prop) (x : Res α) : Prop := ∀ a, x = .ok a → P a

theorem Post.ok {α : Type} {P : α → Prop} {a : α} (h : P a) : Post P (.ok a) := fun b hb => by cases hb; exact h
theorem Post.error {α : Type} {P : α → Prop} (e : Stop) : Post P (.error e : Res α) := fun b hb => by cases hb
theorem Post.bind {α β : Type} {P : α → Prop} {R : β → Prop} {x : Res α} {f : α → Res β} (h : Post P x)
    (hf : ∀ a, P a → Post R (f a)) : Post R (x >>= f) := by
  cases x with
  | error e => exact .error e
  | ok a => exact hf a (h a rfl)

/-- The lexer has the property, and the parser is in the scope. -/
def Inv (Q : σ → Prop) (sc : Scope) (s : LState σ) : Prop := Q s.lex ∧ s.st.scope = sc
/-- The same, next to a flag. -/
def InvF (Q : σ → Prop) (sc : Scope) (s : Bool × LState σ) : Prop := Inv Q sc s.2

theorem Inv.map {s : LState σ} {f : PState → PState} (h : Inv Q sc s) (hf : (f s.st).scope = s.st.scope) : Inv Q sc (s.map f) :=
  ⟨h.1, hf.trans h.2⟩

theorem Inv.try {s : LState σ} {f : PState → Res PState} (h : Inv Q sc s) (hf : Post (fun t : PState => t.scope = s.st.scope) (f s.st)) :
    Post (Inv Q sc) (s.try f) := by
  unfold LState.try
  cases hx : f s.st with
  | error e => exact .error e
  | ok st => exact .ok ⟨h.1, (hf st hx).trans h.2⟩

theorem finishNode_scope (t : PState) : Post (fun t' : PState => t'.scope = t.scope) t.finishNode := by
  unfold PState.finishNode
  split
  · exact .error _
  · exact .ok rfl

theorem startNodeAt_scope (cp : Nat) (k : Kind) (t : PState) : Post (fun t' : PState => t'.scope = t.scope) (t.startNodeAt cp k) := by
  unfold PState.startNodeAt
  split
  · exact .ok rfl
  · exact .error _

theorem startCommandAt_scope (pos : Option Nat) (t : PState) : Post (fun t' : PState => t'.scope = t.scope) (startCommandAt pos t) := by
  cases pos with
  | none => exact .ok rfl
  | some p =>
    unfold startCommandAt
    refine Post.bind (startNodeAt_scope p .itemCmd t) fun t1 h1 => ?_
    refine Post.bind (startNodeAt_scope p .clauseArgument t1) fun t2 h2 => ?_
    exact fun t3 h3 => ((finishNode_scope t2 t3 h3).trans h2).trans h1

theorem argOpen_scope (g : Bool) (t : PState) : (argOpen g t).scope = t.scope := by cases g <;> rfl

theorem argClose_scope (g : Bool) (t : PState) : Post (fun t' : PState => t'.scope = t.scope) (argClose g t) := by
  cases g with
  | true => exact .ok rfl
  | false => exact finishNode_scope t

/-! ### Single tokens -/

theorem eat_keep (hQ : Closed L Q) {s : LState σ} (h : Inv Q sc s) : Post (Inv Q sc) (eat L s) := by
  unfold eat
  cases hx : L.eat s.lex with
  | error e => exact .error e
  | ok p =>
    obtain ⟨o, lex⟩ := p
    cases o with
    | none => exact .error _
    | some t => exact .ok ⟨hQ.eat h.1 hx, h.2⟩

theorem eatAs_keep (hQ : Closed L Q) (k : Kind) {s : LState σ} (h : Inv Q sc s) : Post (Inv Q sc) (eatAs L k s) := by
  unfold eatAs
  cases hx : L.eat s.lex with
  | error e => exact .error e
  | ok p =>
    obtain ⟨o, lex⟩ := p
    cases o with
    | none => exact .error _
    | some t => exact .ok ⟨hQ.eat h.1 hx, h.2⟩

theorem drop_keep (hQ : Closed L Q) {s : LState σ} (h : Inv Q sc s) : Post (Inv Q sc) (drop L s) := by
  unfold drop
  cases hx : L.eat s.lex with
  | error e => exact .error e
  | ok p => exact .ok ⟨hQ.eat h.1 hx, h.2⟩

theorem holdTrivia_keep (hQ : Closed L Q) {s : LState σ} (h : Inv Q sc s) : Post (Inv Q sc) (holdTrivia L s) := by
  unfold holdTrivia
  cases hx : L.eat s.lex with
  | error e => exact .error e
  | ok p =>
    obtain ⟨o, lex⟩ := p
    cases o with
    | none => exact .error _
    | some t => exact .ok ⟨hQ.eat h.1 hx, h.2⟩

theorem eatIf_keep (hQ : Closed L Q) (k : Token) {s : LState σ} (h : Inv Q sc s) : Post (Inv Q sc) (eatIf L k s) := by
  unfold eatIf
  split
  · exact eat_keep hQ h
  · exact .ok h

theorem consumeBytes_keep (hQ : Closed L Q) (cnt : Nat) {s : LState σ} (h : Inv Q sc s) : Post (Inv Q sc) (consumeBytes L cnt s) := by
  unfold consumeBytes
  cases hx : L.consumeBytes cnt s.lex with
  | error e => exact .error e
  | ok lex => exact .ok ⟨hQ.consume h.1 hx, h.2⟩

theorem singleChar_keep (hQ : Closed L Q) {s : LState σ} (h : Inv Q sc s) : Post (Inv Q sc) (singleChar L s) := by
  unfold singleChar
  split
  · exact .ok h
  · exact .ok h
  · exact consumeBytes_keep hQ _ (h.map rfl)

theorem eatWhile_keep (hQ : Closed L Q) (p : Token → Bool) : ∀ (n : Nat) {s : LState σ}, Inv Q sc s → Post (Inv Q sc) (eatWhile L p n s)
  | 0, s, h => by rw [eatWhile]; exact .error _
  | n + 1, s, h => by
    rw [eatWhile]
    split
    · exact .ok h
    · split
      · exact Post.bind (eat_keep hQ h) fun s1 h1 => eatWhile_keep hQ p n h1
      · exact .ok h

theorem ifs_keep (hQ : Closed L Q) : ∀ (n nested : Nat) {s : LState σ}, Inv Q sc s → Post (Inv Q sc) (eatBodyOfIfs L n nested s)
  | 0, nested, s, h => by rw [eatBodyOfIfs]; exact .error _
  | n + 1, nested, s, h => by
    have step : ∀ m, Post (Inv Q sc) (eat L s >>= fun s => eatBodyOfIfs L n m s) := fun m =>
      Post.bind (eat_keep hQ h) fun s1 h1 => ifs_keep hQ n m h1
    rw [eatBodyOfIfs]
    split
    · exact .ok h
    · exact step _
    · split
      · exact drop_keep hQ h
      · exact step _
    · exact step _

/-! ### The functions of the parser -/

theorem finish_keep {s : LState σ} (h : Inv Q sc s) : Post (Inv Q sc) (s.try PState.finishNode) := h.try (finishNode_scope _)

theorem robChars_keep (g : GlobFn) : ∀ (cs : Text) (m : ArgMatcher) (cnt : Nat) {s : LState σ}, Inv Q sc s →
    Post (fun r => Inv Q sc r.2.2.2) (robChars g cs m cnt s)
  | [], m, cnt, s, h => by rw [robChars]; exact .ok h
  | c :: cs, m, cnt, s, h => by
    rw [robChars]
    obtain ⟨ok, m'⟩ := m.tryMatch g .term
    cases ok with
    | false => exact .ok h
    | true =>
      refine Post.bind (h.try ?_) fun s1 h1 => robChars_keep g cs _ _ h1
      intro t ht
      exact (argClose_scope false _ t ht).trans (argOpen_scope false s.st)

theorem consumeIf_keep (hQ : Closed L Q) (cnt : Nat) {s : LState σ} (h : Inv Q sc s) : Post (Inv Q sc) (consumeIf L cnt s) := by
  unfold consumeIf
  split
  · exact consumeBytes_keep hQ cnt h
  · exact .ok h

theorem textItem_keep (hQ : Closed L Q) (K : Nat) {s : LState σ} (h : Inv Q sc s) : Post (Inv Q sc) (textItem L K s) := by
  unfold textItem
  exact Post.bind (eat_keep hQ (h.map (f := (·.startNode .itemText)) rfl)) fun s1 h1 =>
    Post.bind (eatWhile_keep hQ _ K h1) fun s2 h2 => finish_keep h2

theorem errorItem_keep (hQ : Closed L Q) {s : LState σ} (h : Inv Q sc s) : Post (Inv Q sc) (errorItem L s) := by
  unfold errorItem
  exact Post.bind (eat_keep hQ (h.map (f := (·.startNode .tokenError)) rfl)) fun s1 h1 => finish_keep h1

theorem clauseLR_keep (hQ : Closed L Q) (K : Nat) {s : LState σ} (h : Inv Q sc s) : Post (Inv Q sc) (clauseLR L K s) := by
  unfold clauseLR
  refine Post.bind (eat_keep hQ (h.map (f := (·.startNode .clauseLR)) rfl)) fun s1 h1 => ?_
  refine Post.bind (eatWhile_keep hQ _ K h1) fun s2 h2 => ?_
  have fin : ∀ {y : Res (LState σ)}, Post (Inv Q sc) y → Post (Inv Q sc) (y >>= fun s => s.try PState.finishNode) := fun h =>
    h.bind fun s3 h3 => finish_keep h3
  cases peek L s2 with
  | none => exact fin (.ok h2)
  | some k =>
    cases k with
    | cmd c => cases c with
      | generic => exact fin (eatAs_keep hQ _ h2)
      | _ => exact fin (.ok h2)
    | dollar => exact fin (.ok h2)
    | word => exact fin (singleChar_keep hQ h2)
    | _ => exact fin (eat_keep hQ h2)

theorem ifBlock_keep (hQ : Closed L Q) (K : Nat) (kind : Kind) {s : LState σ} (h : Inv Q sc s) : Post (Inv Q sc) (ifBlock L K kind s) := by
  unfold ifBlock
  exact Post.bind (drop_keep hQ (h.map (f := (·.startNode kind)) rfl)) fun s1 h1 =>
    Post.bind (ifs_keep hQ K 0 h1) fun s2 h2 => finish_keep h2

/-- The item parser keeps it. -/
def CKeep (Q : σ → Prop) (D : Content σ) : Prop := ∀ sc b s, Inv Q sc s → Post (InvF Q sc) (D b s)

variable {D : Content σ}

theorem itemListLoop_keep (hD : CKeep Q D) : ∀ (m cur : Nat) {s : LState σ}, Inv Q sc s →
    Post (fun s' => Inv Q sc s' ∧ (peek L s' = none ∨ ∃ k, peek L s' = some k ∧ stopByScope sc k = true)) (itemListLoop L D m cur s)
  | 0, cur, s, h => by rw [itemListLoop]; exact .error _
  | m + 1, cur, s, h => by
    rw [itemListLoop]
    cases hp : peek L s with
    | none => exact .ok ⟨h, .inl hp⟩
    | some k =>
      simp only
      cases hs : stopByScope s.st.scope k with
      | true => exact .ok ⟨h, .inr ⟨k, hp, by rw [← h.2]; exact hs⟩⟩
      | false =>
        simp only [Bool.false_eq_true, if_false]
        refine Post.bind (hD sc true s h) fun p hp => ?_
        obtain ⟨f, s1⟩ := p
        refine itemListLoop_keep hD m _ ?_
        cases f with
        | true => exact Inv.map (s := s1) hp rfl
        | false => exact hp

theorem itemList_keep (hD : CKeep Q D) (m : Nat) (scope : Scope) {s : LState σ} (h : Inv Q sc s) :
    Post (fun s' => Inv Q sc s' ∧ (peek L s' = none ∨ ∃ k, peek L s' = some k ∧ stopByScope scope k = true)) (itemList L D m scope s) := by
  unfold itemList
  refine Post.bind (itemListLoop_keep (sc := scope) hD m _ ⟨h.1, rfl⟩) fun s1 h1 => ?_
  exact .ok ⟨⟨h1.1.1, h.2⟩, h1.2⟩

theorem itemGroup_keep (hQ : Closed L Q) (hD : CKeep Q D) (m : Nat) (scope : Scope) {s : LState σ} (h : Inv Q sc s) :
    Post (Inv Q sc) (itemGroup L D m scope s) := by
  unfold itemGroup
  cases groupInfo scope with
  | none => exact .error _
  | some p =>
    obtain ⟨endTok, kind⟩ := p
    refine Post.bind (eat_keep hQ (h.map (f := (·.startNode kind)) rfl)) fun s1 h1 => ?_
    refine Post.bind (itemList_keep hD m scope h1) fun s2 h2 => ?_
    exact Post.bind (eatIf_keep hQ _ h2.1) fun s3 h3 => finish_keep h3

theorem attachFinish_keep (hQ : Closed L Q) (hD : CKeep Q D) (K : Nat) (b : Bool) {s : LState σ} (h : Inv Q sc s) :
    Post (Inv Q sc) (attachFinish L K D b s) := by
  unfold attachFinish
  refine Post.bind (eat_keep hQ h) fun s1 h1 => ?_
  cases b with
  | true =>
    exact Post.bind (eatWhile_keep hQ _ K h1) fun s2 h2 => Post.bind (hD sc false s2 h2) fun p hp => finish_keep hp
  | false => exact finish_keep h1

theorem attachComponent_keep (hQ : Closed L Q) (hD : CKeep Q D) (K : Nat) (b : Bool) {s : LState σ} (h : Inv Q sc s) :
    Post (Inv Q sc) (attachComponent L K D b s) := by
  unfold attachComponent
  cases s.st.last with
  | some l =>
    refine Post.bind (h.try (startNodeAt_scope l .itemAttachComponent _)) fun s1 h1 => ?_
    refine Post.bind (h1.try (startNodeAt_scope l .clauseArgument _)) fun s2 h2 => ?_
    exact Post.bind (finish_keep h2) fun s3 h3 => attachFinish_keep hQ hD K b h3
  | none =>
    cases b with
    | false => exact eat_keep hQ h
    | true => exact attachFinish_keep hQ hD K true (h.map (f := (·.startNode .itemAttachComponent)) rfl)

theorem itemLR_keep (hQ : Closed L Q) (hD : CKeep Q D) (K m : Nat) {s : LState σ} (h : Inv Q sc s) :
    Post (Inv Q sc) (itemLR L K D m s) := by
  unfold itemLR
  refine Post.bind (clauseLR_keep hQ K (h.map (f := (·.startNode .itemLR)) rfl)) fun s1 h1 => ?_
  refine Post.bind (itemList_keep hD m .lr h1) fun s2 h2 => ?_
  split
  · exact Post.bind (clauseLR_keep hQ K h2.1) fun s3 h3 => finish_keep h3
  · exact finish_keep h2.1

theorem matchLoop_keep (hQ : Closed L Q) (hD : CKeep Q D) (g : GlobFn) (lim : Nat) (greedy : Bool) :
    ∀ (m : Nat) (am : ArgMatcher) {s : LState σ}, Inv Q sc s → Post (Inv Q sc) (matchLoop L g D lim greedy m am s)
  | 0, am, s, h => by rw [matchLoop]; exact .error _
  | m + 1, am, s, h => by
    rw [matchLoop]
    cases L.peek s.lex with
    | none => exact .ok h
    | some tk =>
      obtain ⟨k, text⟩ := tk
      simp only
      by_cases hk : k.isTrivia
      · simp only [hk, if_true]
        cases greedy with
        | true => exact Post.bind (eat_keep hQ h) fun s1 h1 => matchLoop_keep hQ hD g lim true m am h1
        | false => exact Post.bind (holdTrivia_keep hQ h) fun s1 h1 => matchLoop_keep hQ hD g lim false m am h1
      simp only [hk, if_false, Bool.false_eq_true]
      by_cases h1 : k = .newLine ∧ greedy = true ∧ s.st.scope = .environment
      · rw [if_pos h1]; exact .ok h
      rw [if_neg h1]
      by_cases h2 : k = .ampersand
      · rw [if_pos h2]; exact .ok h
      rw [if_neg h2]
      by_cases h3 : (k = .caret ∨ k = .underscore) ∧ (!greedy) = true
      · rw [if_pos h3]; exact .ok h
      rw [if_neg h3]
      by_cases h4 : k = .word ∧ (!greedy) = true
      · rw [if_pos h4]
        refine Post.bind (robChars_keep g text am 0 h) fun b hb => ?_
        obtain ⟨st2, m2, c2, s1⟩ := b
        refine Post.bind (consumeIf_keep hQ c2 hb) fun s2 h2 => ?_
        cases st2 with
        | true => exact .ok h2
        | false => exact matchLoop_keep hQ hD g lim greedy m m2 h2
      rw [if_neg h4]
      have close : ∀ (b : Bool) (cur : Nat) (m1 : ArgMatcher) {s1 : LState σ}, Inv Q sc s1 →
          Post (Inv Q sc) (s1.try (argClose greedy) >>= fun s1 => matchLoop L g D lim greedy m m1 (if b then s1.map (fun st => { st with last := some cur }) else s1)) := by
        intro b cur m1 s1 hs
        refine Post.bind (hs.try (argClose_scope greedy _)) fun s2 h2 => ?_
        refine matchLoop_keep hQ hD g lim greedy m m1 ?_
        cases b with
        | true => exact Inv.map (s := s2) h2 rfl
        | false => exact h2
      have other : Post (Inv Q sc)
          (if stopByScope s.st.scope k then .ok s
          else
            let (ok, am) := am.tryMatch g .term
            if !ok then .ok s
            else do
              let cur := s.st.checkpoint
              let (attachable, s) ← D true (s.map (argOpen greedy))
              let s ← s.try (argClose greedy)
              let s := if greedy ∧ attachable then s.map (fun st => { st with last := some cur }) else s
              matchLoop L g D lim greedy m am s) := by
        cases stopByScope s.st.scope k with
        | true => exact .ok h
        | false =>
          simp only [Bool.false_eq_true, if_false]
          obtain ⟨ok, m1⟩ := am.tryMatch g .term
          cases ok with
          | false => exact .ok h
          | true =>
            refine Post.bind (hD sc true _ (h.map (argOpen_scope greedy _))) fun b hb => ?_
            obtain ⟨f, s1⟩ := b
            have := close (greedy && f) s.st.checkpoint m1 hb
            simp only [Bool.and_eq_true] at this
            exact this
      cases k with
      | left bk =>
        simp only
        obtain ⟨o, m1⟩ := am.matchAsTerm g (braceKind bk).1
        cases o with
        | none => exact .ok h
        | some asTerm =>
          cases asTerm with
          | true => exact Post.bind (eat_keep hQ (h.map (argOpen_scope greedy _))) fun s2 h2 => close greedy _ m1 h2
          | false => exact Post.bind (itemGroup_keep hQ hD lim _ (h.map (argOpen_scope greedy _))) fun s2 h2 => close greedy _ m1 h2
      | _ => exact other

theorem matchArguments_keep (hQ : Closed L Q) (hD : CKeep Q D) (g : GlobFn) (m : Nat) (greedy : Bool) (am : ArgMatcher) {s : LState σ}
    (h : Inv Q sc s) : Post (Inv Q sc) (matchArguments L g D m greedy am s) := by
  unfold matchArguments
  split
  · exact .error _
  · exact Post.bind (matchLoop_keep hQ hD g m greedy m am (h.map (f := fun st => { st with last := none, start := if greedy then some st.checkpoint else none }) rfl))
      fun s1 h1 => .ok (h1.map rfl)

theorem commandTail_keep (hQ : Closed L Q) (hD : CKeep Q D) (g : GlobFn) (m : Nat) (am : ArgMatcher) {s : LState σ}
    (h : Inv Q sc s) : Post (InvF Q sc) (commandTail L g D m am s) := by
  unfold commandTail
  refine Post.bind (eat_keep hQ h) fun s1 h1 => ?_
  have fin : ∀ (s2 : LState σ), Inv Q sc s2 → Post (InvF Q sc) (s2.try PState.finishNode >>= fun s => .ok (!am.isGreedy, s.map PState.extractHold)) :=
    fun s2 h2 => Post.bind (finish_keep h2) fun s3 h3 => .ok (Inv.map h3 rfl)
  by_cases hg : am.isGreedy = true
  · simp only [hg, if_true] at fin ⊢
    exact Post.bind (matchArguments_keep hQ hD g m true am (h1.map (f := (·.startNode .clauseArgument)) rfl)) fun s2 h2 =>
      Post.bind (finish_keep h2) fin
  · simp only [hg, if_false, Bool.false_eq_true] at fin ⊢
    exact Post.bind (matchArguments_keep hQ hD g m false am h1) fin

theorem command_keep (env : PEnv) (hQ : Closed L Q) (hD : CKeep Q D) (m : Nat) {s : LState σ} (h : Inv Q sc s) :
    Post (InvF Q sc) (command L env D m s) := by
  unfold command
  cases L.peek s.lex with
  | none => exact .error _
  | some tk =>
    obtain ⟨k, text⟩ := tk
    simp only
    have simple : Post (InvF Q sc) (do
            let s ← eat L (s.map (·.startNode .itemCmd))
            let s ← s.try PState.finishNode
            .ok (true, s)) :=
      Post.bind (eat_keep hQ (h.map (f := (·.startNode .itemCmd)) rfl)) fun s1 h1 => Post.bind (finish_keep h1) fun s2 h2 => .ok h2
    have tail : ∀ p, Post (InvF Q sc) (commandTail L env.glob D m (startMatch p) (s.map (·.startNode .itemCmd))) := fun p =>
      commandTail_keep hQ hD _ m _ (h.map (f := (·.startNode .itemCmd)) rfl)
    cases stripBackslash text with
    | error e => exact .error e
    | ok name =>
      have e1 : ∀ {α : Type} (f : Text → Res α), ((Except.ok name : Res Text) >>= f) = f name := fun f => rfl
      rw [e1]
      cases (getCmd env.spec name).map CmdShape.args with
      | none => exact simple
      | some a =>
        cases a with
        | right p =>
          cases p with
          | none => exact simple
          | fixedLen l => cases l with
            | zero => exact simple
            | succ l => exact tail _
          | _ => exact tail _
        | left1 =>
          refine Post.bind (h.try (startCommandAt_scope _ _)) fun s1 h1 => ?_
          exact Post.bind (eat_keep hQ h1) fun s1 h1 => Post.bind (finish_keep h1) fun s2 h2 => .ok h2
        | infixGreedy =>
          refine Post.bind ((h.map (f := fun st => { st with start := none }) rfl).try (startCommandAt_scope _ _)) fun s1 h1 => ?_
          exact commandTail_keep hQ hD _ m _ h1

theorem environment_keep (env : PEnv) (hQ : Closed L Q) (hD : CKeep Q D) (m : Nat) {s : LState σ} (h : Inv Q sc s) :
    Post (Inv Q sc) (environment L env D m s) := by
  unfold environment
  cases L.peek s.lex with
  | none => exact .error _
  | some tk =>
    obtain ⟨k, name⟩ := tk
    simp only
    refine Post.bind (eat_keep hQ (h.map (f := fun st => (st.startNode .itemEnv).startNode .itemBegin) rfl)) fun s1 h1 => ?_
    have rest : ∀ (s2 : LState σ), Inv Q sc s2 → Post (Inv Q sc) (do
          let s ← s2.try PState.finishNode
          let s ← itemList L D m .environment (s.map PState.extractHold)
          let s ← if peek L s = some (.cmd .endEnv) then do
              let s ← eat L (s.map (·.startNode .itemEnd))
              s.try PState.finishNode
            else .ok s
          s.try PState.finishNode : Res (LState σ)) := by
      intro s2 h2
      refine Post.bind (finish_keep h2) fun s3 h3 => ?_
      refine Post.bind (itemList_keep hD m .environment (h3.map (f := PState.extractHold) rfl)) fun s4 h4 => ?_
      split
      · exact Post.bind (eat_keep hQ (h4.1.map (f := (·.startNode .itemEnd)) rfl)) fun s5 h5 =>
          Post.bind (finish_keep h5) fun s5 h5 => finish_keep h5
      · exact finish_keep h4.1
    cases envPattern env.spec name with
    | none => exact rest _ h1
    | some p => exact Post.bind (matchArguments_keep hQ hD _ m false _ h1) rest

theorem withFlag_keep {b : Bool} {y : Res (LState σ)} (h : Post (Inv Q sc) y) : Post (InvF Q sc) (withFlag b y) := by
  cases y with
  | error e => exact .error e
  | ok a => exact .ok (h a rfl)

theorem contentBody_keep (env : PEnv) (hQ : Closed L Q) (hD : CKeep Q D) (K m : Nat) (notSingle : Bool) {s : LState σ} (h : Inv Q sc s) :
    Post (InvF Q sc) (contentBody L env K D m notSingle s) := by
  unfold contentBody
  cases peek L s with
  | none => exact .ok h
  | some c =>
    cases c with
    | left b => cases b with
      | curly => exact withFlag_keep (itemGroup_keep hQ hD m _ h)
      | _ => exact withFlag_keep (eat_keep hQ h)
    | right b => cases b with
      | curly => exact withFlag_keep (errorItem_keep hQ h)
      | _ => exact withFlag_keep (eat_keep hQ h)
    | macroArg d => exact withFlag_keep (errorItem_keep hQ h)
    | apostrophe => exact withFlag_keep (attachComponent_keep hQ hD K false h)
    | underscore => exact withFlag_keep (attachComponent_keep hQ hD K true h)
    | caret => exact withFlag_keep (attachComponent_keep hQ hD K true h)
    | word =>
      refine withFlag_keep ?_
      split
      · exact textItem_keep hQ K h
      · exact singleChar_keep hQ h
    | comma => exact withFlag_keep (textItem_keep hQ K h)
    | dollar => exact withFlag_keep (itemGroup_keep hQ hD m _ h)
    | cmd name =>
      cases name with
      | generic => exact command_keep env hQ hD m h
      | beginEnv => exact withFlag_keep (environment_keep env hQ hD m h)
      | beginMath => exact withFlag_keep (itemGroup_keep hQ hD m _ h)
      | cif i => cases i with
        | ifFalse => exact withFlag_keep (ifBlock_keep hQ K _ h)
        | ifTypst => exact withFlag_keep (ifBlock_keep hQ K _ h)
        | _ => exact command_keep env hQ hD m h
      | celse => exact command_keep env hQ hD m h
      | endIf => exact command_keep env hQ hD m h
      | left => exact withFlag_keep (itemLR_keep hQ hD K m h)
      | right => exact command_keep env hQ hD m h
      | endEnv => exact withFlag_keep (errorItem_keep hQ h)
      | endMath => exact withFlag_keep (errorItem_keep hQ h)
      | errorBeginEnv => exact withFlag_keep (eat_keep hQ h)
      | errorEndEnv => exact withFlag_keep (eat_keep hQ h)
    | _ => exact withFlag_keep (eat_keep hQ h)

theorem content_keep (env : PEnv) (hQ : Closed L Q) (K : Nat) : ∀ m, CKeep Q (content L env K m)
  | 0 => fun sc b s h => .error _
  | m + 1 => fun sc b s h => contentBody_keep env hQ (content_keep env hQ K m) K m b h

/-! ### Successful parses have seen the end -/

theorem stop_root (k : Token) : stopByScope .root k = false := by cases k <;> rfl

/-- If the lexer never comes to the end of its tokens, no parse succeeds. -/
theorem parseFrom_no_end (env : PEnv) (hQ : Closed L Q) (hend : ∀ s, Q s → L.peek s ≠ none) (fuel : Nat) {lex : σ} (h : Q lex) (t : Elem) :
    parseFrom L env fuel lex ≠ .ok t := by
  intro ht
  unfold parseFrom at ht
  have hk := itemList_keep (L := L) (content_keep env hQ fuel fuel) fuel .root
    (s := ⟨lex, (PState.init []).startNode .scopeRoot⟩) (sc := ((PState.init []).startNode .scopeRoot).scope) ⟨h, rfl⟩
  cases hx : itemList L (content L env fuel fuel) fuel .root ⟨lex, (PState.init []).startNode .scopeRoot⟩ with
  | error e => rw [hx] at ht; cases ht
  | ok s =>
    have := hk s hx
    rcases this with ⟨h1, h2 | ⟨k, h2, h3⟩⟩
    · refine hend _ h1.1 ?_
      unfold peek at h2
      cases hp : L.peek s.lex with
      | none => rfl
      | some a => rw [hp] at h2; cases h2
    · rw [stop_root] at h3; cases h3

end Lazy
end Mitex
