/-
Relational parametricity of the macro engine in its token stream: two streams related by a relation that the
primitive operations respect stay related under every function of the engine.
-/
import Verif.Model.Engine

namespace Mitex
open TokStream

/-- The primitive operations respect the relation. -/
structure StreamRel {σ τ : Type} [TokStream σ] [TokStream τ] (R : σ → τ → Prop) : Prop where
  peek : ∀ {c d}, R c d → peek c = peek d
  next : ∀ {c d}, R c d → R (next c) (next d)
  pushFront : ∀ {c d} l, R c d → R (pushFront l c) (pushFront l d)
  setPeek : ∀ {c d} t, R c d → (TokStream.peek c).isSome → R (setPeek t c) (setPeek t d)
  emit : ∀ {c d} t, R c d → R (emit t c) (emit t d)
  bound : ∀ {c d}, R c d → bound c = bound d

/-- Results of stream readers: equal values, related streams. -/
def PRel {σ τ α : Type} (R : σ → τ → Prop) (a : α × σ) (b : α × τ) : Prop := a.1 = b.1 ∧ R a.2 b.2

/-- Results of fallible stream readers. -/
def RRel {σ τ α : Type} (R : σ → τ → Prop) : Res (α × σ) → Res (α × τ) → Prop
  | .ok a, .ok b => PRel R a b
  | .error x, .error y => x = y
  | _, _ => False

section
variable {σ τ : Type} [TokStream σ] [TokStream τ] {R : σ → τ → Prop} (hR : StreamRel R)

include hR

theorem nextNotTriviaN_rel (n : Nat) : ∀ {c d}, R c d → PRel R (nextNotTriviaN n c) (nextNotTriviaN n d) := by
  induction n with
  | zero => intro c d h; exact ⟨rfl, h⟩
  | succ n ih =>
    intro c d h
    have h1 := hR.next h
    simp only [nextNotTriviaN, hR.peek h1]
    split
    · exact ⟨rfl, h1⟩
    · split
      · exact ih h1
      · exact ⟨rfl, h1⟩

theorem nextNotTrivia_rel {c d} (h : R c d) : PRel R (nextNotTrivia c) (nextNotTrivia d) := by
  unfold nextNotTrivia
  rw [hR.bound h]
  exact nextNotTriviaN_rel hR _ h

theorem peekNotTrivia_rel {c d} (h : R c d) : PRel R (peekNotTrivia c) (peekNotTrivia d) := by
  unfold peekNotTrivia
  rw [hR.peek h]
  split
  · exact nextNotTrivia_rel hR h
  · split
    · exact nextNotTrivia_rel hR h
    · exact ⟨rfl, h⟩

theorem eatIf_rel (tk : Token) {c d} (h : R c d) : R (eatIf tk c) (eatIf tk d) := by
  unfold eatIf
  rw [hR.peek h]
  split
  · split
    · exact hR.next h
    · exact h
  · exact h

omit [TokStream σ] [TokStream τ] hR in
/-- Destructure two related pairs. -/
theorem PRel.elim {α : Type} {a : α × σ} {b : α × τ} (h : PRel R a b) :
    ∃ v c d, a = (v, c) ∧ b = (v, d) ∧ R c d :=
  ⟨a.1, a.2, b.2, rfl, by rw [h.1], h.2⟩

theorem peekU8Opt_rel (bk : BraceKind) {c d} (h : R c d) : PRel R (peekU8Opt bk c) (peekU8Opt bk d) := by
  unfold peekU8Opt
  rw [hR.peek h]
  obtain ⟨v, c', d', h1, h2, h3⟩ := (nextNotTrivia_rel hR h).elim
  rw [h1, h2]
  cases v with
  | none => exact ⟨rfl, h3⟩
  | some v => exact ⟨rfl, eatIf_rel hR _ h3⟩

theorem peekWordOpt_rel (bk : BraceKind) {c d} (h : R c d) : PRel R (peekWordOpt bk c) (peekWordOpt bk d) := by
  unfold peekWordOpt
  rw [hR.peek h]
  obtain ⟨v, c', d', h1, h2, h3⟩ := (nextNotTrivia_rel hR h).elim
  rw [h1, h2]
  cases v with
  | none => exact ⟨rfl, h3⟩
  | some v => exact ⟨rfl, eatIf_rel hR _ h3⟩

theorem peekCmdNameOpt_rel (bk : BraceKind) {c d} (h : R c d) :
    PRel R (peekCmdNameOpt bk c) (peekCmdNameOpt bk d) := by
  unfold peekCmdNameOpt
  rw [hR.peek h]
  obtain ⟨v, c', d', h1, h2, h3⟩ := (nextNotTrivia_rel hR h).elim
  rw [h1, h2]
  cases v with
  | none => exact ⟨rfl, h3⟩
  | some v => exact ⟨rfl, eatIf_rel hR _ h3⟩

theorem takeBalanced_rel (bk : BraceKind) (n : Nat) : ∀ (lvl : Int) {c d}, R c d →
    PRel R (takeBalanced bk n lvl c) (takeBalanced bk n lvl d) := by
  induction n with
  | zero => intro lvl c d h; exact ⟨rfl, h⟩
  | succ n ih =>
    intro lvl c d h
    simp only [takeBalanced, hR.peek h]
    split
    · exact ⟨rfl, h⟩
    · rename_i t _
      split
      · exact ⟨rfl, h⟩
      · have := ih (bumpLevel lvl t.1) (hR.next h)
        exact ⟨by rw [this.1], this.2⟩

theorem readUntilBalanced_rel (bk : BraceKind) {c d} (h : R c d) :
    PRel R (readUntilBalanced bk c) (readUntilBalanced bk d) := by
  unfold readUntilBalanced
  rw [hR.bound h]
  have := takeBalanced_rel hR bk (bound d) 0 h
  exact ⟨this.1, eatIf_rel hR _ this.2⟩

theorem skipFalse_rel (n : Nat) : ∀ (k : Nat) {c d}, R c d → R (skipFalse n k c) (skipFalse n k d) := by
  induction n with
  | zero => intro k c d h; exact h
  | succ n ih =>
    intro k c d h
    simp only [skipFalse, hR.peek h]
    split
    · exact h
    · split
      · exact ih _ (hR.next h)
      · split
        · exact h
        · exact ih _ (hR.next h)
      · split
        · exact h
        · exact ih _ (hR.next h)
      · exact ih _ (hR.next h)

theorem trappedByIf_rel (e : Eng) (t : Tok) (i : IfName) {c d} (h : R c d) :
    PRel R (trappedByIf e c t i) (trappedByIf e d t i) := by
  have h1 := hR.next h
  unfold trappedByIf
  cases i <;> first
    | exact ⟨rfl, hR.emit _ h1⟩
    | exact ⟨rfl, h1⟩

theorem trappedByElse_rel (e : Eng) (t : Tok) {c d} (h : R c d) :
    PRel R (trappedByElse e c t) (trappedByElse e d t) := by
  have h1 := hR.next h
  unfold trappedByElse
  simp only [hR.bound h1]
  split <;> first
    | exact ⟨rfl, skipFalse_rel hR _ _ h1⟩
    | exact ⟨rfl, hR.emit _ h1⟩
    | exact ⟨rfl, h1⟩

theorem trappedByEndif_rel (e : Eng) (t : Tok) {c d} (h : R c d) :
    PRel R (trappedByEndif e c t) (trappedByEndif e d t) := by
  have h1 := hR.next h
  unfold trappedByEndif
  simp only
  split <;> first
    | exact ⟨rfl, hR.emit _ h1⟩
    | exact ⟨rfl, h1⟩

theorem readDefn_rel {c d} (h : R c d) : PRel R (readDefn c) (readDefn d) := by
  unfold readDefn
  rw [hR.peek h]
  split
  · exact ⟨rfl, h⟩
  · split
    · have := readUntilBalanced_rel hR .curly (hR.next h)
      exact ⟨by simp [this.1], this.2⟩
    · exact ⟨rfl, hR.next h⟩

theorem readOptDefn_rel {c d} (h : R c d) : PRel R (readOptDefn c) (readOptDefn d) := by
  unfold readOptDefn
  rw [hR.peek h]
  split
  · exact ⟨rfl, h⟩
  · split
    · have h1 := readUntilBalanced_rel hR .bracket (hR.next h)
      simp only [h1.1]
      obtain ⟨v, c', d', e1, e2, h3⟩ := (readDefn_rel hR h1.2).elim
      rw [e1, e2]
      cases v with
      | none => exact ⟨rfl, h3⟩
      | some v => exact ⟨rfl, h3⟩
    · obtain ⟨v, c', d', e1, e2, h3⟩ := (readDefn_rel hR h).elim
      rw [e1, e2]
      cases v with
      | none => exact ⟨rfl, h3⟩
      | some v => exact ⟨rfl, h3⟩

theorem readNArgsOptDefn_rel {c d} (h : R c d) : PRel R (readNArgsOptDefn c) (readNArgsOptDefn d) := by
  unfold readNArgsOptDefn
  rw [hR.peek h]
  split
  · exact ⟨rfl, h⟩
  · split
    · have h1 := nextNotTrivia_rel hR h
      obtain ⟨v, c', d', e1, e2, h3⟩ := (peekU8Opt_rel hR .bracket h1.2).elim
      rw [e1, e2]
      cases v with
      | none => exact ⟨rfl, h3⟩
      | some v =>
        simp only
        split
        · obtain ⟨v, c', d', e1, e2, h3⟩ := (readOptDefn_rel hR h3).elim
          rw [e1, e2]
          cases v with
          | none => exact ⟨rfl, h3⟩
          | some v => exact ⟨rfl, h3⟩
        · exact ⟨rfl, h3⟩
    · obtain ⟨v, c', d', e1, e2, h3⟩ := (readDefn_rel hR h).elim
      rw [e1, e2]
      cases v with
      | none => exact ⟨rfl, h3⟩
      | some v => exact ⟨rfl, h3⟩

theorem readDeclName_rel (dd : DeclareCmdOrEnv) {c d} (h : R c d) :
    RRel R (readDeclName dd c) (readDeclName dd d) := by
  unfold readDeclName
  obtain ⟨v, c', d', e1, e2, h3⟩ := (nextNotTrivia_rel hR h).elim
  rw [e1, e2]
  split
  · rename_i heq
    simp only [Prod.mk.injEq] at heq
    obtain ⟨rfl, rfl⟩ := heq
    have h4 := (nextNotTrivia_rel hR h3).2
    simp only
    split
    · obtain ⟨v, c', d', e1, e2, h5⟩ := (peekWordOpt_rel hR .curly h4).elim
      rw [e1, e2]
      cases v with
      | none => exact ⟨rfl, h5⟩
      | some v => exact ⟨rfl, h5⟩
    · obtain ⟨v, c', d', e1, e2, h5⟩ := (peekCmdNameOpt_rel hR .curly h4).elim
      rw [e1, e2]
      cases v with
      | none => exact ⟨rfl, h5⟩
      | some v =>
        simp only
        split
        · exact rfl
        · exact ⟨rfl, h5⟩
  · rename_i hne heq
    simp only [Prod.mk.injEq] at heq
    obtain ⟨rfl, rfl⟩ := heq
    split
    · rename_i heq
      simp only [Prod.mk.injEq] at heq
      exact absurd heq.1 (by intro hx; exact hne hx)
    · rename_i heq
      simp only [Prod.mk.injEq] at heq
      obtain ⟨_, rfl⟩ := heq
      exact ⟨rfl, h3⟩

theorem finishUpdate_rel (dd : DeclareCmdOrEnv) (name : Text) (n : Nat) (opt : Option (List Tok))
    (body : List Tok) {c d} (h : R c d) :
    RRel R (finishUpdate dd name n opt body c) (finishUpdate dd name n opt body d) := by
  unfold finishUpdate
  split
  · rw [hR.peek h]
    split
    · exact ⟨rfl, h⟩
    · rename_i t _
      simp only
      have key : PRel R (if t.1 = .left .curly then
          (some (readUntilBalanced .curly (next c)).1, (readUntilBalanced .curly (next c)).2) else (none, c))
        (if t.1 = .left .curly then
          (some (readUntilBalanced .curly (next d)).1, (readUntilBalanced .curly (next d)).2) else (none, d)) := by
        split
        · have := readUntilBalanced_rel hR .curly (hR.next h)
          exact ⟨by simp [this.1], this.2⟩
        · exact ⟨rfl, h⟩
      split
      · exact rfl
      · rw [key.1]
        split
        · exact ⟨rfl, key.2⟩
        · split
          · exact rfl
          · exact ⟨rfl, key.2⟩
  · split
    · exact rfl
    · exact ⟨rfl, h⟩

theorem identifyUpdate_rel (dd : DeclareCmdOrEnv) {c d} (h : R c d) :
    RRel R (identifyUpdate dd c) (identifyUpdate dd d) := by
  unfold identifyUpdate
  have h1 := readDeclName_rel hR dd h
  cases e1 : readDeclName dd c with
  | error x =>
    cases e2 : readDeclName dd d with
    | error y => rw [e1, e2] at h1; exact h1
    | ok b => rw [e1, e2] at h1; exact h1.elim
  | ok a =>
    cases e2 : readDeclName dd d with
    | error y => rw [e1, e2] at h1; exact h1.elim
    | ok b =>
      rw [e1, e2] at h1
      obtain ⟨v, c', d', rfl, rfl, h3⟩ := PRel.elim h1
      cases v with
      | none => exact ⟨rfl, h3⟩
      | some name =>
        simp only
        obtain ⟨v, c', d', e1, e2, h3⟩ := (readNArgsOptDefn_rel hR h3).elim
        rw [e1, e2]
        cases v with
        | none => exact ⟨rfl, h3⟩
        | some v => exact finishUpdate_rel hR _ _ _ _ _ h3

theorem readArgsLoop_rel (fuel : Nat) : ∀ (num read : Nat) {c d}, R c d →
    (readArgsLoop fuel num read c).1 = (readArgsLoop fuel num read d).1 ∧
    PRel R (readArgsLoop fuel num read c).2 (readArgsLoop fuel num read d).2 := by
  induction fuel with
  | zero => intro num read c d h; exact ⟨rfl, rfl, h⟩
  | succ fuel ih =>
    intro num read c d h
    simp only [readArgsLoop]
    obtain ⟨v, c', d', e1, e2, h3⟩ := (peekNotTrivia_rel hR h).elim
    rw [e1, e2]
    have hother : ∀ t : Option Tok, t = peek d' →
        (match t with
          | none => (([] : List (List Tok)), read, c')
          | some t => if read + 1 = num then ([[t]], read + 1, next c')
            else ([t] :: (readArgsLoop fuel num (read + 1) (next c')).1,
              (readArgsLoop fuel num (read + 1) (next c')).2)).1 =
        (match t with
          | none => (([] : List (List Tok)), read, d')
          | some t => if read + 1 = num then ([[t]], read + 1, next d')
            else ([t] :: (readArgsLoop fuel num (read + 1) (next d')).1,
              (readArgsLoop fuel num (read + 1) (next d')).2)).1 ∧
        PRel R (match t with
          | none => (([] : List (List Tok)), read, c')
          | some t => if read + 1 = num then ([[t]], read + 1, next c')
            else ([t] :: (readArgsLoop fuel num (read + 1) (next c')).1,
              (readArgsLoop fuel num (read + 1) (next c')).2)).2
        (match t with
          | none => (([] : List (List Tok)), read, d')
          | some t => if read + 1 = num then ([[t]], read + 1, next d')
            else ([t] :: (readArgsLoop fuel num (read + 1) (next d')).1,
              (readArgsLoop fuel num (read + 1) (next d')).2)).2 := by
      intro t ht
      cases t with
      | none => exact ⟨rfl, rfl, h3⟩
      | some t =>
        simp only
        split
        · exact ⟨rfl, rfl, hR.next h3⟩
        · have := ih num (read + 1) (hR.next h3)
          exact ⟨by rw [this.1], this.2⟩
    have hpk := hR.peek h3
    cases v with
    | none => exact ⟨rfl, rfl, h3⟩
    | some v =>
      cases v with
      | left b =>
        cases b with
        | curly =>
          simp only
          have h4 := readUntilBalanced_rel hR .curly (hR.next h3)
          simp only [h4.1]
          split
          · exact ⟨rfl, rfl, h4.2⟩
          · have := ih num (read + 1) h4.2
            exact ⟨by rw [this.1], this.2⟩
        | bracket => simp only [hpk]; exact hother _ rfl
        | paren => simp only [hpk]; exact hother _ rfl
      | word =>
        simp only [hpk]
        cases hp : peek d' with
        | none => exact ⟨rfl, rfl, h3⟩
        | some t =>
          simp only
          have h5 : R (if (splitWord t.2 read num).2.1 ≠ [] then setPeek (.word, (splitWord t.2 read num).2.1) c'
                else next c')
              (if (splitWord t.2 read num).2.1 ≠ [] then setPeek (.word, (splitWord t.2 read num).2.1) d'
                else next d') := by
            split
            · exact hR.setPeek _ h3 (by rw [hR.peek h3, hp]; rfl)
            · exact hR.next h3
          split
          · exact ⟨rfl, rfl, h5⟩
          · split
            · exact ⟨rfl, rfl, h5⟩
            · have := ih num ((splitWord t.2 read num).2.2 + 1) h5
              exact ⟨by rw [this.1], this.2⟩
      | _ => simp only [hpk]; exact hother _ rfl

theorem readMacroArgs_rel (num : Nat) (opt : Option (List Tok)) {c d} (h : R c d) :
    PRel R (readMacroArgs num opt c) (readMacroArgs num opt d) := by
  unfold readMacroArgs
  split
  · exact ⟨rfl, h⟩
  · rw [hR.bound h]
    have := readArgsLoop_rel hR (bound d) num 0 h
    simp only [this.1, this.2.1]
    split
    · exact ⟨rfl, this.2.2⟩
    · split
      · split
        · exact ⟨rfl, this.2.2⟩
        · exact ⟨rfl, hR.emit _ this.2.2⟩
      · exact ⟨rfl, hR.emit _ this.2.2⟩

theorem readEnvBody_rel (fuel : Nat) : ∀ (name : Text) (bc : Nat) {c d}, R c d →
    PRel R (readEnvBody fuel name bc c) (readEnvBody fuel name bc d) := by
  induction fuel with
  | zero => intro name bc c d h; exact ⟨rfl, h⟩
  | succ fuel ih =>
    intro name bc c d h
    simp only [readEnvBody, hR.peek h]
    split
    · exact ⟨rfl, h⟩
    · rename_i t _
      split
      · split
        · split
          · exact ⟨rfl, hR.emit _ h⟩
          · exact ⟨rfl, hR.next h⟩
        · obtain ⟨v, c', d', e1, e2, h3⟩ := (ih name (bc - 1) (hR.next h)).elim
          rw [e1, e2]
          cases v with
          | none => exact ⟨rfl, h3⟩
          | some v => exact ⟨rfl, h3⟩
      · obtain ⟨v, c', d', e1, e2, h3⟩ :=
          (ih name (if t.1 = .cmd .beginEnv then bc + 1 else bc) (hR.next h)).elim
        rw [e1, e2]
        cases v with
        | none => exact ⟨rfl, h3⟩
        | some v => exact ⟨rfl, h3⟩

theorem applyUpdate_rel (e : Eng) (name : Text) (a : UpdateAction) (m : Macro) {c d} (h : R c d) :
    PRel R (applyUpdate e c name a m) (applyUpdate e d name a m) := by
  unfold applyUpdate
  split
  · refine ⟨rfl, ?_⟩
    simp only
    split
    · exact hR.emit _ h
    · exact h
  · refine ⟨rfl, ?_⟩
    simp only
    split
    · exact hR.emit _ h
    · exact h
  · split
    · exact ⟨rfl, h⟩
    · exact ⟨rfl, h⟩

theorem trappedByMacro_rel (e : Eng) (t : Tok) (name : Text) (isEnv : Bool) {c d} (h : R c d) :
    RRel R (trappedByMacro e c t name isEnv) (trappedByMacro e d t name isEnv) := by
  have hn : RRel R (.ok (e, next (emit t c))) (.ok (e, next (emit t d))) := ⟨rfl, hR.next (hR.emit _ h)⟩
  unfold trappedByMacro
  split
  · exact hn
  · rename_i dd _
    split
    · exact hn
    · have h1 := identifyUpdate_rel hR dd h
      cases e1 : identifyUpdate dd c with
      | error x =>
        cases e2 : identifyUpdate dd d with
        | error y => rw [e1, e2] at h1; exact h1
        | ok b => rw [e1, e2] at h1; exact h1.elim
      | ok a =>
        cases e2 : identifyUpdate dd d with
        | error y => rw [e1, e2] at h1; exact h1.elim
        | ok b =>
          rw [e1, e2] at h1
          obtain ⟨v, c', d', rfl, rfl, h3⟩ := PRel.elim h1
          cases v with
          | none => exact ⟨rfl, h3⟩
          | some v => exact applyUpdate_rel hR _ _ _ _ h3
  · exact hn
  · rename_i num opt body _
    split
    · exact hn
    · obtain ⟨v, c', d', e1, e2, h3⟩ := (readMacroArgs_rel hR num opt (hR.next h)).elim
      rw [e1, e2]
      cases v with
      | none => exact ⟨rfl, h3⟩
      | some args =>
        simp only
        split
        · exact rfl
        · exact ⟨rfl, hR.pushFront _ h3⟩
  · rename_i ename num opt bdef edef _
    split
    · exact hn
    · obtain ⟨v, c', d', e1, e2, h3⟩ := (readMacroArgs_rel hR num opt (hR.next h)).elim
      rw [e1, e2]
      cases v with
      | none => exact ⟨rfl, h3⟩
      | some args =>
        simp only [hR.bound h3]
        obtain ⟨v, c', d', e1, e2, h3⟩ := (readEnvBody_rel hR (bound d') ename 0 h3).elim
        rw [e1, e2]
        cases v with
        | none => exact ⟨rfl, h3⟩
        | some b =>
          simp only
          split
          · exact rfl
          · split
            · exact rfl
            · exact ⟨rfl, hR.pushFront _ h3⟩

theorem engStep_rel (e : Eng) (t : Tok) {c d} (h : R c d) :
    RRel R (engStep e c t) (engStep e d t) := by
  unfold engStep
  split
  · exact trappedByIf_rel hR _ _ _ h
  · exact trappedByElse_rel hR _ _ h
  · exact trappedByEndif_rel hR _ _ h
  · split
    · exact rfl
    · exact trappedByMacro_rel hR _ _ _ _ h
  · exact trappedByMacro_rel hR _ _ _ _ h
  · exact ⟨rfl, hR.next (hR.emit _ h)⟩

theorem engRun_rel (n : Nat) : ∀ (e : Eng) {c d}, R c d → RRel R (engRun n e c) (engRun n e d) := by
  induction n with
  | zero =>
    intro e c d h
    simp only [engRun, hR.peek h]
    split
    · exact ⟨rfl, h⟩
    · exact rfl
  | succ n ih =>
    intro e c d h
    simp only [engRun, hR.peek h]
    split
    · exact ⟨rfl, h⟩
    · rename_i t _
      have h1 := engStep_rel hR e t h
      cases e1 : engStep e c t with
      | error x =>
        cases e2 : engStep e d t with
        | error y => rw [e1, e2] at h1; exact h1
        | ok b => rw [e1, e2] at h1; exact h1.elim
      | ok a =>
        cases e2 : engStep e d t with
        | error y => rw [e1, e2] at h1; exact h1.elim
        | ok b =>
          rw [e1, e2] at h1
          obtain ⟨v, c', d', rfl, rfl, h3⟩ := PRel.elim h1
          exact ih v h3

end

/-! ### The two relations used -/

/-- The buffered context represents the token list: nothing is lost in the caches. -/
def CtxRel (c : Ctx) (l : LCtx) : Prop :=
  c.peeked.toList ++ c.buf ++ c.rest = l.inp ∧ (c.peeked = none → c.buf = [] ∧ c.rest = []) ∧ c.out = l.out

theorem ctxRel_next {c : Ctx} {l : LCtx} (h : CtxRel c l) : CtxRel (next c) (next l) := by
  obtain ⟨h1, h2, h3⟩ := h
  show CtxRel c.next { l with inp := l.inp.tail }
  cases hp : c.peeked with
  | none =>
    obtain ⟨hb, hr⟩ := h2 hp
    simp [hp, hb, hr] at h1
    refine ⟨?_, ?_, ?_⟩ <;> simp [Ctx.next, hb, hr, h1, h3]
  | some p =>
    rw [hp] at h1
    simp at h1
    unfold Ctx.next
    cases hb : c.buf with
    | cons b bs =>
      refine ⟨?_, by simp, h3⟩
      simp [← h1, hb]
    | nil =>
      cases hr : c.rest with
      | cons r rs =>
        refine ⟨?_, by simp, h3⟩
        simp [← h1, hb, hr]
      | nil =>
        refine ⟨?_, by simp [hb], h3⟩
        simp [← h1, hb, hr]

theorem ctxRel_stream : StreamRel CtxRel where
  peek := by
    intro c l h
    show c.peeked = l.inp.head?
    obtain ⟨h1, h2, h3⟩ := h
    cases hp : c.peeked with
    | none =>
      obtain ⟨hb, hr⟩ := h2 hp
      simp [hp, hb, hr] at h1
      simp [h1]
    | some p => simp [hp] at h1; simp [← h1]
  next := ctxRel_next
  pushFront := by
    intro c l ts h
    obtain ⟨h1, h2, h3⟩ := h
    show CtxRel (c.pushFront ts) { l with inp := ts ++ l.inp }
    unfold Ctx.pushFront Ctx.extend
    cases hp : c.peeked with
    | none =>
      obtain ⟨hb, hr⟩ := h2 hp
      simp [hp, hb, hr] at h1
      simp only [hp, hb, hr, List.reverse_reverse, List.append_nil]
      unfold Ctx.next
      cases ts with
      | nil => exact ⟨by simp [hb, hr, h1], by simp [hb, hr], h3⟩
      | cons t ts => exact ⟨by simp [hr, h1], by simp, h3⟩
    | some p =>
      simp only [hp, List.reverse_reverse]
      simp [hp] at h1
      cases ts with
      | nil => exact ⟨by simp [← h1], by simp, h3⟩
      | cons t ts => exact ⟨by simp [← h1], by simp, h3⟩
  setPeek := by
    intro c l t h hs
    obtain ⟨h1, h2, h3⟩ := h
    show CtxRel { c with peeked := some t } { l with inp := t :: l.inp.tail }
    have hs' : c.peeked.isSome := hs
    obtain ⟨p, hp⟩ := Option.isSome_iff_exists.mp hs'
    simp [hp] at h1
    exact ⟨by simp [← h1], by simp, h3⟩
  emit := by
    intro c l t h
    obtain ⟨h1, h2, h3⟩ := h
    exact ⟨h1, h2, by show c.out ++ [t] = l.out ++ [t]; rw [h3]⟩
  bound := by
    intro c l h
    obtain ⟨h1, h2, h3⟩ := h
    show c.peeked.toList.length + c.buf.length + c.rest.length + 1 = l.inp.length + 1
    rw [← h1]; simp only [List.length_append]

/-- Tokens already delivered do not influence what follows. -/
def FrameRel (o : List Tok) (c l : LCtx) : Prop := c.inp = l.inp ∧ c.out = o ++ l.out

theorem frameRel_stream (o : List Tok) : StreamRel (FrameRel o) where
  peek := by intro c l h; show c.inp.head? = l.inp.head?; rw [h.1]
  next := by intro c l h; exact ⟨by show c.inp.tail = l.inp.tail; rw [h.1], h.2⟩
  pushFront := by intro c l ts h; exact ⟨by show ts ++ c.inp = ts ++ l.inp; rw [h.1], h.2⟩
  setPeek := by intro c l t h _; exact ⟨by show t :: c.inp.tail = t :: l.inp.tail; rw [h.1], h.2⟩
  emit := by
    intro c l t h
    exact ⟨h.1, by show c.out ++ [t] = o ++ (l.out ++ [t]); rw [h.2]; simp⟩
  bound := by intro c l h; show c.inp.length + 1 = l.inp.length + 1; rw [h.1]

end Mitex
