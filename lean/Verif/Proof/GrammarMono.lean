/-
More fuel does not change the result of the grammar on rows.
-/
import Verif.Proof.GrammarItems

namespace Mitex
namespace Grammar

/-- The second result is the first one, unless that ran out of fuel. -/
def Le {α : Type} (r r' : Res α) : Prop := r ≠ .error .fuel → r' = r

theorem Le.refl {α : Type} (r : Res α) : Le r r := fun _ => rfl

theorem Le.bind {α β : Type} {r r' : Res α} {f f' : α → Res β} (h : Le r r') (k : ∀ a, Le (f a) (f' a)) : Le (r >>= f) (r' >>= f') := by
  intro hn
  cases r with
  | error x =>
    cases x with
    | fuel => exact absurd rfl hn
    | _ => rw [h (fun e => (by cases e))]; rfl
  | ok a =>
    rw [h (fun e => (by cases e))]
    exact k a hn

/-- The second item parser extends the first one. -/
def LeG (G G' : GFn) : Prop := ∀ sc one r ts, Le (G sc one r ts) (G' sc one r ts)

theorem LeG.items {G G' : GFn} (h : LeG G G') (sc : Scope) (stop : List Token) : ∀ (n m : Nat), n ≤ m → ∀ r ts,
    Le (gItems G sc stop n r ts) (gItems G' sc stop m r ts) := by
  intro n
  induction n with
  | zero => intro m _ r ts hn; exact absurd rfl hn
  | succ n ih =>
    intro m hm r ts
    obtain ⟨m, rfl⟩ : ∃ m', m = m' + 1 := ⟨m - 1, by omega⟩
    rw [gItems.eq_def, gItems.eq_def]
    dsimp only
    cases ts with
    | nil => exact .refl _
    | cons t ts =>
      dsimp only
      split
      · exact .refl _
      · exact .bind (h _ _ _ _) fun q => ih m (by omega) _ _

theorem LeG.group {G G' : GFn} (h : LeG G G') {n m : Nat} (hm : n ≤ m) (sc : Scope) (close : Token) (kind : Kind) (t : Tok) (ts : List Tok) :
    Le (gGroup G n sc close kind t ts) (gGroup G' m sc close kind t ts) :=
  .bind (h.items _ _ _ _ hm _ _) fun _ => .refl _

theorem LeG.rest {G G' : GFn} (h : LeG G G') {l l' : Nat} (hl : l ≤ l') (sc : Scope) : ∀ (n m : Nat), n ≤ m → ∀ r ts,
    Le (gRest G l sc n r ts) (gRest G' l' sc m r ts) := by
  intro n
  induction n with
  | zero => intro m _ r ts hn; exact absurd rfl hn
  | succ n ih =>
    intro m hm r ts
    obtain ⟨m, rfl⟩ : ∃ m', m = m' + 1 := ⟨m - 1, by omega⟩
    rw [gRest.eq_def, gRest.eq_def]
    dsimp only
    cases ts with
    | nil => exact .refl _
    | cons t ts =>
      dsimp only
      split
      · exact ih m (by omega) _ _
      · split
        · exact .refl _
        · split
          · exact .bind (h.group hl _ _ _ _ _) fun q => ih m (by omega) _ _
          · exact ih m (by omega) _ _
          · exact .bind (h _ _ _ _) fun q => ih m (by omega) _ _

theorem LeG.args {G G' : GFn} (h : LeG G G') {l l' : Nat} (hl : l ≤ l') (g : GlobFn) (sc : Scope) (p : ArgPattern) : ∀ (n m : Nat), n ≤ m →
    ∀ ks ts, Le (gArgs g G l sc p n ks ts) (gArgs g G' l' sc p m ks ts) := by
  intro n
  induction n with
  | zero => intro m _ r ts hn; exact absurd rfl hn
  | succ n ih =>
    intro m hm ks ts
    obtain ⟨m, rfl⟩ : ∃ m', m = m' + 1 := ⟨m - 1, by omega⟩
    rw [gArgs.eq_def, gArgs.eq_def]
    dsimp only
    cases ts with
    | nil => exact .refl _
    | cons t ts =>
      dsimp only
      split
      · exact .bind (ih m (by omega) _ _) fun _ => .refl _
      · split
        · exact .refl _
        · split
          · split
            · exact .refl _
            · exact .bind (ih m (by omega) _ _) fun _ => .refl _
          · split
            · refine .bind ?_ fun q => .bind (ih m (by omega) _ _) fun _ => .refl _
              split
              · exact h.group hl _ _ _ _ _
              · exact .refl _
            · exact .refl _
          · split
            · exact .refl _
            · split
              · exact .bind (h _ _ _ _) fun q => .bind (ih m (by omega) _ _) fun _ => .refl _
              · exact .refl _

theorem LeG.command {env : PEnv} {G G' : GFn} (h : LeG G G') {n m : Nat} (hm : n ≤ m) (sc : Scope) (r : Row) (t : Tok) (ts : List Tok) :
    Le (gCommand env G n sc r t ts) (gCommand env G' m sc r t ts) := by
  unfold gCommand
  refine .bind (.refl _) fun name => ?_
  cases commandArgs env.spec name with
  | left1 => exact .refl _
  | infixGreedy =>
    dsimp only
    cases r.operand r.first with
    | none => exact .refl _
    | some o => exact .bind (h.rest hm _ _ _ hm _ _) fun _ => .refl _
  | right p =>
    cases p with
    | none => exact .refl _
    | greedy => exact .bind (h.rest hm _ _ _ hm _ _) fun _ => .refl _
    | _ => exact .bind (h.args hm _ _ _ _ _ hm _ _) fun _ => .refl _

theorem LeG.environment {env : PEnv} {G G' : GFn} (h : LeG G G') {n m : Nat} (hm : n ≤ m) (sc : Scope) (r : Row) (t : Tok) (ts : List Tok) :
    Le (gEnvironment env G n sc r t ts) (gEnvironment env G' m sc r t ts) := by
  unfold gEnvironment
  cases environmentArgs env.spec t.2 with
  | none => exact .bind (h.items _ _ _ _ hm _ _) fun _ => .refl _
  | some p =>
    dsimp only
    split
    · exact .refl _
    · exact .bind (h.args hm _ _ _ _ _ hm _ _) fun _ => .bind (h.items _ _ _ _ hm _ _) fun _ => .refl _

theorem Le.flagged {b : Bool} {r r' : Res (Row × List Tok)} (h : Le r r') : Le (flagged b r) (flagged b r') := by
  intro hn
  cases r with
  | error x =>
    cases x with
    | fuel => exact absurd rfl hn
    | _ => rw [h (fun e => (by cases e))]
  | ok a => rw [h (fun e => (by cases e))]

theorem LeG.body {env : PEnv} {G G' : GFn} (h : LeG G G') {n m : Nat} (hm : n ≤ m) : LeG (gBody env G n) (gBody env G' m) := by
  intro sc one r ts
  unfold gBody
  cases ts with
  | nil => exact .refl _
  | cons t ts =>
    dsimp only
    obtain ⟨k, x⟩ := t
    have grp : ∀ (f : Bool) (sc : Scope) (close : Token) (kind : Kind), Le
        (gGroup G n sc close kind (k, x) ts >>= fun q => .ok (f, r.add [q.1], q.2))
        (gGroup G' m sc close kind (k, x) ts >>= fun q => .ok (f, r.add [q.1], q.2)) :=
      fun f sc close kind => .bind (h.group hm _ _ _ _ _) fun _ => .refl _
    have cmd := h.command (env := env) hm sc r (k, x) ts
    have scr : Le (gScript G sc r (k, x) ts) (gScript G' sc r (k, x) ts) := by
      unfold gScript
      cases r.operand r.last with
      | none => exact .refl _
      | some o => exact .bind (h _ _ _ _) fun _ => .refl _
    cases k with
    | underscore => exact scr.flagged
    | caret => exact scr.flagged
    | left b =>
      cases b with
      | curly => exact grp _ _ _ _
      | _ => exact .refl _
    | right b => cases b <;> exact .refl _
    | dollar => exact grp _ _ _ _
    | cmd name =>
      cases name with
      | generic => exact cmd
      | beginEnv => exact (h.environment hm _ _ _ _).flagged
      | beginMath => exact grp _ _ _ _
      | cif i => cases i <;> first | exact .refl _ | exact cmd
      | celse => exact cmd
      | endIf => exact cmd
      | left => exact Le.flagged (.bind (h.items _ _ _ _ hm _ _) fun _ => .refl _)
      | right => exact cmd
      | _ => exact .refl _
    | _ => exact .refl _

theorem content_mono (env : PEnv) : ∀ n m, n ≤ m → LeG (gContent env n) (gContent env m) := by
  intro n
  induction n with
  | zero => intro m _ sc one r ts hn; exact absurd rfl hn
  | succ n ih =>
    intro m hm
    obtain ⟨m, rfl⟩ : ∃ m', m = m' + 1 := ⟨m - 1, by omega⟩
    exact (ih m (by omega)).body (by omega)

end Grammar
end Mitex
