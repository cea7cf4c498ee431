/-
The expansion does not depend on definitions that are not used (C88).
-/
import Verif.Proof.Renamed
import Verif.Spec.Unused

namespace Mitex
namespace Unused
open Renamed

theorem exchange_nil (n : Text) : exchange [] [] n = n := by
  unfold exchange
  split
  · rename_i h; exact h.symm
  · rfl

theorem exchangeTok_nil (t : Tok) : exchangeTok [] [] t = t := by
  unfold exchangeTok
  split <;> simp [exchange_nil]

variable {P : Tok → Prop} {N : Text → Prop}

theorem toks_same {ts ts' : List Tok} (h : Toks [] [] P ts ts') : ts' = ts := by
  rw [toks_map h]
  clear h
  induction ts with
  | nil => rfl
  | cons t ts ih => rw [List.map_cons, exchangeTok_nil, ih]

theorem toks_self {ts ts' : List Tok} (h : Toks [] [] P ts ts') : Toks [] [] P ts ts := by
  have := toks_same h
  rwa [this] at h

theorem opt_self {o o' : Option (List Tok)} (h : Opt (Toks [] [] P) o o') : Opt (Toks [] [] P) o o := by
  cases h with
  | none => exact .none
  | some h => exact .some (toks_self h)

theorem macro_self {v v' : Macro} (h : MacroAlike [] [] P v v') : MacroAlike [] [] P v v := by
  cases h with
  | declare d => exact .declare d
  | cmd n ho hb => exact .cmd n (opt_self ho) (toks_self hb)
  | env n hn ho hb hd => exact .env n hn (opt_self ho) (toks_self hb) (toks_self hd)

theorem table_self {m m' : MacroTable} (h : TableAlike [] [] P m m') : TableAlike [] [] P m m := by
  refine ⟨fun n => ?_, h.declared, h.env⟩
  have := h.entry n
  rw [exchange_nil] at this ⊢
  generalize m' n = y at this
  generalize m n = x at this
  cases this with
  | none => exact .none
  | some k => exact .some (macro_self k)

theorem eng_self {e f : Eng} (h : EngAlike [] [] P e f) : EngAlike [] [] P e e := ⟨table_self h.1, rfl⟩

/-- No token at hand mentions one of the names. -/
structure Sees (N : Text → Prop) (P : Tok → Prop) : Prop where
  cmd : ∀ k n, P (.cmd k, '\\' :: n) → ¬ N n
  begin_ : ∀ n, P (.cmd .beginEnv, n) → ¬ N n
  word : ∀ d w, d ∈ environmentDefiners → P (cmdTok d) → P (.word, w) → ¬ N w

/-- The same but for the meaning of the names. -/
def Near (N : Text → Prop) (e f : Eng) : Prop := (∀ n, ¬ N n → e.macros n = f.macros n) ∧ e.ifs = f.ifs

theorem head_fit {t : Tok} {s s' : List Tok} (h : Toks [] [] P (t :: s) s') : P t := by
  cases h with
  | cons h _ => exact h.2.1

theorem tail_fit {t : Tok} {s : List Tok} (h : Toks [] [] P (t :: s) (t :: s)) : Toks [] [] P s s := by
  cases h with
  | cons _ h => exact h

theorem handedOn_near (hN : Sees N P) {m m' : MacroTable} (h : ∀ n, ¬ N n → m' n = m n) {t : Tok} (hp : P t) (k : HandedOn m t) : HandedOn m' t := by
  cases k with
  | unbound k => exact .unbound (by rw [h _ (hN.cmd _ _ hp)]; exact k)
  | isEnv k => exact .isEnv (by rw [h _ (hN.cmd _ _ hp)]; exact k)
  | reserved k => exact .reserved (by rw [h _ (hN.cmd _ _ hp)]; exact k)
  | beginUnbound k => exact .beginUnbound (by rw [h _ (hN.begin_ _ hp)]; exact k)
  | beginCmd k => exact .beginCmd (by rw [h _ (hN.begin_ _ hp)]; exact k)
  | beginDeclare k => exact .beginDeclare (by rw [h _ (hN.begin_ _ hp)]; exact k)

/-- The name that is defined is at hand. -/
theorem defined_seen (hN : Sees N P) {f : Eng} (hf : EngAlike [] [] P f f) {cmd : Text} {d : DeclareCmdOrEnv} (h : f.macros cmd = some (.declare (.cmdOrEnv d)))
    (hp : P (cmdTok cmd)) {s s2 : List Tok} (hs : Toks [] [] P s s) {name : Text} {v : Macro}
    (hd : (definesEnvironments d ∧ DefinesEnv s (some (name, v)) s2) ∨ (¬ definesEnvironments d ∧ Defines s (some (name, v)) s2)) : ¬ N name := by
  rcases hd with ⟨h1, h2⟩ | ⟨h1, h2⟩
  · cases h2 with
    | defines g hh hl hg hm hm' => exact hN.word cmd name (definer hf.1 h h1) hp (named_word g hs).1
  · cases h2 with
    | @defines k _ _ _ _ _ _ _ g hh hm =>
      obtain ⟨x', rest', k1, k2, k3⟩ := named_alike g hs
      cases k2 with
      | some k2 => exact hN.cmd k name k2.2.1

theorem near_bind {e f : Eng} (h : Near N e f) (name : Text) (v : Macro) (d : DeclareCmdOrEnv) (hn : ¬ N name) :
    Near N ⟨if stores d (e.macros name) then bindName e.macros name v else e.macros, e.ifs⟩
      ⟨if stores d (f.macros name) then bindName f.macros name v else f.macros, f.ifs⟩ := by
  refine ⟨fun n k => ?_, h.2⟩
  show (if stores d (e.macros name) = true then bindName e.macros name v else e.macros) n =
    (if stores d (f.macros name) = true then bindName f.macros name v else f.macros) n
  rw [h.1 name hn]
  split
  · unfold bindName
    split
    · rfl
    · exact h.1 n k
  · exact h.1 n k

/-- One step, with more macros. -/
theorem rewrites_near (hP : Fit [] [] P) (hN : Sees N P) {e f f2 : Eng} {s s2 o : List Tok} (h : Rewrites f s f2 s2 o) (he : Near N e f)
    (hf : EngAlike [] [] P f f) (ht : Toks [] [] P s s) :
    ∃ e2, Rewrites e s e2 s2 o ∧ Near N e2 f2 ∧ EngAlike [] [] P f2 f2 ∧ Toks [] [] P s2 s2 := by
  obtain ⟨f2', t2, o', _, g2, g3, _⟩ := rewrites_alike hP h hf ht
  have g2 := eng_self g2
  have g3 := toks_self g3
  suffices k : ∃ e2, Rewrites e s e2 s2 o ∧ Near N e2 f2 by
    obtain ⟨e2, k1, k2⟩ := k
    exact ⟨e2, k1, k2, g2, g3⟩
  clear g2 g3
  obtain ⟨m, ifs⟩ := e
  obtain ⟨hm, hi⟩ := he
  have hm : ∀ n, ¬ N n → m n = f.macros n := hm
  have hi : ifs = f.ifs := hi
  subst hi
  cases h with
  | ordinary h => exact ⟨_, .ordinary h, hm, rfl⟩
  | handedOn h => exact ⟨_, .handedOn (handedOn_near hN hm (head_fit ht) h), hm, rfl⟩
  | cif => exact ⟨_, .cif, hm, rfl⟩
  | elseSkips h => exact ⟨_, .elseSkips h, hm, rfl⟩
  | elseSkipsTypst h => exact ⟨_, .elseSkipsTypst h, hm, rfl⟩
  | elseAgain => exact ⟨_, .elseAgain, hm, rfl⟩
  | elseAgainTypst => exact ⟨_, .elseAgainTypst, hm, rfl⟩
  | elseOfFalse => exact ⟨_, .elseOfFalse, hm, rfl⟩
  | elseUndecided h => exact ⟨_, .elseUndecided h, hm, rfl⟩
  | fiDecided h => exact ⟨_, .fiDecided h, hm, rfl⟩
  | fiOther h => exact ⟨_, .fiOther h, hm, rfl⟩
  | fiStray => exact ⟨_, .fiStray, hm, rfl⟩
  | @define _ cmd d s name v s2 h hd =>
    have hn := defined_seen hN hf h (head_fit ht) (tail_fit ht) hd
    have := Rewrites.define (e := ⟨m, f.ifs⟩) (cmd := cmd) (d := d) (by rw [hm _ (hN.cmd _ _ (head_fit ht))]; exact h) hd
    rw [show (⟨m, f.ifs⟩ : Eng).macros name = f.macros name from hm name hn] at this
    refine ⟨_, this, ?_⟩
    have k := near_bind (e := ⟨m, f.ifs⟩) (f := f) ⟨hm, rfl⟩ name v d hn
    rwa [show (⟨m, f.ifs⟩ : Eng).macros name = f.macros name from hm name hn] at k
  | broken h hd => exact ⟨_, .broken (by rw [hm _ (hN.cmd _ _ (head_fit ht))]; exact h) hd, hm, rfl⟩
  | call h ha hb => exact ⟨_, .call (by rw [hm _ (hN.cmd _ _ (head_fit ht))]; exact h) ha hb, hm, rfl⟩
  | badCall h ha => exact ⟨_, .badCall (by rw [hm _ (hN.cmd _ _ (head_fit ht))]; exact h) ha, hm, rfl⟩
  | env h ha hb hx hc hg => exact ⟨_, .env (by rw [hm _ (hN.begin_ _ (head_fit ht))]; exact h) ha hb hx hc hg, hm, rfl⟩
  | badEnvCall h ha => exact ⟨_, .badEnvCall (by rw [hm _ (hN.begin_ _ (head_fit ht))]; exact h) ha, hm, rfl⟩
  | envUnmatched h ha hb hx => exact ⟨_, .envUnmatched (by rw [hm _ (hN.begin_ _ (head_fit ht))]; exact h) ha hb hx, hm, rfl⟩
  | envUnclosed h ha hb => exact ⟨_, .envUnclosed (by rw [hm _ (hN.begin_ _ (head_fit ht))]; exact h) ha hb, hm, rfl⟩

theorem panics_near (hN : Sees N P) {e f : Eng} {s : List Tok} (h : Panics f s) (he : Near N e f) (ht : Toks [] [] P s s) : Panics e s := by
  obtain ⟨cmd, d, s', rfl, h1, h2⟩ := h
  exact ⟨cmd, d, s', rfl, by rw [he.1 _ (hN.cmd _ _ (head_fit ht))]; exact h1, h2⟩

theorem expands_near (hP : Fit [] [] P) (hN : Sees N P) {f : Eng} {s outs : List Tok} (h : Expands f s outs) :
    ∀ {e}, Near N e f → EngAlike [] [] P f f → Toks [] [] P s s → Expands e s outs := by
  induction h with
  | done => intro e _ _ _; exact .done
  | step h _ ih =>
    intro e he hf ht
    obtain ⟨e2, k1, k2, k3, k4⟩ := rewrites_near hP hN h he hf ht
    exact .step k1 (ih k2 k3 k4)

theorem collapses_near (hP : Fit [] [] P) (hN : Sees N P) {f : Eng} {s : List Tok} (h : Collapses f s) :
    ∀ {e}, Near N e f → EngAlike [] [] P f f → Toks [] [] P s s → Collapses e s := by
  induction h with
  | now h => intro e he hf ht; exact .now (panics_near hN h he ht)
  | later h _ ih =>
    intro e he hf ht
    obtain ⟨e2, k1, k2, k3, k4⟩ := rewrites_near hP hN h he hf ht
    exact .later k1 (ih k2 k3 k4)

theorem lasts_near (hP : Fit [] [] P) (hN : Sees N P) {n : Nat} {f : Eng} {s : List Tok} (h : Lasts n f s) :
    ∀ {e}, Near N e f → EngAlike [] [] P f f → Toks [] [] P s s → Lasts n e s := by
  induction h with
  | zero => intro e _ _ _; exact .zero
  | succ h _ ih =>
    intro e he hf ht
    obtain ⟨e2, k1, k2, k3, k4⟩ := rewrites_near hP hN h he hf ht
    exact .succ k1 (ih k2 k3 k4)

end Unused
end Mitex
