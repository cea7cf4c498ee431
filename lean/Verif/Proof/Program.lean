/-
Proofs for programs with macros (Spec/Program): the macro lexer delivers the value of a program.
-/
import Verif.Spec.Program
import Verif.Props.Calls

namespace Mitex
namespace Program

/-! ### Texts that can be put before others -/

/-- The braces of `a` match, whatever follows. -/
def Braced (a : List Tok) : Prop := ∀ ts, Balanced .curly ts → Balanced .curly (a ++ ts)

/-- The environments of `a` match, whatever follows. -/
def Enclosed (a : List Tok) : Prop := ∀ ts, EnvBalanced ts → EnvBalanced (a ++ ts)

theorem Braced.nil : Braced [] := fun _ h => h
theorem Braced.append {a b : List Tok} (ha : Braced a) (hb : Braced b) : Braced (a ++ b) := fun ts h => by
  rw [List.append_assoc]; exact ha _ (hb _ h)
theorem Braced.balanced {a : List Tok} (h : Braced a) : Balanced .curly a := by simpa using h [] (.nil _)
theorem Braced.tok {t : Tok} (h : t.1 ≠ .left .curly ∧ t.1 ≠ .right .curly) : Braced [t] := fun _ hts => .tok h.1 h.2 h.2 hts
theorem Braced.toks {ts : List Tok} (h : ∀ t ∈ ts, t.1 ≠ .left .curly ∧ t.1 ≠ .right .curly) : Braced ts := by
  induction ts with
  | nil => exact .nil
  | cons t ts ih => exact (Braced.tok (h t (by simp))).append (ih fun x hx => h x (by simp [hx]))
theorem Braced.group {a : List Tok} (h : Braced a) : Braced (lBrace :: (a ++ [rBrace])) := fun ts hts => by
  have := Balanced.group (bk := .curly) (l := lBrace) (r := rBrace) rfl rfl h.balanced hts
  simpa using this

theorem Enclosed.nil : Enclosed [] := fun _ h => h
theorem Enclosed.append {a b : List Tok} (ha : Enclosed a) (hb : Enclosed b) : Enclosed (a ++ b) := fun ts h => by
  rw [List.append_assoc]; exact ha _ (hb _ h)
theorem Enclosed.balanced {a : List Tok} (h : Enclosed a) : EnvBalanced a := by simpa using h [] .nil
theorem Enclosed.tok {t : Tok} (h : t.1 ≠ .cmd .beginEnv ∧ t.1 ≠ .cmd .endEnv) : Enclosed [t] := fun _ hts => .tok h.1 h.2 hts
theorem Enclosed.toks {ts : List Tok} (h : ∀ t ∈ ts, t.1 ≠ .cmd .beginEnv ∧ t.1 ≠ .cmd .endEnv) : Enclosed ts := by
  induction ts with
  | nil => exact .nil
  | cons t ts ih => exact (Enclosed.tok (h t (by simp))).append (ih fun x hx => h x (by simp [hx]))
theorem Enclosed.group {a : List Tok} (h : Enclosed a) : Enclosed (lBrace :: (a ++ [rBrace])) :=
  ((Enclosed.tok (t := lBrace) (by decide)).append h).append (Enclosed.tok (t := rBrace) (by decide))
theorem Enclosed.env {a : List Tok} (name : Text) (h : Enclosed a) : Enclosed (beginTok name :: (a ++ [endTok name])) := fun ts hts => by
  have := EnvBalanced.env (b := beginTok name) (e := endTok name) rfl rfl h.balanced hts
  simpa using this

/-! ### Matching braces and environments of written programs -/

section
variable {π : Nat → Text → List Tok} {all : List Text} {ds : List Def} {n : Nat}

mutual
theorem Src.braced (hπ : ∀ d e, Braced (π d e)) {loose : Bool} : ∀ s : Src, s.Ok all ds n loose → Braced (s.tokens π)
  | .tok t, h => by rw [Src.tokens]; rw [Src.Ok] at h; exact .tok h.brace
  | .group b, h => by rw [Src.tokens]; rw [Src.Ok] at h; exact (braced_all hπ b h).group
  | .param d e, _ => by rw [Src.tokens]; exact hπ d e
  | .call name args, h => by
    rw [Src.tokens]; rw [Src.Ok] at h
    exact (Braced.tok (t := cmdTok name) (by simp [cmdTok])).append (braced_each hπ args h.2)
  | .env name args body, h => by
    rw [Src.tokens]; rw [Src.Ok] at h
    exact (Braced.tok (t := beginTok name) (by simp [beginTok])).append
      (((braced_each hπ args h.2.1).append (braced_all hπ body h.2.2)).append (Braced.tok (t := endTok name) (by simp [endTok])))
  | .ifTrue yes no, h => by
    rw [Src.tokens]; rw [Src.Ok] at h
    exact (Braced.tok (t := ifTrueTok) (by decide)).append ((braced_all hπ yes h.1).append
      ((Braced.tok (t := elseTok) (by decide)).append ((Braced.toks fun t ht => (h.2 t ht).1).append (Braced.tok (t := fiTok) (by decide)))))

theorem braced_all (hπ : ∀ d e, Braced (π d e)) {loose : Bool} : ∀ ss : List Src, OkAll all ds n loose ss → Braced (tokensAll π ss)
  | [], _ => by rw [tokensAll]; exact .nil
  | s :: ss, h => by rw [tokensAll]; rw [OkAll] at h; exact (Src.braced hπ s h.1).append (braced_all hπ ss h.2)

theorem braced_each (hπ : ∀ d e, Braced (π d e)) : ∀ as : List (List Src), OkEach all ds n as → Braced (bracedAll π as)
  | [], _ => by rw [bracedAll]; exact .nil
  | a :: as, h => by rw [bracedAll]; rw [OkEach] at h; exact (braced_all hπ a h.1).group.append (braced_each hπ as h.2)
end

mutual
theorem Src.enclosed (hπ : ∀ d e, Enclosed (π d e)) : ∀ s : Src, s.Ok all ds n false → Enclosed (s.tokens π)
  | .tok t, h => by
    rw [Src.tokens]; rw [Src.Ok] at h
    exact .tok ⟨fun e => (by have := (h.clause (.inl e)).1; cases this), fun e => (by have := (h.clause (.inr e)).1; cases this)⟩
  | .group b, h => by rw [Src.tokens]; rw [Src.Ok] at h; exact (enclosed_all hπ b h).group
  | .param d e, _ => by rw [Src.tokens]; exact hπ d e
  | .call name args, h => by
    rw [Src.tokens]; rw [Src.Ok] at h
    exact (Enclosed.tok (t := cmdTok name) (by simp [cmdTok])).append (enclosed_each hπ args h.2)
  | .env name args body, h => by
    rw [Src.tokens]; rw [Src.Ok] at h
    exact ((enclosed_each hπ args h.2.1).append (enclosed_all hπ body h.2.2)).env name
  | .ifTrue yes no, h => by
    rw [Src.tokens]; rw [Src.Ok] at h
    exact (Enclosed.tok (t := ifTrueTok) (by decide)).append ((enclosed_all hπ yes h.1).append
      ((Enclosed.tok (t := elseTok) (by decide)).append ((Enclosed.toks fun t ht => (h.2 t ht).2.1).append (Enclosed.tok (t := fiTok) (by decide)))))

theorem enclosed_all (hπ : ∀ d e, Enclosed (π d e)) : ∀ ss : List Src, OkAll all ds n false ss → Enclosed (tokensAll π ss)
  | [], _ => by rw [tokensAll]; exact .nil
  | s :: ss, h => by rw [tokensAll]; rw [OkAll] at h; exact (Src.enclosed hπ s h.1).append (enclosed_all hπ ss h.2)

theorem enclosed_each (hπ : ∀ d e, Enclosed (π d e)) : ∀ as : List (List Src), OkEach all ds n as → Enclosed (bracedAll π as)
  | [], _ => by rw [bracedAll]; exact .nil
  | a :: as, h => by rw [bracedAll]; rw [OkEach] at h; exact (enclosed_all hπ a h.1).group.append (enclosed_each hπ as h.2)
end
end

/-! ### What is stored for a definition -/

/-- A parameter in a stored definition. -/
def asStored (d : Nat) (extra : Text) : List Tok := (.macroArg d, ['#']) :: wordOf extra

/-- A parameter replaced by its argument. -/
def filled (args : List (List Tok)) (d : Nat) (extra : Text) : List Tok := (args[d - 1]?).getD [] ++ wordOf extra

/-- Marking the parameters turns `a` into `b`, whatever follows. -/
def MarksTo (a b : List Tok) : Prop := ∀ src st, Marked src st → Marked (a ++ src) (b ++ st)

theorem MarksTo.nil : MarksTo [] [] := fun _ _ h => h
theorem MarksTo.append {a b c d : List Tok} (h : MarksTo a b) (h' : MarksTo c d) : MarksTo (a ++ c) (b ++ d) := fun src st hm => by
  rw [List.append_assoc, List.append_assoc]; exact h _ _ (h' _ _ hm)
theorem MarksTo.marked {a b : List Tok} (h : MarksTo a b) : Marked a b := by simpa using h [] [] .nil
theorem MarksTo.tok {t : Tok} (h1 : t.1 ≠ .hash) (h2 : t.1 = .word → t.2 ≠ []) : MarksTo [t] [t] := fun _ _ hm => .tok h1 h2 hm
theorem MarksTo.toks {ts : List Tok} (h : ∀ t ∈ ts, t.1 ≠ .hash ∧ (t.1 = .word → t.2 ≠ [])) : MarksTo ts ts := by
  induction ts with
  | nil => exact .nil
  | cons t ts ih => exact (MarksTo.tok (h t (by simp)).1 (h t (by simp)).2).append (ih fun x hx => h x (by simp [hx]))

theorem digit_of {d : Nat} (h1 : 1 ≤ d) (h9 : d ≤ 9) :
    Nat.digitChar d ∈ "123456789".toList ∧ d = (Nat.digitChar d).toNat - '0'.toNat := by
  rcases d with _ | _ | _ | _ | _ | _ | _ | _ | _ | _ | d <;> first | omega | decide

section
variable {all : List Text} {ds : List Def} {n : Nat}

mutual
theorem Src.marks (h9 : n ≤ 9) {loose : Bool} : ∀ s : Src, s.Ok all ds n loose → MarksTo (s.tokens asMark) (s.tokens asStored)
  | .tok t, h => by rw [Src.tokens, Src.tokens]; rw [Src.Ok] at h; exact .tok h.mark.1 h.word
  | .group b, h => by
    rw [Src.tokens, Src.tokens]; rw [Src.Ok] at h
    exact (MarksTo.tok (t := lBrace) (by decide) (by decide)).append ((marks_all h9 b h).append (MarksTo.tok (t := rBrace) (by decide) (by decide)))
  | .param d e, h => by
    rw [Src.tokens, Src.tokens]; rw [Src.Ok] at h
    intro src st hm
    have hd := digit_of h.1 (Nat.le_trans h.2 h9)
    have := Marked.param (h := ['#']) (cs := e) hd.1 hd.2 hm
    simpa [asMark, asStored, wordOf] using this
  | .call name args, h => by
    rw [Src.tokens, Src.tokens]; rw [Src.Ok] at h
    exact (MarksTo.tok (t := cmdTok name) (by simp [cmdTok]) (by simp [cmdTok])).append (marks_each h9 args h.2)
  | .env name args body, h => by
    rw [Src.tokens, Src.tokens]; rw [Src.Ok] at h
    exact (MarksTo.tok (t := beginTok name) (by simp [beginTok]) (by simp [beginTok])).append
      (((marks_each h9 args h.2.1).append (marks_all h9 body h.2.2)).append (MarksTo.tok (t := endTok name) (by simp [endTok]) (by simp [endTok])))
  | .ifTrue yes no, h => by
    rw [Src.tokens, Src.tokens]; rw [Src.Ok] at h
    exact (MarksTo.tok (t := ifTrueTok) (by decide) (by decide)).append ((marks_all h9 yes h.1).append
      ((MarksTo.tok (t := elseTok) (by decide) (by decide)).append
        ((MarksTo.toks fun t ht => ⟨(h.2 t ht).2.2.2.1.1, (h.2 t ht).2.2.2.2.1⟩).append (MarksTo.tok (t := fiTok) (by decide) (by decide)))))

theorem marks_all (h9 : n ≤ 9) {loose : Bool} : ∀ ss : List Src, OkAll all ds n loose ss → MarksTo (tokensAll asMark ss) (tokensAll asStored ss)
  | [], _ => by rw [tokensAll, tokensAll]; exact .nil
  | s :: ss, h => by rw [tokensAll, tokensAll]; rw [OkAll] at h; exact (Src.marks h9 s h.1).append (marks_all h9 ss h.2)

theorem marks_each (h9 : n ≤ 9) : ∀ as : List (List Src), OkEach all ds n as → MarksTo (bracedAll asMark as) (bracedAll asStored as)
  | [], _ => by rw [bracedAll, bracedAll]; exact .nil
  | a :: as, h => by
    rw [bracedAll, bracedAll]; rw [OkEach] at h
    exact ((MarksTo.tok (t := lBrace) (by decide) (by decide)).append ((marks_all h9 a h.1).append
      (MarksTo.tok (t := rBrace) (by decide) (by decide)))).append (marks_each h9 as h.2)
end

theorem substitute_append (args : List (List Tok)) (a b : List Tok) :
    substitute args (a ++ b) = substitute args a ++ substitute args b := by simp [substitute]

theorem substitute_tok (args : List (List Tok)) {t : Tok} (h : ∀ d, t.1 ≠ .macroArg d) : substitute args [t] = [t] := by
  obtain ⟨k, x⟩ := t
  cases k <;> first | rfl | exact absurd rfl (h _)

theorem substitute_toks (args : List (List Tok)) {ts : List Tok} (h : ∀ t ∈ ts, ∀ d, t.1 ≠ .macroArg d) : substitute args ts = ts := by
  induction ts with
  | nil => rfl
  | cons t ts ih =>
    rw [show t :: ts = [t] ++ ts from rfl, substitute_append, substitute_tok args (h t (by simp)), ih fun x hx => h x (by simp [hx])]

theorem substitute_cons (args : List (List Tok)) {t : Tok} (h : ∀ d, t.1 ≠ .macroArg d) (ts : List Tok) :
    substitute args (t :: ts) = t :: substitute args ts := by
  rw [show t :: ts = [t] ++ ts from rfl, substitute_append, substitute_tok args h]; rfl

theorem wordOf_no {w : Text} : ∀ t ∈ wordOf w, t.1 = .word ∧ t.2 ≠ [] := by
  intro t ht
  unfold wordOf at ht
  by_cases h : w = []
  · simp [h] at ht
  · simp [h] at ht; subst ht; exact ⟨rfl, h⟩

mutual
theorem Src.subst (args : List (List Tok)) {loose : Bool} : ∀ s : Src, s.Ok all ds n loose →
    substitute args (s.tokens asStored) = s.tokens (filled args)
  | .tok t, h => by rw [Src.tokens, Src.tokens]; rw [Src.Ok] at h; exact substitute_tok args h.mark.2
  | .group b, h => by
    rw [Src.tokens, Src.tokens]; rw [Src.Ok] at h
    rw [substitute_cons args (by simp [lBrace]), substitute_append, subst_all args b h, substitute_tok args (by simp [rBrace])]
  | .param d e, h => by
    rw [Src.tokens, Src.tokens]; rw [Src.Ok] at h
    rw [asStored, show (Token.macroArg d, ['#']) :: wordOf e = [(Token.macroArg d, ['#'])] ++ wordOf e from rfl, substitute_append,
      substitute_toks args (ts := wordOf e) (fun t ht k hk => (by rw [(wordOf_no t ht).1] at hk; cases hk))]
    have : d ≠ 0 := by omega
    simp [filled, substitute, this]
  | .call name as, h => by
    rw [Src.tokens, Src.tokens]; rw [Src.Ok] at h
    rw [substitute_cons args (by simp [cmdTok]), subst_each args as h.2]
  | .env name as body, h => by
    rw [Src.tokens, Src.tokens]; rw [Src.Ok] at h
    rw [substitute_cons args (by simp [beginTok]), substitute_append, substitute_append, subst_each args as h.2.1, subst_all args body h.2.2,
      substitute_tok args (by simp [endTok])]
  | .ifTrue yes no, h => by
    rw [Src.tokens, Src.tokens]; rw [Src.Ok] at h
    rw [substitute_cons args (by simp [ifTrueTok]), substitute_append, subst_all args yes h.1, substitute_cons args (by simp [elseTok]), substitute_append,
      substitute_toks args fun t ht => (h.2 t ht).2.2.2.1.2, substitute_tok args (by simp [fiTok])]

theorem subst_all (args : List (List Tok)) {loose : Bool} : ∀ ss : List Src, OkAll all ds n loose ss →
    substitute args (tokensAll asStored ss) = tokensAll (filled args) ss
  | [], _ => by rw [tokensAll, tokensAll]; rfl
  | s :: ss, h => by rw [tokensAll, tokensAll]; rw [OkAll] at h; rw [substitute_append, Src.subst args s h.1, subst_all args ss h.2]

theorem subst_each (args : List (List Tok)) : ∀ as : List (List Src), OkEach all ds n as →
    substitute args (bracedAll asStored as) = bracedAll (filled args) as
  | [], _ => by rw [bracedAll, bracedAll]; rfl
  | a :: as, h => by
    rw [bracedAll, bracedAll]; rw [OkEach] at h
    rw [substitute_append, substitute_cons args (by simp [lBrace]), substitute_append, subst_all args a h.1, substitute_tok args (by simp [rBrace]),
      subst_each args as h.2]
end

/-! ### No `\mitexrecurse` -/

theorem noRecurse_append {a b : List Tok} (ha : NoRecurse a) (hb : NoRecurse b) : NoRecurse (a ++ b) := fun t ht =>
  (List.mem_append.mp ht).elim (ha t) (hb t)

theorem noRecurse_tok {t : Tok} (h : t.1 ≠ .cmd .generic) (h0 : t.1 ≠ .macroArg 0) : NoRecurse [t] := fun u hu => by
  simp at hu; subst hu; exact ⟨fun e => absurd e h, h0⟩

theorem noRecurse_cmd {name : Text} (h : name ≠ t!"mitexrecurse") : NoRecurse [cmdTok name] := fun u hu => by
  simp at hu; subst hu
  refine ⟨fun _ => ⟨name, rfl, ?_⟩, fun e => (by cases e)⟩
  rw [show "mitexrecurse".toList = t!"mitexrecurse" by decide +kernel]
  exact h

theorem noRecurse_group {a : List Tok} (h : NoRecurse a) : NoRecurse (lBrace :: (a ++ [rBrace])) :=
  noRecurse_append (a := [lBrace]) (noRecurse_tok (by decide) (by decide)) (noRecurse_append h (noRecurse_tok (by decide) (by decide)))

/-- No definition binds `\mitexrecurse`. -/
def NoneRecurse (ds : List Def) : Prop := cmdArity ds t!"mitexrecurse" = none

mutual
theorem Src.noRecurse (hds : NoneRecurse ds) {loose : Bool} : ∀ s : Src, s.Ok all ds n loose → NoRecurse (s.tokens asStored)
  | .tok t, h => by
    rw [Src.tokens]; rw [Src.Ok] at h
    by_cases hc : t.1 = .cmd .generic
    · obtain ⟨name, rfl, _, hne⟩ := h.cmd hc
      exact noRecurse_cmd hne
    · exact noRecurse_tok hc (h.mark.2 0)
  | .group b, h => by rw [Src.tokens]; rw [Src.Ok] at h; exact noRecurse_group (noRecurse_all hds b h)
  | .param d e, h => by
    rw [Src.tokens]; rw [Src.Ok] at h
    refine noRecurse_append (a := [(Token.macroArg d, ['#'])]) (noRecurse_tok (by simp) ?_) ?_
    · intro e; simp at e; omega
    · intro t ht
      have := (wordOf_no t ht).1
      exact ⟨fun e => (by rw [this] at e; cases e), fun e => (by rw [this] at e; cases e)⟩
  | .call name as, h => by
    rw [Src.tokens]; rw [Src.Ok] at h
    refine noRecurse_append (a := [cmdTok name]) (noRecurse_cmd fun e => ?_) (noRecurse_each hds as h.2)
    subst e
    have := h.1
    rw [hds] at this
    cases this
  | .env name as body, h => by
    rw [Src.tokens]; rw [Src.Ok] at h
    exact noRecurse_append (a := [beginTok name]) (noRecurse_tok (by simp [beginTok]) (by simp [beginTok]))
      (noRecurse_append (noRecurse_append (noRecurse_each hds as h.2.1) (noRecurse_all hds body h.2.2))
        (noRecurse_tok (by simp [endTok]) (by simp [endTok])))
  | .ifTrue yes no, h => by
    rw [Src.tokens]; rw [Src.Ok] at h
    refine noRecurse_append (a := [ifTrueTok]) (noRecurse_tok (by decide) (by decide)) (noRecurse_append (noRecurse_all hds yes h.1)
      (noRecurse_append (a := [elseTok]) (noRecurse_tok (by decide) (by decide)) (noRecurse_append ?_ (noRecurse_tok (by decide) (by decide)))))
    intro t ht
    obtain ⟨_, _, _, hm, _, hc⟩ := h.2 t ht
    refine ⟨fun e => ?_, hm.2 0⟩
    obtain ⟨name, rfl, hne⟩ := hc e
    refine ⟨name, rfl, ?_⟩
    rw [show "mitexrecurse".toList = t!"mitexrecurse" by decide +kernel]
    exact hne

theorem noRecurse_all (hds : NoneRecurse ds) {loose : Bool} : ∀ ss : List Src, OkAll all ds n loose ss → NoRecurse (tokensAll asStored ss)
  | [], _ => by rw [tokensAll]; intro t ht; cases ht
  | s :: ss, h => by rw [tokensAll]; rw [OkAll] at h; exact noRecurse_append (Src.noRecurse hds s h.1) (noRecurse_all hds ss h.2)

theorem noRecurse_each (hds : NoneRecurse ds) : ∀ as : List (List Src), OkEach all ds n as → NoRecurse (bracedAll asStored as)
  | [], _ => by rw [bracedAll]; intro t ht; cases ht
  | a :: as, h => by
    rw [bracedAll]; rw [OkEach] at h
    exact noRecurse_append (noRecurse_group (noRecurse_all hds a h.1)) (noRecurse_each hds as h.2)
end
end

/-! ### Arguments -/

/-- With the macros `m`, the arguments `as` deliver the tokens `os`. -/
inductive Goods (m : MacroTable) : List (List Tok) → List (List Tok) → Prop
  | nil : Goods m [] []
  | cons {a o as os} (hb : Braced a) (he : Enclosed a) (hd : Delivers m a o m) (h : Goods m as os) : Goods m (a :: as) (o :: os)

/-- Arguments in braces. -/
def braced (as : List (List Tok)) : List Tok := as.flatMap fun a => lBrace :: (a ++ [rBrace])

theorem Goods.length {m : MacroTable} {as os : List (List Tok)} (h : Goods m as os) : as.length = os.length := by
  induction h with
  | nil => rfl
  | cons _ _ _ _ ih => simp [ih]

theorem Goods.get {m : MacroTable} {as os : List (List Tok)} (h : Goods m as os) (i : Nat) :
    Braced ((as[i]?).getD []) ∧ Enclosed ((as[i]?).getD []) ∧ Delivers m ((as[i]?).getD []) ((os[i]?).getD []) m := by
  induction h generalizing i with
  | nil => simp; exact ⟨.nil, .nil, .nil m⟩
  | cons hb he hd _ ih =>
    cases i with
    | zero => exact ⟨hb, he, hd⟩
    | succ i => simpa using ih i

theorem Goods.callArgs {m : MacroTable} {as os : List (List Tok)} (h : Goods m as os) : CallArgs as.length (braced as) as [] := by
  induction h with
  | nil => exact .done
  | @cons a o as os hb he hd _ ih =>
    have := CallArgs.braced (ws := []) (l := lBrace) (r := rBrace) (by simp [Trivia]) rfl rfl hb.balanced ih
    simpa [braced] using this

/-! ### The pieces deliver their values -/

/-- The macros `m` do what `σ` says, for the definitions `ds`. -/
structure Agree (m : MacroTable) (σ : Sem) (all : List Text) (ds : List Def) : Prop where
  cmd : ∀ name as os, cmdArity ds name = some as.length → Goods m as os →
    Delivers m (cmdTok name :: braced as) (σ.cmd name os) m
  env : ∀ name as os body o, envArity ds name = some as.length → Goods m as os → Enclosed body → Delivers m body o m →
    Delivers m (beginTok name :: (braced as ++ body ++ [endTok name])) ((σ.env name os).1 ++ o ++ (σ.env name os).2) m
  other : ∀ name os, Free all name → σ.env name os = ([beginTok name], [endTok name])

theorem delivers_word {m : MacroTable} {w : Text} : Delivers m (wordOf w) (wordOf w) m :=
  C07_unbound_tokens_pass m _ fun t ht => by
    have := (wordOf_no t ht).1
    obtain ⟨k, x⟩ := t
    simp only at this
    subst this
    exact ⟨fun i h => (by cases h), fun h => (by cases h), fun h => (by cases h), fun h => (by cases h), fun h => (by cases h)⟩

theorem delivers_one {m : MacroTable} {t : Tok} (h : Passive m t) : Delivers m [t] [t] m :=
  C07_unbound_tokens_pass m [t] fun u hu => by simp at hu; subst hu; exact h

theorem passive_plain {m : MacroTable} {t : Tok} (h1 : ∀ n, t.1 ≠ .cmd n) : Passive m t :=
  ⟨fun i => h1 _, h1 _, h1 _, fun h => absurd h (h1 _), fun h => absurd h (h1 _)⟩

theorem TokFor.passive {all : List Text} {loose : Bool} {t : Tok} {m : MacroTable} (h : TokFor all loose t)
    (hfree : ∀ name, Free all name → m name = none) : Passive m t := by
  refine ⟨h.cond.1, h.cond.2.1, h.cond.2.2, fun hc => ?_, fun hb => hfree _ (h.clause (.inl hb)).2⟩
  obtain ⟨name, rfl, hf, _⟩ := h.cmd hc
  exact ⟨name, rfl, hfree _ hf⟩

section
variable {m : MacroTable} {σ : Sem} {all : List Text} {ds : List Def} {n : Nat}

theorem bracedAll_eq (π : Nat → Text → List Tok) (as : List (List Src)) : bracedAll π as = braced (as.map (tokensAll π)) := by
  induction as with
  | nil => rw [bracedAll]; rfl
  | cons a as ih => rw [bracedAll, ih]; simp [braced]

theorem enclosed_word {w : Text} : Enclosed (wordOf w) := .toks fun t ht => by rw [(wordOf_no t ht).1]; decide
theorem braced_word {w : Text} : Braced (wordOf w) := .toks fun t ht => by rw [(wordOf_no t ht).1]; decide

theorem condBalanced_toks {no : List Tok} (h : ∀ t ∈ no, (∀ i, t.1 ≠ .cmd (.cif i)) ∧ t.1 ≠ .cmd .celse ∧ t.1 ≠ .cmd .endIf) : CondBalanced no := by
  induction no with
  | nil => exact .nil
  | cons t ts ih => exact .tok (h t (by simp)).1 (h t (by simp)).2.1 (h t (by simp)).2.2 (ih fun x hx => h x (by simp [hx]))

mutual
theorem Src.delivers (hm : Agree m σ all ds) (hfree : ∀ name, Free all name → m name = none) {args outs : List (List Tok)} (hg : Goods m args outs)
    {loose : Bool} : ∀ s : Src, s.Ok all ds n loose → Delivers m (s.tokens (filled args)) (s.value σ outs) m
  | .tok t, h => by rw [Src.tokens, Src.value]; rw [Src.Ok] at h; exact delivers_one (h.passive hfree)
  | .group b, h => by
    rw [Src.tokens, Src.value]; rw [Src.Ok] at h
    exact (delivers_one (t := lBrace) (passive_plain (by simp [lBrace]))).append
      ((delivers_all hm hfree hg b h).append (delivers_one (t := rBrace) (passive_plain (by simp [rBrace]))))
  | .param d e, h => by
    rw [Src.tokens, Src.value, filled]
    exact (hg.get (d - 1)).2.2.append delivers_word
  | .call name as, h => by
    rw [Src.tokens, Src.value, bracedAll_eq]; rw [Src.Ok] at h
    exact hm.cmd name _ _ (by simpa using h.1) (delivers_each hm hfree hg as h.2)
  | .env name as body, h => by
    rw [Src.tokens, Src.value, bracedAll_eq]; rw [Src.Ok] at h
    have hb := delivers_all hm hfree hg body h.2.2
    have hgs := delivers_each hm hfree hg as h.2.1
    have henc : Enclosed (tokensAll (filled args) body) :=
      enclosed_all (fun d e => (hg.get (d - 1)).2.1.append enclosed_word) body h.2.2
    rcases h.1 with hk | ⟨hf, rfl⟩
    · exact hm.env name _ _ _ _ (by simpa using hk) hgs henc hb
    · rw [hm.other name _ hf]
      simp only [List.map_nil, braced, List.flatMap_nil, List.nil_append]
      have hbeg : Delivers m [beginTok name] [beginTok name] m := delivers_one
        ⟨fun i h => (by cases h), fun h => (by cases h), fun h => (by cases h), fun h => (by cases h), fun _ => hfree _ hf⟩
      have hend : Delivers m [endTok name] [endTok name] m := delivers_one
        ⟨fun i h => (by cases h), fun h => (by cases h), fun h => (by cases h), fun h => (by cases h), fun h => (by cases h)⟩
      have := (hbeg.append hb).append hend
      simpa using this
  | .ifTrue yes no, h => by
    rw [Src.tokens, Src.value]; rw [Src.Ok] at h
    exact C19_iftrue_else m m _ _ no (delivers_all hm hfree hg yes h.1) (condBalanced_toks fun t ht => (h.2 t ht).2.2.1)

theorem delivers_all (hm : Agree m σ all ds) (hfree : ∀ name, Free all name → m name = none) {args outs : List (List Tok)} (hg : Goods m args outs)
    {loose : Bool} : ∀ ss : List Src, OkAll all ds n loose ss → Delivers m (tokensAll (filled args) ss) (valueAll σ outs ss) m
  | [], _ => by rw [tokensAll, valueAll]; exact .nil m
  | s :: ss, h => by
    rw [tokensAll, valueAll]; rw [OkAll] at h
    exact (Src.delivers hm hfree hg s h.1).append (delivers_all hm hfree hg ss h.2)

theorem delivers_each (hm : Agree m σ all ds) (hfree : ∀ name, Free all name → m name = none) {args outs : List (List Tok)} (hg : Goods m args outs) :
    ∀ as : List (List Src), OkEach all ds n as → Goods m (as.map (tokensAll (filled args))) (valueEach σ outs as)
  | [], _ => by rw [valueEach]; exact .nil
  | a :: as, h => by
    rw [valueEach]; rw [OkEach] at h
    exact .cons (braced_all (fun d e => (hg.get (d - 1)).1.append braced_word) a h.1)
      (enclosed_all (fun d e => (hg.get (d - 1)).2.1.append enclosed_word) a h.1)
      (delivers_all hm hfree hg a h.1) (delivers_each hm hfree hg as h.2)
end
end

/-! ### Definitions -/

/-- What a definition stores. -/
def Def.stored : Def → Macro
  | .cmd name n body => .cmd name n none (tokensAll asStored body)
  | .env name n pre post => .env name n none (tokensAll asStored pre) (tokensAll asStored post)

/-- The table `m` holds the definitions `ds`, each well formed after the ones before. -/
def Holds (m : MacroTable) (all : List Text) : List Def → Prop
  | [] => True
  | d :: ds => m d.name = some d.stored ∧ d.Ok all ds ∧ Holds m all ds

theorem Def.Ok.mem {all : List Text} {ds : List Def} {d : Def} (h : d.Ok all ds) : d.name ∈ all := by
  cases d with
  | cmd name n body => exact h.2.2.2.1
  | env name n pre post => exact h.2.2.1

theorem Def.Ok.fresh {all : List Text} {ds : List Def} {d : Def} (h : d.Ok all ds) : defaultMacros d.name = none ∧ d.name ∉ ds.map Def.name := by
  cases d with
  | cmd name n body => exact ⟨h.1, h.2.1⟩
  | env name n pre post => exact ⟨h.1, h.2.1⟩

theorem Holds.noneRecurse {m : MacroTable} {all : List Text} : ∀ {ds : List Def}, Holds m all ds → NoneRecurse ds
  | [], _ => rfl
  | .cmd name n body :: ds, h => by
    have := h.2.2.noneRecurse
    unfold NoneRecurse at this ⊢
    rw [cmdArity, if_neg h.2.1.2.2.1]
    exact this
  | .env name n pre post :: ds, h => by
    have := h.2.2.noneRecurse
    unfold NoneRecurse at this ⊢
    rw [cmdArity]
    · exact this
    · intro _ _ _ e; cases e

theorem Holds.subset {m : MacroTable} {all : List Text} : ∀ {ds : List Def}, Holds m all ds → ∀ x ∈ ds.map Def.name, x ∈ all
  | [], _, x, hx => by cases hx
  | d :: ds, h, x, hx => by
    simp only [List.map_cons, List.mem_cons] at hx
    rcases hx with rfl | hx
    · exact h.2.1.mem
    · exact h.2.2.subset x hx

/-- A table that holds the definitions does what they mean. -/
theorem Holds.agree {m : MacroTable} {all : List Text} (hfree : ∀ name, Free all name → m name = none) :
    ∀ {ds : List Def}, Holds m all ds → Agree m (meaning ds) all ds
  | [], _ => ⟨fun _ _ _ h => (by cases h), fun _ _ _ _ _ h => (by cases h), fun _ _ _ => rfl⟩
  | .cmd name n body :: ds, h => by
    have ih := h.2.2.agree hfree
    refine ⟨fun x as os hx hg => ?_, fun x as os b o hx hg he hd => ?_, fun x os hx => ih.other x os hx⟩
    · rw [cmdArity] at hx
      rw [meaning]
      by_cases hxn : name = x
      · subst hxn
        simp only [if_true, Option.some.injEq] at hx ⊢
        subst hx
        refine C09_call_delivers m m name name _ none _ _ h.1 (noRecurse_all h.2.2.noneRecurse body h.2.1.2.2.2.2.2) _ as [] hg.callArgs ?_
        rw [List.append_nil, subst_all as body h.2.1.2.2.2.2.2]
        exact delivers_all ih hfree hg body h.2.1.2.2.2.2.2
      · rw [if_neg hxn] at hx
        simp only [if_neg (Ne.symm hxn)]
        exact ih.cmd x as os hx hg
    · rw [envArity] at hx
      · exact ih.env x as os b o hx hg he hd
      · intro _ _ _ _ e; cases e
  | .env name n pre post :: ds, h => by
    have ih := h.2.2.agree hfree
    refine ⟨fun x as os hx hg => ?_, fun x as os b o hx hg he hd => ?_, fun x os hx => ?_⟩
    · rw [cmdArity] at hx
      · exact ih.cmd x as os hx hg
      · intro _ _ _ e; cases e
    · rw [envArity] at hx
      rw [meaning]
      by_cases hxn : name = x
      · subst hxn
        simp only [if_true, Option.some.injEq] at hx ⊢
        subst hx
        refine C20_environment_delivers m m name _ none _ _ _ h.1 (noRecurse_all h.2.2.noneRecurse pre h.2.1.2.2.2.2.1)
          (noRecurse_all h.2.2.noneRecurse post h.2.1.2.2.2.2.2) _ as [] hg.callArgs b (by simpa using he.balanced) ?_
        rw [List.nil_append, subst_all as pre h.2.1.2.2.2.2.1, subst_all as post h.2.1.2.2.2.2.2]
        exact ((delivers_all ih hfree hg pre h.2.1.2.2.2.2.1).append hd).append (delivers_all ih hfree hg post h.2.1.2.2.2.2.2)
      · rw [if_neg hxn] at hx
        simp only [if_neg (Ne.symm hxn)]
        exact ih.env x as os b o hx hg he hd
    · rw [meaning]
      have hne : x ≠ name := fun e => hx.1 (e ▸ h.2.1.mem)
      simp only [if_neg hne]
      exact ih.other x os hx

theorem countText_header {n : Nat} (h : n ≤ 9) : DefHeader n none (countText n) := by
  unfold countText
  by_cases h0 : n = 0
  · subst h0; exact .none
  · rw [if_neg h0]
    exact .args (ws := []) (ws' := []) h (by simp [Trivia]) (by simp [Trivia])

theorem braced_mark (d : Nat) (e : Text) : Braced (asMark d e) := .toks fun t ht => by
  simp [asMark] at ht
  rcases ht with rfl | rfl <;> simp

/-- A definition delivers nothing and is stored. -/
theorem Def.Ok.delivers {m : MacroTable} {all : List Text} {ds : List Def} {d : Def} (h : d.Ok all ds) (hm : m d.name = none)
    (hdef : ∀ x, defaultMacros x ≠ none → m x = defaultMacros x) :
    Delivers m d.text [] (fun x => if x = d.name then some d.stored else m x) := by
  cases d with
  | cmd name n body =>
    have := C11_newcommand m t!"newcommand" (by decide +kernel) (hdef _ (by decide +kernel)) name [lBrace, cmdTok name, rBrace] (countText n)
      (lBrace :: (Program.text body ++ [rBrace])) (Program.text body) (tokensAll asStored body) n none
      (.mk (ws := []) (ws' := []) (ws'' := []) (by simp [Trivia]) (by simp [Trivia]) (by simp [Trivia]))
      (countText_header h.2.2.2.2.1) (.braced (braced_all braced_mark body h.2.2.2.2.2).balanced) (marks_all h.2.2.2.2.1 body h.2.2.2.2.2).marked
    rw [if_pos (show m name = none from hm)] at this
    exact this
  | env name n pre post =>
    have := C11_newenvironment m t!"newenvironment" (by decide +kernel) (hdef _ (by decide +kernel)) name [lBrace, (.word, name), rBrace]
      (countText n) (lBrace :: (Program.text pre ++ [rBrace])) (Program.text pre) (tokensAll asStored pre) (Program.text post)
      (tokensAll asStored post) n none
      (.mk (ws := []) (ws' := []) (ws'' := []) (by simp [Trivia]) (by simp [Trivia]) (by simp [Trivia]))
      (countText_header h.2.2.2.1) (.braced (braced_all braced_mark pre h.2.2.2.2.1).balanced) (marks_all h.2.2.2.1 pre h.2.2.2.2.1).marked
      (braced_all braced_mark post h.2.2.2.2.2).balanced (marks_all h.2.2.2.1 post h.2.2.2.2.2).marked
    rw [if_pos (show m name = none from hm)] at this
    exact this

theorem Holds.bind {m : MacroTable} {all : List Text} {name : Text} {v : Macro} : ∀ {ds : List Def}, Holds m all ds → name ∉ ds.map Def.name →
    Holds (fun x => if x = name then some v else m x) all ds
  | [], _, _ => trivial
  | d :: ds, h, hn => by
    simp only [List.map_cons, List.mem_cons, not_or] at hn
    exact ⟨by simp only [if_neg (Ne.symm hn.1)]; exact h.1, h.2.1, h.2.2.bind hn.2⟩

mutual
/-- In a text without parameters it does not matter how they are written. -/
theorem Src.closed {all : List Text} {ds : List Def} {loose : Bool} (π π' : Nat → Text → List Tok) :
    ∀ s : Src, s.Ok all ds 0 loose → s.tokens π = s.tokens π'
  | .tok t, _ => by rw [Src.tokens, Src.tokens]
  | .group b, h => by rw [Src.Ok] at h; rw [Src.tokens, Src.tokens, closed_all π π' b h]
  | .param d e, h => by rw [Src.Ok] at h; omega
  | .call name as, h => by rw [Src.Ok] at h; rw [Src.tokens, Src.tokens, closed_each π π' as h.2]
  | .env name as body, h => by rw [Src.Ok] at h; rw [Src.tokens, Src.tokens, closed_each π π' as h.2.1, closed_all π π' body h.2.2]
  | .ifTrue yes no, h => by rw [Src.Ok] at h; rw [Src.tokens, Src.tokens, closed_all π π' yes h.1]

theorem closed_all {all : List Text} {ds : List Def} {loose : Bool} (π π' : Nat → Text → List Tok) :
    ∀ ss : List Src, OkAll all ds 0 loose ss → tokensAll π ss = tokensAll π' ss
  | [], _ => by rw [tokensAll, tokensAll]
  | s :: ss, h => by rw [OkAll] at h; rw [tokensAll, tokensAll, Src.closed π π' s h.1, closed_all π π' ss h.2]

theorem closed_each {all : List Text} {ds : List Def} (π π' : Nat → Text → List Tok) :
    ∀ as : List (List Src), OkEach all ds 0 as → bracedAll π as = bracedAll π' as
  | [], _ => by rw [bracedAll, bracedAll]
  | a :: as, h => by rw [OkEach] at h; rw [bracedAll, bracedAll, closed_all π π' a h.1, closed_each π π' as h.2]
end

/-- A well-formed program delivers its value. -/
theorem program_delivers {all : List Text} : ∀ (ps : List Part) (ds : List Def) (m : MacroTable), ProgramOk all ds ps → Holds m all ds →
    (∀ x, x ∉ ds.map Def.name → m x = defaultMacros x) → ∃ m', Delivers m (programText ps) (programValue ds ps) m'
  | [], _, m, _, _, _ => ⟨m, .nil m⟩
  | .define d :: ps, ds, m, h, hh, hm => by
    rw [ProgramOk] at h
    have hf := h.1.fresh
    have h1 : Delivers m d.text [] (fun x => if x = d.name then some d.stored else m x) := by
      refine h.1.delivers (by rw [hm _ hf.2, hf.1]) fun x hx => ?_
      by_cases hmem : x ∈ ds.map Def.name
      · exfalso
        clear h hm hf
        induction ds with
        | nil => cases hmem
        | cons d' ds ih =>
          simp only [List.map_cons, List.mem_cons] at hmem
          rcases hmem with rfl | hmem
          · exact hx hh.2.1.fresh.1
          · exact ih hh.2.2 hmem
      · exact hm x hmem
    obtain ⟨m', h2⟩ := program_delivers ps (d :: ds) (fun x => if x = d.name then some d.stored else m x) h.2 ⟨by simp, h.1, hh.bind hf.2⟩ (fun x hx => by
      simp only [List.map_cons, List.mem_cons, not_or] at hx
      simp only [if_neg hx.1]
      exact hm x hx.2)
    have h3 := h1.append h2
    rw [List.nil_append] at h3
    exact ⟨m', by rw [programText, programValue]; exact h3⟩
  | .run ss :: ps, ds, m, h, hh, hm => by
    rw [ProgramOk] at h
    have hfree : ∀ name, Free all name → m name = none := fun name hn => by
      rw [hm name fun hmem => hn.1 (hh.subset name hmem)]; exact hn.2
    have h1 := delivers_all (hh.agree hfree) hfree (.nil (m := m)) ss h.1
    rw [closed_all (filled []) asMark ss h.1] at h1
    obtain ⟨m', h2⟩ := program_delivers ps ds m h.2 hh hm
    exact ⟨m', by rw [programText, programValue]; exact h1.append h2⟩

end Program
end Mitex

namespace Mitex
namespace Program

/-! ### Values contain no macros -/

/-- Tokens that are delivered as they are when nothing is defined. -/
def Final (ts : List Tok) : Prop := ∀ t ∈ ts, Passive defaultMacros t

theorem Final.nil : Final [] := fun _ h => (by cases h)
theorem Final.append {a b : List Tok} (ha : Final a) (hb : Final b) : Final (a ++ b) := fun t ht =>
  (List.mem_append.mp ht).elim (ha t) (hb t)
theorem Final.one {t : Tok} (h : Passive defaultMacros t) : Final [t] := fun u hu => by simp at hu; subst hu; exact h

theorem final_begin {all : List Text} {name : Text} (h : Free all name) : Final [beginTok name] := .one
  ⟨fun i h => (by cases h), fun h => (by cases h), fun h => (by cases h), fun h => (by cases h), fun _ => h.2⟩
theorem final_end {name : Text} : Final [endTok name] := .one
  ⟨fun i h => (by cases h), fun h => (by cases h), fun h => (by cases h), fun h => (by cases h), fun h => (by cases h)⟩

/-- The macros give values without macros. -/
structure Finals (σ : Sem) (all : List Text) (ds : List Def) : Prop where
  cmd : ∀ name n os, cmdArity ds name = some n → (∀ o ∈ os, Final o) → Final (σ.cmd name os)
  env : ∀ name n os, envArity ds name = some n → (∀ o ∈ os, Final o) → Final (σ.env name os).1 ∧ Final (σ.env name os).2
  other : ∀ name os, Free all name → σ.env name os = ([beginTok name], [endTok name])

theorem final_get {os : List (List Tok)} (h : ∀ o ∈ os, Final o) (i : Nat) : Final ((os[i]?).getD []) := by
  cases hi : os[i]? with
  | none => exact .nil
  | some o => exact h o (List.mem_of_getElem? hi)

section
variable {σ : Sem} {all : List Text} {ds : List Def} {n : Nat} {outs : List (List Tok)}

mutual
theorem Src.final (hσ : Finals σ all ds) (ho : ∀ o ∈ outs, Final o) {loose : Bool} : ∀ s : Src, s.Ok all ds n loose → Final (s.value σ outs)
  | .tok t, h => by rw [Src.value]; rw [Src.Ok] at h; exact .one (h.passive fun _ hf => hf.2)
  | .group b, h => by
    rw [Src.value]; rw [Src.Ok] at h
    exact (Final.one (t := lBrace) (passive_plain (by simp [lBrace]))).append ((final_all hσ ho b h).append
      (Final.one (t := rBrace) (passive_plain (by simp [rBrace]))))
  | .param d e, h => by
    rw [Src.value]
    exact (final_get ho (d - 1)).append fun t ht => passive_plain fun k => (by rw [(wordOf_no t ht).1]; exact fun e => (by cases e))
  | .call name as, h => by rw [Src.value]; rw [Src.Ok] at h; exact hσ.cmd name _ _ h.1 (final_each hσ ho as h.2)
  | .env name as body, h => by
    rw [Src.value]; rw [Src.Ok] at h
    have hb := final_all hσ ho body h.2.2
    rcases h.1 with hk | ⟨hf, _⟩
    · have := hσ.env name _ _ hk (final_each hσ ho as h.2.1)
      exact (this.1.append hb).append this.2
    · rw [hσ.other name _ hf]
      exact ((final_begin hf).append hb).append final_end
  | .ifTrue yes no, h => by rw [Src.value]; rw [Src.Ok] at h; exact final_all hσ ho yes h.1

theorem final_all (hσ : Finals σ all ds) (ho : ∀ o ∈ outs, Final o) {loose : Bool} : ∀ ss : List Src, OkAll all ds n loose ss → Final (valueAll σ outs ss)
  | [], _ => by rw [valueAll]; exact .nil
  | s :: ss, h => by rw [valueAll]; rw [OkAll] at h; exact (Src.final hσ ho s h.1).append (final_all hσ ho ss h.2)

theorem final_each (hσ : Finals σ all ds) (ho : ∀ o ∈ outs, Final o) : ∀ as : List (List Src), OkEach all ds n as → ∀ o ∈ valueEach σ outs as, Final o
  | [], _ => by rw [valueEach]; exact fun _ h => (by cases h)
  | a :: as, h => by
    rw [valueEach]; rw [OkEach] at h
    intro o ho'
    rcases List.mem_cons.mp ho' with rfl | hm
    · exact final_all hσ ho a h.1
    · exact final_each hσ ho as h.2 o hm
end
end

/-- The definitions are well formed, each after the ones before. -/
def DefsOk (all : List Text) : List Def → Prop
  | [] => True
  | d :: ds => d.Ok all ds ∧ DefsOk all ds

theorem DefsOk.finals {all : List Text} : ∀ {ds : List Def}, DefsOk all ds → Finals (meaning ds) all ds
  | [], _ => ⟨fun _ _ _ h => (by cases h), fun _ _ _ h => (by cases h), fun _ _ _ => rfl⟩
  | .cmd name n body :: ds, h => by
    have ih := h.2.finals
    refine ⟨fun x k os hx ho => ?_, fun x k os hx ho => ?_, fun x os hx => ih.other x os hx⟩
    · rw [cmdArity] at hx
      rw [meaning]
      by_cases hxn : name = x
      · subst hxn
        simp only [if_true]
        exact final_all ih ho body h.1.2.2.2.2.2
      · rw [if_neg hxn] at hx
        simp only [if_neg (Ne.symm hxn)]
        exact ih.cmd x k os hx ho
    · rw [envArity] at hx
      · exact ih.env x k os hx ho
      · intro _ _ _ _ e; cases e
  | .env name n pre post :: ds, h => by
    have ih := h.2.finals
    refine ⟨fun x k os hx ho => ?_, fun x k os hx ho => ?_, fun x os hx => ?_⟩
    · rw [cmdArity] at hx
      · exact ih.cmd x k os hx ho
      · intro _ _ _ e; cases e
    · rw [envArity] at hx
      rw [meaning]
      by_cases hxn : name = x
      · subst hxn
        simp only [if_true]
        exact ⟨final_all ih ho pre h.1.2.2.2.2.1, final_all ih ho post h.1.2.2.2.2.2⟩
      · rw [if_neg hxn] at hx
        simp only [if_neg (Ne.symm hxn)]
        exact ih.env x k os hx ho
    · rw [meaning]
      have hne : x ≠ name := fun e => hx.1 (e ▸ h.1.mem)
      simp only [if_neg hne]
      exact ih.other x os hx

theorem program_final {all : List Text} : ∀ (ps : List Part) (ds : List Def), ProgramOk all ds ps → DefsOk all ds → Final (programValue ds ps)
  | [], _, _, _ => .nil
  | .define d :: ps, ds, h, hd => by rw [ProgramOk] at h; rw [programValue]; exact program_final ps (d :: ds) h.2 ⟨h.1, hd⟩
  | .run ss :: ps, ds, h, hd => by
    rw [ProgramOk] at h; rw [programValue]
    exact (final_all hd.finals (fun _ h => (by cases h)) ss h.1).append (program_final ps ds h.2 hd)

end Program
end Mitex
