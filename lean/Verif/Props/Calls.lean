/-
Properties of macro calls, user environments and conditionals (C09, C17, C19, C20).
-/
import Verif.Props.Engine

namespace Mitex
open TokStream

/-! ## C09, C17: calls -/

/-- C09: substitution. Expanding a stored body (without `\mitexrecurse`) replaces each parameter by its argument and
keeps everything else. -/
theorem C09_expansion_substitutes (args : List (List Tok)) (body : List Tok) (h : NoRecurse body) :
    expandTokens args false 0 body = .ok (substitute args body) := expandTokens_subst args 0 body h

/-- C09, read position by position: the expansion of `pre #i post` is the expansion of `pre`, the `i`-th argument,
the expansion of `post`; a parameter beyond the arguments disappears; texts without parameters stay. -/
theorem C09_substitution_is_positional (args : List (List Tok)) :
    (∀ pre post h i a, args[i]? = some a →
      substitute args (pre ++ (.macroArg (i + 1), h) :: post) = substitute args pre ++ a ++ substitute args post) ∧
    (∀ pre post h i, args.length ≤ i →
      substitute args (pre ++ (.macroArg (i + 1), h) :: post) = substitute args pre ++ substitute args post) ∧
    (∀ b, (∀ t ∈ b, ∀ n, t.1 ≠ .macroArg n) → substitute args b = b) := by
  refine ⟨?_, ?_, ?_⟩
  · intro pre post h i a ha
    simp [substitute, ha]
  · intro pre post h i hi
    simp [substitute, List.getElem?_eq_none hi]
  · intro b hb
    induction b with
    | nil => rfl
    | cons t ts ih =>
      have := hb t (by simp)
      simp only [substitute, List.flatMap_cons]
      have ih := ih fun x hx => hb x (by simp [hx])
      simp only [substitute] at ih
      rw [ih]
      obtain ⟨k, x⟩ := t
      cases k with
      | macroArg n => exact absurd rfl (this n)
      | _ => rfl

/-- C17: the arguments of a call are bound one by one: braced groups to their content, single tokens to themselves,
the characters of a last word one by one, ignoring trivia between; exactly the text of the arguments is consumed.
(`C17_exact` covers all texts; with words followed by further arguments the code miscounts,
`C17_word_miscount`.) -/
theorem C17_arguments_bound (n : Nat) (text : List Tok) (args : List (List Tok)) (left : List Tok)
    (h : CallArgs n text args left) (opt : Option (List Tok)) (rest out : List Tok) :
    readMacroArgs n opt (⟨text ++ rest, out⟩ : LCtx) = (some args, ⟨left ++ rest, out⟩) ∧ args.length = n := by
  refine ⟨readMacroArgs_list h opt rest out, ?_⟩
  induction h with
  | done => rfl
  | braced _ _ _ _ _ ih => simp [ih]
  | single _ _ _ _ _ ih => simp [ih]
  | chars _ hlen => simpa using hlen

theorem splitWord_all (w : Text) : ∀ (read num : Nat), read + w.length < num →
    splitWord w read num = (w.map (fun c => [(Token.word, [c])]), [], read + w.length) := by
  induction w with
  | nil => intro read num _; simp [splitWord]
  | cons c cs ih =>
    intro read num h
    simp only [List.length_cons] at h
    rw [splitWord, if_neg (by omega), ih (read + 1) num (by omega)]
    simp; omega

/-- C17, the exception: a call of an `n`-argument macro followed by a word of `n-1` characters takes these
characters as its only arguments; the last one is missing. E.g. `\f a{b}` with a two-argument `\f` drops `b` from
the call. -/
theorem C17_word_miscount (w : Text) (opt : Option (List Tok)) (rest out : List Tok) :
    readMacroArgs (w.length + 1) opt (⟨(.word, w) :: rest, out⟩ : LCtx) =
      (some (w.map fun c => [(.word, [c])]), ⟨rest, out⟩) := by
  unfold readMacroArgs
  rw [if_neg (by omega)]
  have e1 : readArgsLoop (bound (⟨(Token.word, w) :: rest, out⟩ : LCtx)) (w.length + 1) 0
      (⟨(Token.word, w) :: rest, out⟩ : LCtx) = (w.map (fun c => [(Token.word, [c])]), w.length + 1, ⟨rest, out⟩) := by
    rw [lctx_bound, readArgsLoop]
    have := peekNotTrivia_list [] (by simp [Trivia]) (Token.word, w) rfl rest out
    simp only [List.nil_append] at this
    rw [this]
    simp only [lctx_peek, List.head?_cons]
    rw [splitWord_all w 0 (w.length + 1) (by omega)]
    simp
  rw [e1]
  simp

/-- The end-to-end form of the exception. -/
theorem C17_word_miscount_text : (do
    let toks ← tokensOf (fun _ => none) "\\newcommand{\\f}[2]{(#1;#2)}\\f a{b}".toList
    let o ← expandAll 20 toks
    pure (o.map Prod.snd).flatten) = (.ok "(a;){b}".toList : Res Text) := by decide +kernel

/-- The table cannot be left with a call half read: too few arguments at the end of the text give the default for
the last one, or an error token. -/
theorem C17_missing_arguments (n k : Nat) (text : List Tok) (args : List (List Tok)) (left : List Tok)
    (h : CallArgs k text args left) (hleft : left = []) (hlt : k < n) (hw : ∀ t ∈ text, t.1 ≠ .word)
    (opt : Option (List Tok)) (out : List Tok) :
    readMacroArgs n opt (⟨text, out⟩ : LCtx) =
      match opt with
      | some o => if n = k + 1 then (some (args ++ [o]), ⟨[], out⟩) else (none, ⟨[], out ++ [argErrTok]⟩)
      | none => (none, ⟨[], out ++ [argErrTok]⟩) := by
  have key : ∀ (read fuel : Nat), text.length < fuel → read + k < n →
      readArgsLoop fuel n read (⟨text, out⟩ : LCtx) = (args, read + k, ⟨[], out⟩) := by
    clear hlt
    induction h with
    | done =>
      intro read fuel hf _
      obtain ⟨fuel, rfl⟩ : ∃ k, fuel = k + 1 := ⟨fuel - 1, by omega⟩
      rw [readArgsLoop]
      simp [peekNotTrivia, nextNotTrivia, nextNotTriviaN]
    | @braced n ws l b r s as left hw' hl hr hb h ih =>
      intro read fuel hf hlt
      obtain ⟨fuel, rfl⟩ : ∃ k, fuel = k + 1 := ⟨fuel - 1, by omega⟩
      rw [readArgsLoop, peekNotTrivia_list ws hw' l (by rw [hl]; rfl)]
      simp only [hl, lctx_next, List.tail_cons]
      rw [readUntilBalanced_list hb r hr, if_neg (by omega)]
      have := ih hleft (fun t ht => hw t (by simp [ht])) (read + 1) fuel (by simp at hf; omega) (by omega)
      simp only [this]
      congr 2; omega
    | @single n ws t s as left hw' ht h1 h2 h ih =>
      intro read fuel hf hlt
      obtain ⟨fuel, rfl⟩ : ∃ k, fuel = k + 1 := ⟨fuel - 1, by omega⟩
      rw [readArgsLoop, peekNotTrivia_list ws hw' t ht]
      obtain ⟨k, x⟩ := t
      simp only at h1 h2
      split
      · rename_i h; simp at h
      · rename_i h; simp at h; exact absurd h.1 h1
      · rename_i h; simp at h; exact absurd h.1 h2
      · rename_i h
        simp at h
        obtain ⟨h', rfl⟩ := h
        simp only [lctx_peek, List.head?_cons, lctx_next, List.tail_cons]
        rw [if_neg (by omega)]
        have := ih hleft (fun t ht => hw t (by simp [ht])) (read + 1) fuel (by simp at hf; omega) (by omega)
        simp only [this]
        congr 2; omega
    | @chars n ws w extra hw' hlen =>
      exact absurd rfl (hw (Token.word, w ++ extra) (by simp))
  unfold readMacroArgs
  rw [if_neg (by omega)]
  have := key 0 (bound (⟨text, out⟩ : LCtx)) (by simp) (by omega)
  simp only [Nat.zero_add] at this
  simp only [this]
  rw [if_neg (by omega)]
  cases opt with
  | none => simp
  | some o =>
    by_cases hk : n = k + 1
    · simp [hk]
    · simp [hk, show n - k ≠ 1 by omega]

theorem engStep_call {m : MacroTable} {name nm : Text} {n : Nat} {opt : Option (List Tok)} {body : List Tok}
    (hm : m name = some (.cmd nm n opt body)) {text : List Tok} {args : List (List Tok)} {left : List Tok}
    (ha : CallArgs n text args left) {body' : List Tok} (hb : expandTokens args false 0 body = .ok body')
    (ifs : List (Option IfState)) (rest out : List Tok) :
    engStep ⟨m, ifs⟩ (⟨cmdTok name :: (text ++ rest), out⟩ : LCtx) (cmdTok name) =
      .ok (⟨m, ifs⟩, ⟨body' ++ (left ++ rest), out⟩) := by
  simp only [engStep, cmdTok, dropBytes_backslash, trappedByMacro, hm, Bool.false_eq_true, if_false, lctx_next,
    List.tail_cons]
  rw [readMacroArgs_list ha]
  simp only [hb, lctx_push]

/-- C09 with C17: calling a user command with its arguments puts the body with the arguments substituted in place
of the call, and nothing else happens: macro table, conditionals and delivered tokens are unchanged. -/
theorem C09_call_is_replaced (m : MacroTable) (name nm : Text) (n : Nat) (opt : Option (List Tok)) (body : List Tok)
    (hm : m name = some (.cmd nm n opt body)) (hb : NoRecurse body) (text : List Tok) (args : List (List Tok))
    (left : List Tok) (ha : CallArgs n text args left) (ifs : List (Option IfState)) (rest out : List Tok) :
    engStep ⟨m, ifs⟩ (⟨cmdTok name :: (text ++ rest), out⟩ : LCtx) (cmdTok name) =
      .ok (⟨m, ifs⟩, ⟨substitute args body ++ (left ++ rest), out⟩) :=
  engStep_call hm ha (expandTokens_subst args 0 body hb) ifs rest out

/-- C09: hence a call delivers what the substituted body delivers. -/
theorem C09_call_delivers (m m' : MacroTable) (name nm : Text) (n : Nat) (opt : Option (List Tok)) (body o : List Tok)
    (hm : m name = some (.cmd nm n opt body)) (hb : NoRecurse body) (text : List Tok) (args : List (List Tok))
    (left : List Tok) (ha : CallArgs n text args left) (hd : Delivers m (substitute args body ++ left) o m') :
    Delivers m (cmdTok name :: text) o m' := by
  intro ifs rest out
  rw [List.cons_append]
  refine .step (C09_call_is_replaced m name nm n opt body hm hb text args left ha ifs rest out) ?_
  have := hd ifs rest out
  rw [List.append_assoc] at this
  exact this

/-- A two-argument call with a braced group and a word. -/
example : CallArgs 2 [(.whitespace, [' ']), lBrace, (.word, "xy".toList), rBrace, (.word, "zw".toList)]
    [[(.word, "xy".toList)], [(.word, ['z'])]] [(.word, ['w'])] := by
  refine .braced (ws := [(.whitespace, [' '])]) (b := [(.word, "xy".toList)]) (s := [(.word, "zw".toList)])
    (by intro t ht; simp at ht; subst ht; rfl) rfl rfl
    (.tok (by decide) (by decide) (by decide) (.nil _)) ?_
  exact .chars (n := 0) (ws := []) (w := ['z']) (extra := ['w']) (by simp [Trivia]) rfl

/-! ## C20: environments -/

theorem readEnvBody_list {b : List Tok} (hb : EnvBalanced b) : ∀ (name : Text) (bc n : Nat) (rest out : List Tok),
    readEnvBody (n + b.length) name bc (⟨b ++ rest, out⟩ : LCtx) =
      match readEnvBody n name bc (⟨rest, out⟩ : LCtx) with
      | (none, c) => (none, c)
      | (some r, c) => (some (b ++ r), c) := by
  induction hb with
  | nil => intro name bc n rest out; simp; split <;> rename_i h <;> rw [h]
  | @tok t ts h1 h2 h ih =>
    intro name bc n rest out
    simp only [List.length_cons, ← Nat.add_assoc, List.cons_append, readEnvBody, lctx_peek, List.head?_cons, h2, h1,
      if_false, lctx_next, List.tail_cons]
    rw [ih]
    split <;> rename_i h <;> split at h <;> cases h <;> rfl
  | @env b body e ts hb he hbody h ihb ih =>
    intro name bc n rest out
    have e3 : n + (b :: (body ++ e :: ts)).length = (n + ts.length + 1 + body.length) + 1 := by simp; omega
    rw [e3]
    have hb2 : b.1 ≠ .cmd .endEnv := by rw [hb]; simp
    rw [List.cons_append, readEnvBody]
    simp only [List.append_assoc, List.cons_append, lctx_peek, List.head?_cons,
      hb, if_true, lctx_next, List.tail_cons]
    rw [if_neg (by simp)]
    rw [ihb, readEnvBody]
    simp only [lctx_peek, List.head?_cons, he, if_true, lctx_next, List.tail_cons]
    rw [if_neg (by omega), show bc + 1 - 1 = bc by omega, ih]
    cases hx : readEnvBody n name bc (⟨rest, out⟩ : LCtx) with
    | mk o c => cases o <;> simp

/-- C20: a user environment with its arguments and its body (in which inner environments are closed, of any name) is
replaced by the begin part, the body as it is, and the end part, in this order; the arguments are substituted in
both parts. -/
theorem C20_environment_unfolds (m : MacroTable) (name : Text) (n : Nat) (opt : Option (List Tok)) (bdef edef : List Tok)
    (hm : m name = some (.env name n opt bdef edef)) (hb : NoRecurse bdef) (he : NoRecurse edef) (text : List Tok)
    (args : List (List Tok)) (left : List Tok) (ha : CallArgs n text args left) (body : List Tok)
    (hbody : EnvBalanced (left ++ body)) (ifs : List (Option IfState)) (rest out : List Tok) :
    engStep ⟨m, ifs⟩ (⟨(.cmd .beginEnv, name) :: (text ++ (body ++ (.cmd .endEnv, name) :: rest)), out⟩ : LCtx)
        (.cmd .beginEnv, name) =
      .ok (⟨m, ifs⟩, ⟨substitute args bdef ++ (left ++ body) ++ substitute args edef ++ rest, out⟩) := by
  simp only [engStep, trappedByMacro, hm, Bool.not_true, Bool.false_eq_true, if_false, lctx_next, List.tail_cons]
  rw [readMacroArgs_list ha]
  simp only
  have e1 : left ++ (body ++ (Token.cmd .endEnv, name) :: rest) = (left ++ body) ++ (Token.cmd .endEnv, name) :: rest := by
    simp
  have e2 : bound (⟨left ++ (body ++ (Token.cmd .endEnv, name) :: rest), out⟩ : LCtx) =
      (rest.length + 2) + (left ++ body).length := by simp; omega
  rw [e2, e1, readEnvBody_list hbody, readEnvBody]
  simp [C09_expansion_substitutes args _ hb, C09_expansion_substitutes args _ he]

/-- C20: hence the environment delivers what the three parts deliver. -/
theorem C20_environment_delivers (m m' : MacroTable) (name : Text) (n : Nat) (opt : Option (List Tok)) (bdef edef o : List Tok)
    (hm : m name = some (.env name n opt bdef edef)) (hb : NoRecurse bdef) (he : NoRecurse edef) (text : List Tok)
    (args : List (List Tok)) (left : List Tok) (ha : CallArgs n text args left) (body : List Tok)
    (hbody : EnvBalanced (left ++ body))
    (hd : Delivers m (substitute args bdef ++ (left ++ body) ++ substitute args edef) o m') :
    Delivers m ((.cmd .beginEnv, name) :: (text ++ body ++ [(.cmd .endEnv, name)])) o m' := by
  intro ifs rest out
  have := C20_environment_unfolds m name n opt bdef edef hm hb he text args left ha body hbody ifs rest out
  simp only [List.cons_append, List.append_assoc, List.nil_append] at this ⊢
  refine .step this ?_
  have := hd ifs rest out
  simp only [List.append_assoc] at this
  exact this

/-- A body with a nested environment of the same name. -/
example : EnvBalanced [(.word, ['a']), (.cmd .beginEnv, ['e']), (.word, ['b']), (.cmd .endEnv, ['e']), (.word, ['c'])] :=
  .tok (by decide) (by decide) (.env (body := [(.word, ['b'])]) (ts := [(.word, ['c'])]) rfl rfl
    (.tok (by decide) (by decide) .nil) (.tok (by decide) (by decide) .nil))

example : (do
    let toks ← tokensOf (fun _ => none) "\\newenvironment{e}[1]{<#1|}{|#1>}\\begin{e}{x}a\\begin{e}{y}b\\end{e}c\\end{e}".toList
    let o ← expandAll 30 toks
    pure (o.map Prod.snd).flatten) = (.ok "<x|a<y|b|y>c|x>".toList : Res Text) := by decide +kernel

/-! ## C19: conditionals -/

def ifTok (i : IfName) : Tok := (.cmd (.cif i), i.text)
def elseTok : Tok := (.cmd .celse, "\\else".toList)

theorem skipFalse_list {b : List Tok} (hb : CondBalanced b) : ∀ (nested n : Nat) (rest out : List Tok),
    skipFalse (n + b.length) nested (⟨b ++ rest, out⟩ : LCtx) = skipFalse n nested (⟨rest, out⟩ : LCtx) := by
  induction hb with
  | nil => intro nested n rest out; simp
  | @tok t ts h1 h2 h3 h ih =>
    intro nested n rest out
    obtain ⟨k, x⟩ := t
    simp only at h1 h2 h3
    simp only [List.length_cons, ← Nat.add_assoc, List.cons_append, skipFalse, lctx_peek, List.head?_cons,
      lctx_next, List.tail_cons]
    exact ih nested n rest out
  | @cond b i body e ts hb he hbody h ihb ih =>
    intro nested n rest out
    have e3 : n + (b :: (body ++ e :: ts)).length = (n + ts.length + 1 + body.length) + 1 := by simp; omega
    rw [e3]
    simp only [List.cons_append, List.append_assoc, skipFalse, lctx_peek, List.head?_cons, hb, lctx_next, List.tail_cons]
    rw [ihb]
    simp only [skipFalse, lctx_peek, List.head?_cons, he, lctx_next, List.tail_cons]
    rw [if_neg (by omega)]
    exact ih nested n rest out

theorem skipFalse_fi {b : List Tok} (hb : CondBalanced b) (f : Tok) (hf : f.1 = .cmd .endIf) (rest out : List Tok) :
    skipFalse (bound (⟨b ++ f :: rest, out⟩ : LCtx)) 0 (⟨b ++ f :: rest, out⟩ : LCtx) = ⟨f :: rest, out⟩ := by
  have e : bound (⟨b ++ f :: rest, out⟩ : LCtx) = (rest.length + 2) + b.length := by simp; omega
  rw [e, skipFalse_list hb, skipFalse]
  simp [hf]

/-- C19: `\iftrue A \else B \fi` delivers what `A` delivers; `B` (with closed conditionals without `\else`) is
skipped. -/
theorem C19_iftrue_else (m m' : MacroTable) (A o B : List Tok) (hA : Delivers m A o m') (hB : CondBalanced B) :
    Delivers m (ifTok .ifTrue :: (A ++ elseTok :: (B ++ [fiTok]))) o m' := by
  intro ifs rest out
  simp only [List.cons_append, List.append_assoc, List.nil_append]
  refine Runs.step (e1 := ⟨m, some .isTrue :: ifs⟩) (c1 := ⟨A ++ elseTok :: (B ++ fiTok :: rest), out⟩) rfl ?_
  refine (hA (some .isTrue :: ifs) (elseTok :: (B ++ fiTok :: rest)) out).trans ?_
  refine Runs.step (e1 := ⟨m', some .isFalse :: ifs⟩) (c1 := ⟨fiTok :: rest, out ++ o⟩) ?_ ?_
  · have := skipFalse_fi hB fiTok rfl rest (out ++ o)
    simp only [engStep, elseTok, trappedByElse, lctx_next, List.tail_cons, this]
  · exact Runs.one rfl

/-- C19: `\iftrue A \fi` delivers what `A` delivers. -/
theorem C19_iftrue (m m' : MacroTable) (A o : List Tok) (hA : Delivers m A o m') :
    Delivers m (ifTok .ifTrue :: (A ++ [fiTok])) o m' := by
  intro ifs rest out
  simp only [List.cons_append, List.append_assoc, List.nil_append]
  refine Runs.step (e1 := ⟨m, some .isTrue :: ifs⟩) (c1 := ⟨A ++ fiTok :: rest, out⟩) rfl ?_
  exact (hA (some .isTrue :: ifs) (fiTok :: rest) out).trans (Runs.one rfl)

/-- C19: `\iffalse A \else B \fi` delivers `A` between `\iffalse` and `\fi` (a block comment for the parser), then
what `B` delivers. -/
theorem C19_iffalse_else (m m1 m2 : MacroTable) (A o B p : List Tok) (hA : Delivers m A o m1) (hB : Delivers m1 B p m2) :
    Delivers m (ifTok .ifFalse :: (A ++ elseTok :: (B ++ [fiTok]))) (ifTok .ifFalse :: (o ++ fiTok :: p)) m2 := by
  intro ifs rest out
  simp only [List.cons_append, List.append_assoc, List.nil_append]
  refine Runs.step (e1 := ⟨m, some .litFalse :: ifs⟩)
    (c1 := ⟨A ++ elseTok :: (B ++ fiTok :: rest), out ++ [ifTok .ifFalse]⟩) rfl ?_
  refine (hA (some .litFalse :: ifs) (elseTok :: (B ++ fiTok :: rest)) (out ++ [ifTok .ifFalse])).trans ?_
  refine Runs.step (e1 := ⟨m1, some .isTrue :: ifs⟩)
    (c1 := ⟨B ++ fiTok :: rest, out ++ [ifTok .ifFalse] ++ o ++ [fiTok]⟩) rfl ?_
  refine (hB (some .isTrue :: ifs) (fiTok :: rest) _).trans ?_
  refine Runs.step (e1 := ⟨m2, ifs⟩) (c1 := ⟨rest, out ++ [ifTok .ifFalse] ++ o ++ [fiTok] ++ p⟩) rfl ?_
  have : out ++ [ifTok .ifFalse] ++ o ++ [fiTok] ++ p = out ++ ifTok .ifFalse :: (o ++ fiTok :: p) := by simp
  rw [this]
  exact .refl _ _

/-- C19: `\iffalse A \fi` stays a block comment. -/
theorem C19_iffalse (m m1 : MacroTable) (A o : List Tok) (hA : Delivers m A o m1) :
    Delivers m (ifTok .ifFalse :: (A ++ [fiTok])) (ifTok .ifFalse :: (o ++ [fiTok])) m1 := by
  intro ifs rest out
  simp only [List.cons_append, List.append_assoc, List.nil_append]
  refine Runs.step (e1 := ⟨m, some .litFalse :: ifs⟩)
    (c1 := ⟨A ++ fiTok :: rest, out ++ [ifTok .ifFalse]⟩) rfl ?_
  refine (hA (some .litFalse :: ifs) (fiTok :: rest) (out ++ [ifTok .ifFalse])).trans ?_
  refine Runs.step (e1 := ⟨m1, ifs⟩) (c1 := ⟨rest, out ++ [ifTok .ifFalse] ++ o ++ [fiTok]⟩) rfl ?_
  have : out ++ [ifTok .ifFalse] ++ o ++ [fiTok] = out ++ ifTok .ifFalse :: (o ++ [fiTok]) := by simp
  rw [this]
  exact .refl _ _

/-- C19: `\iftypst A \else B \fi` delivers `A` as typst code, between `\iftypst` and `\fi`, and skips `B`. -/
theorem C19_iftypst_else (m m' : MacroTable) (A o B : List Tok) (hA : Delivers m A o m') (hB : CondBalanced B) :
    Delivers m (ifTok .ifTypst :: (A ++ elseTok :: (B ++ [fiTok]))) (ifTok .ifTypst :: (o ++ [fiTok])) m' := by
  intro ifs rest out
  simp only [List.cons_append, List.append_assoc, List.nil_append]
  refine Runs.step (e1 := ⟨m, some .typstTrue :: ifs⟩)
    (c1 := ⟨A ++ elseTok :: (B ++ fiTok :: rest), out ++ [ifTok .ifTypst]⟩) rfl ?_
  refine (hA (some .typstTrue :: ifs) (elseTok :: (B ++ fiTok :: rest)) (out ++ [ifTok .ifTypst])).trans ?_
  refine Runs.step (e1 := ⟨m', some .typstFalse :: ifs⟩) (c1 := ⟨fiTok :: rest, out ++ [ifTok .ifTypst] ++ o⟩) ?_ ?_
  · have := skipFalse_fi hB fiTok rfl rest (out ++ [ifTok .ifTypst] ++ o)
    simp only [engStep, elseTok, trappedByElse, lctx_next, List.tail_cons, this]
  · refine Runs.step (e1 := ⟨m', ifs⟩) (c1 := ⟨rest, out ++ [ifTok .ifTypst] ++ o ++ [fiTok]⟩) rfl ?_
    have : out ++ [ifTok .ifTypst] ++ o ++ [fiTok] = out ++ ifTok .ifTypst :: (o ++ [fiTok]) := by simp
    rw [this]
    exact .refl _ _

/-- C19: the conditionals the engine cannot decide are passed on as they are. -/
theorem C19_undecided (m m1 : MacroTable) (i : IfName) (h1 : i ≠ .ifTrue) (h2 : i ≠ .ifFalse) (h3 : i ≠ .ifTypst)
    (A o : List Tok) (hA : Delivers m A o m1) :
    Delivers m (ifTok i :: (A ++ [fiTok])) (ifTok i :: (o ++ [fiTok])) m1 := by
  intro ifs rest out
  simp only [List.cons_append, List.append_assoc, List.nil_append]
  refine Runs.step (e1 := ⟨m, none :: ifs⟩) (c1 := ⟨A ++ fiTok :: rest, out ++ [ifTok i]⟩) ?_ ?_
  · cases i <;> first | rfl | exact absurd rfl h1 | exact absurd rfl h2 | exact absurd rfl h3
  refine (hA (none :: ifs) (fiTok :: rest) (out ++ [ifTok i])).trans ?_
  refine Runs.step (e1 := ⟨m1, ifs⟩) (c1 := ⟨rest, out ++ [ifTok i] ++ o ++ [fiTok]⟩) rfl ?_
  have : out ++ [ifTok i] ++ o ++ [fiTok] = out ++ ifTok i :: (o ++ [fiTok]) := by simp
  rw [this]
  exact .refl _ _

/-- C19: also with an `\\else`: both branches are passed on, and the conditional stays open between them. -/
theorem C19_undecided_else (m m1 m2 : MacroTable) (i : IfName) (h1 : i ≠ .ifTrue) (h2 : i ≠ .ifFalse) (h3 : i ≠ .ifTypst)
    (A o B p : List Tok) (hA : Delivers m A o m1) (hB : Delivers m1 B p m2) :
    Delivers m (ifTok i :: (A ++ elseTok :: (B ++ [fiTok]))) (ifTok i :: (o ++ elseTok :: (p ++ [fiTok]))) m2 := by
  intro ifs rest out
  simp only [List.cons_append, List.append_assoc, List.nil_append]
  refine Runs.step (e1 := ⟨m, none :: ifs⟩) (c1 := ⟨A ++ elseTok :: (B ++ fiTok :: rest), out ++ [ifTok i]⟩) ?_ ?_
  · cases i <;> first | rfl | exact absurd rfl h1 | exact absurd rfl h2 | exact absurd rfl h3
  refine (hA (none :: ifs) (elseTok :: (B ++ fiTok :: rest)) (out ++ [ifTok i])).trans ?_
  refine Runs.step (e1 := ⟨m1, none :: ifs⟩) (c1 := ⟨B ++ fiTok :: rest, out ++ [ifTok i] ++ o ++ [elseTok]⟩) rfl ?_
  refine (hB (none :: ifs) (fiTok :: rest) _).trans ?_
  refine Runs.step (e1 := ⟨m2, ifs⟩) (c1 := ⟨rest, out ++ [ifTok i] ++ o ++ [elseTok] ++ p ++ [fiTok]⟩) rfl ?_
  have : out ++ [ifTok i] ++ o ++ [elseTok] ++ p ++ [fiTok] = out ++ ifTok i :: (o ++ elseTok :: (p ++ [fiTok])) := by simp
  rw [this]
  exact .refl _ _

/-- C19, the exception: an `\else` inside skipped text ends the nesting one level too early, so that text of the
skipped branch is delivered. -/
theorem C19_nested_else_breaks_skipping : (do
    let toks ← tokensOf (fun _ => none) "\\iftrue a\\else\\ifx b\\else c\\fi d\\fi e".toList
    let o ← expandAll 30 toks
    pure (o.map Prod.snd).flatten) = (.ok " a d\\fi e".toList : Res Text) := by decide +kernel

/-- Conditionals nest: the theorems apply to each other. -/
example (m : MacroTable) (a b : Text) : Delivers m
    (ifTok .ifTrue :: ((ifTok .ifFalse :: ([(.word, a)] ++ elseTok :: ([(.word, b)] ++ [fiTok]))) ++
      elseTok :: ([ifTok .ifTypst, (.word, a), fiTok] ++ [fiTok])))
    (ifTok .ifFalse :: ([(.word, a)] ++ fiTok :: [(.word, b)])) m := by
  refine C19_iftrue_else m m _ _ _ (C19_iffalse_else m m m _ _ _ _ ?_ ?_) ?_
  · exact C07_unbound_tokens_pass m _ (by intro t ht; simp at ht; subst ht; simp [Passive])
  · exact C07_unbound_tokens_pass m _ (by intro t ht; simp at ht; subst ht; simp [Passive])
  · exact .cond (body := [(.word, a)]) (ts := []) rfl rfl (.tok (by simp) (by simp) (by simp) .nil) .nil

end Mitex
