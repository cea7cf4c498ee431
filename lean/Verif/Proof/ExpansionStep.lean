/-
One round of the macro engine is one rewriting step of Spec/Expansion, and every text that is not yet read can be
rewritten or makes the engine panic.
-/
import Verif.Proof.Expansion

namespace Mitex
open TokStream

theorem identify_env_defines {b : Bool} {s : List Tok} {r : Option (Text × Macro)} {rest : List Tok}
    (h : DefinesEnv s r rest) (x : Tok) (out : List Tok) :
    identifyUpdate (.newEnvironment b) (⟨x :: s, out⟩ : LCtx) =
      .ok (r.map fun p => (p.1, if b then .renew else .new, p.2), ⟨rest, out⟩) := by
  unfold identifyUpdate
  cases h with
  | unnamed h => rw [readDeclName_env_named h]; rfl
  | unfinished h hh => rw [readDeclName_env_named h]; simp only [Option.map_some, readNArgs_header hh]; rfl
  | over h hh =>
    rw [readDeclName_env_named h]
    simp only [Option.map_some, readNArgs_header hh, finishUpdate, lctx_peek, List.head?_nil]
    rfl
  | @noEnd w s1 n o b st t rest h hh hm ht =>
    rw [readDeclName_env_named h]
    simp only [Option.map_some, readNArgs_header hh, finishUpdate, lctx_peek, List.head?_cons,
      processMacroDef_marked hm, if_neg ht]
    rfl
  | @defines w s1 n o b st l s2 b' st' rest h hh hl hg hm hm' =>
    rw [readDeclName_env_named h]
    simp only [Option.map_some, readNArgs_header hh, finishUpdate, lctx_peek, List.head?_cons, if_pos hl, lctx_next,
      List.tail_cons, readUntilBalanced_group hg, processMacroDef_marked hm, processMacroDef_marked hm']

theorem identify_env_bad {b : Bool} {s : List Tok} (h : BadEnv s) (x : Tok) (out : List Tok) :
    identifyUpdate (.newEnvironment b) (⟨x :: s, out⟩ : LCtx) = .error .panic := by
  unfold identifyUpdate
  cases h with
  | @begin_ w s1 n o b t rest h hh hm =>
    rw [readDeclName_env_named h]
    simp only [Option.map_some, readNArgs_header hh, finishUpdate, lctx_peek, List.head?_cons, processMacroDef_mark hm]
  | @end_ w s1 n o b l s2 b' rest h hh hl hg hm =>
    rw [readDeclName_env_named h]
    simp only [Option.map_some, readNArgs_header hh, finishUpdate, lctx_peek, List.head?_cons, if_pos hl, lctx_next,
      List.tail_cons, readUntilBalanced_group hg, processMacroDef_mark hm]
    cases hb : processMacroDef b with
    | ok st => rfl
    | error e => rw [(processMacroDef_error hb).1]

theorem finishUpdate_cmd {d : DeclareCmdOrEnv} (hd : envDef d = false) (name : Text) (n : Nat) (opt : Option (List Tok))
    (body : List Tok) (c : LCtx) : finishUpdate d name n opt body c =
      match processMacroDef body with
      | .error x => .error x
      | .ok body => .ok (some (name, declAction d, .cmd name n opt body), c) := by
  cases d with
  | newEnvironment b => cases hd
  | newCommand b => cases b <;> rfl
  | _ => rfl

theorem identify_cmd_defines {d : DeclareCmdOrEnv} (hd : envDef d = false) {s : List Tok} {r : Option (Text × Macro)}
    {rest : List Tok} (h : Defines s r rest) (x : Tok) (out : List Tok) :
    identifyUpdate d (⟨x :: s, out⟩ : LCtx) = .ok (r.map fun p => (p.1, declAction d, p.2), ⟨rest, out⟩) := by
  unfold identifyUpdate
  cases h with
  | unnamed h => rw [readDeclName_cmd_named hd h]; rfl
  | unfinished h hh =>
    rw [readDeclName_cmd_named hd h]
    simp only [stripBackslash, readNArgs_header hh]
    rfl
  | @defines k name s1 n o b st rest h hh hm =>
    rw [readDeclName_cmd_named hd h]
    simp only [stripBackslash, readNArgs_header hh, finishUpdate_cmd hd, processMacroDef_marked hm]
    rfl

theorem stripBackslash_bad {t : Text} (h : t.head? ≠ some '\\') : stripBackslash t = .error .panic := by
  unfold stripBackslash
  split
  · exact absurd rfl h
  · rfl

theorem identify_cmd_bad {d : DeclareCmdOrEnv} (hd : envDef d = false) {s : List Tok} (h : BadDefn s) (x : Tok)
    (out : List Tok) : identifyUpdate d (⟨x :: s, out⟩ : LCtx) = .error .panic := by
  unfold identifyUpdate
  cases h with
  | @name k txt s1 h ht =>
    rw [readDeclName_cmd_named hd h]
    simp only [stripBackslash_bad ht]
  | @text k name s1 n o b rest h hh hm =>
    rw [readDeclName_cmd_named hd h]
    simp only [stripBackslash, readNArgs_header hh, finishUpdate_cmd hd, processMacroDef_mark hm]

theorem definesEnv_or_bad {s : List Tok} (hs : ∀ t ∈ s, StreamTokOk t) : (∃ r rest, DefinesEnv s r rest) ∨ BadEnv s := by
  obtain ⟨r, s1, h⟩ := named_exists true s
  cases r with
  | none => exact Or.inl ⟨_, _, .unnamed h⟩
  | some t =>
    have hw := (h.mem.2 t rfl).2
    obtain ⟨tk, w⟩ := t
    have hw : tk = .word := by simpa [NameTok] using hw
    subst hw
    obtain ⟨r, s2, hh⟩ := header_exists s1
    cases r with
    | none => exact Or.inl ⟨_, _, .unfinished h hh⟩
    | some r =>
      obtain ⟨n, o, b⟩ := r
      have hb : ∀ t ∈ b, StreamTokOk t := fun t ht => hs t (h.mem.1 t (hh.mem.2 n o b rfl t ht))
      have h2 : ∀ t ∈ s2, StreamTokOk t := fun t ht => hs t (h.mem.1 t (hh.mem.1 t ht))
      cases s2 with
      | nil => exact Or.inl ⟨_, _, .over h hh⟩
      | cons t s2 =>
        rcases marked_or_mark b hb with ⟨st, hm⟩ | hm
        · by_cases ht : t.1 = .left .curly
          · obtain ⟨b', rest, hg⟩ := group_exists .curly s2
            have hb' : ∀ t ∈ b', StreamTokOk t := fun t ht => h2 t (by simp [hg.mem.1 t ht])
            rcases marked_or_mark b' hb' with ⟨st', hm'⟩ | hm'
            · exact Or.inl ⟨_, _, .defines h hh ht hg hm hm'⟩
            · exact Or.inr (.end_ h hh ht hg hm')
          · exact Or.inl ⟨_, _, .noEnd h hh hm ht⟩
        · exact Or.inr (.begin_ h hh hm)

theorem defines_or_bad {s : List Tok} (hs : ∀ t ∈ s, StreamTokOk t) : (∃ r rest, Defines s r rest) ∨ BadDefn s := by
  obtain ⟨r, s1, h⟩ := named_exists false s
  cases r with
  | none => exact Or.inl ⟨_, _, .unnamed h⟩
  | some t =>
    have hw := (h.mem.2 t rfl).2
    obtain ⟨tk, w⟩ := t
    obtain ⟨k, hk⟩ : ∃ k, tk = .cmd k := by simpa [NameTok] using hw
    subst hk
    by_cases hbs : w.head? = some '\\'
    · obtain ⟨name, rfl⟩ : ∃ name, w = '\\' :: name := by
        cases w with
        | nil => cases hbs
        | cons c w => simp at hbs; exact ⟨w, by rw [hbs]⟩
      obtain ⟨r, s2, hh⟩ := header_exists s1
      cases r with
      | none => exact Or.inl ⟨_, _, .unfinished h hh⟩
      | some r =>
        obtain ⟨n, o, b⟩ := r
        have hb : ∀ t ∈ b, StreamTokOk t := fun t ht => hs t (h.mem.1 t (hh.mem.2 n o b rfl t ht))
        rcases marked_or_mark b hb with ⟨st, hm⟩ | hm
        · exact Or.inl ⟨_, _, .defines h hh hm⟩
        · exact Or.inr (.text h hh hm)
    · exact Or.inr (.name h hbs)

/-! ### The step -/

/-- The state of the engine is well formed. -/
def EngOk (e : Eng) (s : List Tok) : Prop := TableInv StreamTokOk e.macros ∧ ∀ t ∈ s, StreamTokOk t

theorem tokInv_ok : TokInv StreamTokOk where
  err t := ⟨fun h => (by cases h), fun h => (by cases h), fun h => (by cases h)⟩
  fi := ⟨fun h => (by cases h), fun h => (by cases h), fun h => (by cases h)⟩
  char w c _ _ := ⟨fun _ => by simp, fun h => (by cases h), fun h => (by cases h)⟩
  suf a b _ hb := ⟨fun _ => hb, fun h => (by cases h), fun h => (by cases h)⟩
  leak := Or.inl fun d h h1 _ _ => ⟨fun h => (by cases h), fun h => (by cases h), fun e => by cases e; omega⟩

theorem bodyTok_ok {t : Tok} (h : BodyTok StreamTokOk t) : StreamTokOk t := by
  rcases h with h | ⟨d, h, h1, h2, _, rfl⟩
  · exact h
  · exact ⟨fun h => (by cases h), fun h => (by cases h), fun e => by cases e; omega⟩

theorem applyUpdate_cmd {d : DeclareCmdOrEnv} (hd : envDef d = false) (e : Eng) (rest out : List Tok) (name : Text) (v : Macro) :
    applyUpdate e (⟨rest, out⟩ : LCtx) name (declAction d) v =
      (⟨if stores d (e.macros name) then bindName e.macros name v else e.macros, e.ifs⟩,
        ⟨rest, out ++ if reports d (e.macros name) then [(.error, name)] else []⟩) := by
  have hb : e.macros.insert name v = bindName e.macros name v := rfl
  cases d with
  | newEnvironment b => cases hd
  | newCommand b =>
    cases b <;> simp only [applyUpdate, declAction, stores, reports, hb, if_true]
    · cases e.macros name <;> simp
    · cases e.macros name <;> simp
  | provideCommand =>
    simp only [applyUpdate, declAction, stores, reports, hb]
    cases e.macros name <;> simp
  | declareRobust =>
    simp only [applyUpdate, declAction, stores, reports, hb, if_true]
    cases e.macros name <;> simp

theorem applyUpdate_env (b : Bool) (e : Eng) (rest out : List Tok) (name : Text) (v : Macro) :
    applyUpdate e (⟨rest, out⟩ : LCtx) name (if b then .renew else .new) v =
      (⟨if stores (.newEnvironment b) (e.macros name) then bindName e.macros name v else e.macros, e.ifs⟩,
        ⟨rest, out ++ if reports (.newEnvironment b) (e.macros name) then [(.error, name)] else []⟩) := by
  have hb : e.macros.insert name v = bindName e.macros name v := rfl
  cases b <;> simp only [applyUpdate, stores, reports, hb, if_true, Bool.false_eq_true, if_false]
  · cases e.macros name <;> simp
  · cases e.macros name <;> simp

theorem not_definesEnv {d : DeclareCmdOrEnv} (h : ¬ definesEnvironments d) : envDef d = false := by
  cases d <;> first | rfl | exact absurd trivial h

theorem engStep_cmd (e : Eng) (c : LCtx) (name : Text) :
    engStep e c (cmdTok name) = trappedByMacro e c (cmdTok name) name false := by
  simp only [engStep, cmdTok, dropBytes_backslash]

theorem engStep_begin (e : Eng) (c : LCtx) (name : Text) :
    engStep e c (.cmd .beginEnv, name) = trappedByMacro e c (.cmd .beginEnv, name) name true := rfl

theorem rewrites_step {e e' : Eng} {s s' o : List Tok} (h : Rewrites e s e' s' o) (hok : EngOk e s) (out : List Tok) :
    ∃ t r, s = t :: r ∧ engStep e (⟨s, out⟩ : LCtx) t = .ok (e', ⟨s', out ++ o⟩) := by
  cases h with
  | @ordinary _ t s h =>
    refine ⟨t, s', rfl, ?_⟩
    obtain ⟨h1, h2, h3, h4, h5⟩ := h
    obtain ⟨k, x⟩ := t
    unfold engStep
    split
    · rename_i i hi; exact absurd hi (h5 i)
    · rename_i hi; exact absurd hi h3
    · rename_i hi; exact absurd hi h4
    · rename_i hi; exact absurd hi h1
    · rename_i hi; exact absurd hi h2
    · simp
  | @handedOn _ t s h =>
    refine ⟨t, s', rfl, ?_⟩
    cases h with
    | unbound h => rw [engStep_cmd]; simp [trappedByMacro, h]
    | isEnv h => rw [engStep_cmd]; simp [trappedByMacro, h]
    | reserved h => rw [engStep_cmd]; simp [trappedByMacro, h]
    | beginUnbound h => rw [engStep_begin]; simp [trappedByMacro, h]
    | beginCmd h => rw [engStep_begin]; simp [trappedByMacro, h]
    | @beginDeclare name d h => rw [engStep_begin]; cases d <;> simp [trappedByMacro, h]
  | @cif m ifs i x s =>
    refine ⟨_, _, rfl, ?_⟩
    simp only [engStep, trappedByIf]
    cases i <;> simp [opened]
  | @elseSkips m ifs x s s' h =>
    refine ⟨_, _, rfl, ?_⟩
    simp only [engStep, trappedByElse, lctx_next, List.tail_cons, skipFalse_skipped h, List.append_nil]
  | @elseSkipsTypst m ifs x s s' h =>
    refine ⟨_, _, rfl, ?_⟩
    simp only [engStep, trappedByElse, lctx_next, List.tail_cons, skipFalse_skipped h, List.append_nil]
  | elseAgain => exact ⟨_, _, rfl, by simp [engStep, trappedByElse]⟩
  | elseAgainTypst => exact ⟨_, _, rfl, by simp [engStep, trappedByElse]⟩
  | elseOfFalse => exact ⟨_, _, rfl, by simp [engStep, trappedByElse, fiTok]⟩
  | @elseUndecided m ifs x s h =>
    refine ⟨_, _, rfl, ?_⟩
    rcases ifs with _ | ⟨c, ifs⟩
    · simp [engStep, trappedByElse]
    · rcases h with h | h
      · cases h
      · simp at h; subst h; simp [engStep, trappedByElse]
  | fiDecided h =>
    refine ⟨_, _, rfl, ?_⟩
    rcases h with rfl | rfl <;> simp [engStep, trappedByEndif]
  | @fiOther m ifs c x s h =>
    refine ⟨_, _, rfl, ?_⟩
    rcases c with _ | c
    · simp [engStep, trappedByEndif]
    · cases c <;> first | exact absurd rfl h.1 | exact absurd rfl h.2 | simp [engStep, trappedByEndif]
  | fiStray => exact ⟨_, _, rfl, by simp [engStep, trappedByEndif]⟩
  | @define _ cmd d s name v s' h hd =>
    refine ⟨_, _, rfl, ?_⟩
    rw [engStep_cmd]
    simp only [trappedByMacro, h, Bool.false_eq_true, if_false]
    rcases hd with ⟨h1, hd⟩ | ⟨h1, hd⟩
    · cases d with
      | newEnvironment b =>
        rw [identify_env_defines hd]
        simp only [Option.map_some, applyUpdate_env]
      | _ => exact absurd h1 (by simp [definesEnvironments])
    · rw [identify_cmd_defines (not_definesEnv h1) hd]
      simp only [Option.map_some, applyUpdate_cmd (not_definesEnv h1)]
  | @broken _ cmd d s s' h hd =>
    refine ⟨_, _, rfl, ?_⟩
    rw [engStep_cmd]
    simp only [trappedByMacro, h, Bool.false_eq_true, if_false]
    rcases hd with ⟨h1, hd⟩ | ⟨h1, hd⟩
    · cases d with
      | newEnvironment b =>
        rw [identify_env_defines hd]
        simp
      | _ => exact absurd h1 (by simp [definesEnvironments])
    · rw [identify_cmd_defines (not_definesEnv h1) hd]
      simp
  | @call _ name nm n o b s as s' out' h ha hf =>
    refine ⟨_, _, rfl, ?_⟩
    have hb : ∀ t ∈ b, StreamTokOk t := fun t ht => bodyTok_ok ((hok.1 name _ h).2.2 t ht)
    rw [engStep_cmd]
    simp only [trappedByMacro, h, Bool.false_eq_true, if_false, lctx_next, List.tail_cons, readMacroArgs_some ha,
      expandTokens_filled hf hb, lctx_push, List.append_nil]
  | badCall h ha =>
    refine ⟨_, _, rfl, ?_⟩
    rw [engStep_cmd]
    simp only [trappedByMacro, h, Bool.false_eq_true, if_false, lctx_next, List.tail_cons, readMacroArgs_none ha]
    rfl
  | @env _ name nm n o b d s as s1 body x s2 ob od h ha hb hx hf hg =>
    refine ⟨_, _, rfl, ?_⟩
    have h1 : ∀ t ∈ b, StreamTokOk t := fun t ht => bodyTok_ok ((hok.1 name _ h).2.2.1 t ht)
    have h2 : ∀ t ∈ d, StreamTokOk t := fun t ht => bodyTok_ok ((hok.1 name _ h).2.2.2 t ht)
    rw [engStep_begin]
    simp only [trappedByMacro, h, Bool.not_true, Bool.false_eq_true, if_false, lctx_next, List.tail_cons, readMacroArgs_some ha,
      readEnvBody_body hb, if_pos hx, expandTokens_filled hf h1, expandTokens_filled hg h2, lctx_push, List.append_nil]
  | badEnvCall h ha =>
    refine ⟨_, _, rfl, ?_⟩
    rw [engStep_begin]
    simp only [trappedByMacro, h, Bool.not_true, Bool.false_eq_true, if_false, lctx_next, List.tail_cons, readMacroArgs_none ha]
    rfl
  | envUnmatched h ha hb hx =>
    refine ⟨_, _, rfl, ?_⟩
    rw [engStep_begin]
    simp only [trappedByMacro, h, Bool.not_true, Bool.false_eq_true, if_false, lctx_next, List.tail_cons, readMacroArgs_some ha,
      readEnvBody_body hb, if_neg hx]
    rfl
  | envUnclosed h ha hb =>
    refine ⟨_, _, rfl, ?_⟩
    rw [engStep_begin]
    simp only [trappedByMacro, h, Bool.not_true, Bool.false_eq_true, if_false, lctx_next, List.tail_cons, readMacroArgs_some ha,
      readEnvBody_body hb, List.append_nil]

theorem panics_step {e : Eng} {s : List Tok} (h : Panics e s) (out : List Tok) :
    ∃ t r, s = t :: r ∧ engStep e (⟨s, out⟩ : LCtx) t = .error .panic := by
  obtain ⟨cmd, d, s', rfl, h, hd⟩ := h
  refine ⟨_, _, rfl, ?_⟩
  rw [engStep_cmd]
  simp only [trappedByMacro, h, Bool.false_eq_true, if_false]
  rcases hd with ⟨h1, hd⟩ | ⟨h1, hd⟩
  · cases d with
    | newEnvironment b => rw [identify_env_bad hd]
    | _ => exact absurd h1 (by simp [definesEnvironments])
  · rw [identify_cmd_bad (not_definesEnv h1) hd]

theorem body_exists (s : List Tok) : ∃ b rest, Body s b rest := ⟨_, _, scan_upto _ _ _ s⟩

theorem rewrites_or_panics {e : Eng} {t : Tok} {s : List Tok} (hok : EngOk e (t :: s)) :
    (∃ e' s' o, Rewrites e (t :: s) e' s' o) ∨ Panics e (t :: s) := by
  have hs : ∀ t ∈ s, StreamTokOk t := fun x hx => hok.2 x (by simp [hx])
  by_cases ho : Ordinary t
  · exact Or.inl ⟨_, _, _, .ordinary ho⟩
  obtain ⟨m, ifs⟩ := e
  obtain ⟨k, x⟩ := t
  by_cases hif : ∃ i, k = .cmd (.cif i)
  · obtain ⟨i, rfl⟩ := hif
    exact Or.inl ⟨_, _, _, .cif⟩
  by_cases hel : k = .cmd .celse
  · subst hel
    obtain ⟨s', hs'⟩ := skipped_exists s
    rcases ifs with _ | ⟨_ | c, ifs⟩
    · exact Or.inl ⟨_, _, _, .elseUndecided (Or.inl rfl)⟩
    · exact Or.inl ⟨_, _, _, .elseUndecided (Or.inr rfl)⟩
    · cases c
      · exact Or.inl ⟨_, _, _, .elseOfFalse⟩
      · exact Or.inl ⟨_, _, _, .elseSkipsTypst hs'⟩
      · exact Or.inl ⟨_, _, _, .elseAgainTypst⟩
      · exact Or.inl ⟨_, _, _, .elseAgain⟩
      · exact Or.inl ⟨_, _, _, .elseSkips hs'⟩
  by_cases hfi : k = .cmd .endIf
  · subst hfi
    rcases ifs with _ | ⟨c, ifs⟩
    · exact Or.inl ⟨_, _, _, .fiStray⟩
    · by_cases h : c = some .isTrue ∨ c = some .isFalse
      · exact Or.inl ⟨_, _, _, .fiDecided h⟩
      · exact Or.inl ⟨_, _, _, .fiOther ⟨fun e => h (Or.inl e), fun e => h (Or.inr e)⟩⟩
  by_cases hg : k = .cmd .generic
  · subst hg
    obtain ⟨name, hn⟩ := (hok.2 _ (List.mem_cons_self ..)).2.1 rfl
    simp only at hn
    subst hn
    have ec : ((Token.cmd .generic, '\\' :: name) : Tok) = cmdTok name := rfl
    rw [ec]
    cases hm : m name with
    | none => exact Or.inl ⟨_, _, _, .handedOn (.unbound hm)⟩
    | some v =>
      cases v with
      | env nm n o b d => exact Or.inl ⟨_, _, _, .handedOn (.isEnv hm)⟩
      | declare d =>
        cases d with
        | unimplemented => exact Or.inl ⟨_, _, _, .handedOn (.reserved hm)⟩
        | cmdOrEnv d =>
          by_cases hd : definesEnvironments d
          · rcases definesEnv_or_bad hs with ⟨r, rest, h⟩ | h
            · cases r with
              | none => exact Or.inl ⟨_, _, _, .broken hm (Or.inl ⟨hd, h⟩)⟩
              | some r => exact Or.inl ⟨_, _, _, .define hm (Or.inl ⟨hd, h⟩)⟩
            · exact Or.inr ⟨_, _, _, rfl, hm, Or.inl ⟨hd, h⟩⟩
          · rcases defines_or_bad hs with ⟨r, rest, h⟩ | h
            · cases r with
              | none => exact Or.inl ⟨_, _, _, .broken hm (Or.inr ⟨hd, h⟩)⟩
              | some r => exact Or.inl ⟨_, _, _, .define hm (Or.inr ⟨hd, h⟩)⟩
            · exact Or.inr ⟨_, _, _, rfl, hm, Or.inr ⟨hd, h⟩⟩
      | cmd nm n o b =>
        obtain ⟨r, rest, hc⟩ := called_exists n o s
        cases r with
        | none => exact Or.inl ⟨_, _, _, .badCall hm hc⟩
        | some as =>
          obtain ⟨out, hf⟩ := filled_exists as _ b (Nat.le_refl _) (fun t ht => bodyTok_ok ((hok.1 name _ hm).2.2 t ht))
          exact Or.inl ⟨_, _, _, .call hm hc hf⟩
  by_cases hb : k = .cmd .beginEnv
  · subst hb
    cases hm : m x with
    | none => exact Or.inl ⟨_, _, _, .handedOn (.beginUnbound hm)⟩
    | some v =>
      cases v with
      | cmd nm n o b => exact Or.inl ⟨_, _, _, .handedOn (.beginCmd hm)⟩
      | declare d => exact Or.inl ⟨_, _, _, .handedOn (.beginDeclare hm)⟩
      | env nm n o b d =>
        obtain ⟨r, s1, hc⟩ := called_exists n o s
        cases r with
        | none => exact Or.inl ⟨_, _, _, .badEnvCall hm hc⟩
        | some as =>
          obtain ⟨body, rest, hbd⟩ := body_exists s1
          cases rest with
          | nil => exact Or.inl ⟨_, _, _, .envUnclosed hm hc hbd⟩
          | cons u s2 =>
            have hu : u.1 = .cmd .endEnv := by
              rcases hbd.ends with h | ⟨t, r, h, h', _⟩
              · cases h
              · cases h; simpa [closesEnv] using h'
            obtain ⟨uk, ux⟩ := u
            simp only at hu
            subst hu
            by_cases hx : ux = nm
            · obtain ⟨ob, hf⟩ := filled_exists as _ b (Nat.le_refl _) (fun t ht => bodyTok_ok ((hok.1 x _ hm).2.2.1 t ht))
              obtain ⟨od, hg'⟩ := filled_exists as _ d (Nat.le_refl _) (fun t ht => bodyTok_ok ((hok.1 x _ hm).2.2.2 t ht))
              exact Or.inl ⟨_, _, _, .env hm hc hbd hx hf hg'⟩
            · exact Or.inl ⟨_, _, _, .envUnmatched hm hc hbd hx⟩
  exact absurd ⟨hg, hb, hel, hfi, fun i hi => hif ⟨i, hi⟩⟩ ho

theorem rewrites_ok {e e' : Eng} {s s' o : List Tok} (h : Rewrites e s e' s' o) (hok : EngOk e s) : EngOk e' s' := by
  obtain ⟨t, r, rfl, hs⟩ := rewrites_step h hok []
  have := (engStep_inv tokInv_ok (c := ⟨t :: r, []⟩) rfl hok.1 ⟨hok.2, by simp⟩).1 _ _ hs
  exact ⟨this.1, this.2.1⟩

/-- Exactness of one step. -/
theorem step_exact {e e' : Eng} {t : Tok} {s s' out out' : List Tok} (hok : EngOk e (t :: s)) :
    engStep e (⟨t :: s, out⟩ : LCtx) t = .ok (e', ⟨s', out'⟩) ↔ ∃ o, out' = out ++ o ∧ Rewrites e (t :: s) e' s' o := by
  constructor
  · intro h
    rcases rewrites_or_panics hok with ⟨e1, s1, o, hr⟩ | hp
    · obtain ⟨t', r', he, hs⟩ := rewrites_step hr hok out
      cases he
      rw [h] at hs
      cases hs
      exact ⟨o, rfl, hr⟩
    · obtain ⟨t', r', he, hs⟩ := panics_step hp out
      cases he
      rw [h] at hs
      cases hs
  · rintro ⟨o, rfl, hr⟩
    obtain ⟨t', r', he, hs⟩ := rewrites_step hr hok out
    cases he
    exact hs

theorem step_panics {e : Eng} {t : Tok} {s out : List Tok} {x : Stop} (hok : EngOk e (t :: s)) :
    engStep e (⟨t :: s, out⟩ : LCtx) t = .error x ↔ x = .panic ∧ Panics e (t :: s) := by
  constructor
  · intro h
    rcases rewrites_or_panics hok with ⟨e1, s1, o, hr⟩ | hp
    · obtain ⟨t', r', he, hs⟩ := rewrites_step hr hok out
      cases he
      rw [h] at hs
      cases hs
    · obtain ⟨t', r', he, hs⟩ := panics_step hp out
      cases he
      rw [h] at hs
      cases hs
      exact ⟨rfl, hp⟩
  · rintro ⟨rfl, hp⟩
    obtain ⟨t', r', he, hs⟩ := panics_step hp out
    cases he
    exact hs

end Mitex
