/-
The grammar on rows finds every tree of the grammar.
-/
import Verif.Proof.GrammarRel

namespace Mitex
namespace Grammar

theorem Le.ok {α : Type} {r r' : Res α} {a : α} (h : Le r r') (e : r = .ok a) : r' = .ok a := by
  rw [h (by rw [e]; exact fun h => (by cases h)), e]

theorem lift_content {env : PEnv} {n : Nat} (m : Nat) {sc : Scope} {one : Bool} {r : Row} {ts : List Tok} {v : Bool × Row × List Tok}
    (e : gContent env n sc one r ts = .ok v) (h : n ≤ m) : gContent env m sc one r ts = .ok v :=
  (content_mono env n m h sc one r ts).ok e

theorem lift_items {env : PEnv} {n i : Nat} (m j : Nat) {sc : Scope} {stop : List Token} {r : Row} {ts : List Tok} {v : Row × List Tok}
    (e : gItems (gContent env n) sc stop i r ts = .ok v) (h : n ≤ m) (h' : i ≤ j) : gItems (gContent env m) sc stop j r ts = .ok v :=
  ((content_mono env n m h).items sc stop i j h' r ts).ok e

theorem lift_rest {env : PEnv} {n l i : Nat} (m k j : Nat) {sc : Scope} {r : Row} {ts : List Tok} {v : Row × List Tok}
    (e : gRest (gContent env n) l sc i r ts = .ok v) (h : n ≤ m) (hl : l ≤ k) (h' : i ≤ j) : gRest (gContent env m) k sc j r ts = .ok v :=
  ((content_mono env n m h).rest hl sc i j h' r ts).ok e

theorem lift_args {env : PEnv} {n l i : Nat} (m k j : Nat) {sc : Scope} {p : ArgPattern} {ks : List ArgKind} {ts : List Tok}
    {v : List Elem × List Tok × List Tok} (e : gArgs env.glob (gContent env n) l sc p i ks ts = .ok v) (h : n ≤ m) (hl : l ≤ k) (h' : i ≤ j) :
    gArgs env.glob (gContent env m) k sc p j ks ts = .ok v :=
  ((content_mono env n m h).args hl env.glob sc p i j h' ks ts).ok e

theorem lift_group {env : PEnv} {n i : Nat} (m j : Nat) {sc : Scope} {close : Token} {kind : Kind} {t : Tok} {ts : List Tok} {v : Elem × List Tok}
    (e : gGroup (gContent env n) i sc close kind t ts = .ok v) (h : n ≤ m) (h' : i ≤ j) :
    gGroup (gContent env m) j sc close kind t ts = .ok v :=
  ((content_mono env n m h).group h' sc close kind t ts).ok e

/-- An item is found. -/
def FoundItem (env : PEnv) (sc : Scope) (one : Bool) (r : Row) (ts : List Tok) (att : Bool) (r' : Row) (ts' : List Tok) : Prop :=
  ∃ n, gContent env n sc one r ts = .ok (att, r', ts')

/-- The items are found. -/
def FoundItems (env : PEnv) (sc : Scope) (stop : List Token) (r : Row) (ts : List Tok) (r' : Row) (ts' : List Tok) : Prop :=
  (∃ n, gItems (gContent env n) sc stop n r ts = .ok (r', ts')) ∧
    (stop = greedyEnders sc → ∃ n, gRest (gContent env n) n sc n r ts = .ok (r', ts'))

/-- The arguments are found. -/
def FoundArgs (env : PEnv) (sc : Scope) (p : ArgPattern) (ks : List ArgKind) (ts : List Tok) (args : List Elem) (blanks ts' : List Tok) : Prop :=
  ∃ n, gArgs env.glob (gContent env n) n sc p n ks ts = .ok (args, blanks, ts')

theorem content_succ {env : PEnv} (n : Nat) : gContent env (n + 1) = gBody env (gContent env n) n := rfl

theorem takeWhile_run {α : Type} {p : α → Bool} (run ts : List α) (hr : ∀ t ∈ run, p t = true) (he : ∀ t, ts.head? = some t → p t = false) :
    (run ++ ts).takeWhile p = run ∧ (run ++ ts).dropWhile p = ts := by
  induction run with
  | nil =>
    cases ts with
    | nil => exact ⟨rfl, rfl⟩
    | cons t ts =>
      have := he t rfl
      simp [this]
  | cons t run ih =>
    have h1 := hr t (by simp)
    have h2 := ih fun t ht => hr t (by simp [ht])
    simp [h1, h2.1, h2.2]

theorem found_single {env : PEnv} {sc : Scope} {one att : Bool} {r : Row} {k : Token} {x : Text} {ts : List Tok} (h : single k = some att)
    (n : Nat) : gContent env (n + 1) sc one r ((k, x) :: ts) = .ok (att, r.add [leafOf (k, x)], ts) := by
  rw [content_succ]
  unfold gBody
  cases k with
  | left b => cases b <;> first | (cases h; rfl) | (exact absurd h (by simp [single]))
  | right b => cases b <;> first | (cases h; rfl) | (exact absurd h (by simp [single]))
  | cmd c => cases c <;> first | (cases h; rfl) | (exact absurd h (by simp [single]))
  | _ => first | (cases h; rfl) | (exact absurd h (by simp [single]))

theorem found_command {env : PEnv} {sc : Scope} {one : Bool} {r : Row} {c : CommandName} {x : Text} {ts : List Tok} (h : isCommand c = true)
    (n : Nat) : gContent env (n + 1) sc one r ((.cmd c, x) :: ts) = gCommand env (gContent env n) n sc r (.cmd c, x) ts := by
  rw [content_succ]
  unfold gBody
  cases c with
  | cif i => cases i <;> first | rfl | (exact absurd h (by simp [isCommand]))
  | _ => first | rfl | (exact absurd h (by simp [isCommand]))

theorem gName_ok {k : Token} {name : Text} : gName (k, '\\' :: name) = .ok name := rfl

theorem FoundItems.more {env : PEnv} {sc : Scope} {stop : List Token} {r r1 r' : Row} {t : Tok} {att : Bool} {ts ts1 ts' : List Tok}
    (h : t.1 ∉ stop) (hi : FoundItem env sc false r (t :: ts) att r1 ts1)
    (hs : FoundItems env sc stop (if att then { r1 with last := some r.items.length } else r1) ts1 r' ts') :
    FoundItems env sc stop r (t :: ts) r' ts' := by
  obtain ⟨n, hn⟩ := hi
  obtain ⟨⟨m, hm⟩, hr⟩ := hs
  constructor
  · refine ⟨max n m + 1, ?_⟩
    rw [gItems.eq_def]
    dsimp only
    rw [if_neg h, lift_content (max n m + 1) hn (by omega)]
    exact lift_items _ _ hm (by omega) (by omega)
  · intro e
    subst e
    obtain ⟨m, hm⟩ := hr rfl
    refine ⟨max n m + 1, ?_⟩
    have hg := lift_rest (max n m + 1) (max n m + 1) (max n m) hm (by omega) (by omega) (by omega)
    obtain ⟨k, x⟩ := t
    cases n with
    | zero => cases hn
    | succ n =>
      by_cases hb : isBlank k = true
      · rw [found_single (single_blank hb)] at hn
        cases hn
        rw [gRest.eq_def]
        dsimp only
        rw [if_pos hb]
        exact hg
      · have hb : isBlank k = false := by simpa using hb
        by_cases hlf : ∃ b, k = .left b
        · obtain ⟨b, rfl⟩ := hlf
          rw [gRest.eq_def]
          dsimp only
          rw [if_neg (by rw [hb]; simp), if_neg h]
          cases b with
          | curly =>
            rw [content_succ] at hn
            unfold gBody at hn
            obtain ⟨⟨e, t1⟩, h1, h2⟩ := bind_inv hn
            cases h2
            dsimp only
            rw [lift_group _ _ h1 (by omega) (by omega)]
            exact hg
          | bracket =>
            rw [found_single (att := true) rfl] at hn
            cases hn
            exact hg
          | paren =>
            rw [found_single (att := true) rfl] at hn
            cases hn
            exact hg
        · rw [gRest_other hb h (fun b e => hlf ⟨b, e⟩), lift_content (max (n + 1) m + 1) hn (by omega)]
          exact hg

theorem FoundArgs.char {env : PEnv} {sc : Scope} {p : ArgPattern} {ks : List ArgKind} {c : Char} {cs : Text} {args : List Elem}
    {blanks ts ts' : List Tok} (h : takes env.glob p ks .term = true)
    (ha : FoundArgs env sc p (ks ++ [.term]) (restOfWord cs ts) args blanks ts') :
    FoundArgs env sc p ks ((.word, c :: cs) :: ts) (.node .clauseArgument [.token .tokenWord [c]] :: args) blanks ts' := by
  obtain ⟨n, hn⟩ := ha
  have hrob : rob env.glob p ks (c :: cs)
      = (.node .clauseArgument [.token .tokenWord [c]] :: (rob env.glob p (ks ++ [.term]) cs).1, (rob env.glob p (ks ++ [.term]) cs).2) := by
    rw [rob.eq_def]
    dsimp only
    rw [if_pos h]
  unfold restOfWord at hn
  by_cases hc : cs = []
  · subst hc
    rw [if_pos rfl] at hn
    refine ⟨n + 1, ?_⟩
    have hrob : rob env.glob p ks [c] = ([.node .clauseArgument [.token .tokenWord [c]]], [], ks ++ [.term]) := hrob
    rw [gArgs_word, hrob]
    rw [if_neg (by simp), if_neg (by simp)]
    rw [lift_args (n + 1) (n + 1) n hn (by omega) (by omega) (by omega)]
    rfl
  · rw [if_neg hc] at hn
    cases n with
    | zero => cases hn
    | succ n =>
      refine ⟨n + 1, ?_⟩
      rw [gArgs_word] at hn ⊢
      rw [hrob]
      dsimp only
      split at hn
      · rename_i hr
        cases hn
        rw [if_pos hr]
      · rename_i hr
        rw [if_neg hr, if_neg (by simp)]
        obtain ⟨⟨a1, b1, t1⟩, h1, h2⟩ := bind_inv hn
        cases h2
        rw [h1]
        rfl

theorem FoundArgs.over {env : PEnv} {sc : Scope} {p : ArgPattern} {ks : List ArgKind} {ts : List Tok}
    (h : ∀ t, ts.head? = some t → isBlank t.1 = false ∧ t ≠ (.word, []) ∧ argsOver env.glob sc p ks t.1 = true) :
    FoundArgs env sc p ks ts [] [] ts := by
  refine ⟨1, ?_⟩
  cases ts with
  | nil => rfl
  | cons t ts =>
    obtain ⟨hb, hw, ho⟩ := h t rfl
    obtain ⟨k, x⟩ := t
    dsimp only at hb ho
    unfold argsOver at ho
    rw [Bool.or_eq_true, decide_eq_true_eq, Bool.not_eq_true'] at ho
    by_cases hs : k ∈ [Token.ampersand, .caret, .underscore]
    · rw [gArgs.eq_def]
      dsimp only
      rw [if_neg (by rw [hb]; simp), if_pos hs]
    · by_cases hkw : k = .word
      · subst hkw
        have ht : takes env.glob p ks .term = false := by
          rcases ho with (h | h) | h
          · exact absurd h hs
          · exact absurd h (by cases sc <;> simp [enders])
          · exact h
        rw [gArgs_word]
        cases x with
        | nil => exact absurd rfl hw
        | cons c cs =>
          have : rob env.glob p ks (c :: cs) = ([], c :: cs, ks) := by
            rw [rob.eq_def]
            dsimp only
            rw [if_neg (by rw [ht]; simp)]
          rw [this]
          rw [if_pos (by simp)]
      · by_cases hlf : ∃ b, k = .left b
        · obtain ⟨b, rfl⟩ := hlf
          have ht : takes env.glob p ks (argGrouping b).1 = false := by
            rcases ho with (h | h) | h
            · exact absurd h hs
            · exact absurd h (by cases sc <;> simp [enders])
            · exact h
          rw [gArgs.eq_def]
          dsimp only
          rw [if_neg (by rw [hb]; simp), if_neg hs, if_neg (by rw [ht]; simp)]
        · have hnl : ∀ b, k ≠ .left b := fun b e => hlf ⟨b, e⟩
          have hak : argKindOf k = .term := by
            cases k <;> first | rfl | exact absurd rfl (hnl _)
          rw [gArgs_other hb hs hkw hnl]
          rw [hak] at ho
          split
          · rfl
          · rename_i he
            have ht : takes env.glob p ks .term = false := by
              rcases ho with (h | h) | h
              · exact absurd h hs
              · exact absurd h he
              · exact h
            rw [if_neg (by rw [ht]; simp)]

theorem found {env : PEnv} {sc : Scope} {stop : List Token} {r : Row} {ts : List Tok} {r' : Row} {ts' : List Tok}
    (h : Items env sc stop r ts r' ts') : FoundItems env sc stop r ts r' ts' := by
  refine @Items.rec env (fun sc one r ts att r' ts' _ => FoundItem env sc one r ts att r' ts')
    (fun sc stop r ts r' ts' _ => FoundItems env sc stop r ts r' ts') (fun sc p ks ts args blanks ts' _ => FoundArgs env sc p ks ts args blanks ts')
    ?over ?single ?misplaced ?text ?char ?noChar ?group ?environment ?environmentArgs ?delimited ?block ?blockOpen ?symbol ?command ?greedy
    ?post ?inf ?prime ?apostrophe ?script ?iover ?imore ?aover ?ablank ?achar ?agroup ?abracket ?aitem sc stop r ts r' ts' h
  case over => intros; exact ⟨1, rfl⟩
  case single => intro _ _ _ _ _ _ _ h; exact ⟨1, found_single h 0⟩
  case misplaced =>
    intro _ _ _ k _ _ h
    refine ⟨1, ?_⟩
    rw [content_succ]
    unfold gBody
    cases k with
    | right b => cases b <;> first | rfl | cases h
    | cmd c => cases c <;> first | rfl | cases h
    | _ => first | rfl | cases h
  case text =>
    intro sc one r k x run ts h hr he
    refine ⟨1, ?_⟩
    have := takeWhile_run (p := fun t : Tok => isTextPart t.1) run ts hr he
    have ht : gText r (k, x) (run ++ ts) = (r.add [.node .itemText (((k, x) :: run).map leafOf)], ts) := by
      unfold gText
      rw [this.1, this.2]
    rw [content_succ]
    unfold gBody
    rcases h with rfl | ⟨rfl, rfl⟩
    · exact congrArg (fun q => Except.ok (true, q)) ht
    · exact congrArg (fun q => Except.ok (true, q)) ht
  case char => intros; exact ⟨1, rfl⟩
  case noChar => intros; exact ⟨1, rfl⟩
  case group =>
    intro sc sc' one att r r' k close kind x ts ts' h _ ih
    obtain ⟨⟨n, hn⟩, -⟩ := ih
    refine ⟨n + 1, ?_⟩
    rw [content_succ]
    unfold gBody
    have hg : gGroup (gContent env n) n sc' close kind (k, x) ts
        = .ok (.node kind (r'.items ++ (closing close ts').1), (closing close ts').2) := by
      unfold gGroup
      rw [hn]
      rfl
    cases k with
    | left b =>
      cases b with
      | curly => cases h; dsimp only; rw [hg]; rfl
      | _ => cases h
    | cmd c =>
      cases c with
      | beginMath => cases h; dsimp only; rw [hg]; rfl
      | _ => cases h
    | dollar => cases h; dsimp only; rw [hg]; rfl
    | _ => cases h
  case environment =>
    intro sc one r r' x ts ts' h _ ih
    obtain ⟨⟨n, hn⟩, -⟩ := ih
    refine ⟨n + 1, ?_⟩
    rw [content_succ]
    unfold gBody
    dsimp only
    unfold gEnvironment
    dsimp only
    rw [h]
    dsimp only
    rw [hn]
    rfl
  case environmentArgs =>
    intro sc one r r' p x args blanks ts ts1 ts' h hp _ _ iha ihi
    obtain ⟨n, hn⟩ := iha
    obtain ⟨⟨m, hm⟩, -⟩ := ihi
    refine ⟨max n m + 1, ?_⟩
    rw [content_succ]
    unfold gBody
    dsimp only
    unfold gEnvironment
    dsimp only
    rw [h]
    dsimp only
    rw [if_neg hp, lift_args (max n m) (max n m) (max n m) hn (by omega) (by omega) (by omega)]
    show flagged true (gItems _ _ _ _ _ _ >>= _) = _
    rw [lift_items (max n m) (max n m) hm (by omega) (by omega)]
    rfl
  case delimited =>
    intro sc one r r' x ts ts' _ ih
    obtain ⟨⟨n, hn⟩, -⟩ := ih
    refine ⟨n + 1, ?_⟩
    rw [content_succ]
    unfold gBody
    dsimp only
    unfold gDelimited
    rw [hn]
    rfl
  case block =>
    intro sc one r i kind x y body ts h hb
    refine ⟨1, ?_⟩
    have := block_of_closed y ts hb
    rw [content_succ]
    unfold gBody
    rcases h with e | e <;> cases e <;> dsimp only <;> rw [this]
  case blockOpen =>
    intro sc one r i kind x body h hb
    refine ⟨1, ?_⟩
    have := block_of_open hb
    rw [content_succ]
    unfold gBody
    rcases h with e | e <;> cases e <;> dsimp only <;> rw [this]
  case symbol =>
    intro sc one r n name ts hn h
    refine ⟨1, ?_⟩
    rw [found_command hn]
    unfold gCommand
    rw [gName_ok, ok_bind]
    rw [h]
  case command =>
    intro sc one r c name p args blanks ts ts' hc h h1 h2 _ ih
    obtain ⟨n, hn⟩ := ih
    refine ⟨n + 1, ?_⟩
    rw [found_command hc]
    unfold gCommand
    rw [gName_ok, ok_bind]
    rw [h]
    cases p with
    | none => exact absurd rfl h1
    | greedy => exact absurd rfl h2
    | fixedLen _ => dsimp only; rw [hn]; rfl
    | rangeLen _ _ => dsimp only; rw [hn]; rfl
    | glob _ => dsimp only; rw [hn]; rfl
  case greedy =>
    intro sc one r r' c name ts ts' hc h _ ih
    obtain ⟨n, hn⟩ := ih.2 rfl
    refine ⟨n + 1, ?_⟩
    rw [found_command hc]
    unfold gCommand
    rw [gName_ok, ok_bind]
    rw [h]
    dsimp only
    rw [hn]
    rfl
  case post =>
    intro sc one r c name kept arg ts hc h ho
    refine ⟨1, ?_⟩
    rw [found_command hc]
    unfold gCommand
    rw [gName_ok, ok_bind]
    rw [h]
    dsimp only
    rw [ho]
  case inf =>
    intro sc one r r' c name kept arg ts ts' hc h ho _ ih
    obtain ⟨n, hn⟩ := ih.2 rfl
    refine ⟨n + 1, ?_⟩
    rw [found_command hc]
    unfold gCommand
    rw [gName_ok, ok_bind]
    rw [h]
    dsimp only
    rw [ho]
    dsimp only
    rw [hn]
    rfl
  case prime =>
    intro sc one r x kept arg ts hl ho
    refine ⟨1, ?_⟩
    rw [content_succ]
    unfold gBody
    dsimp only
    unfold gPrime
    rw [if_neg hl, ho]
    rfl
  case apostrophe =>
    intro sc one r x ts hl
    refine ⟨1, ?_⟩
    rw [content_succ]
    unfold gBody
    dsimp only
    unfold gPrime
    rw [if_pos hl]
    rfl
  case script =>
    intro sc one att r r' k x kept arg blanks ts ts' hk ho hb he _ ih
    obtain ⟨n, hn⟩ := ih
    refine ⟨n + 1, ?_⟩
    have := takeWhile_run (p := fun t : Tok => isBlank t.1) blanks ts hb he
    have hs : flagged false (gScript (gContent env n) sc r (k, x) (blanks ++ ts))
        = .ok (false, Row.leave kept.length r' (kept ++ [.node .itemAttachComponent r'.items]), ts') := by
      unfold gScript
      rw [ho]
      dsimp only
      rw [this.1, this.2, hn]
      rfl
    rw [content_succ]
    unfold gBody
    rcases hk with rfl | rfl
    · exact hs
    · exact hs
  case iover =>
    intro sc stop r ts h
    have : ∀ n, gItems (gContent env (n + 1)) sc stop (n + 1) r ts = .ok (r, ts) := by
      intro n
      rw [gItems.eq_def]
      cases ts with
      | nil => rfl
      | cons t ts => dsimp only; rw [if_pos (h t rfl)]
    refine ⟨⟨1, this 0⟩, fun e => ⟨1, ?_⟩⟩
    subst e
    rw [gRest.eq_def]
    cases ts with
    | nil => rfl
    | cons t ts =>
      dsimp only
      have := h t rfl
      rw [if_neg (fun hb => notEnder_blank sc hb this), if_pos this]
  case imore => intro _ _ _ _ _ _ _ _ _ _ h _ _ hi hs; exact FoundItems.more h hi hs
  case aover => intro _ _ _ _ h; exact FoundArgs.over h
  case ablank =>
    intro sc p ks t args blanks ts ts' h _ ih
    obtain ⟨n, hn⟩ := ih
    refine ⟨n + 1, ?_⟩
    rw [gArgs.eq_def]
    dsimp only
    rw [if_pos h, lift_args (n + 1) (n + 1) n hn (by omega) (by omega) (by omega)]
    rfl
  case achar => intro _ _ _ _ _ _ _ _ _ h _ ih; exact FoundArgs.char h ih
  case agroup =>
    intro sc p ks b x r' args blanks ts ts1 ts' hs h _ _ ihi iha
    obtain ⟨⟨n, hn⟩, -⟩ := ihi
    obtain ⟨m, hm⟩ := iha
    refine ⟨max n m + 1, ?_⟩
    rw [gArgs.eq_def]
    dsimp only
    rw [if_neg (by simp [isBlank]), if_neg (by simp), if_pos h, if_pos hs]
    unfold gGroup
    rw [lift_items (max n m + 1) (max n m + 1) hn (by omega) (by omega)]
    show (gArgs _ _ _ _ _ _ _ _ >>= _) = _
    rw [lift_args (max n m + 1) (max n m + 1) (max n m) hm (by omega) (by omega) (by omega)]
    rfl
  case abracket =>
    intro sc p ks b x args blanks ts ts' hs h _ iha
    obtain ⟨m, hm⟩ := iha
    refine ⟨m + 1, ?_⟩
    rw [gArgs.eq_def]
    dsimp only
    rw [if_neg (by simp [isBlank]), if_neg (by simp), if_pos h, if_neg (by rw [hs]; simp)]
    show (gArgs _ _ _ _ _ _ _ _ >>= _) = _
    rw [lift_args (m + 1) (m + 1) m hm (by omega) (by omega) (by omega)]
    rfl
  case aitem =>
    intro sc p ks k x att r' args blanks ts ts1 ts' hk h _ _ ihi iha
    obtain ⟨n, hn⟩ := ihi
    obtain ⟨m, hm⟩ := iha
    refine ⟨max n m + 1, ?_⟩
    have hak : argKindOf k = .term := by
      cases k <;> first | rfl | exact absurd rfl (hk.2.1 _)
    unfold argsOver at h
    rw [Bool.or_eq_false_iff, decide_eq_false_iff_not, not_or, hak, Bool.not_eq_false'] at h
    rw [gArgs_other hk.2.2 h.1.1 hk.1 hk.2.1, if_neg h.1.2, if_pos h.2, lift_content (max n m + 1) hn (by omega)]
    show (gArgs _ _ _ _ _ _ _ _ >>= _) = _
    rw [lift_args (max n m + 1) (max n m + 1) (max n m) hm (by omega) (by omega) (by omega)]
    rfl

end Grammar
end Mitex
