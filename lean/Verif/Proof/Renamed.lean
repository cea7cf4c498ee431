/-
The expansion of macros does not depend on the names of macros (C87).
-/
import Verif.Proof.BlankMacro
import Verif.Spec.Renamed

namespace Mitex
namespace Renamed

theorem exchange_twice (na nb n : Text) : exchange na nb (exchange na nb n) = n := by
  unfold exchange
  by_cases h1 : n = na
  · rw [if_pos h1]
    by_cases h2 : nb = na
    · rw [if_pos h2, h2, h1]
    · rw [if_neg h2, if_pos rfl, h1]
  · rw [if_neg h1]
    by_cases h2 : n = nb
    · rw [if_pos h2, if_pos rfl, h2]
    · rw [if_neg h2, if_neg h1, if_neg h2]

theorem exchange_inj {na nb n k : Text} (h : exchange na nb n = exchange na nb k) : n = k := by
  rw [← exchange_twice na nb n, h, exchange_twice]

theorem exchange_other {na nb n : Text} (h1 : n ≠ na) (h2 : n ≠ nb) : exchange na nb n = n := by
  unfold exchange; rw [if_neg h1, if_neg h2]

/-- Kinds of tokens that carry no name. -/
def isPlain : Token → Bool
  | .cmd _ | .error => false
  | _ => true

theorem exchangeTok_kind (na nb : Text) (t : Tok) : (exchangeTok na nb t).1 = t.1 := by
  unfold exchangeTok; split <;> rfl

theorem exchangeTok_plain {na nb : Text} {t : Tok} (h : isPlain t.1 = true) : exchangeTok na nb t = t := by
  unfold exchangeTok
  split
  · cases h
  · cases h
  · rfl

theorem exchangeTok_twice (na nb : Text) (t : Tok) : exchangeTok na nb (exchangeTok na nb t) = t := by
  unfold exchangeTok
  split
  · rename_i h
    split at h
    · cases h; rw [exchange_twice]
    · cases h
    · rename_i h1 _; exact absurd h (h1 _ _)
  · rename_i h
    split at h
    · cases h
    · cases h; rw [exchange_twice]
    · rename_i _ h1; exact absurd h (h1 _)
  · rename_i h1 h2
    split
    · exact absurd rfl (h1 _ _)
    · exact absurd rfl (h2 _)
    · rfl

/-- What the tokens at hand satisfy, whatever is done with them. -/
structure Fit (na nb : Text) (P : Tok → Prop) : Prop where
  char : ∀ w c, P (.word, w) → c ∈ w → P (.word, [c])
  rest : ∀ u v, P (.word, u ++ v) → P (.word, v)
  env : ∀ n w, n ∈ environmentDefiners → P (cmdTok n) → P (.word, w) → exchange na nb w = w
  clause : ∀ t, P t → t.1 = .cmd .beginEnv ∨ t.1 = .cmd .endEnv → t.2.head? ≠ some '\\'
  param : ∀ d h, P (.macroArg d, h)
  error : ∀ x, P (.error, x)
  fi : P (.cmd .endIf, t!"\\fi")
  free : OwnName na ∧ OwnName nb

theorem Fit.same {na nb : Text} {P : Tok → Prop} (hP : Fit na nb P) {n : Text}
    (h : defaultMacros n ≠ none ∨ n ∈ [t!"mitexrecurse", t!"fi", t!"invalid number of arguments", t!"unmatched environment"]) : exchange na nb n = n := by
  obtain ⟨⟨a1, a2⟩, ⟨b1, b2⟩⟩ := hP.free
  refine exchange_other (fun e => ?_) (fun e => ?_)
  · subst e; exact h.elim (fun h => h a1) a2
  · subst e; exact h.elim (fun h => h b1) b2

/-- The token is at hand, and becomes the other one. -/
def Ren (na nb : Text) (P : Tok → Prop) (t t' : Tok) : Prop := t.1 = t'.1 ∧ P t ∧ t' = exchangeTok na nb t

abbrev Toks (na nb : Text) (P : Tok → Prop) : List Tok → List Tok → Prop := Both (Ren na nb P)

abbrev Opt {α β : Type} (R : α → β → Prop) : Option α → Option β → Prop := Blank.Opt R

variable {na nb : Text} {P : Tok → Prop}

theorem ren {t : Tok} (h : P t) : Ren na nb P t (exchangeTok na nb t) := ⟨(exchangeTok_kind ..).symm, h, rfl⟩

theorem ren_plain {t : Tok} (h : P t) (hk : isPlain t.1 = true) : Ren na nb P t t := ⟨rfl, h, (exchangeTok_plain hk).symm⟩

theorem toks_of {ts : List Tok} (h : ∀ t ∈ ts, P t) : Toks na nb P ts (ts.map (exchangeTok na nb)) := by
  induction ts with
  | nil => exact .nil
  | cons t ts ih => exact .cons (ren (h t (List.mem_cons_self ..))) (ih fun u hu => h u (List.mem_cons_of_mem _ hu))

theorem toks_map {ts ts' : List Tok} (h : Toks na nb P ts ts') : ts' = ts.map (exchangeTok na nb) := by
  induction h with
  | nil => rfl
  | cons h _ ih => rw [h.2.2, ih, List.map_cons]

theorem tok_eq {k : Token} {x : Text} {t' : Tok} (h : Ren na nb P (k, x) t') (hk : isPlain k = true) : t' = (k, x) := by
  rw [h.2.2, exchangeTok_plain hk]

theorem tok_eqR {k : Token} {x : Text} {t : Tok} (h : Ren na nb P t (k, x)) (hk : isPlain k = true) : t = (k, x) := by
  have := congrArg (exchangeTok na nb) h.2.2
  rw [exchangeTok_twice, exchangeTok_plain hk] at this
  exact this.symm

theorem toks_cons {k : Token} {x : Text} {ts us : List Tok} (h : Toks na nb P ((k, x) :: ts) us) (hb : isPlain k = true) :
    P (k, x) ∧ ∃ us', us = (k, x) :: us' ∧ Toks na nb P ts us' := by
  cases h with
  | cons h hs => exact ⟨h.2.1, _, by rw [tok_eq h hb], hs⟩

theorem cmd_cons {k : CommandName} {n : Text} {ts us : List Tok} (h : Toks na nb P ((.cmd k, '\\' :: n) :: ts) us) :
    P (.cmd k, '\\' :: n) ∧ ∃ us', us = (.cmd k, '\\' :: exchange na nb n) :: us' ∧ Toks na nb P ts us' := by
  cases h with
  | cons h hs => exact ⟨h.2.1, _, by rw [h.2.2]; rfl, hs⟩

theorem any_cons {k : Token} {x : Text} {ts us : List Tok} (h : Toks na nb P ((k, x) :: ts) us) :
    P (k, x) ∧ ∃ x' us', us = (k, x') :: us' ∧ Ren na nb P (k, x) (k, x') ∧ Toks na nb P ts us' := by
  cases h with
  | @cons _ t' _ _ h hs =>
    obtain ⟨k', x'⟩ := t'
    have e : k = k' := h.1
    subst e
    exact ⟨h.2.1, _, _, rfl, h, hs⟩

theorem head_iff {ts ts' : List Tok} (h : Toks na nb P ts ts') {p : Token → Prop} (hp : ∀ t, ts.head? = some t → p t.1) : ∀ t, ts'.head? = some t → p t.1 := by
  cases h with
  | nil => intro t h; cases h
  | cons h _ =>
    intro t ht
    cases ht
    rw [← h.1]
    exact hp _ rfl

/-- Definitions of macros, with the names exchanged. -/
inductive MacroAlike (na nb : Text) (P : Tok → Prop) : Macro → Macro → Prop
  | declare (d : DeclareMacro) : MacroAlike na nb P (.declare d) (.declare d)
  | cmd {nm nm' : Text} (n : Nat) {o o' : Option (List Tok)} {b b' : List Tok} (ho : Opt (Toks na nb P) o o') (hb : Toks na nb P b b') :
      MacroAlike na nb P (.cmd nm n o b) (.cmd nm' n o' b')
  | env {nm : Text} (n : Nat) {o o' : Option (List Tok)} {b b' d d' : List Tok} (hn : exchange na nb nm = nm) (ho : Opt (Toks na nb P) o o') (hb : Toks na nb P b b') (hd : Toks na nb P d d') :
      MacroAlike na nb P (.env nm n o b d) (.env nm n o' b' d')

/-- Macro tables, name by name. -/
structure TableAlike (na nb : Text) (P : Tok → Prop) (m m' : MacroTable) : Prop where
  entry : ∀ n, Opt (MacroAlike na nb P) (m n) (m' (exchange na nb n))
  declared : ∀ n d, m n = some (.declare d) → defaultMacros n = some (.declare d)
  env : ∀ n nm k o b d, m n = some (.env nm k o b d) → exchange na nb n = n

/-! ### Nested texts -/

/-- A test on tokens that looks at their kind only. -/
def OnKind (p : Tok → Bool) : Prop := ∀ t t' : Tok, t.1 = t'.1 → p t = p t'

theorem onKind_alike {p : Tok → Bool} (h : OnKind p) {t t' : Tok} (k : Ren na nb P t t') : p t = p t' := h t t' k.1

theorem kind_opensBrace : OnKind opensBrace := fun t t' h => by unfold opensBrace; rw [h]
theorem kind_closesBrace : OnKind closesBrace := fun t t' h => by unfold closesBrace; rw [h]
theorem kind_closes (bk : BraceKind) : OnKind (closes bk) := fun t t' h => by unfold closes; rw [h]
theorem kind_opensIf : OnKind opensIf := fun t t' h => by unfold opensIf; rw [h]
theorem kind_closesIf : OnKind closesIf := fun t t' h => by unfold closesIf; rw [h]
theorem kind_opensEnv : OnKind opensEnv := fun t t' h => by unfold opensEnv; rw [h]
theorem kind_closesEnv : OnKind closesEnv := fun t t' h => by unfold closesEnv; rw [h]

theorem level_alike {op cl : Tok → Bool} (ho : OnKind op) (hc : OnKind cl) {ts ts' : List Tok} (h : Toks na nb P ts ts') : level op cl ts = level op cl ts' := by
  induction h with
  | nil => rfl
  | cons h _ ih => unfold level; rw [onKind_alike ho h, onKind_alike hc h, ih]

theorem upto_alike {op cl stop : Tok → Bool} (ho : OnKind op) (hc : OnKind cl) (hs : OnKind stop) {s b rest s' : List Tok} (h : Upto op cl stop s b rest)
    (ht : Toks na nb P s s') : ∃ b' rest', Upto op cl stop s' b' rest' ∧ Toks na nb P b b' ∧ Toks na nb P rest rest' := by
  obtain ⟨h1, h2, h3⟩ := h
  subst h1
  obtain ⟨b', rest', rfl, k1, k2⟩ := ht.split
  refine ⟨b', rest', ⟨rfl, ?_, ?_⟩, k1, k2⟩
  · rcases h2 with rfl | ⟨t, r, rfl, h4, h5⟩
    · cases k2; exact .inl rfl
    · cases k2 with
      | @cons _ t' _ r' hh _ => exact .inr ⟨t', r', rfl, by rw [← onKind_alike hs hh]; exact h4, by rw [← level_alike ho hc k1]; exact h5⟩
  · intro p t q e hst
    subst e
    obtain ⟨p1, q1, rfl, k3, k4⟩ := k1.splitR
    cases k4 with
    | @cons t1 _ q1 _ hh _ =>
      rw [← level_alike ho hc k3]
      exact h3 p1 t1 q1 rfl (by rw [onKind_alike hs hh]; exact hst)

theorem group_alike {bk : BraceKind} {s b rest s' : List Tok} (h : Group bk s b rest) (ht : Toks na nb P s s') :
    ∃ b' rest', Group bk s' b' rest' ∧ Toks na nb P b b' ∧ Toks na nb P rest rest' := by
  obtain ⟨mid, h1, rfl⟩ := h
  obtain ⟨b', mid', k1, k2, k3⟩ := upto_alike kind_opensBrace kind_closesBrace (kind_closes bk) h1 ht
  exact ⟨b', mid'.tail, ⟨mid', k1, rfl⟩, k2, k3.tail⟩

theorem skipped_alike {s rest s' : List Tok} (h : Skipped s rest) (ht : Toks na nb P s s') : ∃ rest', Skipped s' rest' ∧ Toks na nb P rest rest' := by
  obtain ⟨b, h⟩ := h
  obtain ⟨b', mid', k1, _, k3⟩ := upto_alike kind_opensIf kind_closesIf kind_closesIf h ht
  exact ⟨mid', ⟨b', k1⟩, k3⟩

theorem body_alike {s b rest s' : List Tok} (h : Body s b rest) (ht : Toks na nb P s s') : ∃ b' rest', Body s' b' rest' ∧ Toks na nb P b b' ∧ Toks na nb P rest rest' :=
  upto_alike kind_opensEnv kind_closesEnv kind_closesEnv h ht

theorem headKind {p : Token → Prop} {ts ts' : List Tok} (h : Toks na nb P ts ts') (hp : ∀ t, ts.head? = some t → p t.1) : ∀ t, ts'.head? = some t → p t.1 :=
  head_iff h hp

theorem blanks_alike {s rest s' : List Tok} (h : Blanks s rest) (ht : Toks na nb P s s') : ∃ rest', Blanks s' rest' ∧ Toks na nb P rest rest' := by
  obtain ⟨ws, h1, rfl, h3⟩ := h
  obtain ⟨ws', rest', rfl, k1, k2⟩ := ht.split
  refine ⟨rest', ⟨ws', fun t hm => ?_, rfl, headKind (p := fun k => k.isTrivia = false) k2 h3⟩, k2⟩
  obtain ⟨a, ha, k⟩ := k1.mem_right t hm
  rw [← k.1]
  exact h1 a ha

theorem blanks_over {s s' : List Tok} (h : Blanks s []) (ht : Toks na nb P s s') : Blanks s' [] := by
  obtain ⟨rest', h1, h2⟩ := blanks_alike h ht
  cases h2
  exact h1

theorem blanks_next {s s' : List Tok} {t : Tok} {s1 : List Tok} (h : Blanks s (t :: s1)) (ht : Toks na nb P s s') :
    ∃ t' s1', Blanks s' (t' :: s1') ∧ Ren na nb P t t' ∧ Toks na nb P s1 s1' := by
  obtain ⟨rest', h1, h2⟩ := blanks_alike h ht
  cases h2 with
  | cons a b => exact ⟨_, _, h1, a, b⟩

/-! ### Arguments -/

abbrev Lists (na nb : Text) (P : Tok → Prop) : List (List Tok) → List (List Tok) → Prop := Both (Toks na nb P)

theorem chars_alike (hP : Fit na nb P) {w w' : Text} (hw : P (.word, w')) (hs : ∀ c ∈ w, c ∈ w') :
    Lists na nb P (w.map fun c => [((.word, [c]) : Tok)]) (w.map fun c => [(.word, [c])]) := by
  induction w with
  | nil => exact .nil
  | cons c w ih =>
    rw [List.map_cons]
    exact .cons (.one (ren_plain (hP.char w' c hw (hs c (List.mem_cons_self ..))) rfl)) (ih fun d hd => hs d (List.mem_cons_of_mem _ hd))

theorem args_alike (hP : Fit na nb P) {n : Nat} {s : List Tok} {as : List (List Tok)} {m : Nat} {rest : List Tok} (h : Args n s as m rest) :
    ∀ {s'}, Toks na nb P s s' → ∃ as' rest', Args n s' as' m rest' ∧ Lists na nb P as as' ∧ Toks na nb P rest rest' := by
  induction h with
  | done => intro s' ht; exact ⟨[], s', .done, .nil, ht⟩
  | over hs => intro s' ht; exact ⟨[], [], .over (blanks_over hs ht), .nil, .nil⟩
  | group hs hl hg _ ih =>
    intro s' ht
    obtain ⟨t', s1', a1, a2, a3⟩ := blanks_next hs ht
    obtain ⟨b', s2', g1, g2, g3⟩ := group_alike hg a3
    obtain ⟨as', rest', k1, k2, k3⟩ := ih g3
    exact ⟨_, _, .group a1 (a2.1 ▸ hl) g1 k1, .cons g2 k2, k3⟩
  | single hs h1 h2 _ ih =>
    intro s' ht
    obtain ⟨t', s1', a1, a2, a3⟩ := blanks_next hs ht
    obtain ⟨as', rest', k1, k2, k3⟩ := ih a3
    exact ⟨_, _, .single a1 (a2.1 ▸ h1) (a2.1 ▸ h2) k1, .cons (.one a2) k2, k3⟩
  | @word k s s1 w extra hs hlen =>
    intro s' ht
    obtain ⟨t', s1', a1, a2, a3⟩ := blanks_next hs ht
    cases tok_eq a2 rfl
    refine ⟨_, _, .word a1 hlen, chars_alike hP a2.2.1 fun c hc => List.mem_append_left _ hc, ?_⟩
    split
    · exact a3
    · exact .cons (ren_plain (hP.rest w extra a2.2.1) rfl) a3
  | @shortWord k s s1 as m rest w hs hlen _ ih =>
    intro s' ht
    obtain ⟨t', s1', a1, a2, a3⟩ := blanks_next hs ht
    cases tok_eq a2 rfl
    obtain ⟨as', rest', k1, k2, k3⟩ := ih a3
    exact ⟨_, _, .shortWord a1 hlen k1, (chars_alike hP a2.2.1 fun c hc => hc).append k2, k3⟩

theorem called_alike (hP : Fit na nb P) {n : Nat} {o o' : Option (List Tok)} {s : List Tok} {r : Option (List (List Tok))} {rest s' : List Tok} (h : Called n o s r rest)
    (ho : Opt (Toks na nb P) o o') (ht : Toks na nb P s s') : ∃ r' rest', Called n o' s' r' rest' ∧ Opt (Lists na nb P) r r' ∧ Toks na nb P rest rest' := by
  cases h with
  | all h =>
    obtain ⟨as', rest', k1, k2, k3⟩ := args_alike hP h ht
    exact ⟨_, _, .all k1, .some k2, k3⟩
  | default h he =>
    obtain ⟨as', rest', k1, k2, k3⟩ := args_alike hP h ht
    subst he
    cases ho with
    | some ho => exact ⟨_, _, .default k1 rfl, .some (k2.append (.one ho)), k3⟩
  | missing h h0 h1 =>
    obtain ⟨as', rest', k1, k2, k3⟩ := args_alike hP h ht
    refine ⟨_, _, .missing k1 h0 fun e => ?_, .none, k3⟩
    have := h1 e
    subst this
    cases ho
    rfl

theorem called_some (hP : Fit na nb P) {n : Nat} {o o' : Option (List Tok)} {s : List Tok} {as : List (List Tok)} {rest s' : List Tok} (h : Called n o s (some as) rest)
    (ho : Opt (Toks na nb P) o o') (ht : Toks na nb P s s') : ∃ as' rest', Called n o' s' (some as') rest' ∧ Lists na nb P as as' ∧ Toks na nb P rest rest' := by
  obtain ⟨r', rest', k1, k2, k3⟩ := called_alike hP h ho ht
  cases k2 with
  | some k2 => exact ⟨_, _, k1, k2, k3⟩

theorem called_none (hP : Fit na nb P) {n : Nat} {o o' : Option (List Tok)} {s : List Tok} {rest s' : List Tok} (h : Called n o s none rest)
    (ho : Opt (Toks na nb P) o o') (ht : Toks na nb P s s') : ∃ rest', Called n o' s' none rest' ∧ Toks na nb P rest rest' := by
  obtain ⟨r', rest', k1, k2, k3⟩ := called_alike hP h ho ht
  cases k2 with
  | none => exact ⟨_, k1, k3⟩

/-! ### Substitution -/

theorem cmdTok_exchange (na nb n : Text) : exchangeTok na nb (cmdTok n) = cmdTok (exchange na nb n) := rfl

theorem recurse_same (hP : Fit na nb P) : exchangeTok na nb (cmdTok t!"mitexrecurse") = cmdTok t!"mitexrecurse" := by
  rw [cmdTok_exchange, hP.same (.inr (by simp))]

theorem raw_alike {lvl : Int} {b o r : List Tok} (h : Raw lvl b o r) : ∀ {b'}, Toks na nb P b b' → ∃ o' r', Raw lvl b' o' r' ∧ Toks na nb P o o' ∧ Toks na nb P r r' := by
  induction h with
  | over => intro b' ht; cases ht; exact ⟨_, _, .over, .nil, .nil⟩
  | opening h1 _ ih =>
    intro b' ht
    cases ht with
    | cons hh hs =>
      obtain ⟨o', r', k1, k2, k3⟩ := ih hs
      refine ⟨_, _, .opening (hh.1 ▸ h1) k1, ?_, k3⟩
      split
      · exact .cons hh k2
      · exact k2
  | closing h1 =>
    intro b' ht
    cases ht with
    | cons hh hs => exact ⟨_, _, .closing (hh.1 ▸ h1), .nil, hs⟩
  | inner h1 hl _ ih =>
    intro b' ht
    cases ht with
    | cons hh hs =>
      obtain ⟨o', r', k1, k2, k3⟩ := ih hs
      exact ⟨_, _, .inner (hh.1 ▸ h1) hl k1, .cons hh k2, k3⟩
  | inside h1 h2 hl _ ih =>
    intro b' ht
    cases ht with
    | cons hh hs =>
      obtain ⟨o', r', k1, k2, k3⟩ := ih hs
      exact ⟨_, _, .inside (hh.1 ▸ h1) (hh.1 ▸ h2) hl k1, .cons hh k2, k3⟩
  | single h1 h2 h3 =>
    intro b' ht
    cases ht with
    | cons hh hs => exact ⟨_, _, .single (hh.1 ▸ h1) (hh.1 ▸ h2) (hh.1 ▸ h3), .one hh, hs⟩
  | blank h1 _ ih =>
    intro b' ht
    cases ht with
    | cons hh hs =>
      obtain ⟨o', r', k1, k2, k3⟩ := ih hs
      exact ⟨_, _, .blank (hh.1 ▸ h1) k1, k2, k3⟩

theorem filled_alike (hP : Fit na nb P) {as as' : List (List Tok)} (ha : Lists na nb P as as') {b o : List Tok} (h : Filled as b o) :
    ∀ {b'}, Toks na nb P b b' → ∃ o', Filled as' b' o' ∧ Toks na nb P o o' := by
  induction h with
  | nil => intro b' ht; cases ht; exact ⟨_, .nil, .nil⟩
  | @param d x b o hd _ ih =>
    intro b' ht
    cases ht with
    | cons hh hs =>
      cases tok_eq hh rfl
      obtain ⟨o', k1, k2⟩ := ih hs
      refine ⟨_, .param hd k1, Both.append ?_ k2⟩
      have hg := ha.get? (d - 1)
      generalize as[d - 1]? = x at hg ⊢
      generalize as'[d - 1]? = y at hg ⊢
      cases hg with
      | none => exact .nil
      | some h => exact h
  | @tok t b o h1 h2 _ ih =>
    intro b' ht
    cases ht with
    | @cons _ t' _ _ hh hs =>
      obtain ⟨o', k1, k2⟩ := ih hs
      refine ⟨_, .tok (fun d => hh.1 ▸ h1 d) (fun e => h2 ?_) k1, .cons hh k2⟩
      subst e
      have := congrArg (exchangeTok na nb) hh.2.2
      rw [exchangeTok_twice, recurse_same hP] at this
      exact this.symm
  | recurse hr _ ih =>
    intro b' ht
    cases ht with
    | cons hh hs =>
      have e := hh.2.2
      rw [recurse_same hP] at e
      subst e
      obtain ⟨c', p', k1, k2, k3⟩ := raw_alike hr hs
      obtain ⟨o', g1, g2⟩ := ih k3
      exact ⟨_, .recurse k1 g1, k2.append g2⟩

/-! ### Definitions -/

theorem skipTok_alike {k : Token} {t t' : Tok} {s s' : List Tok} (h : Ren na nb P t t') (hs : Toks na nb P s s') :
    Toks na nb P (if t.1 = k then s else t :: s) (if t'.1 = k then s' else t' :: s') := by
  rw [← h.1]
  split
  · exact hs
  · exact .cons h hs

theorem nameTok_alike {b : Bool} {t t' : Tok} (h : Ren na nb P t t') : NameTok b t ↔ NameTok b t' := by unfold NameTok; rw [h.1]

theorem named_alike {b : Bool} {s : List Tok} {x : Option Tok} {rest s' : List Tok} (h : Named b s x rest) (ht : Toks na nb P s s') :
    ∃ x' rest', Named b s' x' rest' ∧ Opt (Ren na nb P) x x' ∧ Toks na nb P rest rest' := by
  cases h with
  | noBrace hs h =>
    obtain ⟨rest', k1, k2⟩ := blanks_alike hs ht
    exact ⟨_, _, .noBrace k1 (headKind (p := fun k => k ≠ .left .curly) k2 h), .none, k2⟩
  | empty hs hl h1 =>
    obtain ⟨l', s1', a1, a2, a3⟩ := blanks_next hs ht
    exact ⟨_, _, .empty a1 (a2.1 ▸ hl) (blanks_over h1 a3), .none, .nil⟩
  | over hs hl h1 h2 =>
    obtain ⟨l', s1', a1, a2, a3⟩ := blanks_next hs ht
    obtain ⟨t', s2', b1, b2, b3⟩ := blanks_next h1 a3
    exact ⟨_, _, .over a1 (a2.1 ▸ hl) b1 (blanks_over h2 b3), .none, .nil⟩
  | wrong hs hl h1 h2 hn =>
    obtain ⟨l', s1', a1, a2, a3⟩ := blanks_next hs ht
    obtain ⟨t', s2', b1, b2, b3⟩ := blanks_next h1 a3
    obtain ⟨r', s3', c1, c2, c3⟩ := blanks_next h2 b3
    exact ⟨_, _, .wrong a1 (a2.1 ▸ hl) b1 c1 (fun h => hn ((nameTok_alike b2).2 h)), .none, skipTok_alike c2 c3⟩
  | @name l s1 t s2 r s3 hs hl h1 h2 hn =>
    obtain ⟨l', s1', a1, a2, a3⟩ := blanks_next hs ht
    obtain ⟨t', s2', b1, b2, b3⟩ := blanks_next h1 a3
    obtain ⟨r', s3', c1, c2, c3⟩ := blanks_next h2 b3
    exact ⟨_, _, .name a1 (a2.1 ▸ hl) b1 c1 ((nameTok_alike b2).1 hn), .some b2, skipTok_alike c2 c3⟩

theorem named_none {b : Bool} {s rest s' : List Tok} (h : Named b s none rest) (ht : Toks na nb P s s') :
    ∃ rest', Named b s' none rest' ∧ Toks na nb P rest rest' := by
  obtain ⟨x', rest', k1, k2, k3⟩ := named_alike h ht
  cases k2
  exact ⟨_, k1, k3⟩

theorem named_word {b : Bool} {s rest s' : List Tok} {w : Text} (h : Named b s (some (.word, w)) rest) (ht : Toks na nb P s s') :
    P (.word, w) ∧ ∃ rest', Named b s' (some (.word, w)) rest' ∧ Toks na nb P rest rest' := by
  obtain ⟨x', rest', k1, k2, k3⟩ := named_alike h ht
  cases k2 with
  | some k2 => exact ⟨k2.2.1, _, tok_eq k2 rfl ▸ k1, k3⟩

theorem named_cmd {b : Bool} {s rest s' : List Tok} {k : CommandName} {n : Text} (h : Named b s (some (.cmd k, '\\' :: n)) rest) (ht : Toks na nb P s s') :
    ∃ rest', Named b s' (some (.cmd k, '\\' :: exchange na nb n)) rest' ∧ Toks na nb P rest rest' := by
  obtain ⟨x', rest', k1, k2, k3⟩ := named_alike h ht
  cases k2 with
  | @some _ y k2 =>
    have e : y = (.cmd k, '\\' :: exchange na nb n) := k2.2.2
    subst e
    exact ⟨_, k1, k3⟩

theorem named_other {b : Bool} {s rest s' : List Tok} {k : CommandName} {x : Text} (h : Named b s (some (.cmd k, x)) rest) (hx : x.head? ≠ some '\\')
    (ht : Toks na nb P s s') : ∃ rest', Named b s' (some (.cmd k, x)) rest' ∧ Toks na nb P rest rest' := by
  obtain ⟨x', rest', k1, k2, k3⟩ := named_alike h ht
  cases k2 with
  | @some _ y k2 =>
    have e : y = (.cmd k, x) := by
      rw [k2.2.2]
      unfold exchangeTok
      split
      · rename_i h; cases h; exact absurd rfl hx
      · rename_i h; cases h
      · rfl
    subst e
    exact ⟨_, k1, k3⟩

theorem defn_alike {s : List Tok} {d : Option (List Tok)} {rest s' : List Tok} (h : Defn s d rest) (ht : Toks na nb P s s') :
    ∃ d' rest', Defn s' d' rest' ∧ Opt (Toks na nb P) d d' ∧ Toks na nb P rest rest' := by
  cases h with
  | over => cases ht; exact ⟨_, _, .over, .none, .nil⟩
  | group hl h =>
    cases ht with
    | cons hh hs =>
      obtain ⟨b', rest', k1, k2, k3⟩ := group_alike h hs
      exact ⟨_, _, .group (hh.1 ▸ hl) k1, .some k2, k3⟩
  | single hl =>
    cases ht with
    | cons hh hs => exact ⟨_, _, .single (hh.1 ▸ hl), .some (.one hh), hs⟩

theorem dflt_alike {s : List Tok} {d : Option (List Tok)} {rest s' : List Tok} (h : Dflt s d rest) (ht : Toks na nb P s s') :
    ∃ d' rest', Dflt s' d' rest' ∧ Opt (Toks na nb P) d d' ∧ Toks na nb P rest rest' := by
  cases h with
  | absent h => exact ⟨_, _, .absent (headKind (p := fun k => k ≠ .left .bracket) ht h), .none, ht⟩
  | group hl h =>
    cases ht with
    | cons hh hs =>
      obtain ⟨b', rest', k1, k2, k3⟩ := group_alike h hs
      exact ⟨_, _, .group (hh.1 ▸ hl) k1, .some k2, k3⟩

theorem count_alike {s : List Tok} {n : Option Nat} {rest s' : List Tok} (h : Count s n rest) (ht : Toks na nb P s s') :
    ∃ rest', Count s' n rest' ∧ Toks na nb P rest rest' := by
  cases h with
  | over hl h1 h2 =>
    cases ht with
    | cons hh hs =>
      obtain ⟨t', s1', a1, a2, a3⟩ := blanks_next h1 hs
      exact ⟨_, .over (hh.1 ▸ hl) a1 (blanks_over h2 a3), .nil⟩
  | empty hl h1 =>
    cases ht with
    | cons hh hs => exact ⟨_, .empty (hh.1 ▸ hl) (blanks_over h1 hs), .nil⟩
  | number hl h1 h2 hn h9 =>
    cases ht with
    | cons hh hs =>
      obtain ⟨t', s1', a1, a2, a3⟩ := blanks_next h1 hs
      obtain ⟨r', s2', b1, b2, b3⟩ := blanks_next h2 a3
      cases tok_eq a2 rfl
      exact ⟨_, .number (hh.1 ▸ hl) a1 b1 hn h9, skipTok_alike b2 b3⟩
  | @wrong l s t s1 r s2 hl h1 h2 hn =>
    cases ht with
    | cons hh hs =>
      obtain ⟨t', s1', a1, a2, a3⟩ := blanks_next h1 hs
      obtain ⟨r', s2', b1, b2, b3⟩ := blanks_next h2 a3
      refine ⟨_, .wrong (hh.1 ▸ hl) a1 b1 ?_, skipTok_alike b2 b3⟩
      rintro ⟨n, k1, k2, k3⟩
      obtain ⟨k, x⟩ := t'
      have k2 : k = .word := k2
      subst k2
      have e := tok_eqR a2 rfl
      subst e
      exact hn ⟨n, k1, rfl, k3⟩

/-- The three parts of a definition. -/
def HeadAlike (na nb : Text) (P : Tok → Prop) (a b : Nat × Option (List Tok) × List Tok) : Prop := a.1 = b.1 ∧ Opt (Toks na nb P) a.2.1 b.2.1 ∧ Toks na nb P a.2.2 b.2.2

theorem header_alike {s : List Tok} {x : Option (Nat × Option (List Tok) × List Tok)} {rest s' : List Tok} (h : Header s x rest) (ht : Toks na nb P s s') :
    ∃ x' rest', Header s' x' rest' ∧ Opt (HeadAlike na nb P) x x' ∧ Toks na nb P rest rest' := by
  have key : ∀ {n : Nat} {o o' d d' : Option (List Tok)}, Opt (Toks na nb P) o o' → Opt (Toks na nb P) d d' →
      Opt (HeadAlike na nb P) (d.map fun b => (n, o, b)) (d'.map fun b => (n, o', b)) := by
    intro n o o' d d' h k
    cases k with
    | none => exact .none
    | some k => exact .some ⟨rfl, h, k⟩
  cases h with
  | plain h hd =>
    obtain ⟨d', rest', k1, k2, k3⟩ := defn_alike hd ht
    exact ⟨_, _, .plain (headKind (p := fun k => k ≠ .left .bracket) ht h) k1, key .none k2, k3⟩
  | broken hc =>
    obtain ⟨rest', k1, k2⟩ := count_alike hc ht
    exact ⟨_, _, .broken k1, .none, k2⟩
  | counted hc ho hd =>
    obtain ⟨s1', a1, a2⟩ := count_alike hc ht
    obtain ⟨o', s2', b1, b2, b3⟩ := dflt_alike ho a2
    obtain ⟨d', rest', k1, k2, k3⟩ := defn_alike hd b3
    exact ⟨_, _, .counted a1 b1 k1, key b2 k2, k3⟩

theorem header_none {s rest s' : List Tok} (h : Header s none rest) (ht : Toks na nb P s s') : ∃ rest', Header s' none rest' ∧ Toks na nb P rest rest' := by
  obtain ⟨x', rest', k1, k2, k3⟩ := header_alike h ht
  cases k2
  exact ⟨_, k1, k3⟩

theorem header_some {s rest s' : List Tok} {n : Nat} {o : Option (List Tok)} {b : List Tok} (h : Header s (some (n, o, b)) rest) (ht : Toks na nb P s s') :
    ∃ o' b' rest', Header s' (some (n, o', b')) rest' ∧ Opt (Toks na nb P) o o' ∧ Toks na nb P b b' ∧ Toks na nb P rest rest' := by
  obtain ⟨x', rest', k1, k2, k3⟩ := header_alike h ht
  cases k2 with
  | @some _ y h =>
    obtain ⟨n', o', b'⟩ := y
    obtain ⟨h1, h2, h3⟩ := h
    have h1 : n = n' := h1
    subst h1
    exact ⟨_, _, _, k1, h2, h3, k3⟩

theorem marked_alike (hP : Fit na nb P) {b st : List Tok} (h : Marked b st) : ∀ {b'}, Toks na nb P b b' → ∃ st', Marked b' st' ∧ Toks na nb P st st' := by
  induction h with
  | nil => intro b' ht; cases ht; exact ⟨_, .nil, .nil⟩
  | param hd hn _ ih =>
    intro b' ht
    obtain ⟨_, us, rfl, hs⟩ := toks_cons ht rfl
    obtain ⟨p, vs, rfl, hs2⟩ := toks_cons hs rfl
    obtain ⟨st', k1, k2⟩ := ih hs2
    refine ⟨_, .param hd hn k1, .cons (ren_plain (hP.param _ _) rfl) (Both.append ?_ k2)⟩
    split
    · exact .nil
    · exact .one (ren_plain (hP.rest [_] _ p) rfl)
  | hashWord hd _ ih =>
    intro b' ht
    obtain ⟨q, us, rfl, hs⟩ := toks_cons ht rfl
    obtain ⟨p, vs, rfl, hs2⟩ := toks_cons hs rfl
    obtain ⟨st', k1, k2⟩ := ih hs2
    exact ⟨_, .hashWord hd k1, .cons (ren_plain q rfl) (.cons (ren_plain p rfl) k2)⟩
  | hashOther h1 _ ih =>
    intro b' ht
    obtain ⟨q, us, rfl, hs⟩ := toks_cons ht rfl
    obtain ⟨st', k1, k2⟩ := ih hs
    cases hs with
    | cons hh hs => exact ⟨_, .hashOther (hh.1 ▸ h1) k1, .cons (ren_plain q rfl) k2⟩
  | @tok t src st h1 h2 _ ih =>
    intro b' ht
    cases ht with
    | @cons _ t' _ _ hh hs =>
      obtain ⟨st', k1, k2⟩ := ih hs
      refine ⟨_, .tok (hh.1 ▸ h1) (fun e => ?_) k1, .cons hh k2⟩
      obtain ⟨k, x⟩ := t'
      have e : k = .word := e
      subst e
      cases tok_eqR hh rfl
      exact h2 rfl

/-- What a definition binds. -/
def BindAlike (na nb : Text) (P : Tok → Prop) (a b : Text × Macro) : Prop := b.1 = exchange na nb a.1 ∧ MacroAlike na nb P a.2 b.2

theorem defines_alike (hP : Fit na nb P) {s : List Tok} {x : Option (Text × Macro)} {rest s' : List Tok} (h : Defines s x rest) (ht : Toks na nb P s s') :
    ∃ x' rest', Defines s' x' rest' ∧ Opt (BindAlike na nb P) x x' ∧ Toks na nb P rest rest' := by
  cases h with
  | unnamed h =>
    obtain ⟨rest', k1, k2⟩ := named_none h ht
    exact ⟨_, _, .unnamed k1, .none, k2⟩
  | unfinished h hh =>
    obtain ⟨s1', k1, k2⟩ := named_cmd h ht
    obtain ⟨rest', g1, g2⟩ := header_none hh k2
    exact ⟨_, _, .unfinished k1 g1, .none, g2⟩
  | defines h hh hm =>
    obtain ⟨s1', k1, k2⟩ := named_cmd h ht
    obtain ⟨o', b', rest', g1, g2, g3, g4⟩ := header_some hh k2
    obtain ⟨st', m1, m2⟩ := marked_alike hP hm g3
    exact ⟨_, _, .defines k1 g1 m1, .some ⟨rfl, .cmd _ g2 m2⟩, g4⟩

theorem definesEnv_alike (hP : Fit na nb P) (hw : ∀ w, P (.word, w) → exchange na nb w = w) {s : List Tok} {x : Option (Text × Macro)} {rest s' : List Tok} (h : DefinesEnv s x rest) (ht : Toks na nb P s s') :
    ∃ x' rest', DefinesEnv s' x' rest' ∧ Opt (BindAlike na nb P) x x' ∧ Toks na nb P rest rest' := by
  cases h with
  | unnamed h =>
    obtain ⟨rest', k1, k2⟩ := named_none h ht
    exact ⟨_, _, .unnamed k1, .none, k2⟩
  | unfinished h hh =>
    obtain ⟨p, s1', k1, k2⟩ := named_word h ht
    obtain ⟨rest', g1, g2⟩ := header_none hh k2
    exact ⟨_, _, .unfinished k1 g1, .none, g2⟩
  | over h hh =>
    obtain ⟨p, s1', k1, k2⟩ := named_word h ht
    obtain ⟨o', b', rest', g1, g2, g3, g4⟩ := header_some hh k2
    cases g4
    exact ⟨_, _, .over k1 g1, .none, .nil⟩
  | noEnd h hh hm hl =>
    obtain ⟨p, s1', k1, k2⟩ := named_word h ht
    obtain ⟨o', b', rest', g1, g2, g3, g4⟩ := header_some hh k2
    obtain ⟨st', m1, m2⟩ := marked_alike hP hm g3
    cases g4 with
    | cons c cs => exact ⟨_, _, .noEnd k1 g1 m1 (c.1 ▸ hl), .none, .cons c cs⟩
  | defines h hh hl hg hm hm' =>
    obtain ⟨p, s1', k1, k2⟩ := named_word h ht
    obtain ⟨o', b', rest', g1, g2, g3, g4⟩ := header_some hh k2
    cases g4 with
    | cons c cs =>
      obtain ⟨d', rest', e1, e2, e3⟩ := group_alike hg cs
      obtain ⟨st', m1, m2⟩ := marked_alike hP hm g3
      obtain ⟨st2', n1, n2⟩ := marked_alike hP hm' e2
      exact ⟨_, _, .defines k1 g1 (c.1 ▸ hl) e1 m1 n1, .some ⟨(hw _ p).symm, .env _ (hw _ p) g2 m2 n2⟩, e3⟩

/-! ### Steps -/

/-- Engines with the same open conditionals, and tables that differ in the texts of blanks. -/
def EngAlike (na nb : Text) (P : Tok → Prop) (e f : Eng) : Prop := TableAlike na nb P e.macros f.macros ∧ e.ifs = f.ifs

theorem table_none {m m' : MacroTable} (h : TableAlike na nb P m m') {n : Text} (k : m n = none) : m' (exchange na nb n) = none := by
  have := h.entry n
  rw [k] at this
  generalize m' (exchange na nb n) = y at this ⊢
  cases this
  rfl

theorem table_declare {m m' : MacroTable} (h : TableAlike na nb P m m') {n : Text} {d : DeclareMacro} (k : m n = some (.declare d)) : m' (exchange na nb n) = some (.declare d) := by
  have := h.entry n
  rw [k] at this
  generalize m' (exchange na nb n) = y at this ⊢
  cases this with
  | some h => cases h; rfl

theorem table_cmd {m m' : MacroTable} (h : TableAlike na nb P m m') {n nm : Text} {k : Nat} {o : Option (List Tok)} {b : List Tok} (e : m n = some (.cmd nm k o b)) :
    ∃ nm' o' b', m' (exchange na nb n) = some (.cmd nm' k o' b') ∧ Opt (Toks na nb P) o o' ∧ Toks na nb P b b' := by
  have := h.entry n
  rw [e] at this
  generalize m' (exchange na nb n) = y at this ⊢
  cases this with
  | some h =>
    cases h with
    | cmd _ ho hb => exact ⟨_, _, _, rfl, ho, hb⟩

theorem table_env {m m' : MacroTable} (h : TableAlike na nb P m m') {n nm : Text} {k : Nat} {o : Option (List Tok)} {b d : List Tok}
    (e : m n = some (.env nm k o b d)) :
    ∃ o' b' d', exchange na nb nm = nm ∧ m' (exchange na nb n) = some (.env nm k o' b' d') ∧ Opt (Toks na nb P) o o' ∧ Toks na nb P b b' ∧ Toks na nb P d d' := by
  have := h.entry n
  rw [e] at this
  generalize m' (exchange na nb n) = y at this ⊢
  cases this with
  | some h =>
    cases h with
    | env _ hn ho hb hd => exact ⟨_, _, _, hn, rfl, ho, hb, hd⟩

theorem clause_same (hP : Fit na nb P) {k : CommandName} {x : Text} (hk : k = .beginEnv ∨ k = .endEnv) (h : P (.cmd k, x)) :
    exchangeTok na nb (.cmd k, x) = (.cmd k, x) := by
  have := hP.clause _ h (hk.imp (fun e => by rw [e]) (fun e => by rw [e]))
  unfold exchangeTok
  split
  · rename_i e; cases e; exact absurd rfl this
  · rename_i e; cases e
  · rfl

theorem clause_cons (hP : Fit na nb P) {k : CommandName} {x : Text} {ts us : List Tok} (hk : k = .beginEnv ∨ k = .endEnv)
    (h : Toks na nb P ((.cmd k, x) :: ts) us) : P (.cmd k, x) ∧ ∃ us', us = (.cmd k, x) :: us' ∧ Toks na nb P ts us' := by
  cases h with
  | cons h hs => exact ⟨h.2.1, _, by rw [h.2.2, clause_same hP hk h.2.1], hs⟩

theorem begin_alike {m m' : MacroTable} (h : TableAlike na nb P m m') {name : Text} (k : ∀ nm n o b d, m name ≠ some (.env nm n o b d)) :
    HandedOn m' (.cmd .beginEnv, name) := by
  have hn := h.entry (exchange na nb name)
  rw [exchange_twice] at hn
  cases e : m' name with
  | none => exact .beginUnbound e
  | some v =>
    cases v with
    | declare d => exact .beginDeclare e
    | cmd nm n o b => exact .beginCmd e
    | env nm n o b d =>
      exfalso
      rw [e] at hn
      generalize hg : m (exchange na nb name) = y at hn
      cases hn with
      | some hn =>
        cases hn with
        | env _ _ _ _ _ =>
          have e2 := h.env _ _ _ _ _ _ hg
          rw [exchange_twice] at e2
          rw [← e2] at hg
          exact k _ _ _ _ _ hg

theorem handedOn_alike (hP : Fit na nb P) {m m' : MacroTable} (h : TableAlike na nb P m m') {t : Tok} (hp : P t) (k : HandedOn m t) :
    HandedOn m' (exchangeTok na nb t) := by
  cases k with
  | unbound k => exact .unbound (table_none h k)
  | isEnv k => obtain ⟨_, _, _, _, k, _⟩ := table_env h k; exact .isEnv k
  | reserved k => exact .reserved (table_declare h k)
  | beginUnbound k => rw [clause_same hP (.inl rfl) hp]; exact begin_alike h (by rw [k]; exact fun _ _ _ _ _ h => (by cases h))
  | beginCmd k => rw [clause_same hP (.inl rfl) hp]; exact begin_alike h (by rw [k]; exact fun _ _ _ _ _ h => (by cases h))
  | beginDeclare k => rw [clause_same hP (.inl rfl) hp]; exact begin_alike h (by rw [k]; exact fun _ _ _ _ _ h => (by cases h))

theorem stores_alike (d : DeclareCmdOrEnv) {a b : Option Macro} (h : Opt (MacroAlike na nb P) a b) : stores d a = stores d b := by
  cases h <;> cases d <;> rfl

theorem reports_alike (d : DeclareCmdOrEnv) {a b : Option Macro} (h : Opt (MacroAlike na nb P) a b) : reports d a = reports d b := by
  cases h <;> cases d <;> first | rfl | (rename_i b; cases b <;> rfl)

theorem bindName_alike {m m' : MacroTable} (h : TableAlike na nb P m m') {v v' : Macro} (hv : MacroAlike na nb P v v') (name : Text)
    (h1 : ∀ d, v ≠ .declare d) (h2 : ∀ nm k o b d, v = .env nm k o b d → exchange na nb name = name) :
    TableAlike na nb P (bindName m name v) (bindName m' (exchange na nb name) v') := by
  refine ⟨fun n => ?_, fun n d e => ?_, fun n nm k o b d e => ?_⟩
  · unfold bindName
    by_cases e : n = name
    · subst e
      rw [if_pos rfl, if_pos rfl]
      exact .some hv
    · rw [if_neg e, if_neg fun k => e (exchange_inj k)]
      exact h.entry n
  · unfold bindName at e
    split at e
    · cases e; exact absurd rfl (h1 d)
    · exact h.declared n d e
  · unfold bindName at e
    split at e
    · rename_i hn; subst hn; cases e; exact h2 _ _ _ _ _ rfl
    · exact h.env _ _ _ _ _ _ e

theorem error_toks (hP : Fit na nb P) (n : Text) : Toks na nb P [(.error, n)] [(.error, exchange na nb n)] := .one ⟨rfl, hP.error n, rfl⟩

theorem message_toks (hP : Fit na nb P) {n : Text} (h : n ∈ [t!"mitexrecurse", t!"fi", t!"invalid number of arguments", t!"unmatched environment"]) :
    Toks na nb P [(.error, n)] [(.error, n)] := by
  have := error_toks hP n
  rwa [hP.same (.inr h)] at this

theorem fi_toks (hP : Fit na nb P) : Toks na nb P [(.cmd .endIf, t!"\\fi")] [(.cmd .endIf, t!"\\fi")] := by
  refine .one ⟨rfl, hP.fi, ?_⟩
  show _ = (Token.cmd .endIf, '\\' :: exchange na nb t!"fi")
  rw [hP.same (.inr (by simp))]

theorem definer {m m' : MacroTable} (h : TableAlike na nb P m m') {n : Text} {d : DeclareCmdOrEnv} (k : m n = some (.declare (.cmdOrEnv d))) (hd : definesEnvironments d) :
    n ∈ environmentDefiners := by
  have := h.declared _ _ k
  unfold defaultMacros at this
  cases d with
  | newEnvironment r =>
    have e : ∀ l : List (Text × Macro), l.lookup n = some (.declare (.cmdOrEnv (.newEnvironment r))) → (n, Macro.declare (.cmdOrEnv (.newEnvironment r))) ∈ l := by
      intro l
      induction l with
      | nil => intro h; cases h
      | cons p l ih =>
        intro h
        obtain ⟨a, b⟩ := p
        rw [List.lookup_cons] at h
        split at h
        · rename_i hb
          cases h
          have : n = a := by simpa using hb
          rw [this]; exact List.mem_cons_self ..
        · exact List.mem_cons_of_mem _ (ih h)
    have := e _ this
    unfold declarativeMacros at this
    cases r <;> simp at this <;> (unfold environmentDefiners; simp; grind)
  | _ => cases hd

theorem declare_same (hP : Fit na nb P) {m m' : MacroTable} (h : TableAlike na nb P m m') {n : Text} {d : DeclareMacro} (k : m n = some (.declare d)) :
    exchange na nb n = n := hP.same (.inl (by rw [h.declared _ _ k]; exact fun h => (by cases h)))

/-- What a definition binds: its name is exchanged, and it is no predefined one. -/
theorem definition_alike (hP : Fit na nb P) {e : Eng} {m' : MacroTable} (hm : TableAlike na nb P e.macros m') {cmd : Text} {d : DeclareCmdOrEnv}
    (h : e.macros cmd = some (.declare (.cmdOrEnv d))) (hp : P (cmdTok cmd)) {s us : List Tok} (hs : Toks na nb P s us) {x : Option (Text × Macro)} {s2 : List Tok}
    (hd : (definesEnvironments d ∧ DefinesEnv s x s2) ∨ (¬ definesEnvironments d ∧ Defines s x s2)) :
    ∃ x' s2', ((definesEnvironments d ∧ DefinesEnv us x' s2') ∨ (¬ definesEnvironments d ∧ Defines us x' s2')) ∧ Opt (BindAlike na nb P) x x' ∧
      Toks na nb P s2 s2' ∧ ∀ n v, x = some (n, v) → (∀ d, v ≠ .declare d) ∧ ∀ nm k o b d, v = .env nm k o b d → exchange na nb n = n := by
  rcases hd with ⟨h1, h2⟩ | ⟨h1, h2⟩
  · have hw : ∀ w, P (.word, w) → exchange na nb w = w := fun w h3 => hP.env cmd w (definer hm h h1) hp h3
    obtain ⟨x', r', k1, k2, k3⟩ := definesEnv_alike hP hw h2 hs
    refine ⟨x', r', .inl ⟨h1, k1⟩, k2, k3, fun n v e => ?_⟩
    subst e
    cases h2 with
    | defines g hh hl hg hm hm' =>
      refine ⟨fun d h => (by cases h), fun nm k o b d _ => ?_⟩
      exact hw _ (named_word g hs).1
  · obtain ⟨x', r', k1, k2, k3⟩ := defines_alike hP h2 hs
    refine ⟨x', r', .inr ⟨h1, k1⟩, k2, k3, fun n v e => ?_⟩
    subst e
    cases h2 with
    | defines g hh hm => exact ⟨fun d h => (by cases h), fun nm k o b d h => (by cases h)⟩

/-- One step. -/
theorem rewrites_alike (hP : Fit na nb P) {e e2 : Eng} {s s2 o : List Tok} (h : Rewrites e s e2 s2 o) {f : Eng} {t : List Tok} (he : EngAlike na nb P e f)
    (ht : Toks na nb P s t) :
    ∃ f2 t2 o', Rewrites f t f2 t2 o' ∧ EngAlike na nb P e2 f2 ∧ Toks na nb P s2 t2 ∧ Toks na nb P o o' := by
  obtain ⟨m', ifs'⟩ := f
  obtain ⟨hm, hi⟩ := he
  have hm : TableAlike na nb P e.macros m' := hm
  have hi : e.ifs = ifs' := hi
  subst hi
  cases h with
  | ordinary h =>
    cases ht with
    | cons hh hs =>
      refine ⟨_, _, _, .ordinary ?_, ⟨hm, rfl⟩, hs, .one hh⟩
      unfold Ordinary at h ⊢
      rw [← hh.1]
      exact h
  | @handedOn _ t _ h =>
    cases ht with
    | cons hh hs =>
      have k := handedOn_alike hP hm hh.2.1 h
      rw [← hh.2.2] at k
      exact ⟨_, _, _, .handedOn k, ⟨hm, rfl⟩, hs, .one hh⟩
  | cif =>
    obtain ⟨_, x', us, rfl, hx, hs⟩ := any_cons ht
    refine ⟨_, _, _, .cif, ⟨hm, rfl⟩, hs, ?_⟩
    split
    · exact .one hx
    · exact .nil
  | elseSkips h =>
    obtain ⟨_, x', us, rfl, hx, hs⟩ := any_cons ht
    obtain ⟨r, k1, k2⟩ := skipped_alike h hs
    exact ⟨_, _, _, .elseSkips k1, ⟨hm, rfl⟩, k2, .nil⟩
  | elseSkipsTypst h =>
    obtain ⟨_, x', us, rfl, hx, hs⟩ := any_cons ht
    obtain ⟨r, k1, k2⟩ := skipped_alike h hs
    exact ⟨_, _, _, .elseSkipsTypst k1, ⟨hm, rfl⟩, k2, .nil⟩
  | elseAgain =>
    obtain ⟨_, x', us, rfl, hx, hs⟩ := any_cons ht
    exact ⟨_, _, _, .elseAgain, ⟨hm, rfl⟩, hs, .nil⟩
  | elseAgainTypst =>
    obtain ⟨_, x', us, rfl, hx, hs⟩ := any_cons ht
    exact ⟨_, _, _, .elseAgainTypst, ⟨hm, rfl⟩, hs, .nil⟩
  | elseOfFalse =>
    obtain ⟨_, x', us, rfl, hx, hs⟩ := any_cons ht
    exact ⟨_, _, _, .elseOfFalse, ⟨hm, rfl⟩, hs, fi_toks hP⟩
  | elseUndecided h =>
    obtain ⟨_, x', us, rfl, hx, hs⟩ := any_cons ht
    exact ⟨_, _, _, .elseUndecided h, ⟨hm, rfl⟩, hs, .one hx⟩
  | fiDecided h =>
    obtain ⟨_, x', us, rfl, hx, hs⟩ := any_cons ht
    exact ⟨_, _, _, .fiDecided h, ⟨hm, rfl⟩, hs, .nil⟩
  | fiOther h =>
    obtain ⟨_, x', us, rfl, hx, hs⟩ := any_cons ht
    exact ⟨_, _, _, .fiOther h, ⟨hm, rfl⟩, hs, .one hx⟩
  | fiStray =>
    obtain ⟨_, x', us, rfl, hx, hs⟩ := any_cons ht
    exact ⟨_, _, _, .fiStray, ⟨hm, rfl⟩, hs, .one hx⟩
  | @define e cmd d s name v s2 h hd =>
    obtain ⟨hp, us, rfl, hs⟩ := cmd_cons ht
    obtain ⟨x', r', k1, k2, k3, k4⟩ := definition_alike hP hm h hp hs hd
    cases k2 with
    | @some _ y k =>
      obtain ⟨n', v'⟩ := y
      obtain ⟨e1, e2⟩ := k
      have e1 : n' = exchange na nb name := e1
      subst e1
      refine ⟨_, _, _, .define (table_declare hm h) k1, ⟨?_, rfl⟩, k3, ?_⟩
      · show TableAlike na nb P (if stores d (e.macros name) = true then bindName e.macros name v else e.macros)
          (if stores d (m' (exchange na nb name)) = true then bindName m' (exchange na nb name) v' else m')
        rw [stores_alike d (hm.entry name)]
        split
        · exact bindName_alike hm e2 name (k4 _ _ rfl).1 (k4 _ _ rfl).2
        · exact hm
      · show Toks na nb P (if reports d (e.macros name) = true then [(.error, name)] else [])
          (if reports d (m' (exchange na nb name)) = true then [(.error, exchange na nb name)] else [])
        rw [reports_alike d (hm.entry name)]
        split
        · exact error_toks hP _
        · exact .nil
  | @broken e cmd d s s2 h hd =>
    obtain ⟨hp, us, rfl, hs⟩ := cmd_cons ht
    obtain ⟨x', r', k1, k2, k3, _⟩ := definition_alike hP hm h hp hs hd
    cases k2
    exact ⟨_, _, _, .broken (table_declare hm h) k1, ⟨hm, rfl⟩, k3, .nil⟩
  | call h ha hf =>
    obtain ⟨_, us, rfl, hs⟩ := cmd_cons ht
    obtain ⟨nm', o', b', g1, g2, g3⟩ := table_cmd hm h
    obtain ⟨as', r', k1, k2, k3⟩ := called_some hP ha g2 hs
    obtain ⟨o1, f1, f2⟩ := filled_alike hP k2 hf g3
    exact ⟨_, _, _, .call g1 k1 f1, ⟨hm, rfl⟩, f2.append k3, .nil⟩
  | badCall h ha =>
    obtain ⟨_, us, rfl, hs⟩ := cmd_cons ht
    obtain ⟨nm', o', b', g1, g2, g3⟩ := table_cmd hm h
    obtain ⟨r', k1, k2⟩ := called_none hP ha g2 hs
    exact ⟨_, _, _, .badCall g1 k1, ⟨hm, rfl⟩, k2, message_toks hP (by simp)⟩
  | env h ha hb hx hf hg =>
    obtain ⟨_, us, rfl, hs⟩ := clause_cons hP (.inl rfl) ht
    obtain ⟨o', b', d', hn, g1, g2, g3, g4⟩ := table_env hm h
    rw [hm.env _ _ _ _ _ _ h] at g1
    obtain ⟨as', r', k1, k2, k3⟩ := called_some hP ha g2 hs
    obtain ⟨body', r2, b1, b2, b3⟩ := body_alike hb k3
    obtain ⟨_, vs, rfl, hs2⟩ := clause_cons hP (.inr rfl) b3
    obtain ⟨o1, f1, f2⟩ := filled_alike hP k2 hf g3
    obtain ⟨o2, f3, f4⟩ := filled_alike hP k2 hg g4
    exact ⟨_, _, _, .env g1 k1 b1 hx f1 f3, ⟨hm, rfl⟩, ((f2.append b2).append f4).append hs2, .nil⟩
  | badEnvCall h ha =>
    obtain ⟨_, us, rfl, hs⟩ := clause_cons hP (.inl rfl) ht
    obtain ⟨o', b', d', hn, g1, g2, g3, g4⟩ := table_env hm h
    rw [hm.env _ _ _ _ _ _ h] at g1
    obtain ⟨r', k1, k2⟩ := called_none hP ha g2 hs
    exact ⟨_, _, _, .badEnvCall g1 k1, ⟨hm, rfl⟩, k2, message_toks hP (by simp)⟩
  | envUnmatched h ha hb hx =>
    obtain ⟨_, us, rfl, hs⟩ := clause_cons hP (.inl rfl) ht
    obtain ⟨o', b', d', hn, g1, g2, g3, g4⟩ := table_env hm h
    rw [hm.env _ _ _ _ _ _ h] at g1
    obtain ⟨as', r', k1, k2, k3⟩ := called_some hP ha g2 hs
    obtain ⟨body', r2, b1, b2, b3⟩ := body_alike hb k3
    obtain ⟨hp, vs, rfl, hs2⟩ := clause_cons hP (.inr rfl) b3
    exact ⟨_, _, _, .envUnmatched g1 k1 b1 hx, ⟨hm, rfl⟩, .cons ⟨rfl, hp, (clause_same hP (.inr rfl) hp).symm⟩ hs2, message_toks hP (by simp)⟩
  | envUnclosed h ha hb =>
    obtain ⟨_, us, rfl, hs⟩ := clause_cons hP (.inl rfl) ht
    obtain ⟨o', b', d', hn, g1, g2, g3, g4⟩ := table_env hm h
    rw [hm.env _ _ _ _ _ _ h] at g1
    obtain ⟨as', r', k1, k2, k3⟩ := called_some hP ha g2 hs
    obtain ⟨body', r2, b1, b2, b3⟩ := body_alike hb k3
    cases b3
    exact ⟨_, _, _, .envUnclosed g1 k1 b1, ⟨hm, rfl⟩, .nil, .nil⟩

theorem endsInMark_alike {b b' : List Tok} (h : EndsInMark b) (hb : Toks na nb P b b') : EndsInMark b' := by
  obtain ⟨src, x, rfl⟩ := h
  obtain ⟨b1, b2, rfl, h1, h2⟩ := hb.split
  obtain ⟨_, us, rfl, hs⟩ := toks_cons h2 rfl
  cases hs
  exact ⟨b1, x, rfl⟩

theorem panics_alike (hP : Fit na nb P) {e f : Eng} {s t : List Tok} (h : Panics e s) (he : EngAlike na nb P e f) (ht : Toks na nb P s t) : Panics f t := by
  obtain ⟨cmd, d, s', rfl, h1, h2⟩ := h
  obtain ⟨_, us, rfl, hs⟩ := cmd_cons ht
  refine ⟨_, d, us, rfl, table_declare he.1 h1, ?_⟩
  rcases h2 with ⟨h2, h3⟩ | ⟨h2, h3⟩
  · refine .inl ⟨h2, ?_⟩
    cases h3 with
    | begin_ h hh hm =>
      obtain ⟨_, s1', k1, k2⟩ := named_word h hs
      obtain ⟨o', b', rest', g1, g2, g3, g4⟩ := header_some hh k2
      cases g4 with
      | cons c cs => exact .begin_ k1 g1 (endsInMark_alike hm g3)
    | end_ h hh hl hg hm =>
      obtain ⟨_, s1', k1, k2⟩ := named_word h hs
      obtain ⟨o', b', rest', g1, g2, g3, g4⟩ := header_some hh k2
      cases g4 with
      | cons c cs =>
        obtain ⟨d', rest', e1, e2, e3⟩ := group_alike hg cs
        exact .end_ k1 g1 (c.1 ▸ hl) e1 (endsInMark_alike hm e2)
  · refine .inr ⟨h2, ?_⟩
    cases h3 with
    | name h hx =>
      obtain ⟨s1', k1, k2⟩ := named_other h hx hs
      exact .name k1 hx
    | text h hh hm =>
      obtain ⟨s1', k1, k2⟩ := named_cmd h hs
      obtain ⟨o', b', rest', g1, g2, g3, g4⟩ := header_some hh k2
      exact .text k1 g1 (endsInMark_alike hm g3)

/-! ### Runs -/

theorem expands_alike (hP : Fit na nb P) {e : Eng} {s outs : List Tok} (h : Expands e s outs) : ∀ {f : Eng} {t : List Tok}, EngAlike na nb P e f → Toks na nb P s t →
    ∃ outs', Expands f t outs' ∧ Toks na nb P outs outs' := by
  induction h with
  | done => intro f t he ht; cases ht; exact ⟨_, .done, .nil⟩
  | step h _ ih =>
    intro f t he ht
    obtain ⟨f2, t2, o', k1, k2, k3, k4⟩ := rewrites_alike hP h he ht
    obtain ⟨os', g1, g2⟩ := ih k2 k3
    exact ⟨_, .step k1 g1, k4.append g2⟩

theorem collapses_alike (hP : Fit na nb P) {e : Eng} {s : List Tok} (h : Collapses e s) : ∀ {f : Eng} {t : List Tok}, EngAlike na nb P e f → Toks na nb P s t → Collapses f t := by
  induction h with
  | now h => intro f t he ht; exact .now (panics_alike hP h he ht)
  | later h _ ih =>
    intro f t he ht
    obtain ⟨f2, t2, o', k1, k2, k3, k4⟩ := rewrites_alike hP h he ht
    exact .later k1 (ih k2 k3)

theorem lasts_alike (hP : Fit na nb P) {n : Nat} {e : Eng} {s : List Tok} (h : Lasts n e s) : ∀ {f : Eng} {t : List Tok}, EngAlike na nb P e f → Toks na nb P s t → Lasts n f t := by
  induction h with
  | zero => intro f t he ht; exact .zero
  | succ h _ ih =>
    intro f t he ht
    obtain ⟨f2, t2, o', k1, k2, k3, k4⟩ := rewrites_alike hP h he ht
    exact .succ k1 (ih k2 k3)

end Renamed
end Mitex
