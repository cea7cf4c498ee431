/-
The expansion of macros does not look at the texts of blanks and comments (C84).
-/
import Verif.Proof.BlankTree
import Verif.Spec.Expansion

namespace Mitex

namespace Both
variable {α β : Type} {R : α → β → Prop}

theorem splitR {as : List α} {bs ds : List β} (h : Both R as (bs ++ ds)) : ∃ a1 a2, as = a1 ++ a2 ∧ Both R a1 bs ∧ Both R a2 ds := by
  obtain ⟨a1, a2, e, h1, h2⟩ := (h.symm (S := fun b a => R a b) fun _ _ h => h).split
  exact ⟨a1, a2, e, h1.symm fun _ _ h => h, h2.symm fun _ _ h => h⟩

theorem tail {as bs} (h : Both R as bs) : Both R as.tail bs.tail := by
  cases h with
  | nil => exact .nil
  | cons _ hs => exact hs

theorem get? {as bs} (h : Both R as bs) : ∀ i : Nat, Blank.Opt R as[i]? bs[i]? := by
  induction h with
  | nil => intro i; exact .none
  | cons h hs ih =>
    intro i
    cases i with
    | zero => exact .some h
    | succ i => simpa using ih i

end Both

namespace Blank

variable {Q : Kind → Text → Text → Prop}

/-- Definitions of macros that differ in the texts of blanks. -/
inductive MacroAlike (Q : Kind → Text → Text → Prop) : Macro → Macro → Prop
  | declare (d : DeclareMacro) : MacroAlike Q (.declare d) (.declare d)
  | cmd (nm : Text) (n : Nat) {o o' : Option (List Tok)} {b b' : List Tok} (ho : Opt (Toks Q) o o') (hb : Toks Q b b') :
      MacroAlike Q (.cmd nm n o b) (.cmd nm n o' b')
  | env (nm : Text) (n : Nat) {o o' : Option (List Tok)} {b b' d d' : List Tok} (ho : Opt (Toks Q) o o') (hb : Toks Q b b') (hd : Toks Q d d') :
      MacroAlike Q (.env nm n o b d) (.env nm n o' b' d')

/-- Macro tables, name by name. -/
def TableAlike (Q : Kind → Text → Text → Prop) (m m' : MacroTable) : Prop := ∀ n, Opt (MacroAlike Q) (m n) (m' n)

theorem opt_refl {α : Type} {R : α → α → Prop} (h : ∀ a, R a a) (a : Option α) : Opt R a a := by
  cases a with
  | none => exact .none
  | some a => exact .some (h a)

theorem macro_refl (m : Macro) : MacroAlike Q m m := by
  cases m with
  | declare d => exact .declare d
  | cmd nm n o b => exact .cmd nm n (opt_refl (Both.refl tok_refl) o) (Both.refl tok_refl b)
  | env nm n o b d => exact .env nm n (opt_refl (Both.refl tok_refl) o) (Both.refl tok_refl b) (Both.refl tok_refl d)

theorem table_refl (m : MacroTable) : TableAlike Q m m := fun n => opt_refl macro_refl (m n)

theorem nonblank {k : Token} (h : k.isTrivia = false) : Grammar.isBlank k = false := by
  cases k <;> first | rfl | (cases h)

theorem tok_eqR {k : Token} {x : Text} {t : Tok} (h : AlikeTok Q t (k, x)) (hb : Grammar.isBlank k = false) : t = (k, x) := by
  obtain ⟨k', x'⟩ := t
  have : k' = k := h.1
  subst this
  exact (tok_eq h hb).symm

theorem cmdTok_nonblank {n : CommandName} : Grammar.isBlank (.cmd n) = false := command_nonblank

/-! ### Nested texts -/

/-- A test on tokens that looks at their kind only. -/
def OnKind (p : Tok → Bool) : Prop := ∀ t t' : Tok, t.1 = t'.1 → p t = p t'

theorem onKind_alike {p : Tok → Bool} (h : OnKind p) {t t' : Tok} (k : AlikeTok Q t t') : p t = p t' := h t t' k.1

theorem kind_opensBrace : OnKind opensBrace := fun t t' h => by unfold opensBrace; rw [h]
theorem kind_closesBrace : OnKind closesBrace := fun t t' h => by unfold closesBrace; rw [h]
theorem kind_closes (bk : BraceKind) : OnKind (closes bk) := fun t t' h => by unfold closes; rw [h]
theorem kind_opensIf : OnKind opensIf := fun t t' h => by unfold opensIf; rw [h]
theorem kind_closesIf : OnKind closesIf := fun t t' h => by unfold closesIf; rw [h]
theorem kind_opensEnv : OnKind opensEnv := fun t t' h => by unfold opensEnv; rw [h]
theorem kind_closesEnv : OnKind closesEnv := fun t t' h => by unfold closesEnv; rw [h]

theorem level_alike {op cl : Tok → Bool} (ho : OnKind op) (hc : OnKind cl) {ts ts' : List Tok} (h : Toks Q ts ts') : level op cl ts = level op cl ts' := by
  induction h with
  | nil => rfl
  | cons h _ ih => unfold level; rw [onKind_alike ho h, onKind_alike hc h, ih]

theorem upto_alike {op cl stop : Tok → Bool} (ho : OnKind op) (hc : OnKind cl) (hs : OnKind stop) {s b rest s' : List Tok} (h : Upto op cl stop s b rest)
    (ht : Toks Q s s') : ∃ b' rest', Upto op cl stop s' b' rest' ∧ Toks Q b b' ∧ Toks Q rest rest' := by
  obtain ⟨h1, h2, h3⟩ := h
  subst h1
  obtain ⟨b', rest', rfl, k1, k2⟩ := ht.split
  refine ⟨b', rest', ⟨rfl, ?_, ?_⟩, k1, k2⟩
  · rcases h2 with rfl | ⟨t, r, rfl, h4, h5⟩
    · cases k2; exact .inl rfl
    · cases k2 with
      | @cons _ t' _ r' hh _ => exact .inr ⟨t', r', rfl, by rw [← onKind_alike hs hh]; exact h4, by rw [← level_alike ho hc k1]; exact h5⟩
  · intro p t q e hst
    subst e
    obtain ⟨p1, q1, rfl, k3, k4⟩ := k1.splitR
    cases k4 with
    | @cons t1 _ q1 _ hh _ =>
      rw [← level_alike ho hc k3]
      exact h3 p1 t1 q1 rfl (by rw [onKind_alike hs hh]; exact hst)

theorem group_alike {bk : BraceKind} {s b rest s' : List Tok} (h : Group bk s b rest) (ht : Toks Q s s') :
    ∃ b' rest', Group bk s' b' rest' ∧ Toks Q b b' ∧ Toks Q rest rest' := by
  obtain ⟨mid, h1, rfl⟩ := h
  obtain ⟨b', mid', k1, k2, k3⟩ := upto_alike kind_opensBrace kind_closesBrace (kind_closes bk) h1 ht
  exact ⟨b', mid'.tail, ⟨mid', k1, rfl⟩, k2, k3.tail⟩

theorem skipped_alike {s rest s' : List Tok} (h : Skipped s rest) (ht : Toks Q s s') : ∃ rest', Skipped s' rest' ∧ Toks Q rest rest' := by
  obtain ⟨b, h⟩ := h
  obtain ⟨b', mid', k1, _, k3⟩ := upto_alike kind_opensIf kind_closesIf kind_closesIf h ht
  exact ⟨mid', ⟨b', k1⟩, k3⟩

theorem body_alike {s b rest s' : List Tok} (h : Body s b rest) (ht : Toks Q s s') : ∃ b' rest', Body s' b' rest' ∧ Toks Q b b' ∧ Toks Q rest rest' :=
  upto_alike kind_opensEnv kind_closesEnv kind_closesEnv h ht

theorem headKind {P : Token → Prop} {ts ts' : List Tok} (h : Toks Q ts ts') (hp : ∀ t, ts.head? = some t → P t.1) : ∀ t, ts'.head? = some t → P t.1 :=
  head_iff h hp

theorem blanks_alike {s rest s' : List Tok} (h : Blanks s rest) (ht : Toks Q s s') : ∃ rest', Blanks s' rest' ∧ Toks Q rest rest' := by
  obtain ⟨ws, h1, rfl, h3⟩ := h
  obtain ⟨ws', rest', rfl, k1, k2⟩ := ht.split
  refine ⟨rest', ⟨ws', fun t hm => ?_, rfl, headKind (P := fun k => k.isTrivia = false) k2 h3⟩, k2⟩
  obtain ⟨a, ha, k⟩ := k1.mem_right t hm
  rw [← k.1]
  exact h1 a ha

theorem blanks_over {s s' : List Tok} (h : Blanks s []) (ht : Toks Q s s') : Blanks s' [] := by
  obtain ⟨rest', h1, h2⟩ := blanks_alike h ht
  cases h2
  exact h1

theorem blanks_next {s s' : List Tok} {t : Tok} {s1 : List Tok} (h : Blanks s (t :: s1)) (ht : Toks Q s s') :
    ∃ t' s1', Blanks s' (t' :: s1') ∧ AlikeTok Q t t' ∧ Toks Q s1 s1' := by
  obtain ⟨rest', h1, h2⟩ := blanks_alike h ht
  cases h2 with
  | cons a b => exact ⟨_, _, h1, a, b⟩

/-! ### Arguments -/

abbrev Lists (Q : Kind → Text → Text → Prop) : List (List Tok) → List (List Tok) → Prop := Both (Toks Q)

theorem chars_alike (w : Text) : Lists Q (w.map fun c => [((.word, [c]) : Tok)]) (w.map fun c => [(.word, [c])]) :=
  Both.refl (Both.refl tok_refl) _

theorem args_alike {n : Nat} {s : List Tok} {as : List (List Tok)} {m : Nat} {rest : List Tok} (h : Args n s as m rest) :
    ∀ {s'}, Toks Q s s' → ∃ as' rest', Args n s' as' m rest' ∧ Lists Q as as' ∧ Toks Q rest rest' := by
  induction h with
  | done => intro s' ht; exact ⟨[], s', .done, .nil, ht⟩
  | over hs => intro s' ht; exact ⟨[], [], .over (blanks_over hs ht), .nil, .nil⟩
  | group hs hl hg _ ih =>
    intro s' ht
    obtain ⟨t', s1', a1, a2, a3⟩ := blanks_next hs ht
    obtain ⟨b', s2', g1, g2, g3⟩ := group_alike hg a3
    obtain ⟨as', rest', k1, k2, k3⟩ := ih g3
    exact ⟨_, _, .group a1 (a2.1 ▸ hl) g1 k1, .cons g2 k2, k3⟩
  | single hs h1 h2 _ ih =>
    intro s' ht
    obtain ⟨t', s1', a1, a2, a3⟩ := blanks_next hs ht
    obtain ⟨as', rest', k1, k2, k3⟩ := ih a3
    exact ⟨_, _, .single a1 (a2.1 ▸ h1) (a2.1 ▸ h2) k1, .cons (.one a2) k2, k3⟩
  | @word k s s1 w extra hs hlen =>
    intro s' ht
    obtain ⟨t', s1', a1, a2, a3⟩ := blanks_next hs ht
    cases tok_eq a2 rfl
    refine ⟨_, _, .word a1 hlen, chars_alike w, ?_⟩
    split
    · exact a3
    · exact .cons (tok_refl _) a3
  | @shortWord k s s1 as m rest w hs hlen _ ih =>
    intro s' ht
    obtain ⟨t', s1', a1, a2, a3⟩ := blanks_next hs ht
    cases tok_eq a2 rfl
    obtain ⟨as', rest', k1, k2, k3⟩ := ih a3
    exact ⟨_, _, .shortWord a1 hlen k1, (chars_alike w).append k2, k3⟩

theorem called_alike {n : Nat} {o o' : Option (List Tok)} {s : List Tok} {r : Option (List (List Tok))} {rest s' : List Tok} (h : Called n o s r rest)
    (ho : Opt (Toks Q) o o') (ht : Toks Q s s') : ∃ r' rest', Called n o' s' r' rest' ∧ Opt (Lists Q) r r' ∧ Toks Q rest rest' := by
  cases h with
  | all h =>
    obtain ⟨as', rest', k1, k2, k3⟩ := args_alike h ht
    exact ⟨_, _, .all k1, .some k2, k3⟩
  | default h he =>
    obtain ⟨as', rest', k1, k2, k3⟩ := args_alike h ht
    subst he
    cases ho with
    | some ho => exact ⟨_, _, .default k1 rfl, .some (k2.append (.one ho)), k3⟩
  | missing h h0 h1 =>
    obtain ⟨as', rest', k1, k2, k3⟩ := args_alike h ht
    refine ⟨_, _, .missing k1 h0 fun e => ?_, .none, k3⟩
    have := h1 e
    subst this
    cases ho
    rfl

theorem called_some {n : Nat} {o o' : Option (List Tok)} {s : List Tok} {as : List (List Tok)} {rest s' : List Tok} (h : Called n o s (some as) rest)
    (ho : Opt (Toks Q) o o') (ht : Toks Q s s') : ∃ as' rest', Called n o' s' (some as') rest' ∧ Lists Q as as' ∧ Toks Q rest rest' := by
  obtain ⟨r', rest', k1, k2, k3⟩ := called_alike h ho ht
  cases k2 with
  | some k2 => exact ⟨_, _, k1, k2, k3⟩

theorem called_none {n : Nat} {o o' : Option (List Tok)} {s : List Tok} {rest s' : List Tok} (h : Called n o s none rest)
    (ho : Opt (Toks Q) o o') (ht : Toks Q s s') : ∃ rest', Called n o' s' none rest' ∧ Toks Q rest rest' := by
  obtain ⟨r', rest', k1, k2, k3⟩ := called_alike h ho ht
  cases k2 with
  | none => exact ⟨_, k1, k3⟩

/-! ### Substitution -/

theorem raw_alike {lvl : Int} {b o r : List Tok} (h : Raw lvl b o r) : ∀ {b'}, Toks Q b b' → ∃ o' r', Raw lvl b' o' r' ∧ Toks Q o o' ∧ Toks Q r r' := by
  induction h with
  | over => intro b' ht; cases ht; exact ⟨_, _, .over, .nil, .nil⟩
  | opening h1 _ ih =>
    intro b' ht
    cases ht with
    | cons hh hs =>
      obtain ⟨o', r', k1, k2, k3⟩ := ih hs
      refine ⟨_, _, .opening (hh.1 ▸ h1) k1, ?_, k3⟩
      split
      · exact .cons hh k2
      · exact k2
  | closing h1 =>
    intro b' ht
    cases ht with
    | cons hh hs => exact ⟨_, _, .closing (hh.1 ▸ h1), .nil, hs⟩
  | inner h1 hl _ ih =>
    intro b' ht
    cases ht with
    | cons hh hs =>
      obtain ⟨o', r', k1, k2, k3⟩ := ih hs
      exact ⟨_, _, .inner (hh.1 ▸ h1) hl k1, .cons hh k2, k3⟩
  | inside h1 h2 hl _ ih =>
    intro b' ht
    cases ht with
    | cons hh hs =>
      obtain ⟨o', r', k1, k2, k3⟩ := ih hs
      exact ⟨_, _, .inside (hh.1 ▸ h1) (hh.1 ▸ h2) hl k1, .cons hh k2, k3⟩
  | single h1 h2 h3 =>
    intro b' ht
    cases ht with
    | cons hh hs => exact ⟨_, _, .single (hh.1 ▸ h1) (hh.1 ▸ h2) (hh.1 ▸ h3), .one hh, hs⟩
  | blank h1 _ ih =>
    intro b' ht
    cases ht with
    | cons hh hs =>
      obtain ⟨o', r', k1, k2, k3⟩ := ih hs
      exact ⟨_, _, .blank (hh.1 ▸ h1) k1, k2, k3⟩

theorem filled_alike {as as' : List (List Tok)} (ha : Lists Q as as') {b o : List Tok} (h : Filled as b o) :
    ∀ {b'}, Toks Q b b' → ∃ o', Filled as' b' o' ∧ Toks Q o o' := by
  induction h with
  | nil => intro b' ht; cases ht; exact ⟨_, .nil, .nil⟩
  | @param d x b o hd _ ih =>
    intro b' ht
    cases ht with
    | cons hh hs =>
      cases tok_eq hh rfl
      obtain ⟨o', k1, k2⟩ := ih hs
      refine ⟨_, .param hd k1, Both.append ?_ k2⟩
      have hg := ha.get? (d - 1)
      generalize as[d - 1]? = x at hg ⊢
      generalize as'[d - 1]? = y at hg ⊢
      cases hg with
      | none => exact .nil
      | some h => exact h
  | @tok t b o h1 h2 _ ih =>
    intro b' ht
    cases ht with
    | @cons _ t' _ _ hh hs =>
      obtain ⟨o', k1, k2⟩ := ih hs
      refine ⟨_, .tok (fun d => hh.1 ▸ h1 d) (fun e => h2 ?_) k1, .cons hh k2⟩
      subst e
      exact tok_eqR hh cmdTok_nonblank
  | recurse hr _ ih =>
    intro b' ht
    cases ht with
    | cons hh hs =>
      cases tok_eq hh cmdTok_nonblank
      obtain ⟨c', p', k1, k2, k3⟩ := raw_alike hr hs
      obtain ⟨o', g1, g2⟩ := ih k3
      exact ⟨_, .recurse k1 g1, k2.append g2⟩

/-! ### Definitions -/

theorem skipTok_alike {k : Token} {t t' : Tok} {s s' : List Tok} (h : AlikeTok Q t t') (hs : Toks Q s s') :
    Toks Q (if t.1 = k then s else t :: s) (if t'.1 = k then s' else t' :: s') := by
  rw [← h.1]
  split
  · exact hs
  · exact .cons h hs

theorem nameTok_alike {b : Bool} {t t' : Tok} (h : AlikeTok Q t t') : NameTok b t ↔ NameTok b t' := by unfold NameTok; rw [h.1]

theorem named_alike {b : Bool} {s : List Tok} {x : Option Tok} {rest s' : List Tok} (h : Named b s x rest) (ht : Toks Q s s') :
    ∃ rest', Named b s' x rest' ∧ Toks Q rest rest' := by
  cases h with
  | noBrace hs h =>
    obtain ⟨rest', k1, k2⟩ := blanks_alike hs ht
    exact ⟨_, .noBrace k1 (headKind (P := fun k => k ≠ .left .curly) k2 h), k2⟩
  | empty hs hl h1 =>
    obtain ⟨l', s1', a1, a2, a3⟩ := blanks_next hs ht
    exact ⟨_, .empty a1 (a2.1 ▸ hl) (blanks_over h1 a3), .nil⟩
  | over hs hl h1 h2 =>
    obtain ⟨l', s1', a1, a2, a3⟩ := blanks_next hs ht
    obtain ⟨t', s2', b1, b2, b3⟩ := blanks_next h1 a3
    exact ⟨_, .over a1 (a2.1 ▸ hl) b1 (blanks_over h2 b3), .nil⟩
  | wrong hs hl h1 h2 hn =>
    obtain ⟨l', s1', a1, a2, a3⟩ := blanks_next hs ht
    obtain ⟨t', s2', b1, b2, b3⟩ := blanks_next h1 a3
    obtain ⟨r', s3', c1, c2, c3⟩ := blanks_next h2 b3
    exact ⟨_, .wrong a1 (a2.1 ▸ hl) b1 c1 (fun h => hn ((nameTok_alike b2).2 h)), skipTok_alike c2 c3⟩
  | @name l s1 t s2 r s3 hs hl h1 h2 hn =>
    obtain ⟨l', s1', a1, a2, a3⟩ := blanks_next hs ht
    obtain ⟨t', s2', b1, b2, b3⟩ := blanks_next h1 a3
    obtain ⟨r', s3', c1, c2, c3⟩ := blanks_next h2 b3
    have hb : Grammar.isBlank t.1 = false := by
      unfold NameTok at hn
      split at hn
      · rw [hn]; rfl
      · obtain ⟨k, hk⟩ := hn; rw [hk]; exact command_nonblank
    have e : t' = t := tok_eq (k := t.1) (x := t.2) b2 hb
    subst e
    exact ⟨_, .name a1 (a2.1 ▸ hl) b1 c1 hn, skipTok_alike c2 c3⟩

theorem defn_alike {s : List Tok} {d : Option (List Tok)} {rest s' : List Tok} (h : Defn s d rest) (ht : Toks Q s s') :
    ∃ d' rest', Defn s' d' rest' ∧ Opt (Toks Q) d d' ∧ Toks Q rest rest' := by
  cases h with
  | over => cases ht; exact ⟨_, _, .over, .none, .nil⟩
  | group hl h =>
    cases ht with
    | cons hh hs =>
      obtain ⟨b', rest', k1, k2, k3⟩ := group_alike h hs
      exact ⟨_, _, .group (hh.1 ▸ hl) k1, .some k2, k3⟩
  | single hl =>
    cases ht with
    | cons hh hs => exact ⟨_, _, .single (hh.1 ▸ hl), .some (.one hh), hs⟩

theorem dflt_alike {s : List Tok} {d : Option (List Tok)} {rest s' : List Tok} (h : Dflt s d rest) (ht : Toks Q s s') :
    ∃ d' rest', Dflt s' d' rest' ∧ Opt (Toks Q) d d' ∧ Toks Q rest rest' := by
  cases h with
  | absent h => exact ⟨_, _, .absent (headKind (P := fun k => k ≠ .left .bracket) ht h), .none, ht⟩
  | group hl h =>
    cases ht with
    | cons hh hs =>
      obtain ⟨b', rest', k1, k2, k3⟩ := group_alike h hs
      exact ⟨_, _, .group (hh.1 ▸ hl) k1, .some k2, k3⟩

theorem count_alike {s : List Tok} {n : Option Nat} {rest s' : List Tok} (h : Count s n rest) (ht : Toks Q s s') :
    ∃ rest', Count s' n rest' ∧ Toks Q rest rest' := by
  cases h with
  | over hl h1 h2 =>
    cases ht with
    | cons hh hs =>
      obtain ⟨t', s1', a1, a2, a3⟩ := blanks_next h1 hs
      exact ⟨_, .over (hh.1 ▸ hl) a1 (blanks_over h2 a3), .nil⟩
  | empty hl h1 =>
    cases ht with
    | cons hh hs => exact ⟨_, .empty (hh.1 ▸ hl) (blanks_over h1 hs), .nil⟩
  | number hl h1 h2 hn h9 =>
    cases ht with
    | cons hh hs =>
      obtain ⟨t', s1', a1, a2, a3⟩ := blanks_next h1 hs
      obtain ⟨r', s2', b1, b2, b3⟩ := blanks_next h2 a3
      cases tok_eq a2 rfl
      exact ⟨_, .number (hh.1 ▸ hl) a1 b1 hn h9, skipTok_alike b2 b3⟩
  | @wrong l s t s1 r s2 hl h1 h2 hn =>
    cases ht with
    | cons hh hs =>
      obtain ⟨t', s1', a1, a2, a3⟩ := blanks_next h1 hs
      obtain ⟨r', s2', b1, b2, b3⟩ := blanks_next h2 a3
      refine ⟨_, .wrong (hh.1 ▸ hl) a1 b1 ?_, skipTok_alike b2 b3⟩
      rintro ⟨n, k1, k2, k3⟩
      obtain ⟨k, x⟩ := t'
      have k2 : k = .word := k2
      subst k2
      have e := tok_eqR a2 rfl
      subst e
      exact hn ⟨n, k1, rfl, k3⟩

/-- The three parts of a definition. -/
def HeadAlike (Q : Kind → Text → Text → Prop) (a b : Nat × Option (List Tok) × List Tok) : Prop := a.1 = b.1 ∧ Opt (Toks Q) a.2.1 b.2.1 ∧ Toks Q a.2.2 b.2.2

theorem header_alike {s : List Tok} {x : Option (Nat × Option (List Tok) × List Tok)} {rest s' : List Tok} (h : Header s x rest) (ht : Toks Q s s') :
    ∃ x' rest', Header s' x' rest' ∧ Opt (HeadAlike Q) x x' ∧ Toks Q rest rest' := by
  have key : ∀ {n : Nat} {o o' d d' : Option (List Tok)}, Opt (Toks Q) o o' → Opt (Toks Q) d d' →
      Opt (HeadAlike Q) (d.map fun b => (n, o, b)) (d'.map fun b => (n, o', b)) := by
    intro n o o' d d' h k
    cases k with
    | none => exact .none
    | some k => exact .some ⟨rfl, h, k⟩
  cases h with
  | plain h hd =>
    obtain ⟨d', rest', k1, k2, k3⟩ := defn_alike hd ht
    exact ⟨_, _, .plain (headKind (P := fun k => k ≠ .left .bracket) ht h) k1, key .none k2, k3⟩
  | broken hc =>
    obtain ⟨rest', k1, k2⟩ := count_alike hc ht
    exact ⟨_, _, .broken k1, .none, k2⟩
  | counted hc ho hd =>
    obtain ⟨s1', a1, a2⟩ := count_alike hc ht
    obtain ⟨o', s2', b1, b2, b3⟩ := dflt_alike ho a2
    obtain ⟨d', rest', k1, k2, k3⟩ := defn_alike hd b3
    exact ⟨_, _, .counted a1 b1 k1, key b2 k2, k3⟩

theorem header_none {s rest s' : List Tok} (h : Header s none rest) (ht : Toks Q s s') : ∃ rest', Header s' none rest' ∧ Toks Q rest rest' := by
  obtain ⟨x', rest', k1, k2, k3⟩ := header_alike h ht
  cases k2
  exact ⟨_, k1, k3⟩

theorem header_some {s rest s' : List Tok} {n : Nat} {o : Option (List Tok)} {b : List Tok} (h : Header s (some (n, o, b)) rest) (ht : Toks Q s s') :
    ∃ o' b' rest', Header s' (some (n, o', b')) rest' ∧ Opt (Toks Q) o o' ∧ Toks Q b b' ∧ Toks Q rest rest' := by
  obtain ⟨x', rest', k1, k2, k3⟩ := header_alike h ht
  cases k2 with
  | @some _ y h =>
    obtain ⟨n', o', b'⟩ := y
    obtain ⟨h1, h2, h3⟩ := h
    have h1 : n = n' := h1
    subst h1
    exact ⟨_, _, _, k1, h2, h3, k3⟩

theorem marked_alike {b st : List Tok} (h : Marked b st) : ∀ {b'}, Toks Q b b' → ∃ st', Marked b' st' ∧ Toks Q st st' := by
  induction h with
  | nil => intro b' ht; cases ht; exact ⟨_, .nil, .nil⟩
  | param hd hn _ ih =>
    intro b' ht
    obtain ⟨us, rfl, hs⟩ := toks_cons ht rfl
    obtain ⟨vs, rfl, hs2⟩ := toks_cons hs rfl
    obtain ⟨st', k1, k2⟩ := ih hs2
    refine ⟨_, .param hd hn k1, .cons (tok_refl _) (Both.append ?_ k2)⟩
    exact Both.refl tok_refl _
  | hashWord hd _ ih =>
    intro b' ht
    obtain ⟨us, rfl, hs⟩ := toks_cons ht rfl
    obtain ⟨vs, rfl, hs2⟩ := toks_cons hs rfl
    obtain ⟨st', k1, k2⟩ := ih hs2
    exact ⟨_, .hashWord hd k1, .cons (tok_refl _) (.cons (tok_refl _) k2)⟩
  | hashOther h1 _ ih =>
    intro b' ht
    obtain ⟨us, rfl, hs⟩ := toks_cons ht rfl
    obtain ⟨st', k1, k2⟩ := ih hs
    cases hs with
    | cons hh hs => exact ⟨_, .hashOther (hh.1 ▸ h1) k1, .cons (tok_refl _) k2⟩
  | @tok t src st h1 h2 _ ih =>
    intro b' ht
    cases ht with
    | @cons _ t' _ _ hh hs =>
      obtain ⟨st', k1, k2⟩ := ih hs
      refine ⟨_, .tok (hh.1 ▸ h1) (fun e => ?_) k1, .cons hh k2⟩
      obtain ⟨k, x⟩ := t'
      have e : k = .word := e
      subst e
      cases tok_eqR hh rfl
      exact h2 rfl

/-- What a definition binds. -/
def BindAlike (Q : Kind → Text → Text → Prop) (a b : Text × Macro) : Prop := a.1 = b.1 ∧ MacroAlike Q a.2 b.2

theorem defines_alike {s : List Tok} {x : Option (Text × Macro)} {rest s' : List Tok} (h : Defines s x rest) (ht : Toks Q s s') :
    ∃ x' rest', Defines s' x' rest' ∧ Opt (BindAlike Q) x x' ∧ Toks Q rest rest' := by
  cases h with
  | unnamed h =>
    obtain ⟨rest', k1, k2⟩ := named_alike h ht
    exact ⟨_, _, .unnamed k1, .none, k2⟩
  | unfinished h hh =>
    obtain ⟨s1', k1, k2⟩ := named_alike h ht
    obtain ⟨rest', g1, g2⟩ := header_none hh k2
    exact ⟨_, _, .unfinished k1 g1, .none, g2⟩
  | defines h hh hm =>
    obtain ⟨s1', k1, k2⟩ := named_alike h ht
    obtain ⟨o', b', rest', g1, g2, g3, g4⟩ := header_some hh k2
    obtain ⟨st', m1, m2⟩ := marked_alike hm g3
    exact ⟨_, _, .defines k1 g1 m1, .some ⟨rfl, .cmd _ _ g2 m2⟩, g4⟩

theorem definesEnv_alike {s : List Tok} {x : Option (Text × Macro)} {rest s' : List Tok} (h : DefinesEnv s x rest) (ht : Toks Q s s') :
    ∃ x' rest', DefinesEnv s' x' rest' ∧ Opt (BindAlike Q) x x' ∧ Toks Q rest rest' := by
  cases h with
  | unnamed h =>
    obtain ⟨rest', k1, k2⟩ := named_alike h ht
    exact ⟨_, _, .unnamed k1, .none, k2⟩
  | unfinished h hh =>
    obtain ⟨s1', k1, k2⟩ := named_alike h ht
    obtain ⟨rest', g1, g2⟩ := header_none hh k2
    exact ⟨_, _, .unfinished k1 g1, .none, g2⟩
  | over h hh =>
    obtain ⟨s1', k1, k2⟩ := named_alike h ht
    obtain ⟨o', b', rest', g1, g2, g3, g4⟩ := header_some hh k2
    cases g4
    exact ⟨_, _, .over k1 g1, .none, .nil⟩
  | noEnd h hh hm hl =>
    obtain ⟨s1', k1, k2⟩ := named_alike h ht
    obtain ⟨o', b', rest', g1, g2, g3, g4⟩ := header_some hh k2
    obtain ⟨st', m1, m2⟩ := marked_alike hm g3
    cases g4 with
    | cons c cs => exact ⟨_, _, .noEnd k1 g1 m1 (c.1 ▸ hl), .none, .cons c cs⟩
  | defines h hh hl hg hm hm' =>
    obtain ⟨s1', k1, k2⟩ := named_alike h ht
    obtain ⟨o', b', rest', g1, g2, g3, g4⟩ := header_some hh k2
    cases g4 with
    | cons c cs =>
      obtain ⟨d', rest', e1, e2, e3⟩ := group_alike hg cs
      obtain ⟨st', m1, m2⟩ := marked_alike hm g3
      obtain ⟨st2', n1, n2⟩ := marked_alike hm' e2
      exact ⟨_, _, .defines k1 g1 (c.1 ▸ hl) e1 m1 n1, .some ⟨rfl, .env _ _ g2 m2 n2⟩, e3⟩

/-! ### Steps -/

/-- Engines with the same open conditionals, and tables that differ in the texts of blanks. -/
def EngAlike (Q : Kind → Text → Text → Prop) (e f : Eng) : Prop := TableAlike Q e.macros f.macros ∧ e.ifs = f.ifs

theorem table_none {m m' : MacroTable} (h : TableAlike Q m m') {n : Text} (k : m n = none) : m' n = none := by
  have := h n
  rw [k] at this
  generalize m' n = y at this ⊢
  cases this
  rfl

theorem table_declare {m m' : MacroTable} (h : TableAlike Q m m') {n : Text} {d : DeclareMacro} (k : m n = some (.declare d)) : m' n = some (.declare d) := by
  have := h n
  rw [k] at this
  generalize m' n = y at this ⊢
  cases this with
  | some h => cases h; rfl

theorem table_cmd {m m' : MacroTable} (h : TableAlike Q m m') {n nm : Text} {k : Nat} {o : Option (List Tok)} {b : List Tok} (e : m n = some (.cmd nm k o b)) :
    ∃ o' b', m' n = some (.cmd nm k o' b') ∧ Opt (Toks Q) o o' ∧ Toks Q b b' := by
  have := h n
  rw [e] at this
  generalize m' n = y at this ⊢
  cases this with
  | some h =>
    cases h with
    | cmd _ _ ho hb => exact ⟨_, _, rfl, ho, hb⟩

theorem table_env {m m' : MacroTable} (h : TableAlike Q m m') {n nm : Text} {k : Nat} {o : Option (List Tok)} {b d : List Tok}
    (e : m n = some (.env nm k o b d)) :
    ∃ o' b' d', m' n = some (.env nm k o' b' d') ∧ Opt (Toks Q) o o' ∧ Toks Q b b' ∧ Toks Q d d' := by
  have := h n
  rw [e] at this
  generalize m' n = y at this ⊢
  cases this with
  | some h =>
    cases h with
    | env _ _ ho hb hd => exact ⟨_, _, _, rfl, ho, hb, hd⟩

theorem handedOn_alike {m m' : MacroTable} (h : TableAlike Q m m') {t : Tok} (k : HandedOn m t) : HandedOn m' t := by
  cases k with
  | unbound k => exact .unbound (table_none h k)
  | isEnv k => obtain ⟨_, _, _, k, _⟩ := table_env h k; exact .isEnv k
  | reserved k => exact .reserved (table_declare h k)
  | beginUnbound k => exact .beginUnbound (table_none h k)
  | beginCmd k => obtain ⟨_, _, k, _⟩ := table_cmd h k; exact .beginCmd k
  | beginDeclare k => exact .beginDeclare (table_declare h k)

theorem handedOn_nonblank {m : MacroTable} {t : Tok} (k : HandedOn m t) : Grammar.isBlank t.1 = false := by
  cases k <;> exact command_nonblank

theorem stores_alike (d : DeclareCmdOrEnv) {a b : Option Macro} (h : Opt (MacroAlike Q) a b) : stores d a = stores d b := by
  cases h <;> cases d <;> rfl

theorem reports_alike (d : DeclareCmdOrEnv) {a b : Option Macro} (h : Opt (MacroAlike Q) a b) : reports d a = reports d b := by
  cases h <;> cases d <;> first | rfl | (rename_i b; cases b <;> rfl)

theorem bindName_alike {m m' : MacroTable} (h : TableAlike Q m m') {v v' : Macro} (hv : MacroAlike Q v v') (name : Text) :
    TableAlike Q (bindName m name v) (bindName m' name v') := by
  intro n
  unfold bindName
  split
  · exact .some hv
  · exact h n

/-- One step. -/
theorem rewrites_alike {e e2 : Eng} {s s2 o : List Tok} (h : Rewrites e s e2 s2 o) {f : Eng} {t : List Tok} (he : EngAlike Q e f) (ht : Toks Q s t) :
    ∃ f2 t2 o', Rewrites f t f2 t2 o' ∧ EngAlike Q e2 f2 ∧ Toks Q s2 t2 ∧ Toks Q o o' := by
  obtain ⟨m', ifs'⟩ := f
  obtain ⟨hm, hi⟩ := he
  have hm : TableAlike Q e.macros m' := hm
  have hi : e.ifs = ifs' := hi
  subst hi
  cases h with
  | ordinary h =>
    cases ht with
    | cons hh hs =>
      refine ⟨_, _, _, .ordinary ?_, ⟨hm, rfl⟩, hs, .one hh⟩
      unfold Ordinary at h ⊢
      rw [← hh.1]
      exact h
  | @handedOn _ t _ h =>
    cases ht with
    | cons hh hs =>
      obtain ⟨k, x⟩ := t
      cases tok_eq hh (handedOn_nonblank h)
      exact ⟨_, _, _, .handedOn (handedOn_alike hm h), ⟨hm, rfl⟩, hs, .one (tok_refl _)⟩
  | cif =>
    obtain ⟨us, rfl, hs⟩ := toks_cons ht command_nonblank
    refine ⟨_, _, _, .cif, ⟨hm, rfl⟩, hs, Both.refl tok_refl _⟩
  | elseSkips h =>
    obtain ⟨us, rfl, hs⟩ := toks_cons ht command_nonblank
    obtain ⟨r, k1, k2⟩ := skipped_alike h hs
    exact ⟨_, _, _, .elseSkips k1, ⟨hm, rfl⟩, k2, .nil⟩
  | elseSkipsTypst h =>
    obtain ⟨us, rfl, hs⟩ := toks_cons ht command_nonblank
    obtain ⟨r, k1, k2⟩ := skipped_alike h hs
    exact ⟨_, _, _, .elseSkipsTypst k1, ⟨hm, rfl⟩, k2, .nil⟩
  | elseAgain =>
    obtain ⟨us, rfl, hs⟩ := toks_cons ht command_nonblank
    exact ⟨_, _, _, .elseAgain, ⟨hm, rfl⟩, hs, .nil⟩
  | elseAgainTypst =>
    obtain ⟨us, rfl, hs⟩ := toks_cons ht command_nonblank
    exact ⟨_, _, _, .elseAgainTypst, ⟨hm, rfl⟩, hs, .nil⟩
  | elseOfFalse =>
    obtain ⟨us, rfl, hs⟩ := toks_cons ht command_nonblank
    exact ⟨_, _, _, .elseOfFalse, ⟨hm, rfl⟩, hs, .one (tok_refl _)⟩
  | elseUndecided h =>
    obtain ⟨us, rfl, hs⟩ := toks_cons ht command_nonblank
    exact ⟨_, _, _, .elseUndecided h, ⟨hm, rfl⟩, hs, .one (tok_refl _)⟩
  | fiDecided h =>
    obtain ⟨us, rfl, hs⟩ := toks_cons ht command_nonblank
    exact ⟨_, _, _, .fiDecided h, ⟨hm, rfl⟩, hs, .nil⟩
  | fiOther h =>
    obtain ⟨us, rfl, hs⟩ := toks_cons ht command_nonblank
    exact ⟨_, _, _, .fiOther h, ⟨hm, rfl⟩, hs, .one (tok_refl _)⟩
  | fiStray =>
    obtain ⟨us, rfl, hs⟩ := toks_cons ht command_nonblank
    exact ⟨_, _, _, .fiStray, ⟨hm, rfl⟩, hs, .one (tok_refl _)⟩
  | @define e cmd d s name v s2 h hd =>
    obtain ⟨us, rfl, hs⟩ := toks_cons ht command_nonblank
    have hd' : ∃ v' s2', ((definesEnvironments d ∧ DefinesEnv us (some (name, v')) s2') ∨ (¬ definesEnvironments d ∧ Defines us (some (name, v')) s2')) ∧
        MacroAlike Q v v' ∧ Toks Q s2 s2' := by
      rcases hd with ⟨h1, h2⟩ | ⟨h1, h2⟩
      · obtain ⟨x', r', k1, k2, k3⟩ := definesEnv_alike h2 hs
        cases k2 with
        | @some _ y k =>
          obtain ⟨n', v'⟩ := y
          have e : name = n' := k.1
          subst e
          exact ⟨v', r', .inl ⟨h1, k1⟩, k.2, k3⟩
      · obtain ⟨x', r', k1, k2, k3⟩ := defines_alike h2 hs
        cases k2 with
        | @some _ y k =>
          obtain ⟨n', v'⟩ := y
          have e : name = n' := k.1
          subst e
          exact ⟨v', r', .inr ⟨h1, k1⟩, k.2, k3⟩
    obtain ⟨v', r', k1, k2, k3⟩ := hd'
    refine ⟨_, _, _, .define (table_declare hm h) k1, ⟨?_, rfl⟩, k3, ?_⟩
    · show TableAlike Q (if stores d (e.macros name) = true then bindName e.macros name v else e.macros)
        (if stores d (m' name) = true then bindName m' name v' else m')
      rw [stores_alike d (hm name)]
      split
      · exact bindName_alike hm k2 name
      · exact hm
    · show Toks Q (if reports d (e.macros name) = true then [(.error, name)] else []) (if reports d (m' name) = true then [(.error, name)] else [])
      rw [reports_alike d (hm name)]
      exact Both.refl tok_refl _
  | @broken e cmd d s s2 h hd =>
    obtain ⟨us, rfl, hs⟩ := toks_cons ht command_nonblank
    rcases hd with ⟨h1, h2⟩ | ⟨h1, h2⟩
    · obtain ⟨x', r', k1, k2, k3⟩ := definesEnv_alike h2 hs
      cases k2
      exact ⟨_, _, _, .broken (table_declare hm h) (.inl ⟨h1, k1⟩), ⟨hm, rfl⟩, k3, .nil⟩
    · obtain ⟨x', r', k1, k2, k3⟩ := defines_alike h2 hs
      cases k2
      exact ⟨_, _, _, .broken (table_declare hm h) (.inr ⟨h1, k1⟩), ⟨hm, rfl⟩, k3, .nil⟩
  | call h ha hf =>
    obtain ⟨us, rfl, hs⟩ := toks_cons ht command_nonblank
    obtain ⟨o', b', g1, g2, g3⟩ := table_cmd hm h
    obtain ⟨as', r', k1, k2, k3⟩ := called_some ha g2 hs
    obtain ⟨o1, f1, f2⟩ := filled_alike k2 hf g3
    exact ⟨_, _, _, .call g1 k1 f1, ⟨hm, rfl⟩, f2.append k3, .nil⟩
  | badCall h ha =>
    obtain ⟨us, rfl, hs⟩ := toks_cons ht command_nonblank
    obtain ⟨o', b', g1, g2, g3⟩ := table_cmd hm h
    obtain ⟨r', k1, k2⟩ := called_none ha g2 hs
    exact ⟨_, _, _, .badCall g1 k1, ⟨hm, rfl⟩, k2, .one (tok_refl _)⟩
  | env h ha hb hx hf hg =>
    obtain ⟨us, rfl, hs⟩ := toks_cons ht command_nonblank
    obtain ⟨o', b', d', g1, g2, g3, g4⟩ := table_env hm h
    obtain ⟨as', r', k1, k2, k3⟩ := called_some ha g2 hs
    obtain ⟨body', r2, b1, b2, b3⟩ := body_alike hb k3
    obtain ⟨vs, rfl, hs2⟩ := toks_cons b3 command_nonblank
    obtain ⟨o1, f1, f2⟩ := filled_alike k2 hf g3
    obtain ⟨o2, f3, f4⟩ := filled_alike k2 hg g4
    exact ⟨_, _, _, .env g1 k1 b1 hx f1 f3, ⟨hm, rfl⟩, ((f2.append b2).append f4).append hs2, .nil⟩
  | badEnvCall h ha =>
    obtain ⟨us, rfl, hs⟩ := toks_cons ht command_nonblank
    obtain ⟨o', b', d', g1, g2, g3, g4⟩ := table_env hm h
    obtain ⟨r', k1, k2⟩ := called_none ha g2 hs
    exact ⟨_, _, _, .badEnvCall g1 k1, ⟨hm, rfl⟩, k2, .one (tok_refl _)⟩
  | envUnmatched h ha hb hx =>
    obtain ⟨us, rfl, hs⟩ := toks_cons ht command_nonblank
    obtain ⟨o', b', d', g1, g2, g3, g4⟩ := table_env hm h
    obtain ⟨as', r', k1, k2, k3⟩ := called_some ha g2 hs
    obtain ⟨body', r2, b1, b2, b3⟩ := body_alike hb k3
    obtain ⟨vs, rfl, hs2⟩ := toks_cons b3 command_nonblank
    exact ⟨_, _, _, .envUnmatched g1 k1 b1 hx, ⟨hm, rfl⟩, .cons (tok_refl _) hs2, .one (tok_refl _)⟩
  | envUnclosed h ha hb =>
    obtain ⟨us, rfl, hs⟩ := toks_cons ht command_nonblank
    obtain ⟨o', b', d', g1, g2, g3, g4⟩ := table_env hm h
    obtain ⟨as', r', k1, k2, k3⟩ := called_some ha g2 hs
    obtain ⟨body', r2, b1, b2, b3⟩ := body_alike hb k3
    cases b3
    exact ⟨_, _, _, .envUnclosed g1 k1 b1, ⟨hm, rfl⟩, .nil, .nil⟩

theorem endsInMark_alike {b b' : List Tok} (h : EndsInMark b) (hb : Toks Q b b') : EndsInMark b' := by
  obtain ⟨src, x, rfl⟩ := h
  obtain ⟨b1, b2, rfl, h1, h2⟩ := hb.split
  obtain ⟨us, rfl, hs⟩ := toks_cons h2 rfl
  cases hs
  exact ⟨b1, x, rfl⟩

theorem panics_alike {e f : Eng} {s t : List Tok} (h : Panics e s) (he : EngAlike Q e f) (ht : Toks Q s t) : Panics f t := by
  obtain ⟨cmd, d, s', rfl, h1, h2⟩ := h
  obtain ⟨us, rfl, hs⟩ := toks_cons ht command_nonblank
  refine ⟨cmd, d, us, rfl, table_declare he.1 h1, ?_⟩
  rcases h2 with ⟨h2, h3⟩ | ⟨h2, h3⟩
  · refine .inl ⟨h2, ?_⟩
    cases h3 with
    | begin_ h hh hm =>
      obtain ⟨s1', k1, k2⟩ := named_alike h hs
      obtain ⟨o', b', rest', g1, g2, g3, g4⟩ := header_some hh k2
      cases g4 with
      | cons c cs => exact .begin_ k1 g1 (endsInMark_alike hm g3)
    | end_ h hh hl hg hm =>
      obtain ⟨s1', k1, k2⟩ := named_alike h hs
      obtain ⟨o', b', rest', g1, g2, g3, g4⟩ := header_some hh k2
      cases g4 with
      | cons c cs =>
        obtain ⟨d', rest', e1, e2, e3⟩ := group_alike hg cs
        exact .end_ k1 g1 (c.1 ▸ hl) e1 (endsInMark_alike hm e2)
  · refine .inr ⟨h2, ?_⟩
    cases h3 with
    | name h hx =>
      obtain ⟨s1', k1, k2⟩ := named_alike h hs
      exact .name k1 hx
    | text h hh hm =>
      obtain ⟨s1', k1, k2⟩ := named_alike h hs
      obtain ⟨o', b', rest', g1, g2, g3, g4⟩ := header_some hh k2
      exact .text k1 g1 (endsInMark_alike hm g3)

/-! ### Runs -/

theorem expands_alike {e : Eng} {s outs : List Tok} (h : Expands e s outs) : ∀ {f : Eng} {t : List Tok}, EngAlike Q e f → Toks Q s t →
    ∃ outs', Expands f t outs' ∧ Toks Q outs outs' := by
  induction h with
  | done => intro f t he ht; cases ht; exact ⟨_, .done, .nil⟩
  | step h _ ih =>
    intro f t he ht
    obtain ⟨f2, t2, o', k1, k2, k3, k4⟩ := rewrites_alike h he ht
    obtain ⟨os', g1, g2⟩ := ih k2 k3
    exact ⟨_, .step k1 g1, k4.append g2⟩

theorem collapses_alike {e : Eng} {s : List Tok} (h : Collapses e s) : ∀ {f : Eng} {t : List Tok}, EngAlike Q e f → Toks Q s t → Collapses f t := by
  induction h with
  | now h => intro f t he ht; exact .now (panics_alike h he ht)
  | later h _ ih =>
    intro f t he ht
    obtain ⟨f2, t2, o', k1, k2, k3, k4⟩ := rewrites_alike h he ht
    exact .later k1 (ih k2 k3)

theorem lasts_alike {n : Nat} {e : Eng} {s : List Tok} (h : Lasts n e s) : ∀ {f : Eng} {t : List Tok}, EngAlike Q e f → Toks Q s t → Lasts n f t := by
  induction h with
  | zero => intro f t he ht; exact .zero
  | succ h _ ih =>
    intro f t he ht
    obtain ⟨f2, t2, o', k1, k2, k3, k4⟩ := rewrites_alike h he ht
    exact .succ k1 (ih k2 k3)

end Blank
end Mitex
