/-
Documents that end with a closed item, and texts that end with a whole token (C75).
-/
import Verif.Proof.LocalJoin
import Verif.Props.Rules

namespace Mitex
namespace Local
open Grammar

variable {env : PEnv}

theorem reaches_eats {r r' : Row} {ts hs ts' : List Tok} (h : Reaches env r ts hs r' ts') : Eats ts ts' := by
  induction h with
  | refl => exact .refl _
  | step hi _ ih => exact ((eatsAll env).1 hi).1.trans ih

/-- Reading up to a token does not depend on what follows the token. -/
theorem lookahead_reaches {r r' : Row} {ts hs ts' : List Tok} (h : Reaches env r ts hs r' ts') {u u' : List Tok} {t : Tok} {v : List Tok}
    (ht : t.1 ≠ .word) (e : ts = u ++ t :: v) (e' : ts' = u' ++ t :: v) {T : List Tok} (hT : Like t T) :
    ∃ hs', Reaches env r (u ++ T) hs' r' (u' ++ T) := by
  induction h generalizing u with
  | refl r ts =>
    have : u = u' := List.append_cancel_right (e.symm.trans e')
    subst this
    exact ⟨[], .refl _ _⟩
  | @step r r1 r' t0 att ts ts1 ts' hs hi h ih =>
    obtain ⟨u1, e1⟩ := (reaches_eats h).tail ht e'
    have a := (lookahead env).1 hi ht e e1 hT
    obtain ⟨hs', b⟩ := ih e1 e'
    cases u with
    | nil => cases e; exact (sticks ht ((eatsAll env).1 hi) e1 rfl).elim
    | cons s u => cases e; exact ⟨_, .step a b⟩

theorem grouping_close {k close : Token} {sc : Scope} {kind : Kind} {att : Bool} (h : grouping k = some (sc, close, kind, att)) : close ≠ .word := by
  unfold grouping at h
  split at h <;> cases h <;> exact fun h => (by cases h)

theorem closing_same (k : Token) (y : Text) (T : List Tok) : closing k ((k, y) :: T) = ([leafOf (k, y)], T) := by
  unfold closing
  exact if_pos rfl

theorem like_self (t : Tok) (T : List Tok) : Like t (t :: T) := by
  intro s h
  cases h
  rfl

/-- A closed item is read in the same way whatever follows. -/
theorem closed_any {r r' : Row} {ts : List Tok} (h : ClosedItem env r ts r') :
    ∃ t0 w c att, c.1 ≠ .word ∧ ts = t0 :: w ++ [c] ∧ ∀ T, Item env .root false r (t0 :: (w ++ c :: T)) att r' T := by
  cases h with
  | @group sc' att r r1 k close kind x y ts h hi =>
    refine ⟨(k, x), ts, (close, y), att, grouping_close h, rfl, fun T => ?_⟩
    have i := (lookahead env).2.1 hi (u' := []) (grouping_close h) rfl rfl (like_self (close, y) T)
    have := Item.group (env := env) (sc := .root) (one := false) (r := r) h i
    rw [List.nil_append, closing_same] at this
    exact this
  | @environment r r1 x y ts h hi =>
    have hw : ((.cmd .endEnv, y) : Tok).1 ≠ .word := fun h => (by cases h)
    refine ⟨(.cmd .beginEnv, x), ts, (.cmd .endEnv, y), true, hw, rfl, fun T => ?_⟩
    have i := (lookahead env).2.1 hi (u' := []) hw rfl rfl (like_self (.cmd .endEnv, y) T)
    have := Item.environment (env := env) (sc := .root) (one := false) (r := r) h i
    rw [List.nil_append, closing_same] at this
    exact this
  | @environmentArgs r r1 p x y args blanks ts ts1 h hp ha hi =>
    have hw : ((.cmd .endEnv, y) : Tok).1 ≠ .word := fun h => (by cases h)
    refine ⟨(.cmd .beginEnv, x), ts, (.cmd .endEnv, y), true, hw, rfl, fun T => ?_⟩
    have i := (lookahead env).2.1 hi (u' := []) hw rfl rfl (like_self (.cmd .endEnv, y) T)
    have a := (lookahead env).2.2 ha hw rfl rfl (like_self (.cmd .endEnv, y) T)
    have := Item.environmentArgs (env := env) (sc := .root) (one := false) (r := r) h hp a i
    rw [List.nil_append, closing_same] at this
    exact this

/-- After a document that ends with a closed item, reading always comes to the end of it. -/
theorem closed_reaches {ta : List Tok} {A : List Elem} (h : ClosedDocument env ta A) :
    ∃ r : Row, r.items = A ∧ ∀ T, ∃ hs, Reaches env start (ta ++ T) hs r T := by
  obtain ⟨hs, r, ts1, r', h1, h2, rfl⟩ := h
  obtain ⟨t0, w, c, att, hc, e, hi⟩ := closed_any h2
  refine ⟨if att then { r' with last := some (r.items.length : Int) } else r', by cases att <;> rfl, fun T => ?_⟩
  subst e
  obtain ⟨u, hu⟩ := (reaches_eats h1).tail hc rfl
  obtain ⟨hs', h3⟩ := lookahead_reaches h1 hc hu rfl (like_self c T)
  subst hu
  have h5 := Reaches.trans h3 (.step (hi T) (.refl _ _))
  rw [List.append_assoc]
  exact ⟨_, h5⟩

theorem shift_back (r : Row) : ∃ f l, shift r.items { start with first := f, last := l } = r := by
  refine ⟨r.first.map (· - (r.items.length : Int)), r.last.map (· - (r.items.length : Int)), ?_⟩
  obtain ⟨items, first, last⟩ := r
  unfold shift start
  simp only [List.append_nil, Option.map_map, Row.mk.injEq, true_and]
  constructor
  · cases first with
    | none => rfl
    | some z => simp only [Option.map_some, Option.some.injEq, Function.comp_apply]; omega
  · cases last with
    | none => rfl
    | some z => simp only [Option.map_some, Option.some.injEq, Function.comp_apply]; omega

/-- The items of two documents, one after the other. -/
theorem reaches_join {ta tb : List Tok} {r : Row} {hs : List Tok} {B : List Elem} (h : Reaches env start (ta ++ tb) hs r tb)
    (hb : AloneDocument env tb B) : ∃ hs' r', Reaches env start (ta ++ tb) hs' r' [] ∧ r'.items = r.items ++ B := by
  obtain ⟨hs1, r1, h1, ha, rfl⟩ := hb
  obtain ⟨f, l, e⟩ := shift_back r
  obtain ⟨l', h2⟩ := alone_reaches h1 ha f l
  have h3 := shift_reaches r.items h2
  rw [e] at h3
  exact ⟨_, _, Reaches.trans h h3, rfl⟩

/-! ### Tokens -/

theorem NoMore.append {p : Char → Prop} {rest b : Text} (h : NoMore p rest) (hb : rest = [] → NoMore p b) : NoMore p (rest ++ b) := by
  cases rest with
  | nil => exact hb rfl
  | cons c cs => intro d hd; exact h d hd

theorem Brace.append {b : Char} {s at_ : Text} (h : Brace b s at_) (x : Text) : Brace b (s ++ x) (at_ ++ x) := by
  obtain ⟨sp, k, rest, h1, rfl, p, y, h2, h3, rfl⟩ := h
  exact ⟨sp, k, rest ++ x, h1, by simp, p, y, h2, h3, by simp⟩

theorem brace_nonempty {b : Char} {s at_ : Text} (h : Brace b s at_) : s ≠ [] := by
  obtain ⟨sp, k, rest, h1, rfl, _⟩ := h
  simp

theorem Clause.append {after name rest : Text} (h : Clause after name rest) (x : Text) : Clause (after ++ x) name (rest ++ x) := by
  obtain ⟨t, h1, ⟨h2, h3⟩, h4⟩ := h
  refine ⟨t ++ x, ?_, ⟨h2, fun hs => NoMore.append (h3 hs) fun h0 => absurd h0 (brace_nonempty h4)⟩, Brace.append h4 x⟩
  have := Brace.append h1 x
  rwa [List.append_assoc] at this

theorem kindOf_plain {name : Text} {k : CommandName} (h : KindOf name k) :
    k ≠ .beginEnv ∧ k ≠ .endEnv ∧ k ≠ .beginMath ∧ k ≠ .endMath := by
  rcases h with h | ⟨rfl, _⟩
  · have : ∀ p ∈ builtinCommands, p.2 ≠ .beginEnv ∧ p.2 ≠ .endEnv ∧ p.2 ≠ .beginMath ∧ p.2 ≠ .endMath := by decide +kernel
    exact this _ h
  · decide

theorem separate_cmd {k : CommandName} {t b : Text} (hk : k ≠ .beginEnv ∧ k ≠ .endEnv ∧ k ≠ .beginMath ∧ k ≠ .endMath)
    (h : Separate (.cmd k, t) b) : t ≠ ['\\'] ∧ NoMore (fun c => NameChar c ∨ c = '*') b := by
  unfold Separate at h
  cases k with
  | beginEnv => exact absurd rfl hk.1
  | endEnv => exact absurd rfl hk.2.1
  | beginMath => exact absurd rfl hk.2.2.1
  | endMath => exact absurd rfl hk.2.2.2
  | _ => exact h

theorem tokenAt_join {spec : CommandSpec} {s : Text} {k : Token} {t rest b : Text} (h : TokenAt spec s k t rest)
    (h1 : k ≠ .cmd .errorBeginEnv) (h2 : k ≠ .cmd .errorEndEnv) (hb : rest = [] → Separate (k, t) b) :
    TokenAt spec (s ++ b) k t (rest ++ b) := by
  cases h with
  | lineBreak t rest a c d => rw [List.append_assoc]; exact .lineBreak t _ a c (NoMore.append d hb)
  | whitespace t rest a c d => rw [List.append_assoc]; exact .whitespace t _ a c (NoMore.append d hb)
  | word t rest a c d => rw [List.append_assoc]; exact .word t _ a c (NoMore.append d hb)
  | comment t rest c d => rw [List.append_assoc]; exact .comment t _ c (NoMore.append d hb)
  | punct c k rest a => exact .punct c k _ a
  | dollars rest => exact .dollars _
  | dollar rest a => exact .dollar _ (NoMore.append a hb)
  | newLine rest => exact .newLine _
  | backslash rest a =>
    refine .backslash _ (NoMore.append a fun h0 => ?_)
    exact absurd rfl (separate_cmd (by decide) (hb h0)).1
  | beginMath c rest a => exact .beginMath c _ a
  | endMath c rest a => exact .endMath c _ a
  | symbol c rest a d e => exact .symbol c _ a d e
  | starred name rest a c d =>
    have := TokenAt.starred (spec := spec) name (rest ++ b) a c d
    simpa using this
  | command name rest k a c d e f g i =>
    have := TokenAt.command (spec := spec) name (rest ++ b) k a c
      (NoMore.append d fun h0 x hx hn => (separate_cmd (kindOf_plain i) (hb h0)).2 x hx (.inl hn)) ?_ f g i
    · simpa using this
    · rintro ⟨hs, hx⟩
      cases rest with
      | nil => exact (separate_cmd (kindOf_plain i) (hb rfl)).2 '*' hs (.inr rfl)
      | cons y ys => exact e ⟨hs, hx⟩
  | beginEnv after name rest a => rw [List.append_assoc]; exact .beginEnv _ _ _ (Clause.append a b)
  | endEnv after name rest a => rw [List.append_assoc]; exact .endEnv _ _ _ (Clause.append a b)
  | badBegin => exact absurd rfl h1
  | badEnd => exact absurd rfl h2

theorem tokenAt_ne {spec : CommandSpec} {k : Token} {t rest : Text} (h : TokenAt spec [] k t rest) : False := by
  have := (C59_token spec [] k t rest).2 h
  cases this

/-- The tokens of two texts, one after the other. -/
theorem tokenized_join {spec : CommandSpec} {a b : Text} {ta tb : List Tok} (h : Tokenized spec a ta) (h' : Tokenized spec b tb)
    (hk : ∀ t ∈ ta, t.1 ≠ .cmd .errorBeginEnv ∧ t.1 ≠ .cmd .errorEndEnv) (hl : ∀ t, ta.getLast? = some t → Separate t b) :
    Tokenized spec (a ++ b) (ta ++ tb) := by
  induction h with
  | nil => exact h'
  | cons s k t rest toks h0 h1 ih =>
    have hm := hk _ (List.mem_cons_self ..)
    refine .cons _ k t (rest ++ b) _ (tokenAt_join h0 hm.1 hm.2 ?_) (ih (fun t ht => hk t (List.mem_cons_of_mem _ ht)) ?_)
    · intro hr
      subst hr
      cases h1 with
      | nil => exact hl _ rfl
      | cons _ _ _ _ _ h2 _ => exact (tokenAt_ne h2).elim
    · intro x hx
      refine hl x ?_
      cases toks with
      | nil => cases hx
      | cons y ys => rw [List.getLast?_cons_cons]; exact hx

end Local
end Mitex
