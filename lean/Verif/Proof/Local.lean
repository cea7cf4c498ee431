/-
The grammar looks one token ahead (C75).
-/
import Verif.Spec.Grammar

namespace Mitex
namespace Local
open Grammar (Item Items Args Row isBlank isTextPart closing delimiter rightDelimiter restOfWord enders argGrouping)

/-! ### What is eaten -/

/-- The tokens that are left, after some have been read; a word may be read in part. -/
inductive Eats : List Tok → List Tok → Prop
  | refl (ts : List Tok) : Eats ts ts
  | tok {t : Tok} {ts ts' : List Tok} (h : Eats ts ts') : Eats (t :: ts) ts'
  | cut {c : Char} {cs : Text} {ts ts' : List Tok} (h : Eats ((.word, cs) :: ts) ts') : Eats ((.word, c :: cs) :: ts) ts'

theorem Eats.trans {a b c : List Tok} (h : Eats a b) (k : Eats b c) : Eats a c := by
  induction h with
  | refl => exact k
  | tok _ ih => exact .tok (ih k)
  | cut _ ih => exact .cut (ih k)

theorem Eats.length {a b : List Tok} (h : Eats a b) : b.length ≤ a.length := by
  induction h with
  | refl => exact Nat.le_refl _
  | tok _ ih => simp only [List.length_cons]; omega
  | cut _ ih => simp only [List.length_cons] at ih ⊢; omega

theorem Eats.append (p : List Tok) {a b : List Tok} (h : Eats a b) : Eats (p ++ a) b := by
  induction p with
  | nil => exact h
  | cons t p ih => exact .tok ih

theorem Eats.rest (c : Char) (cs : Text) (ts : List Tok) : Eats ((.word, c :: cs) :: ts) (restOfWord cs ts) := by
  unfold restOfWord
  split
  · exact .tok (.refl _)
  · exact .cut (.refl _)

theorem Eats.closing (k : Token) (ts : List Tok) : Eats ts (closing k ts).2 := by
  unfold Grammar.closing
  split
  · split
    · exact .tok (.refl _)
    · exact .refl _
  · exact .refl _

theorem Eats.delimiter (t : Tok) (ts : List Tok) : Eats ts (delimiter t ts).2 := by
  have h : Eats ts (ts.dropWhile fun t => isBlank t.1) := by
    have := Eats.append (ts.takeWhile fun t => isBlank t.1) (Eats.refl (ts.dropWhile fun t => isBlank t.1))
    rwa [List.takeWhile_append_dropWhile] at this
  unfold Grammar.delimiter
  dsimp only
  split
  all_goals rename_i heq
  all_goals rw [heq] at h
  · exact h.trans (.tok (.refl _))
  · rw [heq]; exact h
  · rw [heq]; exact h
  · rw [heq]; exact h
  · rw [heq]; exact h
  · exact h.trans (.rest _ _ _)
  · exact h.trans (.tok (.refl _))

theorem Eats.right (ts : List Tok) : Eats ts (rightDelimiter ts).2 := by
  unfold Grammar.rightDelimiter
  split
  · exact .tok (.delimiter _ _)
  · exact .refl _

/-- A token that is still there has been there, with all that follows. -/
theorem Eats.tail {ts ts' : List Tok} (h : Eats ts ts') {u' : List Tok} {t : Tok} {v : List Tok} (ht : t.1 ≠ .word) (e : ts' = u' ++ t :: v) :
    ∃ u, ts = u ++ t :: v := by
  induction h with
  | refl => exact ⟨u', e⟩
  | @tok t0 _ _ _ ih =>
    obtain ⟨u, hu⟩ := ih e
    exact ⟨t0 :: u, by rw [hu]; rfl⟩
  | @cut c cs ts _ _ ih =>
    obtain ⟨u, hu⟩ := ih e
    cases u with
    | nil => cases hu; exact absurd rfl ht
    | cons w u =>
      cases hu
      exact ⟨(.word, c :: cs) :: u, rfl⟩

variable {env : PEnv}

/-- An item eats its first token, unless that is a word. -/
def EatsOne (ts ts' : List Tok) : Prop := Eats ts ts' ∧ ∀ t tl, ts = t :: tl → t.1 ≠ .word → Eats tl ts'

theorem EatsOne.of {t : Tok} {ts ts' : List Tok} (h : Eats ts ts') : EatsOne (t :: ts) ts' :=
  ⟨.tok h, fun _ _ e _ => (by cases e; exact h)⟩

theorem EatsOne.word {x : Text} {ts ts' : List Tok} (h : Eats ((.word, x) :: ts) ts') : EatsOne ((.word, x) :: ts) ts' :=
  ⟨h, fun _ _ e hk => (by cases e; exact absurd rfl hk)⟩

theorem eatsAll (env : PEnv) :
    (∀ {sc one r ts att r' ts'}, Item env sc one r ts att r' ts' → EatsOne ts ts') ∧
    (∀ {sc stop r ts r' ts'}, Items env sc stop r ts r' ts' → Eats ts ts') ∧
    (∀ {sc p ks ts args blanks ts'}, Args env sc p ks ts args blanks ts' → Eats ts ts') := by
  let M1 : ∀ sc one r ts att r' ts', Item env sc one r ts att r' ts' → Prop := fun _ _ _ ts _ _ ts' _ => EatsOne ts ts'
  let M2 : ∀ sc stop r ts r' ts', Items env sc stop r ts r' ts' → Prop := fun _ _ _ ts _ ts' _ => Eats ts ts'
  let M3 : ∀ sc p ks ts args blanks ts', Args env sc p ks ts args blanks ts' → Prop := fun _ _ _ ts _ _ ts' _ => Eats ts ts'
  refine ⟨@Item.rec env M1 M2 M3 ?over ?single ?misplaced ?text ?char ?noChar ?group ?environment ?environmentArgs ?delimited ?block
      ?blockOpen ?symbol ?command ?greedy ?post ?inf ?prime ?apostrophe ?script ?iover ?imore ?aover ?ablank ?achar ?agroup ?abracket ?aitem,
    @Items.rec env M1 M2 M3 ?over ?single ?misplaced ?text ?char ?noChar ?group ?environment ?environmentArgs ?delimited ?block
      ?blockOpen ?symbol ?command ?greedy ?post ?inf ?prime ?apostrophe ?script ?iover ?imore ?aover ?ablank ?achar ?agroup ?abracket ?aitem,
    @Args.rec env M1 M2 M3 ?over ?single ?misplaced ?text ?char ?noChar ?group ?environment ?environmentArgs ?delimited ?block
      ?blockOpen ?symbol ?command ?greedy ?post ?inf ?prime ?apostrophe ?script ?iover ?imore ?aover ?ablank ?achar ?agroup ?abracket ?aitem⟩
  case over => intros; exact ⟨.refl _, fun _ _ e _ => (by cases e)⟩
  case single => intros; exact .of (.refl _)
  case misplaced => intros; exact .of (.refl _)
  case text => intro _ _ _ _ _ run ts _ _ _; exact .of (.append run (.refl _))
  case char => intro _ _ c cs ts; exact .word (.rest c cs ts)
  case noChar => intros; exact .word (.refl _)
  case group => intro _ _ _ _ _ _ _ close _ _ _ _ _ _ ih; exact .of (ih.trans (.closing _ _))
  case environment => intro _ _ _ _ _ _ _ _ _ ih; exact .of (ih.trans (.closing _ _))
  case environmentArgs => intro _ _ _ _ _ _ _ _ _ _ _ _ _ _ _ ih1 ih2; exact .of (ih1.trans (ih2.trans (.closing _ _)))
  case delimited => intro _ _ _ _ _ _ _ _ ih; exact .of ((Eats.delimiter _ _).trans (ih.trans (.right _)))
  case block => intro _ _ _ _ _ _ _ body _ _ _; exact .of (.append body (.tok (.refl _)))
  case blockOpen =>
    intro _ _ _ _ _ _ body _ _
    have := Eats.append body (.refl [])
    rw [List.append_nil] at this
    exact .of this
  case symbol => intros; exact .of (.refl _)
  case command => intro _ _ _ _ _ _ _ _ _ _ _ _ _ _ _ ih; exact .of ih
  case greedy => intro _ _ _ _ _ _ _ _ _ _ _ ih; exact .of ih
  case post => intros; exact .of (.refl _)
  case inf => intro _ _ _ _ _ _ _ _ _ _ _ _ _ _ ih; exact .of ih
  case prime => intros; exact .of (.refl _)
  case apostrophe => intros; exact .of (.refl _)
  case script => intro _ _ _ _ _ _ _ _ _ blanks _ _ _ _ _ _ _ ih; exact .of (.append blanks ih.1)
  case iover => intros; exact .refl _
  case imore => intro _ _ _ _ _ _ _ _ _ _ _ _ _ ih1 ih2; exact ih1.1.trans ih2
  case aover => intros; exact .refl _
  case ablank => intro _ _ _ _ _ _ _ _ _ _ ih; exact .tok ih
  case achar => intro _ _ _ c cs _ _ ts _ _ _ ih; exact (Eats.rest c cs ts).trans ih
  case agroup => intro _ _ _ _ _ _ _ _ _ _ _ _ _ _ _ ih1 ih2; exact .tok (ih1.trans ((Eats.closing _ _).trans ih2))
  case abracket => intro _ _ _ _ _ _ _ _ _ _ _ _ ih; exact .tok ih
  case aitem => intro _ _ _ _ _ _ _ _ _ _ _ _ _ _ _ _ ih1 ih2; exact ih1.1.trans ih2

/-! ### What follows is not looked at -/

/-- The tokens `T` may stand for the tokens after `t`, and `t` itself: there is nothing, or `t` is first. -/
def Like (t : Tok) (T : List Tok) : Prop := ∀ s, T.head? = some s → s = t

theorem cancel {p u' u : List Tok} {t : Tok} {v : List Tok} (h : p ++ (u' ++ t :: v) = u ++ t :: v) : u = p ++ u' := by
  rw [← List.append_assoc] at h
  exact (List.append_cancel_right h).symm

theorem cancel1 {t0 : Tok} {u' u : List Tok} {t : Tok} {v : List Tok} (h : t0 :: (u' ++ t :: v) = u ++ t :: v) : u = t0 :: u' :=
  cancel (p := [t0]) h

theorem head_like {u : List Tok} {t : Tok} {v T : List Tok} (hT : Like t T) {s : Tok} (h : (u ++ T).head? = some s) :
    (u ++ t :: v).head? = some s := by
  cases u with
  | nil => rw [List.nil_append] at h; rw [hT s h]; rfl
  | cons a u => exact h

theorem rest_local {cs : Text} {ts u' : List Tok} {t : Tok} {v : List Tok} (ht : t.1 ≠ .word) (e : restOfWord cs ts = u' ++ t :: v) :
    ∃ u, ts = u ++ t :: v ∧ ∀ T, restOfWord cs (u ++ T) = u' ++ T := by
  unfold restOfWord at e ⊢
  by_cases h : cs = []
  · rw [if_pos h] at e
    exact ⟨u', e, fun T => if_pos h⟩
  · rw [if_neg h] at e
    cases u' with
    | nil => cases e; exact absurd rfl ht
    | cons a u' =>
      cases e
      exact ⟨u', rfl, fun T => if_neg h⟩

theorem closing_local {k : Token} {ts u' : List Tok} {t : Tok} {v : List Tok} (e : (closing k ts).2 = u' ++ t :: v) :
    ∃ u, ts = u ++ t :: v ∧ ∀ T, Like t T → closing k (u ++ T) = ((closing k ts).1, u' ++ T) := by
  cases ts with
  | nil => unfold closing at e; cases u' <;> cases e
  | cons t0 ts =>
    have c : ∀ tl, closing k (t0 :: tl) = if t0.1 = k then ([leafOf t0], tl) else ([], t0 :: tl) := fun _ => rfl
    rw [c] at e ⊢
    by_cases h : t0.1 = k
    · rw [if_pos h] at e
      dsimp only at e
      refine ⟨t0 :: u', by rw [e]; rfl, fun T hT => ?_⟩
      rw [List.cons_append, c, if_pos h, if_pos h]
    · rw [if_neg h] at e
      refine ⟨u', e, fun T hT => ?_⟩
      rw [if_neg h]
      cases u' with
      | nil =>
        cases e
        cases T with
        | nil => rfl
        | cons s T => rw [hT s rfl, List.nil_append, c, if_neg h]
      | cons a u' =>
        cases e
        rw [List.cons_append, c, if_neg h]

/-- The delimiter, after the blanks. -/
def pick (rest : List Tok) : List Elem × List Tok :=
  match rest with
  | (.cmd .generic, x) :: rest' => ([.token .tokenCommandSym x], rest')
  | (.cmd _, _) :: _ | (.dollar, _) :: _ | [] | (.word, []) :: _ => ([], rest)
  | (.word, c :: cs) :: rest' => ([.token .tokenWord [c]], restOfWord cs rest')
  | t' :: rest' => ([leafOf t'], rest')

theorem delimiter_eq (t : Tok) (blanks rest : List Tok) (hb : ∀ b ∈ blanks, isBlank b.1 = true) (hr : ∀ b, rest.head? = some b → isBlank b.1 = false) :
    delimiter t (blanks ++ rest) = (.node .clauseLR (leafOf t :: blanks.map leafOf ++ (pick rest).1), (pick rest).2) := by
  have h1 : (blanks ++ rest).takeWhile (fun t => isBlank t.1) = blanks ∧ (blanks ++ rest).dropWhile (fun t => isBlank t.1) = rest := by
    induction blanks with
    | nil =>
      cases rest with
      | nil => exact ⟨rfl, rfl⟩
      | cons b rest =>
        rw [List.nil_append, List.takeWhile_cons, List.dropWhile_cons, hr b rfl]
        exact ⟨rfl, rfl⟩
    | cons b blanks ih =>
      obtain ⟨i1, i2⟩ := ih fun b hm => hb b (List.mem_cons_of_mem _ hm)
      rw [List.cons_append, List.takeWhile_cons, List.dropWhile_cons, hb b (List.mem_cons_self ..)]
      exact ⟨congrArg (b :: ·) i1, i2⟩
  unfold delimiter pick
  dsimp only
  rw [h1.1, h1.2]
  clear h1 hr hb
  cases rest with
  | nil => rfl
  | cons t0 rest =>
    obtain ⟨k, x⟩ := t0
    cases k with
    | cmd n => cases n <;> rfl
    | word => cases x <;> rfl
    | _ => rfl

theorem blanks_split (ts : List Tok) :
    ∃ blanks rest, ts = blanks ++ rest ∧ (∀ b ∈ blanks, isBlank b.1 = true) ∧ ∀ b, rest.head? = some b → isBlank b.1 = false := by
  induction ts with
  | nil => exact ⟨[], [], rfl, fun _ h => (by cases h), fun _ h => (by cases h)⟩
  | cons t ts ih =>
    by_cases h : isBlank t.1 = true
    · obtain ⟨blanks, rest, e, hb, hr⟩ := ih
      refine ⟨t :: blanks, rest, by rw [e]; rfl, ?_, hr⟩
      intro b hm
      rcases List.mem_cons.1 hm with rfl | hm
      · exact h
      · exact hb b hm
    · refine ⟨[], t :: ts, rfl, fun _ h => (by cases h), ?_⟩
      intro b e
      cases e
      exact Bool.eq_false_iff.2 h

theorem pick_local {rest u' : List Tok} {t : Tok} {v : List Tok} (ht : t.1 ≠ .word) (e : (pick rest).2 = u' ++ t :: v) :
    ∃ u, rest = u ++ t :: v ∧ ∀ T, Like t T → pick (u ++ T) = ((pick rest).1, u' ++ T) := by
  have stay : ∀ {t0 : Tok} {ts : List Tok}, (∀ tl, pick (t0 :: tl) = ([], t0 :: tl)) → t0 :: ts = u' ++ t :: v →
      ∃ u, t0 :: ts = u ++ t :: v ∧ ∀ T, Like t T → pick (u ++ T) = (([] : List Elem), u' ++ T) := by
    intro t0 ts hp e
    refine ⟨u', e, fun T hT => ?_⟩
    cases u' with
    | nil =>
      cases e
      cases T with
      | nil => rfl
      | cons s T => rw [hT s rfl]; exact hp T
    | cons a u' => cases e; exact hp (u' ++ T)
  have take : ∀ {t0 : Tok} {ts : List Tok} {es : List Elem}, (∀ tl, pick (t0 :: tl) = (es, tl)) → ts = u' ++ t :: v →
      ∃ u, t0 :: ts = u ++ t :: v ∧ ∀ T, Like t T → pick (u ++ T) = (es, u' ++ T) := by
    intro t0 ts es hp e
    exact ⟨t0 :: u', by rw [e]; rfl, fun T _ => hp (u' ++ T)⟩
  cases rest with
  | nil => cases u' <;> cases e
  | cons t0 ts =>
    obtain ⟨k, x⟩ := t0
    cases k with
    | cmd n =>
      cases n with
      | generic => exact take (es := [.token .tokenCommandSym x]) (fun _ => rfl) e
      | cif i => exact stay (fun _ => rfl) e
      | _ => exact stay (fun _ => rfl) e
    | dollar => exact stay (fun _ => rfl) e
    | word =>
      cases x with
      | nil => exact stay (fun _ => rfl) e
      | cons c cs =>
        obtain ⟨u1, e1, h1⟩ := rest_local ht (show restOfWord cs ts = u' ++ t :: v from e)
        refine ⟨(.word, c :: cs) :: u1, by rw [e1]; rfl, fun T _ => ?_⟩
        show (([Elem.token .tokenWord [c]], restOfWord cs (u1 ++ T)) : List Elem × List Tok) = ([Elem.token .tokenWord [c]], u' ++ T)
        rw [h1]
    | left b => exact take (fun _ => rfl) e
    | right b => exact take (fun _ => rfl) e
    | macroArg n => exact take (fun _ => rfl) e
    | _ => exact take (fun _ => rfl) e

theorem delimiter_local {t0 : Tok} {ts u' : List Tok} {t : Tok} {v : List Tok} (ht : t.1 ≠ .word) (e : (delimiter t0 ts).2 = u' ++ t :: v) :
    ∃ u, ts = u ++ t :: v ∧ ∀ T, Like t T → delimiter t0 (u ++ T) = ((delimiter t0 ts).1, u' ++ T) := by
  obtain ⟨blanks, rest, rfl, hb, hr⟩ := blanks_split ts
  rw [delimiter_eq t0 blanks rest hb hr] at e
  obtain ⟨u, e1, h1⟩ := pick_local ht e
  refine ⟨blanks ++ u, by rw [e1, List.append_assoc], fun T hT => ?_⟩
  rw [delimiter_eq t0 blanks rest hb hr, List.append_assoc, delimiter_eq t0 blanks (u ++ T) hb, h1 T hT]
  intro b hh
  exact hr b (by rw [e1]; exact head_like hT hh)

theorem right_local {ts u' : List Tok} {t : Tok} {v : List Tok} (ht : t.1 ≠ .word) (e : (rightDelimiter ts).2 = u' ++ t :: v) :
    ∃ u, ts = u ++ t :: v ∧ ∀ T, Like t T → rightDelimiter (u ++ T) = ((rightDelimiter ts).1, u' ++ T) := by
  have stay : ∀ {t0 : Tok} {tl : List Tok}, t0.1 ≠ .cmd .right → rightDelimiter (t0 :: tl) = ([], t0 :: tl) := by
    intro t0 tl h
    unfold rightDelimiter
    split
    · rename_i heq; cases heq; exact absurd rfl h
    · rfl
  cases ts with
  | nil => cases u' <;> cases e
  | cons t0 ts =>
    by_cases h : t0.1 = .cmd .right
    · obtain ⟨k, x⟩ := t0
      cases h
      obtain ⟨u, e1, h1⟩ := delimiter_local (t0 := (.cmd .right, x)) (ts := ts) ht e
      refine ⟨(.cmd .right, x) :: u, by rw [e1]; rfl, fun T hT => ?_⟩
      show ([(delimiter (.cmd .right, x) (u ++ T)).1], (delimiter (.cmd .right, x) (u ++ T)).2) = _
      rw [h1 T hT]
      rfl
    · rw [stay h] at e ⊢
      refine ⟨u', e, fun T hT => ?_⟩
      cases u' with
      | nil =>
        cases e
        cases T with
        | nil => rfl
        | cons s T => rw [hT s rfl]; exact stay h
      | cons a u' => cases e; exact stay h

theorem sticks {ts ts' u' : List Tok} {t : Tok} {v : List Tok} (ht : t.1 ≠ .word) (h : EatsOne (t :: ts) ts') (e : ts' = u' ++ t :: v)
    (e0 : ts = v) : False := by
  have h1 := (h.2 t ts rfl ht).length
  rw [e, e0] at h1
  simp only [List.length_append, List.length_cons] at h1
  omega

/-- Reading the tokens before `t` gives the same, whatever follows `t`, and if nothing follows. -/
theorem lookahead (env : PEnv) :
    (∀ {sc one r ts att r' ts'}, Item env sc one r ts att r' ts' → ∀ {u u' : List Tok} {t : Tok} {v : List Tok}, t.1 ≠ .word →
      ts = u ++ t :: v → ts' = u' ++ t :: v → ∀ {T}, Like t T → Item env sc one r (u ++ T) att r' (u' ++ T)) ∧
    (∀ {sc stop r ts r' ts'}, Items env sc stop r ts r' ts' → ∀ {u u' : List Tok} {t : Tok} {v : List Tok}, t.1 ≠ .word →
      ts = u ++ t :: v → ts' = u' ++ t :: v → ∀ {T}, Like t T → Items env sc stop r (u ++ T) r' (u' ++ T)) ∧
    (∀ {sc p ks ts args blanks ts'}, Args env sc p ks ts args blanks ts' → ∀ {u u' : List Tok} {t : Tok} {v : List Tok}, t.1 ≠ .word →
      ts = u ++ t :: v → ts' = u' ++ t :: v → ∀ {T}, Like t T → Args env sc p ks (u ++ T) args blanks (u' ++ T)) := by
  obtain ⟨eat1, eat2, eat3⟩ := eatsAll env
  let M1 : ∀ sc one r ts att r' ts', Item env sc one r ts att r' ts' → Prop := fun sc one r ts att r' ts' _ =>
    ∀ {u u' : List Tok} {t : Tok} {v : List Tok}, t.1 ≠ .word →
      ts = u ++ t :: v → ts' = u' ++ t :: v → ∀ {T}, Like t T → Item env sc one r (u ++ T) att r' (u' ++ T)
  let M2 : ∀ sc stop r ts r' ts', Items env sc stop r ts r' ts' → Prop := fun sc stop r ts r' ts' _ =>
    ∀ {u u' : List Tok} {t : Tok} {v : List Tok}, t.1 ≠ .word →
      ts = u ++ t :: v → ts' = u' ++ t :: v → ∀ {T}, Like t T → Items env sc stop r (u ++ T) r' (u' ++ T)
  let M3 : ∀ sc p ks ts args blanks ts', Args env sc p ks ts args blanks ts' → Prop := fun sc p ks ts args blanks ts' _ =>
    ∀ {u u' : List Tok} {t : Tok} {v : List Tok}, t.1 ≠ .word →
      ts = u ++ t :: v → ts' = u' ++ t :: v → ∀ {T}, Like t T → Args env sc p ks (u ++ T) args blanks (u' ++ T)
  refine ⟨@Item.rec env M1 M2 M3 ?over ?single ?misplaced ?text ?char ?noChar ?group ?environment ?environmentArgs ?delimited ?block
      ?blockOpen ?symbol ?command ?greedy ?post ?inf ?prime ?apostrophe ?script ?iover ?imore ?aover ?ablank ?achar ?agroup ?abracket ?aitem,
    @Items.rec env M1 M2 M3 ?over ?single ?misplaced ?text ?char ?noChar ?group ?environment ?environmentArgs ?delimited ?block
      ?blockOpen ?symbol ?command ?greedy ?post ?inf ?prime ?apostrophe ?script ?iover ?imore ?aover ?ablank ?achar ?agroup ?abracket ?aitem,
    @Args.rec env M1 M2 M3 ?over ?single ?misplaced ?text ?char ?noChar ?group ?environment ?environmentArgs ?delimited ?block
      ?blockOpen ?symbol ?command ?greedy ?post ?inf ?prime ?apostrophe ?script ?iover ?imore ?aover ?ablank ?achar ?agroup ?abracket ?aitem⟩
  case over => intro _ _ _ u u' t v _ _ e; cases u' <;> cases e
  case single =>
    intro _ _ _ _ _ _ _ h u u' t v _ e e' T hT
    subst e'
    rw [cancel1 e]; exact .single h
  case misplaced =>
    intro _ _ _ _ _ _ h u u' t v _ e e' T hT
    subst e'
    rw [cancel1 e]; exact .misplaced h
  case text =>
    intro _ _ _ _ _ run ts h hr he u u' t v _ e e' T hT
    subst e'
    rw [← List.cons_append] at e
    rw [cancel e, List.append_assoc]
    exact .text h hr fun s hs => he s (head_like hT hs)
  case char =>
    intro _ _ c cs ts u u' t v ht e e' T hT
    obtain ⟨u1, e1, h1⟩ := rest_local ht e'
    subst e1
    rw [cancel1 e, ← h1]; exact .char
  case noChar =>
    intro _ _ ts u u' t v ht e e' T hT
    have : u = u' := List.append_cancel_right (e.symm.trans e')
    subst this
    cases u with
    | nil => cases e; exact absurd rfl ht
    | cons a u => cases e; exact .noChar
  case group =>
    intro sc sc' one att r r' _ _ _ _ _ _ h hi ih u u' t v ht e e' T hT
    obtain ⟨u1, e1, h1⟩ := closing_local e'
    obtain ⟨u2, e2⟩ := (eat2 hi).tail ht e1
    have i := ih ht e2 e1 hT
    subst e2
    rw [cancel1 e]
    have := Item.group (env := env) h i (sc := sc) (one := one) (r := r)
    rw [h1 T hT] at this
    exact this
  case environment =>
    intro sc one r r' x ts ts' h hi ih u u' t v ht e e' T hT
    obtain ⟨u1, e1, h1⟩ := closing_local e'
    obtain ⟨u2, e2⟩ := (eat2 hi).tail ht e1
    have i := ih ht e2 e1 hT
    subst e2
    rw [cancel1 e]
    have := Item.environment (env := env) h i (sc := sc) (one := one) (r := r)
    rw [h1 T hT] at this
    exact this
  case environmentArgs =>
    intro sc one r r' p x args blanks ts ts1 ts' h hp ha hi ih1 ih2 u u' t v ht e e' T hT
    obtain ⟨u1, e1, h1⟩ := closing_local e'
    obtain ⟨u2, e2⟩ := (eat2 hi).tail ht e1
    obtain ⟨u3, e3⟩ := (eat3 ha).tail ht e2
    have i := ih2 ht e2 e1 hT
    have a := ih1 ht e3 e2 hT
    subst e3
    rw [cancel1 e]
    have := Item.environmentArgs (env := env) h hp a i (one := one) (r := r)
    rw [h1 T hT] at this
    exact this
  case delimited =>
    intro sc one r r' x ts ts' hi ih u u' t v ht e e' T hT
    obtain ⟨u1, e1, h1⟩ := right_local ht e'
    obtain ⟨u2, e2⟩ := (eat2 hi).tail ht e1
    obtain ⟨u3, e3, h3⟩ := delimiter_local ht e2
    have i := ih ht e2 e1 hT
    rw [e3] at e
    rw [cancel1 e]
    have := Item.delimited (env := env) (sc := sc) (one := one) (r := r) (r' := r') (x := x) (ts := u3 ++ T) (ts' := u1 ++ T)
      (by rw [h3 T hT]; exact i)
    rw [h1 T hT] at this
    exact this
  case block =>
    intro _ _ _ i _ x y body ts h hb u u' t v _ e e' T hT
    subst e'
    have e2 := cancel (p := (.cmd (.cif i), x) :: (body ++ [(.cmd .endIf, y)])) (u' := u') (u := u) (t := t) (v := v)
      (by rw [← e]; simp only [List.cons_append, List.append_assoc, List.nil_append])
    rw [e2]
    simp only [List.cons_append, List.append_assoc, List.nil_append]
    exact .block h hb
  case blockOpen => intro _ _ _ _ _ _ _ _ _ u u' t v _ _ e; cases u' <;> cases e
  case symbol =>
    intro _ _ _ _ _ _ hn h u u' t v _ e e' T hT
    subst e'
    rw [cancel1 e]; exact .symbol hn h
  case command =>
    intro _ _ _ _ _ _ _ _ _ _ hn h h1 h2 ha ih u u' t v ht e e' T hT
    obtain ⟨u1, e1⟩ := (eat3 ha).tail ht e'
    have a := ih ht e1 e' hT
    subst e1
    rw [cancel1 e]
    exact .command hn h h1 h2 a
  case greedy =>
    intro _ _ _ _ _ _ _ _ hn h hi ih u u' t v ht e e' T hT
    obtain ⟨u1, e1⟩ := (eat2 hi).tail ht e'
    have a := ih ht e1 e' hT
    subst e1
    rw [cancel1 e]
    exact .greedy hn h a
  case post =>
    intro _ _ _ _ _ _ _ _ hn h ho u u' t v _ e e' T hT
    subst e'
    rw [cancel1 e]; exact .postfix hn h ho
  case inf =>
    intro _ _ _ _ _ _ _ _ _ _ hn h ho hi ih u u' t v ht e e' T hT
    obtain ⟨u1, e1⟩ := (eat2 hi).tail ht e'
    have a := ih ht e1 e' hT
    subst e1
    rw [cancel1 e]
    exact .infix hn h ho a
  case prime =>
    intro _ _ _ _ _ _ _ hl ho u u' t v _ e e' T hT
    subst e'
    rw [cancel1 e]; exact .prime hl ho
  case apostrophe =>
    intro _ _ _ _ _ hl u u' t v _ e e' T hT
    subst e'
    rw [cancel1 e]; exact .apostrophe hl
  case script =>
    intro _ _ _ _ _ _ _ _ _ blanks ts ts' hk ho hb he hi ih u u' t v ht e e' T hT
    obtain ⟨u1, e1⟩ := (eat1 hi).1.tail ht e'
    have a := ih ht e1 e' hT
    subst e1
    rw [← List.cons_append] at e
    rw [cancel e, List.append_assoc]
    exact .script hk ho hb (fun s hs => he s (head_like hT hs)) a
  case iover =>
    intro _ _ _ ts h u u' t v ht e e' T hT
    have : u = u' := List.append_cancel_right (e.symm.trans e')
    subst this
    subst e
    exact .over fun s hs => h s (head_like hT hs)
  case imore =>
    intro _ _ _ _ _ t0 _ ts _ _ h hi hs ih1 ih2 u u' t v ht e e' T hT
    obtain ⟨u1, e1⟩ := (eat2 hs).tail ht e'
    have a := ih1 ht e e1 hT
    have b := ih2 ht e1 e' hT
    cases u with
    | nil => cases e; exact (sticks ht (eat1 hi) e1 rfl).elim
    | cons s u => cases e; exact .more h a b
  case aover =>
    intro _ _ _ ts h u u' t v ht e e' T hT
    have : u = u' := List.append_cancel_right (e.symm.trans e')
    subst this
    subst e
    exact .over fun s hs => h s (head_like hT hs)
  case ablank =>
    intro _ _ _ _ _ _ _ _ h ha ih u u' t v ht e e' T hT
    obtain ⟨u1, e1⟩ := (eat3 ha).tail ht e'
    have a := ih ht e1 e' hT
    subst e1
    rw [cancel1 e]
    exact .blank h a
  case achar =>
    intro _ _ _ c cs _ _ ts _ h ha ih u u' t v ht e e' T hT
    obtain ⟨u1, e1⟩ := (eat3 ha).tail ht e'
    obtain ⟨u2, e2, h2⟩ := rest_local ht e1
    have a := ih ht e1 e' hT
    subst e2
    rw [cancel1 e]
    rw [← h2 T] at a
    exact .char h a
  case agroup =>
    intro sc _ _ _ _ _ args blanks _ _ _ hs h hi ha ih1 ih2 u u' t v ht e e' T hT
    obtain ⟨u1, e1⟩ := (eat3 ha).tail ht e'
    obtain ⟨u2, e2, h2⟩ := closing_local e1
    obtain ⟨u3, e3⟩ := (eat2 hi).tail ht e2
    have a := ih2 ht e1 e' hT
    have i := ih1 ht e3 e2 hT
    subst e3
    rw [cancel1 e]
    have g := Args.group (env := env) hs h i (sc := sc) (args := args) (blanks := blanks) (ts' := u' ++ T) (by rw [h2 T hT]; exact a)
    rw [h2 T hT] at g
    exact g
  case abracket =>
    intro _ _ _ _ _ _ _ _ _ hs h ha ih u u' t v ht e e' T hT
    obtain ⟨u1, e1⟩ := (eat3 ha).tail ht e'
    have a := ih ht e1 e' hT
    subst e1
    rw [cancel1 e]
    exact .bracket hs h a
  case aitem =>
    intro _ _ _ _ _ _ _ _ _ _ _ _ hk h hi ha ih1 ih2 u u' t v ht e e' T hT
    obtain ⟨u1, e1⟩ := (eat3 ha).tail ht e'
    have a := ih2 ht e1 e' hT
    have i := ih1 ht e e1 hT
    cases u with
    | nil => cases e; exact (sticks ht (eat1 hi) e1 rfl).elim
    | cons s u => cases e; exact .item hk h i a

end Local
end Mitex
