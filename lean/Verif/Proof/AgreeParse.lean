/-
C76: the tree of a token list depends only on the entries of its commands and environments.
-/
import Verif.Proof.Local
import Verif.Props.Grammar

namespace Mitex
namespace Agree
open Grammar (Item Items Args Row isBlank isTextPart closing delimiter rightDelimiter restOfWord enders argGrouping)
open Local (Eats)

/-- The specifications have the same entry for the token. -/
def Alike (a b : CommandSpec) (t : Tok) : Prop :=
  ∀ n, t.1 = .cmd n → (∀ name, t.2 = '\\' :: name → a name = b name) ∧ (n = .beginEnv → a t.2 = b t.2)

def AllAlike (a b : CommandSpec) (ts : List Tok) : Prop := ∀ t ∈ ts, Alike a b t

theorem AllAlike.symm {a b : CommandSpec} {ts : List Tok} (h : AllAlike a b ts) : AllAlike b a ts :=
  fun t ht n hn => ⟨fun name e => ((h t ht n hn).1 name e).symm, fun e => ((h t ht n hn).2 e).symm⟩

theorem AllAlike.eats {a b : CommandSpec} {ts ts' : List Tok} (h : AllAlike a b ts) (he : Eats ts ts') : AllAlike a b ts' := by
  induction he with
  | refl => exact h
  | tok _ ih => exact ih fun t ht => h t (List.mem_cons_of_mem _ ht)
  | @cut c cs ts ts' _ ih =>
    refine ih fun t ht => ?_
    rcases List.mem_cons.1 ht with rfl | ht
    · intro n hn; cases hn
    · exact h t (List.mem_cons_of_mem _ ht)

theorem AllAlike.tail {a b : CommandSpec} {t : Tok} {ts : List Tok} (h : AllAlike a b (t :: ts)) : AllAlike a b ts :=
  fun x hx => h x (List.mem_cons_of_mem _ hx)

theorem commandArgs_alike {a b : CommandSpec} {n : CommandName} {name : Text} {ts : List Tok} (h : AllAlike a b ((.cmd n, '\\' :: name) :: ts)) :
    Grammar.commandArgs a name = Grammar.commandArgs b name := by
  unfold Grammar.commandArgs
  rw [(h _ List.mem_cons_self n rfl).1 name rfl]

theorem environmentArgs_alike {a b : CommandSpec} {x : Text} {ts : List Tok} (h : AllAlike a b ((.cmd .beginEnv, x) :: ts)) :
    Grammar.environmentArgs a x = Grammar.environmentArgs b x := by
  unfold Grammar.environmentArgs
  rw [(h _ List.mem_cons_self _ rfl).2 rfl]

theorem items_alike {a b : CommandSpec} {g : GlobFn} {sc : Scope} {stop : List Token} {r r' : Row} {ts ts' : List Tok}
    (h : Items ⟨a, g⟩ sc stop r ts r' ts') : AllAlike a b ts → Items ⟨b, g⟩ sc stop r ts r' ts' := by
  let M1 : ∀ sc one r ts att r' ts', Item ⟨a, g⟩ sc one r ts att r' ts' → Prop := fun sc one r ts att r' ts' _ =>
    AllAlike a b ts → Item ⟨b, g⟩ sc one r ts att r' ts'
  let M2 : ∀ sc stop r ts r' ts', Items ⟨a, g⟩ sc stop r ts r' ts' → Prop := fun sc stop r ts r' ts' _ =>
    AllAlike a b ts → Items ⟨b, g⟩ sc stop r ts r' ts'
  let M3 : ∀ sc p ks ts args blanks ts', Args ⟨a, g⟩ sc p ks ts args blanks ts' → Prop := fun sc p ks ts args blanks ts' _ =>
    AllAlike a b ts → Args ⟨b, g⟩ sc p ks ts args blanks ts'
  refine @Items.rec ⟨a, g⟩ M1 M2 M3 ?over ?single ?misplaced ?text ?char ?noChar ?group ?environment ?environmentArgs ?delimited ?block
      ?blockOpen ?symbol ?command ?greedy ?post ?inf ?prime ?apostrophe ?script ?iover ?imore ?aover ?ablank ?achar ?agroup ?abracket ?aitem
      sc stop r ts r' ts' h
  case over => intros; exact fun _ => .over
  case single => intro _ _ _ _ _ _ _ h _; exact .single h
  case misplaced => intro _ _ _ _ _ _ h _; exact .misplaced h
  case text => intro _ _ _ _ _ _ _ h hr he _; exact .text h hr he
  case char => intros; exact fun _ => .char
  case noChar => intros; exact fun _ => .noChar
  case group => intro _ _ _ _ _ _ _ close _ _ _ _ h _ ih ha; exact .group h (ih ha.tail)
  case environment => intro _ _ _ _ _ _ _ h _ ih ha; exact .environment (environmentArgs_alike ha ▸ h) (ih ha.tail)
  case environmentArgs =>
    intro _ _ _ _ _ _ _ _ _ _ _ h hp hA _ ih1 ih2 ha
    exact .environmentArgs (environmentArgs_alike ha ▸ h) hp (ih1 ha.tail) (ih2 (ha.tail.eats ((Local.eatsAll _).2.2 hA)))
  case delimited => intro _ _ _ _ _ _ _ _ ih ha; exact .delimited (ih (ha.tail.eats (.delimiter _ _)))
  case block => intro _ _ _ _ _ _ _ _ _ h hb _; exact .block h hb
  case blockOpen => intro _ _ _ _ _ _ _ h hb _; exact .blockOpen h hb
  case symbol => intro _ _ _ _ _ _ hn h ha; exact .symbol hn (commandArgs_alike ha ▸ h)
  case command => intro _ _ _ _ _ _ _ _ _ _ hn h h1 h2 _ ih ha; exact .command hn (commandArgs_alike ha ▸ h) h1 h2 (ih ha.tail)
  case greedy => intro _ _ _ _ _ _ _ _ hn h _ ih ha; exact .greedy hn (commandArgs_alike ha ▸ h) (ih ha.tail)
  case post => intro _ _ _ _ _ _ _ _ hn h ho ha; exact .postfix hn (commandArgs_alike ha ▸ h) ho
  case inf => intro _ _ _ _ _ _ _ _ _ _ hn h ho _ ih ha; exact .infix hn (commandArgs_alike ha ▸ h) ho (ih ha.tail)
  case prime => intro _ _ _ _ _ _ _ hl ho _; exact .prime hl ho
  case apostrophe => intro _ _ _ _ _ hl _; exact .apostrophe hl
  case script =>
    intro _ _ _ _ _ _ _ _ _ blanks _ _ hk ho hb he _ ih ha
    exact .script hk ho hb he (ih (ha.tail.eats (.append blanks (.refl _))))
  case iover => intro _ _ _ _ h _; exact .over h
  case imore =>
    intro _ _ _ _ _ _ _ _ _ _ h hI _ ih1 ih2 ha
    exact .more h (ih1 ha) (ih2 (ha.eats ((Local.eatsAll _).1 hI).1))
  case aover => intro _ _ _ _ h _; exact .over h
  case ablank => intro _ _ _ _ _ _ _ _ h _ ih ha; exact .blank h (ih ha.tail)
  case achar => intro _ _ _ c cs _ _ ts _ h _ ih ha; exact .char h (ih (ha.eats (.rest c cs ts)))
  case agroup =>
    intro _ _ _ _ _ _ _ _ _ _ _ hs h hI _ ih1 ih2 ha
    exact .group hs h (ih1 ha.tail) (ih2 (ha.tail.eats (((Local.eatsAll _).2.1 hI).trans (.closing _ _))))
  case abracket => intro _ _ _ _ _ _ _ _ _ hs h _ ih ha; exact .bracket hs h (ih ha.tail)
  case aitem =>
    intro _ _ _ _ _ _ _ _ _ _ _ _ hk h hI _ ih1 ih2 ha
    exact .item hk h (ih1 ha) (ih2 (ha.eats ((Local.eatsAll _).1 hI).1))

theorem document_alike {a b : CommandSpec} {g : GlobFn} {ts : List Tok} (h : AllAlike a b ts) (e : Elem) :
    Grammar.Document ⟨a, g⟩ ts e ↔ Grammar.Document ⟨b, g⟩ ts e := by
  constructor
  · rintro ⟨r, hi, rfl⟩
    exact ⟨r, items_alike hi h, rfl⟩
  · rintro ⟨r, hi, rfl⟩
    exact ⟨r, items_alike hi h.symm, rfl⟩

theorem parseToks_alike {a b : CommandSpec} {g : GlobFn} {ts : List Tok} (h : AllAlike a b ts) (hw : WordsOk ts) (hc : CmdsOk ts) :
    parseToks ⟨a, g⟩ ts = parseToks ⟨b, g⟩ ts := by
  cases hp : parseToks ⟨a, g⟩ ts with
  | ok e => exact ((C62_exact _ _ hw hc e).2 ((document_alike h e).1 ((C62_exact _ _ hw hc e).1 hp))).symm
  | error x =>
    have hx := (C29_only_panic _ _ hw hc x hp).1
    subst hx
    refine ((C62_panics _ _ hw hc).2 ?_).symm
    rintro ⟨e, he⟩
    exact (C62_panics _ _ hw hc).1 hp ⟨e, (document_alike h e).2 he⟩

end Agree
end Mitex
