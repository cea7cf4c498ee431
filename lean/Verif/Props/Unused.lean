/-
C88: definitions that are not used do not matter.
-/
import Verif.Proof.Unused
import Verif.Props.Renamed

namespace Mitex

namespace Unused
open Renamed

theorem spells_one {n w : Text} {c : Char} (h : SpellsNot n w) (hc : c ∈ w) : SpellsNot n [c] := by
  have hne : ([] : Text) ≠ n := h.1 w [] (by simp)
  refine ⟨fun p q e => ?_, fun d hd => ?_⟩
  · cases p with
    | nil => rw [← (show [c] = q from e)]; exact h.2 c hc
    | cons x p =>
      have : q = [] := by
        have := congrArg List.length e
        cases q with
        | nil => rfl
        | cons y q => simp at this
      rw [this]; exact hne
  · rw [List.mem_singleton.1 hd]; exact h.2 c hc

theorem spells_rest {n u v : Text} (h : SpellsNot n (u ++ v)) : SpellsNot n v :=
  ⟨fun p q e => h.1 (u ++ p) q (by rw [e, List.append_assoc]), fun c hc => h.2 c (List.mem_append_right _ hc)⟩

theorem no_name : OwnName [] := ⟨by decide +kernel, by decide +kernel⟩

/-- What holds of every token. -/
def Base (ns : List Text) (t : Tok) : Prop :=
  (∀ n ∈ ns, (∀ k, t ≠ (.cmd k, '\\' :: n)) ∧ t ≠ (.cmd .beginEnv, n)) ∧ (t.1 = .cmd .beginEnv ∨ t.1 = .cmd .endEnv → t.2.head? ≠ some '\\')

theorem base_other {ns : List Text} {k : Token} {x : Text} (h : ∀ c, k ≠ .cmd c) : Base ns (k, x) :=
  ⟨fun _ _ => ⟨fun k' e => h k' (congrArg Prod.fst e), fun e => h _ (congrArg Prod.fst e)⟩, fun e => (by rcases e with e | e <;> exact absurd e (h _))⟩

theorem base_fi {ns : List Text} (hf : ∀ n ∈ ns, OwnName n) : Base ns (.cmd .endIf, t!"\\fi") := by
  refine ⟨fun n hn => ⟨fun k e => ?_, fun e => (by cases e)⟩, fun e => (by rcases e with e | e <;> cases e)⟩
  have e2 : t!"\\fi" = '\\' :: n := congrArg Prod.snd e
  have e3 : t!"fi" = n := congrArg List.tail e2
  subst e3
  exact (hf _ hn).2 (by simp)

/-- A text that does not mention the names. -/
theorem fit {spec : CommandSpec} {u : Text} {ts : List Tok} (h : tokensOf spec u = .ok ts) {ns : List Text} (hf : ∀ n ∈ ns, OwnName n)
    (hu : ∀ n ∈ ns, Unmentioned n ts) : ∃ P, Renamed.Fit [] [] P ∧ Sees (· ∈ ns) P ∧ ∀ t ∈ ts, P t := by
  have hsh := tokensOf_shape h
  have base : ∀ t ∈ ts, Base ns t := fun t ht =>
    ⟨fun n hn => ⟨fun k e => (hu n hn).1 k (e ▸ ht), fun e => (hu n hn).2.1 (e ▸ ht)⟩, clause_shape (hsh t ht)⟩
  by_cases hd : ∀ d ∈ environmentDefiners, cmdTok d ∉ ts
  · refine ⟨fun t => Base ns t ∧ ∀ d ∈ environmentDefiners, t ≠ cmdTok d, ?_, ?_, fun t ht => ⟨base t ht, fun d hm e => hd d hm (e ▸ ht)⟩⟩
    · refine ⟨fun w c _ _ => ⟨base_other (fun _ h => (by cases h)), fun d _ h => (by cases h)⟩,
        fun u v _ => ⟨base_other (fun _ h => (by cases h)), fun d _ h => (by cases h)⟩, fun _ w _ _ _ => exchange_nil w, fun t h1 => h1.1.2,
        fun d x => ⟨base_other (fun _ h => (by cases h)), fun d _ h => (by cases h)⟩, fun x => ⟨base_other (fun _ h => (by cases h)), fun d _ h => (by cases h)⟩,
        ⟨base_fi hf, fun d _ h => (by cases h)⟩, no_name, no_name⟩
    · exact ⟨fun k n h1 h2 => (h1.1.1 n h2).1 k rfl, fun n h1 h2 => (h1.1.1 n h2).2 rfl, fun d w h1 h2 => absurd rfl (h2.2 d h1)⟩
  · have hw : ∀ n ∈ ns, ∀ w, (.word, w) ∈ ts → SpellsNot n w := fun n hn => (hu n hn).2.2.resolve_left hd
    refine ⟨fun t => Base ns t ∧ (t.1 = .word → ∀ n ∈ ns, SpellsNot n t.2), ?_, ?_, fun t ht => ⟨base t ht, fun e n hn => hw n hn t.2 (e ▸ ht)⟩⟩
    · refine ⟨fun w c h1 hc => ⟨base_other (fun _ h => (by cases h)), fun _ n hn => spells_one (h1.2 rfl n hn) hc⟩,
        fun u v h1 => ⟨base_other (fun _ h => (by cases h)), fun _ n hn => spells_rest (h1.2 rfl n hn)⟩, fun _ w _ _ _ => exchange_nil w, fun t h1 => h1.1.2,
        fun d x => ⟨base_other (fun _ h => (by cases h)), fun h => (by cases h)⟩, fun x => ⟨base_other (fun _ h => (by cases h)), fun h => (by cases h)⟩,
        ⟨base_fi hf, fun h => (by cases h)⟩, no_name, no_name⟩
    · exact ⟨fun k n h1 h2 => (h1.1.1 n h2).1 k rfl, fun n h1 h2 => (h1.1.1 n h2).2 rfl, fun d w _ _ h3 h4 => (h3.2 rfl w h4).1 [] w rfl rfl⟩

/-! ### Steps of both texts -/

theorem rewrites_same {e f f' : Eng} {s s2 s2' o o' : List Tok} (hok : EngOk e s) (h : Rewrites e s f s2 o) (h' : Rewrites e s f' s2' o') :
    f' = f ∧ s2' = s2 ∧ o' = o := by
  obtain ⟨t, r, rfl, h1⟩ := rewrites_step h hok []
  obtain ⟨t', r', e1, h2⟩ := rewrites_step h' hok []
  cases e1
  rw [h1] at h2
  cases h2
  exact ⟨rfl, rfl, rfl⟩

theorem rewrites_not_panics {e f : Eng} {s s2 o : List Tok} (hok : EngOk e s) (h : Rewrites e s f s2 o) (h' : Panics e s) : False := by
  obtain ⟨t, r, rfl, h1⟩ := rewrites_step h hok []
  obtain ⟨t', r', e1, h2⟩ := panics_step h' []
  cases e1
  rw [h1] at h2
  cases h2

/-- What both texts satisfy: the one without the definitions is read with `f`, the one with the definitions with `e`. -/
structure Pair (P : Tok → Prop) (all ns : List Text) (e f : Eng) (s' : List Tok) : Prop where
  near : Near (· ∈ all) e f
  fresh : ∀ n ∈ ns, e.macros n = none
  self : EngAlike [] [] P f f
  toks : Toks [] [] P s' s'
  ok : EngOk f s'

variable {P : Tok → Prop} {all : List Text}

theorem define_step {e : Eng} {cmd name : Text} {d : DeclareCmdOrEnv} {v : Macro} {s s2 : List Tok} (hc : e.macros cmd = some (.declare (.cmdOrEnv d)))
    (hd : d ≠ .newCommand true ∧ d ≠ .newEnvironment true) (hn : e.macros name = none)
    (hb : (definesEnvironments d ∧ DefinesEnv s (some (name, v)) s2) ∨ (¬ definesEnvironments d ∧ Defines s (some (name, v)) s2)) :
    Rewrites e (cmdTok cmd :: s) ⟨bindName e.macros name v, e.ifs⟩ s2 [] := by
  have := Rewrites.define hc hb
  rw [hn] at this
  have h1 : stores d none = true := by cases d <;> rfl
  have h2 : reports d none = false := by
    cases d with
    | newCommand b => cases b <;> first | rfl | exact absurd rfl hd.1
    | newEnvironment b => cases b <;> first | rfl | exact absurd rfl hd.2
    | provideCommand => rfl
    | _ => rfl
  rw [h1, h2] at this
  exact this

/-- A step of the text without the definitions. -/
theorem Pair.next (hP : Renamed.Fit [] [] P) {ns : List Text} {e e2 f f2 : Eng} {s' s2' o : List Tok} (h : Pair P all ns e f s') (hr : Rewrites f s' f2 s2' o)
    (hn : Near (· ∈ all) e2 f2) (hf : ∀ n ∈ ns, e2.macros n = none) : Pair P all ns e2 f2 s2' := by
  obtain ⟨_, _, _, _, g2, g3, _⟩ := rewrites_alike hP hr h.self h.toks
  exact ⟨hn, hf, eng_self g2, toks_self g3, rewrites_ok hr h.ok⟩

theorem head_seen (hN : Sees (· ∈ all) P) {k : CommandName} {n : Text} {ts us : List Tok} (h : Toks [] [] P ((.cmd k, '\\' :: n) :: ts) us) : n ∉ all :=
  hN.cmd _ _ (head_fit h)

/-- The first text ends as the second one does. -/
structure Follows (e : Eng) (s : List Tok) (f : Eng) (s' : List Tok) : Prop where
  expands : ∀ outs, Expands f s' outs → Expands e s outs
  collapses : Collapses f s' → Collapses e s
  lasts : (∀ k, Lasts k f s') → ∀ k, Lasts k e s

theorem Follows.same (hP : Renamed.Fit [] [] P) (hN : Sees (· ∈ all) P) {ns : List Text} {e f : Eng} {s : List Tok} (h : Pair P all ns e f s) : Follows e s f s :=
  ⟨fun _ hx => expands_near hP hN hx h.near h.self h.toks, fun hx => collapses_near hP hN hx h.near h.self h.toks,
    fun hx k => lasts_near hP hN (hx k) h.near h.self h.toks⟩

theorem Follows.both {e f e2 f2 : Eng} {s s' s2 s2' o : List Tok} (hok : EngOk f s') (hr : Rewrites e s e2 s2 o) (hr' : Rewrites f s' f2 s2' o)
    (h : Follows e2 s2 f2 s2') : Follows e s f s' := by
  refine ⟨fun outs hx => ?_, fun hx => ?_, fun hx k => ?_⟩
  · cases hx with
    | done => obtain ⟨_, _, e1, _⟩ := rewrites_step hr' hok []; cases e1
    | step h1 h2 =>
      obtain ⟨rfl, rfl, rfl⟩ := rewrites_same hok hr' h1
      exact .step hr (h.expands _ h2)
  · cases hx with
    | now h1 => exact (rewrites_not_panics hok hr' h1).elim
    | later h1 h2 =>
      obtain ⟨rfl, rfl, rfl⟩ := rewrites_same hok hr' h1
      exact .later hr (h.collapses h2)
  · cases k with
    | zero => exact .zero
    | succ k =>
      refine .succ hr (h.lasts (fun k => ?_) k)
      cases hx (k + 1) with
      | succ h1 h2 =>
        obtain ⟨rfl, rfl, rfl⟩ := rewrites_same hok hr' h1
        exact h2

theorem Follows.left {e f e2 : Eng} {s s' s2 : List Tok} (hr : Rewrites e s e2 s2 []) (h : Follows e2 s2 f s') : Follows e s f s' :=
  ⟨fun _ hx => .step hr (h.expands _ hx), fun hx => .later hr (h.collapses hx), fun hx k => (by
    cases k with
    | zero => exact .zero
    | succ k => exact .succ hr (h.lasts hx k))⟩

theorem without_follows (hP : Renamed.Fit [] [] P) (hN : Sees (· ∈ all) P) (hf : ∀ n ∈ all, OwnName n) {ns : List Text} {f : Eng} {s s' : List Tok}
    (h : LeftOut ns f s s') : ∀ {e}, Pair P all ns e f s' → ns.Nodup → (∀ n ∈ ns, n ∈ all) → Follows e s f s' := by
  induction h with
  | done => intro e hp hn hs; exact .same hP hN hp
  | pass ht _ ih =>
    intro e hp hn hs
    rcases ht with ht | ht
    · exact .both hp.ok (.ordinary ht) (.ordinary ht) (ih (hp.next hP (.ordinary ht) hp.near hp.fresh) hn hs)
    · exact .both hp.ok (.handedOn (handedOn_near hN hp.near.1 (head_fit hp.toks) ht)) (.handedOn ht) (ih (hp.next hP (.handedOn ht) hp.near hp.fresh) hn hs)
  | @keep ns f cmd name d v s s' s2 s2' hc hb hb' _ ih =>
    intro e hp hn hs
    have hx := defined_seen hN hp.self hc (head_fit hp.toks) (tail_fit hp.toks) hb'
    have e1 : e.macros cmd = some (.declare (.cmdOrEnv d)) := by rw [hp.near.1 _ (head_seen hN hp.toks)]; exact hc
    have r := Rewrites.define e1 hb
    rw [hp.near.1 name hx] at r
    have hnear := near_bind hp.near name v d hx
    rw [hp.near.1 name hx] at hnear
    refine .both hp.ok r (.define hc hb') (ih (hp.next hP (.define hc hb') hnear fun n hn' => ?_) hn hs)
    show (if stores d (f.macros name) = true then bindName e.macros name v else e.macros) n = none
    split
    · unfold bindName
      rw [if_neg fun k => hx (by rw [← show n = name from k]; exact hs n hn')]
      exact hp.fresh n hn'
    · exact hp.fresh n hn'
  | call hc ha ha' hfl _ ih =>
    intro e hp hn hs
    exact .both hp.ok (.call (by rw [hp.near.1 _ (head_seen hN hp.toks)]; exact hc) ha hfl) (.call hc ha' hfl)
      (ih (hp.next hP (.call hc ha' hfl) hp.near hp.fresh) hn hs)
  | @cond _ f i x s s' _ ih =>
    intro e hp hn hs
    obtain ⟨m, ifs⟩ := e
    obtain ⟨m', ifs'⟩ := f
    have hi : ifs = ifs' := hp.near.2
    subst hi
    exact .both hp.ok .cif .cif (ih (hp.next hP .cif ⟨hp.near.1, rfl⟩ hp.fresh) hn hs)
  | @fi _ m' c ifs' x s s' _ ih =>
    intro e hp hn hs
    obtain ⟨m, ifs⟩ := e
    have hi : ifs = c :: ifs' := hp.near.2
    subst hi
    by_cases hc : c = some .isTrue ∨ c = some .isFalse
    · exact .both hp.ok (.fiDecided hc) (.fiDecided hc) (ih (hp.next hP (.fiDecided hc) ⟨hp.near.1, rfl⟩ hp.fresh) hn hs)
    · have hc : c ≠ some .isTrue ∧ c ≠ some .isFalse := ⟨fun k => hc (.inl k), fun k => hc (.inr k)⟩
      exact .both hp.ok (.fiOther hc) (.fiOther hc) (ih (hp.next hP (.fiOther hc) ⟨hp.near.1, rfl⟩ hp.fresh) hn hs)
  | @define ns f cmd name d v s s2 s' hc hd hb _ ih =>
    intro e hp hn hs
    have hname : name ∈ all := hs _ (List.mem_cons_self ..)
    have hcmd : cmd ∉ all := fun k => by
      have := hp.self.1.declared _ _ hc
      rw [(hf _ k).1] at this
      cases this
    refine .left (define_step (by rw [hp.near.1 _ hcmd]; exact hc) hd (hp.fresh _ (List.mem_cons_self ..)) hb)
      (ih ⟨⟨fun n hn' => ?_, hp.near.2⟩, fun n hn' => ?_, hp.self, hp.toks, hp.ok⟩ (List.nodup_cons.1 hn).2 fun n h => hs n (List.mem_cons_of_mem _ h))
    · show bindName e.macros name v n = _
      unfold bindName
      rw [if_neg fun k => hn' (by rw [show n = name from k]; exact hname)]
      exact hp.near.1 n hn'
    · show bindName e.macros name v n = _
      unfold bindName
      rw [if_neg fun k => (List.nodup_cons.1 hn).1 (by rw [← show n = name from k]; exact hn')]
      exact hp.fresh n (List.mem_cons_of_mem _ hn')

theorem toks_fit {P : Tok → Prop} {ts : List Tok} (h : ∀ t ∈ ts, P t) : Toks [] [] P ts ts := by
  have := toks_of (na := []) (nb := []) h
  exact toks_self this

end Unused

/-- **C88**, expansion: in a text, different new names are defined, that the rest does not mention.  Then (with enough fuel) the same tokens
are delivered as without the definitions, or both end in a panic, or neither ends. -/
theorem C88_expansion (spec : CommandSpec) (u u' : Text) (ns : List Text) (ts ts' : List Tok) (h : tokensOf spec u = .ok ts)
    (h' : tokensOf spec u' = .ok ts') (hp : LeftOut ns atStart ts ts') (hf : FreshNames ns) (hn : ∀ n ∈ ns, Unmentioned n ts') :
    ∃ N, ∀ F, N ≤ F → expandAll F ts = expandAll F ts' := by
  obtain ⟨P, hP, hN, hts⟩ := Unused.fit h' hf.2 hn
  have hfol := Unused.without_follows hP hN hf.2 hp ⟨⟨fun _ _ => rfl, rfl⟩, fun n hn => (hf.2 n hn).1, Renamed.start_alike hP, Unused.toks_fit hts, start_ok h'⟩
    hf.1 fun _ h => h
  obtain ⟨hout, hlast⟩ := C65_outcome spec u' ts' h'
  rcases hout with ⟨outs, hx⟩ | hx | hx
  · obtain ⟨n, hn⟩ := (C65_exact spec u' ts' h' outs).2 hx
    obtain ⟨n', hn'⟩ := (C65_exact spec u ts h outs).2 (hfol.expands _ hx)
    exact ⟨n + n', fun F hF => by rw [expandAll_mono hn (show n ≤ F by omega), expandAll_mono hn' (show n' ≤ F by omega)]⟩
  · have stop : ∀ {u : Text} {us : List Tok}, tokensOf spec u = .ok us → Collapses atStart us → ∃ n, ∀ F, n ≤ F → expandAll F us = .error .panic := by
      intro u us hu hc
      obtain ⟨n, hn⟩ := hc.run (start_ok hu) []
      refine ⟨n, fun F hF => ?_⟩
      obtain ⟨k, rfl⟩ := Nat.exists_eq_add_of_le hF
      have := engRun_stop_mono n _ _ _ hn (fun h => (by cases h)) k
      simp only [expandAll]
      rw [show Eng.new = atStart from rfl, Nat.add_comm, this]
    obtain ⟨n, hn⟩ := stop h' hx
    obtain ⟨n', hn'⟩ := stop h (hfol.collapses hx)
    exact ⟨n + n', fun F hF => by rw [hn F (by omega), hn' F (by omega)]⟩
  · exact ⟨0, fun F _ => by rw [hlast.1 hx F, (C65_outcome spec u ts h).2.1 (hfol.lasts hx) F]⟩

/-- **C88**, documents: definitions of names that the rest of the text does not mention do not change its conversion, successful or not. -/
theorem C88_converts (dflt : CommandSpec) (m : Mode) (spec : Option CommandSpec) (u u' : Text) (ns : List Text) (ts ts' : List Tok)
    (h : tokensOf (spec.getD dflt) u = .ok ts) (h' : tokensOf (spec.getD dflt) u' = .ok ts') (hp : LeftOut ns atStart ts ts') (hf : FreshNames ns)
    (hn : ∀ n ∈ ns, Unmentioned n ts') : ∃ N, ∀ F, N ≤ F → convertInner F dflt u m spec true = convertInner F dflt u' m spec true := by
  obtain ⟨N, hN⟩ := C88_expansion (spec.getD dflt) u u' ns ts ts' h h' hp hf hn
  refine ⟨N, fun F hF => ?_⟩
  have e1 : parserTokens F (spec.getD dflt) true u = expandAll F ts := by unfold parserTokens; rw [h]; rfl
  have e2 : parserTokens F (spec.getD dflt) true u' = expandAll F ts' := by unfold parserTokens; rw [h']; rfl
  unfold convertInner
  rw [Blank.parse_tokens, Blank.parse_tokens, show parserTokens F (PEnv.spec ⟨spec.getD dflt, globPrefix⟩) true u = _ from e1,
    show parserTokens F (PEnv.spec ⟨spec.getD dflt, globPrefix⟩) true u' = _ from e2, hN F hF]

/-! ### Written definitions -/

namespace Unused
open Renamed

def countToks : Option Nat → List Tok
  | none => []
  | some k => [lBracket, (.word, [Nat.digitChar k]), rBracket]

theorem braces_upto {tb rest : List Tok} (h : DefinitionText tb) :
    Upto opensBrace closesBrace (closes .curly) (tb ++ rBrace :: rest) tb (rBrace :: rest) := by
  refine ⟨rfl, .inr ⟨rBrace, rest, rfl, rfl, h.1⟩, fun p t q e hs k => ?_⟩
  have h1 := h.2.1 (p ++ [t]) ⟨q, by rw [e]; simp⟩
  rw [level_append, k] at h1
  have h2 : t.1 = .right .curly := by unfold closes at hs; simpa using hs
  have h3 : level opensBrace closesBrace [t] = -1 := by
    unfold level level opensBrace closesBrace
    rw [h2]
    rfl
  rw [h3] at h1
  exact absurd h1 (by decide)

theorem group_body {tb rest : List Tok} (h : DefinitionText tb) : Group .curly (tb ++ rBrace :: rest) tb rest := ⟨_, braces_upto h, rfl⟩

theorem blanks_none {t : Tok} {s : List Tok} (h : t.1.isTrivia = false) : Blanks (t :: s) (t :: s) :=
  ⟨[], fun _ h => (by cases h), rfl, fun u hu => by cases hu; exact h⟩

theorem digit_decimal {k : Nat} (h : k ≤ 9) : Decimal [Nat.digitChar k] k := by
  refine ⟨[Nat.digitChar k], .inl rfl, by simp, fun c hc => ?_, ?_⟩
  · rw [List.mem_singleton.1 hc]
    have : ∀ k < 10, '0' ≤ Nat.digitChar k ∧ Nat.digitChar k ≤ '9' := by decide
    exact this k (by omega)
  · have : ∀ k < 10, k = [Nat.digitChar k].foldl (fun a c => 10 * a + (c.toNat - '0'.toNat)) 0 := by decide
    exact this k (by omega)

theorem header_written {count : Option Nat} (hc : ∀ k, count = some k → k ≤ 9) {tb rest : List Tok} (h : DefinitionText tb) :
    Header (countToks count ++ lBrace :: (tb ++ rBrace :: rest)) (some (count.getD 0, none, tb)) rest := by
  cases count with
  | none => exact .plain (fun t ht => by cases ht; exact fun h => (by cases h)) (.group rfl (group_body h))
  | some k =>
    have hn := Count.number (l := lBracket) (s := (.word, [Nat.digitChar k]) :: rBracket :: lBrace :: (tb ++ rBrace :: rest)) rfl (blanks_none rfl)
      (blanks_none rfl) (digit_decimal (hc k rfl)) (hc k rfl)
    exact .counted hn (.absent fun t ht => by cases ht; exact fun h => (by cases h)) (.group rfl (group_body h))

/-- A written definition is one that can be left out. -/
theorem written_defines {n : Text} {count : Option Nat} (hc : ∀ k, count = some k → k ≤ 9) {tb rest st : List Tok} (h : DefinitionText tb) (hm : Marked tb st) :
    Defines (lBrace :: cmdTok n :: rBrace :: (countToks count ++ lBrace :: (tb ++ rBrace :: rest))) (some (n, .cmd n (count.getD 0) none st)) rest :=
  .defines (Named.name (isEnv := false) (t := cmdTok n) (blanks_none rfl) rfl (blanks_none rfl) (blanks_none rfl) ⟨_, rfl⟩) (header_written hc h) hm

theorem written_preamble {n : Text} {count : Option Nat} (hc : ∀ k, count = some k → k ≤ 9) {tb rest st : List Tok} (h : DefinitionText tb) (hm : Marked tb st) :
    LeftOut [n] atStart (cmdTok t!"newcommand" :: lBrace :: cmdTok n :: rBrace :: (countToks count ++ lBrace :: (tb ++ rBrace :: rest))) rest :=
  .define (d := .newCommand false) (by decide +kernel) ⟨fun h => (by cases h), fun h => (by cases h)⟩ (.inr ⟨fun h => h, written_defines hc h hm⟩) .done

theorem definition_marked {spec : CommandSpec} {b : Text} {tb : List Tok} (hb : tokensOf spec b = .ok tb) (h : DefinitionText tb) : ∃ st, Marked tb st := by
  refine (marked_or_mark tb fun t ht => ?_).resolve_right fun ⟨src, x, e⟩ => h.2.2 x (by rw [e]; simp)
  exact (start_ok hb).2 t ht

theorem noMore_char {p : Char → Prop} {c : Char} {r : Text} (h : ¬ p c) : NoMore p (c :: r) := fun d hd => by cases hd; exact h

theorem count_tokens {spec : CommandSpec} {count : Option Nat} (hc : ∀ k, count = some k → k ≤ 9) {r : Text} {ts : List Tok} (h : Tokenized spec r ts) :
    Tokenized spec (writtenCount count ++ r) (countToks count ++ ts) := by
  cases count with
  | none => exact h
  | some k =>
    have hw : isWs (Nat.digitChar k) = false ∧ Nat.digitChar k ∉ specials := by
      have : ∀ k < 10, isWs (Nat.digitChar k) = false ∧ Nat.digitChar k ∉ specials := by decide
      have h9 := hc k rfl
      exact this k (by omega)
    refine .cons _ _ _ _ _ (.punct '[' _ _ (by decide)) ?_
    refine .cons _ _ _ (']' :: r) _ (.word [Nat.digitChar k] (']' :: r) (by simp) (fun c hc => by rw [List.mem_singleton.1 hc]; exact hw) (noMore_char fun h => ?_)) ?_
    · exact absurd h.2 (by decide)
    · exact .cons _ _ _ _ _ (.punct ']' _ _ (by decide)) h

theorem written_tokens {spec : CommandSpec} {n : Text} (hn : CommandWord n) {count : Option Nat} (hc : ∀ k, count = some k → k ≤ 9) {b : Text} {tb : List Tok}
    (hb : Tokenized spec b tb) (hw : ∀ t ∈ tb, t.1 ≠ .cmd .errorBeginEnv ∧ t.1 ≠ .cmd .errorEndEnv) (hs : ∀ r t, tb.getLast? = some t → Separate t ('}' :: r))
    {r : Text} {tr : List Tok} (hr : Tokenized spec r tr) :
    Tokenized spec (writtenDefinition n count b ++ r)
      (cmdTok t!"newcommand" :: lBrace :: cmdTok n :: rBrace :: (countToks count ++ lBrace :: (tb ++ rBrace :: tr))) := by
  have h1 : Tokenized spec ('}' :: r) (rBrace :: tr) := .cons _ _ _ _ _ (.punct '}' _ _ (by decide)) hr
  have h2 := Local.tokenized_join hb h1 hw fun t => hs r t
  have h3 : Tokenized spec ('{' :: (b ++ '}' :: r)) (lBrace :: (tb ++ rBrace :: tr)) := .cons _ _ _ _ _ (.punct '{' _ _ (by decide)) h2
  have h4 := count_tokens hc h3
  have h5 : Tokenized spec ('}' :: (writtenCount count ++ '{' :: (b ++ '}' :: r))) (rBrace :: (countToks count ++ lBrace :: (tb ++ rBrace :: tr))) :=
    .cons _ _ _ _ _ (.punct '}' _ _ (by decide)) h4
  have brace : ∀ {c : Char} {r : Text}, (c = '{' ∨ c = '}') → NoMore (fun c => NameChar c ∨ c = '*') (c :: r) := by
    intro c r e
    refine noMore_char ?_
    rcases e with rfl | rfl <;> decide +kernel
  have h6 := Tokenized.cons _ _ _ _ _ (name_token (spec := spec) hn (brace (.inr rfl))) h5
  have h7 := Tokenized.cons _ _ _ _ _ (.punct (spec := spec) '{' (.left .curly) _ (by decide)) h6
  have hk : CommandWord t!"newcommand" := by
    refine ⟨by decide, by decide +kernel, by decide, by decide, fun k hk => ?_⟩
    have : builtinCommands.all (fun p => decide (p.1 ≠ t!"newcommand")) = true := by decide +kernel
    exact of_decide_eq_true (List.all_eq_true.1 this _ hk) rfl
  have h8 := Tokenized.cons _ _ _ _ _ (name_token (spec := spec) hk (brace (.inl rfl))) h7
  have e : writtenDefinition n count b ++ r = '\\' :: t!"newcommand" ++ '{' :: ('\\' :: n ++ '}' :: (writtenCount count ++ '{' :: (b ++ '}' :: r))) := by
    unfold writtenDefinition
    simp
  rw [e]
  exact h8

end Unused

/-- **C88**, texts: a text is converted as if a definition of a command at its start, that it does not use, were not there. -/
theorem C88_newcommand (dflt : CommandSpec) (m : Mode) (spec : Option CommandSpec) (n b r : Text) (count : Option Nat) (tb tr : List Tok)
    (hn : OwnName n ∧ CommandWord n) (hc : ∀ k, count = some k → k ≤ 9) (hb : tokensOf (spec.getD dflt) b = .ok tb) (hd : DefinitionText tb)
    (hw : ∀ t ∈ tb, t.1 ≠ .cmd .errorBeginEnv ∧ t.1 ≠ .cmd .errorEndEnv) (hs : ∀ r t, tb.getLast? = some t → Separate t ('}' :: r))
    (hr : tokensOf (spec.getD dflt) r = .ok tr) (hu : Unmentioned n tr) :
    ∃ N, ∀ F, N ≤ F → convertInner F dflt (writtenDefinition n count b ++ r) m spec true = convertInner F dflt r m spec true := by
  obtain ⟨st, hm⟩ := Unused.definition_marked hb hd
  have ht := (C59_tokens ..).2 (Unused.written_tokens hn.2 hc ((C59_tokens ..).1 hb) hw hs ((C59_tokens ..).1 hr))
  exact C88_converts dflt m spec _ r [n] _ tr ht hr (Unused.written_preamble hc hd hm) ⟨by simp, fun k hk => by rw [List.mem_singleton.1 hk]; exact hn.1⟩
    fun k hk => by rw [List.mem_singleton.1 hk]; exact hu

/-! ### Concrete cases -/

namespace Unused

/-- A test for texts that do not mention a name, and have no environments defined. -/
def unmentionedB (n : Text) (ts : List Tok) : Bool :=
  ts.all fun t => decide (t.2 ≠ '\\' :: n ∧ t.2 ≠ n) && environmentDefiners.all fun d => decide (t ≠ cmdTok d)

theorem unmentionedB_sound {n : Text} {ts : List Tok} (h : unmentionedB n ts = true) : Unmentioned n ts := by
  have h1 := fun t ht => Bool.and_eq_true_iff.1 (List.all_eq_true.1 h t ht)
  refine ⟨fun k hk => ?_, fun hk => ?_, .inl fun d hd hk => ?_⟩
  · exact (of_decide_eq_true (h1 _ hk).1 : _ ≠ _ ∧ _).1 rfl
  · exact (of_decide_eq_true (h1 _ hk).1 : _ ∧ _ ≠ _).2 rfl
  · exact of_decide_eq_true (List.all_eq_true.1 (h1 _ hk).2 d hd) rfl

def halfBody : List Tok := [cmdTok t!"frac", lBrace, (.hash, t!"#"), (.word, t!"1"), rBrace, lBrace, (.word, t!"2"), rBrace]
def formula : List Tok := [(.dollar, t!"$"), (.word, t!"x"), (.dollar, t!"$")]

end Unused

/-- `\newcommand{\half}[1]{\frac{#1}{2}}$x$`: the hypotheses of C88 hold, and the definition leaves no trace. -/
theorem C88_example :
    writtenDefinition t!"half" (some 1) t!"\\frac{#1}{2}" ++ t!"$x$" = t!"\\newcommand{\\half}[1]{\\frac{#1}{2}}$x$" ∧
    (OwnName t!"half" ∧ CommandWord t!"half") ∧ tokensOf defaultSpec t!"\\frac{#1}{2}" = .ok Unused.halfBody ∧ DefinitionText Unused.halfBody ∧
    tokensOf defaultSpec t!"$x$" = .ok Unused.formula ∧ Unmentioned t!"half" Unused.formula ∧
    convertText 200 defaultSpec t!"\\newcommand{\\half}[1]{\\frac{#1}{2}}$x$" none = .ok t!"#math.equation(block: false, $x $);" ∧
    convertText 200 defaultSpec t!"$x$" none = .ok t!"#math.equation(block: false, $x $);" := by
  refine ⟨by decide, ⟨⟨by decide +kernel, by decide +kernel⟩, by decide, by decide +kernel, by decide, by decide, fun k hk => ?_⟩, by decide +kernel, ⟨by decide +kernel, ?_, ?_⟩, by decide +kernel,
    Unused.unmentionedB_sound (by decide +kernel), by decide +kernel, by decide +kernel⟩
  · have : builtinCommands.all (fun p => decide (p.1 ≠ t!"half")) = true := by decide +kernel
    exact of_decide_eq_true (List.all_eq_true.1 this _ hk) rfl
  · intro p hp
    have h : (List.range 9).all (fun k => decide (0 ≤ level opensBrace closesBrace (Unused.halfBody.take k))) = true := by decide +kernel
    have hl : p.length < 9 := Nat.lt_succ_of_le hp.length_le
    rw [List.prefix_iff_eq_take.1 hp]
    exact of_decide_eq_true (List.all_eq_true.1 h p.length (List.mem_range.2 hl))
  · intro h e
    cases e

namespace Unused

def rest1 : List Tok := [cmdTok t!"q"]
def toks1 (r : List Tok) : List Tok := cmdTok t!"newcommand" :: lBrace :: cmdTok t!"q" :: rBrace :: (countToks none ++ lBrace :: ([(.word, t!"y")] ++ rBrace :: r))
def toks2 (r : List Tok) : List Tok :=
  cmdTok t!"newcommand" :: lBrace :: cmdTok t!"half" :: rBrace :: (countToks (some 1) ++ lBrace :: (halfBody ++ rBrace :: r))

theorem half_text : DefinitionText halfBody := by
  refine ⟨by decide +kernel, fun p hp => ?_, fun h e => (by cases e)⟩
  have h : (List.range 9).all (fun k => decide (0 ≤ level opensBrace closesBrace (halfBody.take k))) = true := by decide +kernel
  have hl : p.length < 9 := Nat.lt_succ_of_le hp.length_le
  rw [List.prefix_iff_eq_take.1 hp]
  exact of_decide_eq_true (List.all_eq_true.1 h p.length (List.mem_range.2 hl))

end Unused

/-- `\newcommand{\q}{y}a \newcommand{\half}[1]{\frac{#1}{2}}\q`: a definition that is not used, after one that is used and after other text. -/
theorem C88_example_middle :
    tokensOf defaultSpec t!"\\newcommand{\\q}{y}a \\newcommand{\\half}[1]{\\frac{#1}{2}}\\q" =
      .ok (Unused.toks1 ((.word, t!"a") :: (.whitespace, t!" ") :: Unused.toks2 Unused.rest1)) ∧
    tokensOf defaultSpec t!"\\newcommand{\\q}{y}a \\q" = .ok (Unused.toks1 ((.word, t!"a") :: (.whitespace, t!" ") :: Unused.rest1)) ∧
    LeftOut [t!"half"] atStart (Unused.toks1 ((.word, t!"a") :: (.whitespace, t!" ") :: Unused.toks2 Unused.rest1))
      (Unused.toks1 ((.word, t!"a") :: (.whitespace, t!" ") :: Unused.rest1)) ∧
    FreshNames [t!"half"] ∧ Unmentioned t!"half" (Unused.toks1 ((.word, t!"a") :: (.whitespace, t!" ") :: Unused.rest1)) ∧
    convertText 200 defaultSpec t!"\\newcommand{\\q}{y}a \\newcommand{\\half}[1]{\\frac{#1}{2}}\\q" none = .ok t!"a y" ∧
    convertText 200 defaultSpec t!"\\newcommand{\\q}{y}a \\q" none = .ok t!"a y" := by
  obtain ⟨st, hm⟩ := Unused.definition_marked (spec := defaultSpec) (b := t!"\\frac{#1}{2}") (by decide +kernel) Unused.half_text
  have hq : Marked [((.word, t!"y") : Tok)] [(.word, t!"y")] := .tok (fun h => (by cases h)) (fun _ h => (by cases h)) .nil
  have hy : DefinitionText [((.word, t!"y") : Tok)] := by
    refine ⟨by decide, fun p hp => ?_, fun h e => (by cases e)⟩
    have h : (List.range 2).all (fun k => decide (0 ≤ level opensBrace closesBrace ([((.word, t!"y") : Tok)].take k))) = true := by decide
    have hl : p.length < 2 := Nat.lt_succ_of_le hp.length_le
    rw [List.prefix_iff_eq_take.1 hp]
    exact of_decide_eq_true (List.all_eq_true.1 h p.length (List.mem_range.2 hl))
  have none_le : ∀ k, (none : Option Nat) = some k → k ≤ 9 := fun k h => (by cases h)
  have one_le : ∀ k, some 1 = some k → k ≤ 9 := fun k h => (by cases h; decide)
  refine ⟨by decide +kernel, by decide +kernel, ?_, ⟨by simp, fun n hn => ?_⟩, Unused.unmentionedB_sound (by decide +kernel), by decide +kernel, by decide +kernel⟩
  · refine .keep (d := .newCommand false) (by decide +kernel) (.inr ⟨fun h => h, Unused.written_defines none_le hy hq⟩)
      (.inr ⟨fun h => h, Unused.written_defines none_le hy hq⟩) (.pass (.inl ?_) (.pass (.inl ?_) ?_))
    · exact ⟨fun h => (by cases h), fun h => (by cases h), fun h => (by cases h), fun h => (by cases h), fun i h => (by cases h)⟩
    · exact ⟨fun h => (by cases h), fun h => (by cases h), fun h => (by cases h), fun h => (by cases h), fun i h => (by cases h)⟩
    · exact .define (d := .newCommand false) (by decide +kernel) ⟨fun h => (by cases h), fun h => (by cases h)⟩
        (.inr ⟨fun h => h, Unused.written_defines one_le Unused.half_text hm⟩) .done
  · rw [List.mem_singleton.1 hn]
    exact ⟨by decide +kernel, by decide +kernel⟩

end Mitex
