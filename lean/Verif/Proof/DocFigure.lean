/-
Figures in documents (Spec/Document.lean): how the grammar reads them, and what the templates make of them.
-/
import Verif.Proof.DocTable

namespace Mitex
open Grammar (Item Items Row)

/-! ## Blanks while a label waits -/

theorem Blank.kept {spec : CommandSpec} {x : Place} (lab : Option Text) (c : Blank) (b : Bool) :
    Printed spec x (leafOf c.tok) ⟨lab, b⟩ (c.typst x.lists b) ⟨lab, c.isLines⟩ := by
  cases c with
  | blanks w =>
    refine .mk (ps := [.blank (.token .tokenWhiteSpace w)]) rfl ?_
    show PrintedAll spec _ ⟨lab, b⟩ _ _
    cases b with
    | false =>
      have := PrintedAll.blank (spec := spec) (k := .tokenWhiteSpace) (t := w) (m := ⟨lab, false⟩) rfl (.nil _)
      rw [List.append_nil] at this
      exact this
    | true => exact .dropped rfl (.nil _)
  | lines w =>
    refine .mk (ps := [.text (w ++ List.replicate (2 * x.lists) ' '), .dropBlank]) rfl ?_
    show PrintedAll spec _ ⟨lab, false⟩ _ _
    have := PrintedAll.text (spec := spec) (m := ⟨lab, false⟩) (w ++ List.replicate (2 * x.lists) ' ') (.dropBlank (.nil _))
    rw [List.append_nil] at this
    exact this
  | comment w => exact .mk (ps := []) rfl (.nil _)

theorem fill_kept {spec : CommandSpec} {x : Place} (lab : Option Text) : ∀ (bs : List Blank) (b : Bool),
    PrintedAll spec (each x ((fillToks bs).map leafOf)) ⟨lab, b⟩ (fillTypst x.lists b bs) ⟨lab, atLineStart b bs⟩
  | [], _ => .nil _
  | c :: bs, b => .part (c.kept lab b) (fill_kept lab bs c.isLines)

/-! ## Marks -/

/-- What stays in the content of a figure. -/
abbrev staying (c : Elem) : Bool := !isCommand t!"\\caption" c && !isCommand t!"\\centering" c

abbrev commandElem (name : Text) (args : List Elem) : Elem := .node .itemCmd (leafOf (nameTok name) :: args)

/-- The children of a figure: commands have names, captions have arguments. -/
def Orderly (c : Elem) : Prop := c.kind = .itemCmd → c.cmdName ≠ none ∧ (c.cmdName = some t!"\\caption" → ¬ c.arguments.isEmpty)

structure FigBody (ps : CommandSpec) (y : Place) (es : List Elem) (captions : List Text) (m : Mem) (t : Text) (m' : Mem) : Prop where
  kinds : ∀ e ∈ es, e.kind ≠ .itemBegin ∧ e.kind ≠ .itemEnd ∧ Orderly e
  captions : ∃ cl : List (List Elem × Text), es.filter (isCommand t!"\\caption") = cl.map (fun p => commandElem t!"caption" [.node .clauseArgument [curlyElem p.1]]) ∧
    captions = cl.map (·.2) ∧ ∀ p ∈ cl, Printed ps y (.node .clauseArgument [curlyElem p.1]) (mem false) p.2 (mem false)
  writes : PrintedAll ps (each y (es.filter staying)) m t m'

theorem FigBody.nil {ps : CommandSpec} {y : Place} {m : Mem} : FigBody ps y [] [] m [] m :=
  ⟨fun e he => (by cases he), ⟨[], rfl, rfl, fun p hp => (by cases hp)⟩, .nil _⟩

theorem FigBody.append {ps : CommandSpec} {y : Place} {es fs : List Elem} {c d : List Text} {m m1 m2 : Mem} {t u : Text} (h : FigBody ps y es c m t m1)
    (h' : FigBody ps y fs d m1 u m2) : FigBody ps y (es ++ fs) (c ++ d) m (t ++ u) m2 := by
  obtain ⟨cl, h1, h2, h3⟩ := h.captions
  obtain ⟨cl', h1', h2', h3'⟩ := h'.captions
  refine ⟨fun e he => (List.mem_append.mp he).elim (h.kinds e) (h'.kinds e), ⟨cl ++ cl', ?_, ?_, fun p hp => (List.mem_append.mp hp).elim (h3 p) (h3' p)⟩, ?_⟩
  · rw [List.filter_append, h1, h1', List.map_append]
  · rw [h2, h2', List.map_append]
  · rw [List.filter_append, each_append]
    exact h.writes.append h'.writes

/-- Elements that are no marks. -/
theorem FigBody.plain {ps : CommandSpec} {y : Place} {es : List Elem} {m m' : Mem} {t : Text} (hk : ∀ e ∈ es, e.kind ≠ .itemBegin ∧ e.kind ≠ .itemEnd ∧ Orderly e)
    (hn : ∀ e ∈ es, isCommand t!"\\caption" e = false ∧ isCommand t!"\\centering" e = false) (h : PrintedAll ps (each y es) m t m') : FigBody ps y es [] m t m' := by
  refine ⟨hk, ⟨[], ?_, rfl, fun p hp => (by cases hp)⟩, ?_⟩
  · exact List.filter_eq_nil_iff.mpr fun e he => by rw [(hn e he).1]; exact Bool.false_ne_true
  · rw [List.filter_eq_self.mpr fun e he => by rw [staying, (hn e he).1, (hn e he).2]; rfl]
    exact h

theorem FigBody.fill {ps : CommandSpec} {y : Place} (lab : Option Text) (bs : List Blank) (b : Bool) :
    FigBody ps y ((fillToks bs).map leafOf) [] ⟨lab, b⟩ (fillTypst y.lists b bs) ⟨lab, atLineStart b bs⟩ := by
  refine .plain (fun e he => ?_) (fun e he => ?_) (fill_kept lab bs b)
  all_goals
    obtain ⟨t, ht, rfl⟩ := List.mem_map.mp he
    obtain ⟨c, -, rfl⟩ := List.mem_map.mp ht
    cases c
  · exact ⟨fun h => (by cases h), fun h => (by cases h), fun h => (by cases h)⟩
  · exact ⟨fun h => (by cases h), fun h => (by cases h), fun h => (by cases h)⟩
  · exact ⟨fun h => (by cases h), fun h => (by cases h), fun h => (by cases h)⟩
  · exact ⟨rfl, rfl⟩
  · exact ⟨rfl, rfl⟩
  · exact ⟨rfl, rfl⟩

theorem FigBody.content {ps : CommandSpec} {y : Place} (hy : y.env = .figure) {es : List Elem} {b b' : Bool} {t : Text} (ht : ∀ e ∈ es, Tame y e)
    (h : Writes ps y es b t b') : FigBody ps y es [] (mem b) t (mem b') := by
  refine .plain (fun e he => ⟨(ht e he).1, (ht e he).2.1, fun hk => ?_⟩) (fun e he => ?_) h
  · obtain ⟨name, h1, h2⟩ := (ht e he).2.2.2 hk
    rw [h1]
    refine ⟨fun h => (by cases h), fun h => ?_⟩
    cases h
    exact absurd rfl (h2.2 hy).1
  · unfold isCommand
    by_cases hk : e.kind = .itemCmd
    · obtain ⟨name, h1, h2⟩ := (ht e he).2.2.2 hk
      have h3 := h2.2 hy
      rw [h1]
      constructor
      · rw [Bool.and_eq_false_iff]
        exact .inr (decide_eq_false fun h => by cases h; exact h3.1 rfl)
      · rw [Bool.and_eq_false_iff]
        exact .inr (decide_eq_false fun h => by cases h; exact h3.2 rfl)
    · constructor <;> (rw [Bool.and_eq_false_iff]; exact .inl (decide_eq_false hk))

theorem FigBody.centering {ps : CommandSpec} {y : Place} {m : Mem} : FigBody ps y [commandElem t!"centering" []] [] m [] m := by
  refine ⟨fun e he => ?_, ⟨[], rfl, rfl, fun p hp => (by cases hp)⟩, .nil _⟩
  rw [List.mem_singleton.mp he]
  exact ⟨fun h => (by cases h), fun h => (by cases h), fun _ => ⟨fun h => (by cases h), fun h => absurd h (by decide)⟩⟩

theorem FigBody.caption {ps : CommandSpec} {env : LEnv} {n : Nat} {m : Mem} {es : List Elem} {t : Text} {b : Bool} (h : Writes ps ⟨.text, env, n⟩ es false t b) :
    FigBody ps ⟨.text, env, n⟩ [commandElem t!"caption" [.node .clauseArgument [curlyElem es]]] [t] m [] m := by
  refine ⟨fun e he => ?_, ⟨[(es, t)], rfl, rfl, fun p hp => ?_⟩, .nil _⟩
  · rw [List.mem_singleton.mp he]
    exact ⟨fun h => (by cases h), fun h => (by cases h), fun _ => ⟨fun h => (by cases h), fun _ h => Bool.false_ne_true h⟩⟩
  · rw [List.mem_singleton.mp hp]
    exact argument_writes (curly_writes h false)

theorem FigBody.label {ps : CommandSpec} {n : Nat} {m : Mem} {es : List Elem} {l : Text} (hl : IsWord l) (h : Elem.leaves.go es = [lf (.word, l)]) :
    FigBody ps ⟨.text, .figure, n⟩ [commandElem t!"label" [.node .clauseArgument [curlyElem es]]] [] m [] ⟨some l, false⟩ := by
  have hp : Printed ps ⟨.text, .figure, n⟩ (commandElem t!"label" [.node .clauseArgument [curlyElem es]]) m [] ⟨some l, false⟩ := by
    refine .mk (ps := [.keepLabel l]) ?_ (.keepLabel (.nil _))
    generalize he' : commandElem t!"label" [.node .clauseArgument [curlyElem es]] = e
    have h1 : template ps ⟨.text, .figure, n⟩ e = labelTemplate ⟨.text, .figure, n⟩ e := by rw [← he']; rfl
    rw [h1]
    unfold labelTemplate
    have h2 : e.arguments.head? = some (.node .clauseArgument [curlyElem es]) := by rw [← he']; rfl
    have h3 : (Elem.node .clauseArgument [curlyElem es]).text = '{' :: (l ++ ['}']) := by
      rw [curlyArg_text (L := [(.word, l)]) h]
      simp [toksText]
    rw [h2]
    show (orCrash (undelimited _) >>= _) = _
    rw [h3, undelimited_wrap (by decide) (by decide)]
    show (if LEnv.figure = .none ∨ LEnv.figure = .itemize ∨ LEnv.figure = .enumerate then Except.ok (inMode .text ⟨.text, .figure, n⟩ [.text (t!"<" ++ trim l ++ t!">")]) else Except.ok [.keepLabel (trim l)]) = _
    rw [if_neg (by decide), trim_black fun c hc => (hl.2 c hc).1]
  have h1 := PrintedAll.part hp (.nil _)
  refine .plain (fun e he => ?_) (fun e he => ?_) h1
  · rw [List.mem_singleton.mp he]
    exact ⟨fun h => (by cases h), fun h => (by cases h), fun _ => ⟨fun h => (by cases h), fun h => absurd (show some t!"\\label" = some t!"\\caption" from h) (by decide)⟩⟩
  · rw [List.mem_singleton.mp he]
    exact ⟨rfl, rfl⟩

/-! ## How marks are read -/

theorem marks_halted {k : List Tok} (hk : Halted k) : ∀ ms : FigMarks, Halted (ms.toks k)
  | .nil => hk
  | .centering fill ms => by rw [FigMarks.toks]; exact .cons rfl
  | .caption d fill ms => by rw [FigMarks.toks]; exact .cons rfl
  | .label l fill ms => by rw [FigMarks.toks]; exact .cons rfl

theorem marks_soft {k : List Tok} (hk : Soft k) : ∀ ms : FigMarks, Soft (ms.toks k)
  | .nil => hk
  | .centering fill ms => by rw [FigMarks.toks]; exact (Halted.cons rfl).soft
  | .caption d fill ms => by rw [FigMarks.toks]; exact (Halted.cons rfl).soft
  | .label l fill ms => by rw [FigMarks.toks]; exact (Halted.cons rfl).soft

theorem marks_noBracket {k : List Tok} {u : Text} (ms : FigMarks) (hf : NotFirst (· = '[') (ms.latex ++ u)) (hk : NotFirst (· = '[') u → NoBracket k) :
    NoBracket (ms.toks k) := by
  cases ms with
  | nil => rw [FigMarks.toks]; exact hk (by simpa [FigMarks.latex] using hf)
  | _ => rw [FigMarks.toks]; intro t ht; cases ht; exact fun h => (by cases h)

/-- What `FigMarks.parse` shows. -/
structure MarksTake (rs ps : CommandSpec) (y : Place) (ms : FigMarks) : Prop where
  go : ∀ {k : List Tok} {lab : Option Text} (b : Bool) (r : Row), Soft k → ∃ es f l,
    FigBody ps y es (ms.captions ps y) ⟨lab, b⟩ (ms.typst y.lists b) ⟨ms.labels.getLast?.or lab, ms.endsLine b⟩ ∧ ∀ r' ts',
      Items ⟨rs, globPrefix⟩ .environment (Grammar.enders .environment) ⟨r.items ++ es, f, l⟩ k r' ts' →
      Items ⟨rs, globPrefix⟩ .environment (Grammar.enders .environment) r (ms.toks k) r' ts'

theorem generic_passes : Token.cmd .generic ∉ Grammar.enders .environment := by decide

theorem centering_take {rs ps : CommandSpec} {y : Place} {fill : List Blank} {ms : FigMarks} (hr : KnownCommand rs t!"centering" .none)
    (h : MarksTake rs ps y ms) : MarksTake rs ps y (.centering fill ms) := by
  refine ⟨fun {k lab} b r hk => ?_⟩
  obtain ⟨sh, h7, h8⟩ := hr
  obtain ⟨es, f, l, h1, h2⟩ := h.go (k := k) (lab := lab) (atLineStart b fill) ⟨r.items ++ commandElem t!"centering" [] :: (fillToks fill).map leafOf, r.first,
    some (r.items.length : Int)⟩ hk
  refine ⟨commandElem t!"centering" [] :: ((fillToks fill).map leafOf ++ es), f, l, ?_, fun r' ts' hi => ?_⟩
  · have := (FigBody.centering (ps := ps) (y := y)).append ((FigBody.fill lab fill b).append h1)
    rw [FigMarks.captions, FigMarks.typst, FigMarks.labels, FigMarks.endsLine]
    exact this
  · rw [FigMarks.toks]
    have hi1 : Item ⟨rs, globPrefix⟩ .environment false r (nameTok t!"centering" :: (fillToks fill ++ ms.toks k)) true
        (r.add [commandElem t!"centering" []]) (fillToks fill ++ ms.toks k) := by
      refine .symbol rfl ?_
      rw [commandArgs_of h7 (by rw [h8]; exact fun h => (by cases h)), h8]
    refine .more generic_passes hi1 (parse_fill docLets_environment fill _ ?_)
    have hi2 := h2 r' ts' (by simpa using hi)
    simpa [Row.add] using hi2

/-- A command with one argument. -/
theorem mark_item {rs : CommandSpec} {name : Text} (hr : KnownCommand rs name (.fixedLen 1)) {r : Row} {ts k : List Tok} {arg : Elem} {fill : List Blank}
    (hs : Soft k)
    (ha : Grammar.Args ⟨rs, globPrefix⟩ .environment (.fixedLen 1) [.term] (fillToks fill ++ k) [] (fillToks fill) k →
      Grammar.Args ⟨rs, globPrefix⟩ .environment (.fixedLen 1) [] ts [arg] (fillToks fill) k) {r' : Row} {ts' : List Tok}
    (hi : Items ⟨rs, globPrefix⟩ .environment (Grammar.enders .environment)
      ⟨r.items ++ commandElem name [arg] :: (fillToks fill).map leafOf, r.first, some (r.items.length : Int)⟩ k r' ts') :
    Items ⟨rs, globPrefix⟩ .environment (Grammar.enders .environment) r (nameTok name :: ts) r' ts' := by
  obtain ⟨sh, h7, h8⟩ := hr
  have hcmd : Grammar.commandArgs rs name = .right (.fixedLen 1) := by
    rw [commandArgs_of h7 (by rw [h8]; exact fun h => (by cases h)), h8]
  have hover : TakesExactly (.fixedLen 1) [.term] [] := fun k => rfl
  have hi1 := Item.command (env := ⟨rs, globPrefix⟩) (sc := .environment) (one := false) (r := r) (n := .generic) (name := name) rfl hcmd
    (fun h => (by cases h)) (fun h => (by cases h)) (ha (args_fill (spec := rs) hover hs fill))
  refine .more (t := nameTok name) generic_passes hi1 ?_
  unfold commandElem at hi
  rw [show nameTok name = (Token.cmd .generic, '\\' :: name) from rfl] at hi
  simpa [Row.add] using hi

theorem caption_take {rs ps : CommandSpec} {env : LEnv} {n : Nat} {d : Doc} {fill : List Blank} {ms : FigMarks} (hr : KnownCommand rs t!"caption" (.fixedLen 1))
    (hd : DocReads rs ps ⟨.text, env, n⟩ d.toks (d.typst ps ⟨.text, env, n⟩) d.endsLine d.hasBracket)
    (h : MarksTake rs ps ⟨.text, env, n⟩ ms) : MarksTake rs ps ⟨.text, env, n⟩ (.caption d fill ms) := by
  refine ⟨fun {k lab} b r hk => ?_⟩
  have hover : TakesExactly (.fixedLen 1) [.term] [] := fun k => rfl
  obtain ⟨cs, a1, a2⟩ := doc_argument (sc := .environment) (p := .fixedLen 1) (ks := []) hd false (fun h => (by cases h)) (fun h => (by cases h)) rfl
    (args_fill (spec := rs) (sc := .environment) hover (marks_soft hk ms) fill)
  obtain ⟨es, f, l, h1, h2⟩ := h.go (k := k) (lab := lab) (atLineStart b fill)
    ⟨r.items ++ commandElem t!"caption" [.node .clauseArgument [curlyElem cs]] :: (fillToks fill).map leafOf, r.first, some (r.items.length : Int)⟩ hk
  refine ⟨commandElem t!"caption" [.node .clauseArgument [curlyElem cs]] :: ((fillToks fill).map leafOf ++ es), f, l, ?_, fun r' ts' hi => ?_⟩
  · have := (FigBody.caption (ps := ps) a1.writes).append ((FigBody.fill lab fill b).append h1)
    rw [FigMarks.captions, FigMarks.typst, FigMarks.labels, FigMarks.endsLine]
    exact this
  · rw [FigMarks.toks]
    refine mark_item hr (marks_soft hk ms) (fun _ => a2) (h2 r' ts' ?_)
    simpa using hi

theorem label_take {rs ps : CommandSpec} {n : Nat} {l : Text} {fill : List Blank} {ms : FigMarks} (hr : KnownCommand rs t!"label" (.fixedLen 1))
    (hl : IsWord l) (h : MarksTake rs ps ⟨.text, .figure, n⟩ ms) : MarksTake rs ps ⟨.text, .figure, n⟩ (.label l fill ms) := by
  refine ⟨fun {k lab} b r hk => ?_⟩
  have hover : TakesExactly (.fixedLen 1) [.term] [] := fun k => rfl
  obtain ⟨cs, a1, a2⟩ := inert_argument (rs := rs) (sc := .environment) (p := .fixedLen 1) (ks := []) (L := [(.word, l)])
    (fun t ht => by rw [List.mem_singleton.mp ht]; exact .inl rfl) false (fun h => (by cases h)) rfl
    (args_fill (spec := rs) (sc := .environment) hover (marks_soft hk ms) fill)
  obtain ⟨es, f, l', h1, h2⟩ := h.go (k := k) (lab := some l) (atLineStart false fill)
    ⟨r.items ++ commandElem t!"label" [.node .clauseArgument [curlyElem cs]] :: (fillToks fill).map leafOf, r.first, some (r.items.length : Int)⟩ hk
  refine ⟨commandElem t!"label" [.node .clauseArgument [curlyElem cs]] :: ((fillToks fill).map leafOf ++ es), f, l', ?_, fun r' ts' hi => ?_⟩
  · have := (FigBody.label (ps := ps) (n := n) (m := ⟨lab, b⟩) hl a1).append ((FigBody.fill (some l) fill false).append h1)
    rw [FigMarks.captions, FigMarks.typst, FigMarks.labels, FigMarks.endsLine]
    have hg : (l :: ms.labels).getLast?.or lab = ms.labels.getLast?.or (some l) := by
      cases hm : ms.labels with
      | nil => rfl
      | cons a as =>
        rw [List.getLast?_cons_cons]
        cases hq : (a :: as).getLast? with
        | none => simp at hq
        | some z => rfl
    rw [hg]
    exact this
  · rw [FigMarks.toks]
    refine mark_item hr (marks_soft hk ms) (fun _ => a2) (h2 r' ts' ?_)
    simpa using hi

/-! ## Figures -/

theorem env_optArguments {name : Text} {o : Option Text} {ws body : List Elem} :
    (Elem.node .itemEnv (.node .itemBegin (leafOf (.cmd .beginEnv, name) :: optArgs o.isSome ws) :: body)).envName = some name := by
  cases o <;> rfl

theorem figure_writes {spec : CommandSpec} {env : LEnv} {n : Nat} {name : Text} {sh : EnvShape} {args body : List Elem} {caps : List Text} {t : Text}
    {lab : Option Text} {b' : Bool} (hn : EnvName name) (hs : spec name = some (.env sh)) (hc : sh.ctx = .isFigure)
    (hb : FigBody spec ⟨.text, .figure, n⟩ body caps (mem false) t ⟨lab, b'⟩) (b : Bool) :
    Printed spec ⟨.text, env, n⟩ (.node .itemEnv (.node .itemBegin (leafOf (.cmd .beginEnv, name) :: args) ::
      (body ++ [.node .itemEnd [leafOf (.cmd .endEnv, name)]]))) (mem b)
      (t!"#" ++ aliasOf spec name ++ t!"(" ++ captionTypst caps ++ t!")[" ++ t ++ t!"];" ++ labelTypst lab.toList) (mem b') := by
  have hbetween := env_between (name := name) (args := args) fun e he => ⟨(hb.kinds e he).1, (hb.kinds e he).2.1⟩
  obtain ⟨cl, h1, h2, h3⟩ := hb.captions
  have hchildren : (Elem.node .itemEnv (.node .itemBegin (leafOf (.cmd .beginEnv, name) :: args) ::
      (body ++ [.node .itemEnd [leafOf (.cmd .endEnv, name)]]))).children.filter (isCommand t!"\\caption") =
      cl.map (fun p => commandElem t!"caption" [.node .clauseArgument [curlyElem p.1]]) := by
    show ((Elem.node .itemBegin (leafOf (.cmd .beginEnv, name) :: args)) :: (body ++ [.node .itemEnd [leafOf (.cmd .endEnv, name)]])).filter _ = _
    rw [List.filter_cons_of_neg (by exact Bool.false_ne_true), List.filter_append, List.filter_cons_of_neg (by exact Bool.false_ne_true), List.filter_nil, List.append_nil, h1]
  have hall : (Elem.node .itemEnv (.node .itemBegin (leafOf (.cmd .beginEnv, name) :: args) ::
      (body ++ [.node .itemEnd [leafOf (.cmd .endEnv, name)]]))).children.all (fun c => decide (c.kind = .itemCmd → c.cmdName ≠ none ∧
        (c.cmdName = some t!"\\caption" → ¬ c.arguments.isEmpty))) = true := by
    rw [List.all_eq_true]
    intro c hc
    apply decide_eq_true
    rcases List.mem_cons.mp (show c ∈ (Elem.node .itemBegin (leafOf (.cmd .beginEnv, name) :: args)) :: (body ++ [.node .itemEnd [leafOf (.cmd .endEnv, name)]]) from hc)
      with rfl | hc
    · exact fun h => (by cases h)
    · rcases List.mem_append.mp hc with hc | hc
      · exact (hb.kinds c hc).2.2
      · rw [List.mem_singleton.mp hc]
        exact fun h => (by cases h)
  generalize he : Elem.node .itemEnv (.node .itemBegin (leafOf (.cmd .beginEnv, name) :: args) ::
      (body ++ [.node .itemEnd [leafOf (.cmd .endEnv, name)]])) = e at hbetween hchildren hall ⊢
  have hname : e.envName = some name := by rw [← he]; rfl
  have htemp : template spec ⟨.text, env, n⟩ e = environmentTemplate spec ⟨.text, env, n⟩ e := by rw [← he]; rfl
  have hkind : e.kind ≠ .tokenWhiteSpace := by rw [← he]; exact fun h => (by cases h)
  have hal : sh.alias.getD name = aliasOf spec name := by unfold aliasOf; rw [hs]
  have hcap : PrintedAll spec ((caption e).flatMap (fun c => [.text t!"caption: [", .part ⟨.text, .figure, n⟩ c, .text t!"],"])) (mem false) (captionTypst caps)
      (mem false) := by
    unfold caption captionTypst
    rw [hchildren, h2, List.getLast?_map, List.getLast?_map]
    cases hg : cl.getLast? with
    | none => exact .nil _
    | some p =>
      have h4 := h3 p (List.mem_of_getLast? hg)
      have h5 := PrintedAll.text (spec := spec) t!"caption: [" (PrintedAll.part h4 (PrintedAll.text t!"]," (.nil _)))
      rw [List.append_nil, ← List.append_assoc] at h5
      exact h5
  have hput : PrintedAll spec [.putLabel] ⟨lab, b'⟩ (labelTypst lab.toList) (mem b') := by
    cases lab with
    | none => exact .noLabel rfl (.nil _)
    | some l =>
      have := PrintedAll.putLabel (spec := spec) (m := ⟨some l, b'⟩) rfl (.nil _)
      rw [List.append_nil] at this
      exact this
  have h0 := PrintedAll.append (PrintedAll.append (PrintedAll.append (PrintedAll.append (PrintedAll.append
    (PrintedAll.text (spec := spec) (t!"#" ++ aliasOf spec name ++ t!"(") (.nil _)) hcap)
    (PrintedAll.text t!")[" (.nil _))) hb.writes) (PrintedAll.text t!"];" (.nil _))) hput
  have h9 : template spec ⟨.text, env, n⟩ e = .ok ([.text (t!"#" ++ aliasOf spec name ++ t!"(")]
      ++ (caption e).flatMap (fun c => [.text t!"caption: [", .part ⟨.text, .figure, n⟩ c, .text t!"],"])
      ++ [.text t!")["] ++ each ⟨.text, .figure, n⟩ (body.filter staying) ++ [.text t!"];"] ++ [.putLabel]) := by
    rw [htemp]
    unfold environmentTemplate
    rw [hname]
    show (match spec (trim name) with
      | some (.env sh) => _
      | _ => _) = _
    rw [hn.trim, hs]
    dsimp only
    rw [hal, hc]
    dsimp only
    unfold figureTemplate
    dsimp only
    rw [if_pos hall, hbetween]
    rfl
  have h10 := printed_of_all (b := b) hkind h9 h0
  simpa using h10

theorem figure_takes {rs ps : CommandSpec} {env : LEnv} {n : Nat} {name : Text} {opt : Option Text} {fill : List Blank} {head tail : FigMarks} {qs : Proses}
    {u : Text} {x : Place} (hn : EnvName name)
    (hr : ∃ sh, rs name = some (.env sh) ∧ (opt = none → FitsNothing sh.args ∧ NotFirst (· = '[') (head.latex ++ (qs.latex ++ (tail.latex ++ (t!"\\end" ++ u))))) ∧
      ∀ w, opt = some w → FitsKinds sh.args [.bracket] ∧ IsWord w)
    (hp : ∃ sh, ps name = some (.env sh) ∧ sh.ctx = .isFigure) (hlab : head.labels = []) (hpr : qs.primed false = true) (hq : qs.Ok rs x (tail.latex ++ (t!"\\end" ++ u)))
    (h1 : MarksTake rs ps ⟨.text, .figure, n⟩ head) (h2 : TakesAll rs ps ⟨.text, .figure, n⟩ qs) (h3 : MarksTake rs ps ⟨.text, .figure, n⟩ tail)
    :
    Takes rs ps ⟨.text, env, n⟩ (.figure name opt fill head qs tail) := by
  refine ⟨?_⟩
  intro sc stop b0 g pre r tx b k fl hl hbr hpr' hw hs hqq
  obtain ⟨shr, hr1, hr2, hr3⟩ := hr
  obtain ⟨shp, hp1, hp2⟩ := hp
  have hend : Halted ((Token.cmd .endEnv, name) :: (fillToks fl ++ k)) := .cons rfl
  have htail := marks_halted hend tail
  have hall : Soft (head.toks (qs.toks _)) ∧ Soft (qs.toks _) := ⟨marks_soft (qs.soft hq htail.soft) head, qs.soft hq htail.soft⟩
  have hargs : ∃ args, (shr.args ≠ .none ∧ shr.args ≠ .greedy ∧ shr.args ≠ .fixedLen 0) ∧
      Grammar.Args ⟨rs, globPrefix⟩ sc shr.args [] (optToks opt (fillToks fill ++ head.toks (qs.toks (tail.toks ((.cmd .endEnv, name) :: (fillToks fl ++ k)))))) args
        (fillToks fill) (head.toks (qs.toks (tail.toks ((.cmd .endEnv, name) :: (fillToks fl ++ k))))) := by
    cases opt with
    | none =>
      obtain ⟨a1, a2⟩ := hr2 rfl
      refine ⟨[], ⟨a1.1, a1.2.1, a1.2.2.1⟩, args_nothing a1 hall.1 (marks_noBracket head a2 fun a3 => qs.noBracket hq a3 fun a4 => marks_noBracket tail a4 fun _ => ?_) fill⟩
      intro t ht
      cases ht
      exact fun h => (by cases h)
    | some w =>
      obtain ⟨a1, a2⟩ := hr3 w rfl
      obtain ⟨cs, -, c2⟩ := inert_argument (rs := rs) (sc := sc) (p := shr.args) (ks := []) (L := [(.word, w)])
        (fun t ht => by rw [List.mem_singleton.mp ht]; exact .inl rfl) true (fun _ => a1.2.2.2 (by simp)) a1.2.2.1.1
        (args_fill (spec := rs) (sc := sc) a1.2.2.1.2 hall.1 fill)
      exact ⟨_, ⟨a1.1, a1.2.1, fitsKinds_ne a1.2.2.1 (by simp)⟩, c2⟩
  obtain ⟨args, ⟨p1, p2, p3⟩, a2⟩ := hargs
  have henv : Grammar.environmentArgs rs name = some shr.args := by
    unfold Grammar.environmentArgs
    rw [hr1]
    exact if_neg (fun h => h.elim p1 p3)
  obtain ⟨es1, f1, l1, c1, c2⟩ := h1.go (lab := Option.none) (atLineStart false fill) ⟨.node .itemBegin (leafOf (.cmd .beginEnv, name) :: args) :: (fillToks fill).map leafOf,
    some (1 + (fillToks fill).length), none⟩ hall.2
  rw [hlab] at c1
  obtain ⟨r2, g2, d1, d2⟩ := h2.go (sc := .environment) docLets_environment (fun h => absurd h (by decide)) hpr
    (Wrote.start (ps := ps) (x := ⟨.text, .figure, n⟩) (b0 := head.endsLine (atLineStart false fill)) (g := false)
      (pre := .node .itemBegin (leafOf (.cmd .beginEnv, name) :: args) :: (fillToks fill).map leafOf ++ es1) (f := f1) (l := l1) (fun h => (by cases h))) htail
  obtain ⟨es2, e1, e2, e3, -, -⟩ := d1.go
  rw [List.nil_append] at e2
  obtain ⟨es3, f3, l3, i1, i2⟩ := h3.go (lab := Option.none) (qs.endsLine (head.endsLine (atLineStart false fill))) r2 hend.soft
  have hitems := c2 _ _ (d2 _ _ (i2 _ _ (.over (fun t ht => by cases ht; show Token.cmd .endEnv ∈ _; decide))))
  have hi := Item.environmentArgs (sc := sc) (one := false) (r := r) (x := name) henv p2 a2 hitems
  rw [closing_eq] at hi
  have hbody := (FigBody.fill (ps := ps) (y := ⟨.text, .figure, n⟩) none fill false).append (c1.append ((FigBody.content rfl e3 e2.writes).append i1))
  have hpr2 := figure_writes (spec := ps) (env := env) (n := n) (args := args) (b := b) hn hp1 hp2 hbody
  have hw2 := hw.put (gp := true) (f := r.first) hpr2 (.node (by decide)) (.node (by decide)) fl (fun _ => rfl) (.inr (.inr rfl))
  have hlt : labelTypst (tail.labels.getLast?.or none).toList = labelTypst tail.labels := by
    unfold labelTypst
    cases tail.labels.getLast? <;> rfl
  rw [hlt] at hw2
  have htx : t!"#" ++ aliasOf ps name ++ t!"(" ++ captionTypst ([] ++ (head.captions ps ⟨.text, .figure, n⟩ ++ ([] ++ tail.captions ps ⟨.text, .figure, n⟩))) ++ t!")[" ++
      (fillTypst n false fill ++ (head.typst n (atLineStart false fill) ++ (qs.typst ps ⟨.text, .figure, n⟩ ++
        tail.typst n (qs.endsLine (head.endsLine (atLineStart false fill)))))) ++ t!"];" ++ labelTypst tail.labels =
      Prose.typst ps ⟨.text, env, n⟩ (.figure name opt fill head qs tail) := by
    rw [Prose.typst]
    simp [figurePlace]
  rw [htx] at hw2
  rw [Prose.endsLine]
  refine ⟨_, hw2, fun r' ts' h' => ?_⟩
  rw [Prose.toks]
  refine .more (t := (.cmd .beginEnv, name)) (hl (.cmd .beginEnv) (by decide)) hi (parse_fill hl fl _ ?_)
  rw [e1]
  simpa [Row.add] using h'

end Mitex
