/-
The grammar (Spec/Grammar.lean) reads documents (Spec/Document.lean) as elements that are printed as their Typst text.
-/
import Verif.Proof.DocPrint
import Verif.Proof.FormulaParse

namespace Mitex
open Grammar (Item Items Row)

/-! ## Elements, one after the other -/

/-- The elements become the text, one after the other; no label is kept. -/
inductive Steps (spec : CommandSpec) (x : Place) : List Elem → Bool → Text → Bool → Prop
  | nil (b : Bool) : Steps spec x [] b [] b
  | cons {e : Elem} {es : List Elem} {b b1 b' : Bool} {t u : Text} (h : Printed spec x e (mem b) t (mem b1)) (hs : Steps spec x es b1 u b') :
      Steps spec x (e :: es) b (t ++ u) b'

theorem Steps.writes {spec : CommandSpec} {x : Place} {es : List Elem} {b b' : Bool} {t : Text} (h : Steps spec x es b t b') :
    Writes spec x es b t b' := by
  induction h with
  | nil b => exact .nil _
  | cons h hs ih => exact .part h ih

theorem Steps.append {spec : CommandSpec} {x : Place} {es fs : List Elem} {b b1 b' : Bool} {t u : Text} (h : Steps spec x es b t b1)
    (h' : Steps spec x fs b1 u b') : Steps spec x (es ++ fs) b (t ++ u) b' := by
  induction h with
  | nil b => exact h'
  | cons h hs ih =>
    rw [List.append_assoc]
    exact .cons h (ih h')

theorem Steps.one {spec : CommandSpec} {x : Place} {e : Elem} {b b' : Bool} {t : Text} (h : Printed spec x e (mem b) t (mem b')) :
    Steps spec x [e] b t b' := by
  have := Steps.cons h (.nil b')
  rwa [List.append_nil] at this

theorem Steps.split {spec : CommandSpec} {x : Place} {fs : List Elem} {b' : Bool} : ∀ {es : List Elem} {b : Bool} {t : Text},
    Steps spec x (es ++ fs) b t b' → ∃ t1 b1 t2, t = t1 ++ t2 ∧ Steps spec x es b t1 b1 ∧ Steps spec x fs b1 t2 b' := by
  intro es
  induction es with
  | nil => intro b t h; exact ⟨[], b, t, rfl, .nil b, h⟩
  | cons e es ih =>
    intro b t h
    cases h with
    | cons h hs =>
      obtain ⟨t1, b1, t2, rfl, h1, h2⟩ := ih hs
      exact ⟨_, b1, t2, by rw [List.append_assoc], .cons h h1, h2⟩

theorem fill_steps {spec : CommandSpec} {x : Place} : ∀ (bs : List Blank) (b : Bool),
    Steps spec x ((fillToks bs).map leafOf) b (fillTypst x.lists b bs) (atLineStart b bs)
  | [], b => .nil b
  | c :: bs, b => .cons (c.writes b) (fill_steps bs c.isLines)

/-! ## Rows -/

/-- Nothing that an environment looks for. -/
def Tame (x : Place) (e : Elem) : Prop :=
  e.kind ≠ .itemBegin ∧ e.kind ≠ .itemEnd ∧ (x.env = .table → e.kind ≠ .tokenAmpersand ∧ e.kind ≠ .itemNewLine) ∧
  (e.kind = .itemCmd → ∃ name, e.cmdName = some ('\\' :: name) ∧ NameFits x name)

/-- Neither a blank nor an end of line. -/
def Solid (e : Elem) : Prop := e.kind ≠ .tokenWhiteSpace ∧ e.kind ≠ .tokenLineBreak

def wildKinds : List Kind := [.itemBegin, .itemEnd, .tokenAmpersand, .itemNewLine, .itemCmd]

theorem Tame.of {x : Place} {e : Elem} (h : e.kind ∉ wildKinds) : Tame x e := by
  refine ⟨?_, ?_, fun _ => ⟨?_, ?_⟩, fun h1 => ?_⟩
  iterate 4 (intro h1; exact h (by rw [h1]; decide))
  exact absurd (by rw [h1]; decide) h

theorem Tame.node {x : Place} {k : Kind} {es : List Elem} (h : k ∉ wildKinds) : Tame x (.node k es) := .of h

theorem Tame.token {x : Place} {k : Kind} {t : Text} (h : k ∉ wildKinds) : Tame x (.token k t) := .of h

theorem Tame.command {x : Place} {name : Text} {es : List Elem} (h : NameFits x name) : Tame x (.node .itemCmd (leafOf (nameTok name) :: es)) :=
  ⟨fun h => (by cases h), fun h => (by cases h), fun _ => ⟨fun h => (by cases h), fun h => (by cases h)⟩, fun _ => ⟨name, rfl, h⟩⟩

theorem Solid.node {k : Kind} {es : List Elem} (h : k ≠ .tokenWhiteSpace ∧ k ≠ .tokenLineBreak) : Solid (.node k es) := h

/-- After the elements `pre`, the row holds elements that are printed as `t`, the first of which is not a blank.  If `g`, then a script would be
attached to one of them (or to none) that is not a blank. -/
structure Wrote (ps : CommandSpec) (x : Place) (b0 : Bool) (pre : List Elem) (g : Bool) (r : Row) (t : Text) (b : Bool) : Prop where
  go : ∃ es, r.items = pre ++ es ∧ Steps ps x es b0 t b ∧ (∀ e ∈ es, Tame x e) ∧ (∀ e, es.head? = some e → Solid e) ∧
    (g = true → ∀ i, r.last = some i → ∃ a e c, es = a ++ e :: c ∧ i = ((pre.length + a.length : Nat) : Int) ∧ Solid e)

theorem Wrote.start {ps : CommandSpec} {x : Place} {b0 g : Bool} {pre : List Elem} {f l : Option Int} (h : g = true → l = none) :
    Wrote ps x b0 pre g ⟨pre, f, l⟩ [] b0 :=
  ⟨[], by simp, .nil _, fun e he => (by cases he), fun e he => (by cases he), fun hg i hi => by rw [show (Row.mk pre f l).last = l from rfl, h hg] at hi; cases hi⟩

theorem fill_tame {x : Place} (bs : List Blank) : ∀ e ∈ (fillToks bs).map leafOf, Tame x e := by
  intro e he
  obtain ⟨t, ht, rfl⟩ := List.mem_map.mp he
  obtain ⟨b, -, rfl⟩ := List.mem_map.mp ht
  cases b
  · exact .token (k := .tokenWhiteSpace) (by decide)
  · exact .token (k := .tokenLineBreak) (by decide)
  · exact .token (k := .tokenComment) (by decide)

/-- One more element, and blanks. -/
theorem Wrote.put {ps : CommandSpec} {x : Place} {b0 g gp : Bool} {pre : List Elem} {e : Elem} {r : Row} {t u : Text} {b b' : Bool} {f l : Option Int}
    (h : Wrote ps x b0 pre g r t b) (hp : Printed ps x e (mem b) u (mem b')) (hn : Tame x e) (hk : Solid e) (bs : List Blank)
    (hg : gp = true → l = some (r.items.length : Int)) (hl : l = r.last ∨ l = none ∨ l = some (r.items.length : Int)) :
    Wrote ps x b0 pre (g || gp) ⟨r.items ++ e :: (fillToks bs).map leafOf, f, l⟩ (t ++ (u ++ fillTypst x.lists b' bs)) (atLineStart b' bs) := by
  obtain ⟨fs, h1, h2, h3, h4, h5⟩ := h.go
  refine ⟨fs ++ e :: (fillToks bs).map leafOf, by rw [h1, List.append_assoc], h2.append (.cons hp (fill_steps bs b')), fun e' he => ?_, fun e' he => ?_,
    fun hgg i hi => ?_⟩
  · rcases List.mem_append.mp he with he | he
    · exact h3 e' he
    · rcases List.mem_cons.mp he with rfl | he
      · exact hn
      · exact fill_tame bs e' he
  · cases fs with
    | nil => cases he; exact hk
    | cons d fs => exact h4 e' he
  · have key : l = some (r.items.length : Int) → ∃ a e' c, fs ++ e :: (fillToks bs).map leafOf = a ++ e' :: c ∧ i = ((pre.length + a.length : Nat) : Int) ∧ Solid e' := by
      intro hl
      rw [show (Row.mk _ f l).last = l from rfl, hl] at hi
      cases hi
      exact ⟨fs, e, _, rfl, by rw [h1, List.length_append], hk⟩
    rcases hl with hl | hl | hl
    · cases gp with
      | true => exact key (hg rfl)
      | false =>
        rw [Bool.or_false] at hgg
        obtain ⟨a, e', c, h6, h7, h8⟩ := h5 hgg i (by rw [← hl]; exact hi)
        exact ⟨a, e', c ++ e :: (fillToks bs).map leafOf, by rw [h6]; simp, h7, h8⟩
    · rw [show (Row.mk _ f l).last = l from rfl, hl] at hi
      cases hi
    · exact key hl

/-! ## Tokens -/

/-- The tokens documents are made of; a list of items of a document ends at none of them (but for the closing square bracket). -/
def docKinds : List Token := [.word, .comma, .whitespace, .lineBreak, .lineComment, .left .curly, .left .bracket, .left .paren, .right .paren,
  .tilde, .slash, .ditto, .semicolon, .asterisk, .atSign, .apostrophe, .newLine, .cmd .generic, .dollar, .cmd .beginMath, .cmd .beginEnv]

def DocLets (stop : List Token) : Prop := ∀ k ∈ docKinds, k ∉ stop

theorem docLets_root : DocLets [] := fun k _ => by simp
theorem docLets_curly : DocLets (Grammar.enders .curlyItem) := by unfold DocLets; decide
theorem docLets_square : DocLets (Grammar.enders .bracketItem) := by unfold DocLets; decide
theorem docLets_environment : DocLets (Grammar.enders .environment) := by unfold DocLets; decide
theorem lets_cmdFormula : Lets (Grammar.enders .cmdFormula) := by unfold Lets; decide

theorem parse_fill {env : PEnv} {sc : Scope} {stop : List Token} {r' : Row} {ts ts' : List Tok} (hl : DocLets stop) :
    ∀ (bs : List Blank) (r : Row), Items env sc stop ⟨r.items ++ (fillToks bs).map leafOf, r.first, r.last⟩ ts r' ts' →
      Items env sc stop r (fillToks bs ++ ts) r' ts'
  | [], r, h => by simpa [fillToks] using h
  | c :: bs, r, h => by
    have hi : Item env sc false r (c.tok :: (fillToks bs ++ ts)) false (r.add [leafOf c.tok]) (fillToks bs ++ ts) := by
      cases c <;> exact .single rfl
    have hk : c.tok.1 ∉ stop := by
      cases c
      · exact hl .whitespace (by decide)
      · exact hl .lineBreak (by decide)
      · exact hl .lineComment (by decide)
    refine .more hk hi (parse_fill hl bs (r.add [leafOf c.tok]) ?_)
    simpa [fillToks, Row.add] using h

theorem args_fill {spec : CommandSpec} {sc : Scope} {p : ArgPattern} {ks : List ArgKind} {ts : List Tok} (h : TakesExactly p ks [])
    (hs : Soft ts) : ∀ bs : List Blank, Grammar.Args ⟨spec, globPrefix⟩ sc p ks (fillToks bs ++ ts) [] (fillToks bs) ts
  | [] => .over fun t ht => ⟨(hs t ht).1, (hs t ht).2, takesExactly_over h t.1⟩
  | c :: bs => by
    have := Grammar.Args.blank (t := c.tok) (by cases c <;> rfl) (args_fill (spec := spec) h hs bs (sc := sc))
    simpa [fillToks] using this

/-! ## Parts -/

/-- The places of documents. -/
def TextPlace (x : Place) : Prop := x.mode = .text ∧ (x.env = .none ∨ x.env = .itemize ∨ x.env = .enumerate ∨ x.env = .table ∨ x.env = .figure)

/-- What `Prose.parse` shows: the part, and the blanks after it. -/
structure Takes (rs ps : CommandSpec) (x : Place) (p : Prose) : Prop where
  go : ∀ {sc : Scope} {stop : List Token} {b0 g : Bool} {pre : List Elem} {r : Row} {t : Text} {b : Bool} {k : List Tok} (fill : List Blank), DocLets stop →
    (Token.right .bracket ∈ stop → p.hasBracket = false) → p.primed g = true → Wrote ps x b0 pre g r t b → Soft k → (p.isText = true → fill = [] ∧ Halted k) →
    ∃ r1, Wrote ps x b0 pre (g || p.isBase) r1 (t ++ (p.typst ps x ++ fillTypst x.lists p.endsLine fill)) (atLineStart p.endsLine fill) ∧
      ∀ r' ts', Items ⟨rs, globPrefix⟩ sc stop r1 k r' ts' → Items ⟨rs, globPrefix⟩ sc stop r (p.toks (fillToks fill ++ k)) r' ts'

/-- A part that is one element, to which a script may be attached or not. -/
theorem takes_of_item {rs ps : CommandSpec} {x : Place} {p : Prose} {e : Elem} {t : Tok} {b' : Bool} {att : Bool}
    (ht : t.1 ∈ docKinds ∨ t.1 = .right .bracket ∧ p.hasBracket = true) (hn : Tame x e) (hk : Solid e) (hb : p.endsLine = b')
    (hbase : p.isBase = true → att = true)
    (hp : ∀ b, Printed ps x e (mem b) (p.typst ps x) (mem b'))
    (h : ∀ {sc : Scope} {r : Row} {k : List Tok}, ∃ rest l, p.toks k = t :: rest ∧ (att = false → l = r.last) ∧
      Item ⟨rs, globPrefix⟩ sc false r (t :: rest) att ⟨r.items ++ [e], r.first, l⟩ k) : Takes rs ps x p := by
  refine ⟨?_⟩
  intro sc stop b0 g pre r tx b k fill hl hbr hpr hw hs hq
  obtain ⟨rest, l, h1, h2, h3⟩ := @h sc r (fillToks fill ++ k)
  have hstop : t.1 ∉ stop := by
    rcases ht with ht | ⟨ht, h4⟩
    · exact hl _ ht
    · rw [ht]
      intro h5
      rw [hbr h5] at h4
      cases h4
  have hw1 := hw.put (f := r.first) (gp := p.isBase) (l := if att then some (r.items.length : Int) else l) (hp b) hn hk fill
    (fun h => by rw [hbase h]; rfl) (by
      cases att with
      | true => exact .inr (.inr rfl)
      | false => exact .inl (h2 rfl))
  refine ⟨_, by rw [hb]; exact hw1, fun r' ts' hi => ?_⟩
  rw [h1]
  refine .more hstop h3 (parse_fill hl fill _ ?_)
  cases att <;> simpa using hi

theorem text_takes {rs ps : CommandSpec} {env : LEnv} {n : Nat} {is : List TextItem} (h : startsRun is = true) :
    Takes rs ps ⟨.text, env, n⟩ (.text is) := by
  refine ⟨?_⟩
  intro sc stop b0 g pre r tx b k fill hl hbr hpr hw hs hq
  obtain ⟨rfl, hk⟩ := hq rfl
  cases is with
  | nil => cases h
  | cons i is =>
    have hrun : ∀ t ∈ is.map TextItem.tok, Grammar.isTextPart t.1 = true := by
      intro t ht
      obtain ⟨q, -, rfl⟩ := List.mem_map.mp ht
      cases q with
      | blank b => cases b <;> rfl
      | _ => rfl
    have hp : i.tok.1 = .comma ∨ i.tok.1 = .word ∧ false = false := by
      cases i with
      | word w => exact .inr ⟨rfl, rfl⟩
      | comma => exact .inl rfl
      | blank n => cases h
    have hin : i.tok.1 ∈ docKinds := by
      rcases hp with h | ⟨h, -⟩ <;> rw [h] <;> decide
    have hi := Item.text (env := ⟨rs, globPrefix⟩) (sc := sc) (one := false) (r := r) (k := i.tok.1) (x := i.tok.2) hp hrun hk
    refine ⟨⟨r.items ++ [.node .itemText (((i :: is).map TextItem.tok).map leafOf)], r.first, some r.items.length⟩, ?_, fun r' ts' h' => ?_⟩
    · have := hw.put (f := r.first) (gp := true) (run_writes (env := env) (n := n) (i :: is) b) (.node (by decide)) (.node (by decide)) [] (fun _ => rfl) (.inr (.inr rfl))
      rw [Prose.typst, Prose.endsLine]
      exact this
    · rw [Prose.toks]
      exact .more (t := i.tok) (hl _ hin) hi h'

theorem sign_takes {rs ps : CommandSpec} {env : LEnv} {n : Nat} {c : Char} (h : c ∈ signs) : Takes rs ps ⟨.text, env, n⟩ (.sign c) := by
  have hs : ∀ c ∈ signs, (signTok c ∈ docKinds ∨ signTok c = .right .bracket ∧ decide (c = ']') = true) ∧
    (signTok c).kind ∉ wildKinds ∧ ((signTok c).kind ≠ .tokenWhiteSpace ∧ (signTok c).kind ≠ .tokenLineBreak) ∧
    ∃ att, Grammar.single (signTok c) = some att := by decide
  obtain ⟨h1, h2, h4, att, h5⟩ := hs c h
  refine takes_of_item (t := (signTok c, [c])) (e := leafOf (signTok c, [c])) (b' := false) (att := att) ?_ (.of h2) h4 (by simp [Prose.endsLine])
    (fun h => (by cases h)) (fun b => ?_) ?_
  · rcases h1 with h1 | h1
    · exact .inl h1
    · exact .inr ⟨h1.1, by rw [Prose.hasBracket]; exact h1.2⟩
  · rw [Prose.typst]
    exact sign_writes h b
  · intro sc r k
    exact ⟨k, r.last, by rw [Prose.toks], fun _ => rfl, .single h5⟩

/-- An apostrophe, with a base or without. -/
theorem apostrophe_takes {rs ps : CommandSpec} {env : LEnv} {n : Nat} : Takes rs ps ⟨.text, env, n⟩ .apostrophe := by
  refine ⟨?_⟩
  intro sc stop b0 g pre r tx b k fill hl hbr hpr hw hs hq
  have hstop : Token.apostrophe ∉ stop := hl _ (by decide)
  rw [Prose.typst, show Prose.endsLine .apostrophe = false by simp [Prose.endsLine], Prose.toks, show Prose.isBase .apostrophe = false from rfl]
  have hg : g = true := hpr
  subst hg
  cases hlast : r.last with
  | none =>
    have hw1 := hw.put (gp := false) (f := r.first) (l := r.last) (apostrophe_writes b) (.token (k := .tokenApostrophe) (by decide)) (show Solid (leafOf apostropheTok) by unfold Solid; decide) fill
      (fun h => (by cases h)) (.inl rfl)
    refine ⟨_, hw1, fun r' ts' hi => ?_⟩
    refine .more hstop (.apostrophe hlast) (parse_fill hl fill _ ?_)
    simpa [Row.add, apostropheTok] using hi
  | some i =>
    obtain ⟨es, h1, h2, h3, h8, h4⟩ := hw.go
    obtain ⟨a, e, c, rfl, rfl, h5⟩ := h4 rfl i hlast
    obtain ⟨t1, b1, t2, rfl, h6, h7⟩ := h2.split
    have hop : r.operand r.last = some (pre ++ a, [.node .clauseArgument (e :: c)]) := by
      rw [hlast]
      unfold Row.operand
      dsimp only
      rw [if_pos ?_, h1]
      · rw [Int.toNat_natCast, ← List.append_assoc, ← List.length_append, List.take_left, List.drop_left]
      · rw [h1]
        simp only [List.length_append, List.length_cons]
        omega
    have hp := prime_writes h5.1 h7.writes
    have hr : Wrote ps ⟨.text, env, n⟩ b0 pre true ⟨pre ++ a ++ .node .itemAttachComponent [.node .clauseArgument (e :: c), leafOf apostropheTok] ::
        (fillToks fill).map leafOf, r.first, r.last⟩ ((t1 ++ t2) ++ (['\''] ++ fillTypst n false fill)) (atLineStart false fill) := by
      refine ⟨a ++ .node .itemAttachComponent [.node .clauseArgument (e :: c), leafOf apostropheTok] :: (fillToks fill).map leafOf,
        by rw [List.append_assoc], ?_, fun e' he => ?_, fun e' he => ?_, fun _ i hi => ⟨a, _, _, rfl, ?_, .node (by decide)⟩⟩
      · have := h6.append (.cons hp (fill_steps fill false))
        simpa using this
      · rcases List.mem_append.mp he with he | he
        · exact h3 e' (List.mem_append_left _ he)
        · rcases List.mem_cons.mp he with rfl | he
          · exact .node (by decide)
          · exact fill_tame fill e' he
      · cases a with
        | nil => cases he; exact .node (by decide)
        | cons d a => exact h8 e' he
      · rw [show (Row.mk _ r.first r.last).last = r.last from rfl, hlast] at hi
        cases hi
        rfl
    refine ⟨_, hr, fun r' ts' hi => ?_⟩
    refine .more hstop (.prime (by rw [hlast]; exact fun h => (by cases h)) hop) (parse_fill hl fill _ ?_)
    simpa [apostropheTok] using hi

theorem formula_takes {rs ps : CommandSpec} {env : LEnv} {n : Nat} {m : Marks} {f : Formula} (h : f.Ok rs) (h' : f.Ok ps) :
    Takes rs ps ⟨.text, env, n⟩ (.formula m f) := by
  refine takes_of_item (t := m.open) (e := .node .itemFormula (leafOf m.open :: (f.elems ++ [leafOf m.close]))) (b' := false) (att := false)
    (.inl (by cases m <;> decide)) (.node (by decide)) (.node (by decide)) (by simp [Prose.endsLine]) (fun h => (by cases h))
    (fun b => by rw [Prose.typst]; exact formula_writes h' b) ?_
  intro sc r k
  refine ⟨f.toks (m.close :: k), r.last, by rw [Prose.toks], fun _ => rfl, ?_⟩
  have hm : ∃ sc' close, Grammar.grouping m.open.1 = some (sc', close, .itemFormula, false) ∧ m.close.1 = close ∧ close ∈ Grammar.enders sc' ∧
      Grammar.isTextPart close = false ∧ Lets (Grammar.enders sc') ∧ Token.right .bracket ∉ Grammar.enders sc' := by
    cases m
    · exact ⟨_, _, rfl, rfl, by decide, rfl, lets_dollar, by decide⟩
    · exact ⟨_, _, rfl, rfl, by decide, rfl, lets_dollar, by decide⟩
    · exact ⟨_, _, rfl, rfl, by decide, rfl, lets_cmdFormula, by decide⟩
    · exact ⟨_, _, rfl, rfl, by decide, rfl, lets_cmdFormula, by decide⟩
  obtain ⟨sc', close, h1, h2, h3, h4, h5, h6⟩ := hm
  obtain ⟨l', hi⟩ := (f.parse h).whole (sc := sc') (stop := Grammar.enders sc') (r := ⟨[leafOf m.open], some 1, none⟩) (ts := m.close :: k) h5
    (fun h => absurd h h6) (by rw [← h2] at h4; exact .cons (x := m.close.2) h4) (fun t ht => by cases ht; rw [h2]; exact h3)
  have := Item.group (sc := sc) (one := false) (r := r) (k := m.open.1) (x := m.open.2) h1 hi
  have hc : Grammar.closing close (m.close :: k) = ([leafOf m.close], k) := by
    rw [← h2]
    exact closing_eq (x := m.close.2)
  rw [hc] at this
  simpa [Row.add] using this

theorem equations_take {rs ps : CommandSpec} {env : LEnv} {n : Nat} {name : Text} {args : Arguments} {body : Cells}
    (h : (Atom.environment name args body).Ok rs) (h' : (Atom.environment name args body).Ok ps) :
    Takes rs ps ⟨.text, env, n⟩ (.equations name args body) := by
  refine takes_of_item (t := (.cmd .beginEnv, name)) (e := (Atom.environment name args body).elem) (b' := false) (att := true)
    (.inl (show Token.cmd .beginEnv ∈ docKinds by decide)) (by rw [Atom.elem]; exact .node (by decide)) (by rw [Atom.elem]; exact .node (by decide))
    (by simp [Prose.endsLine]) (fun _ => rfl) (fun b => by rw [Prose.typst]; exact equations_write h' b) ?_
  intro sc r k
  rw [Atom.Ok] at h
  obtain ⟨-, -, h1, h2, sh, h3, -, h4⟩ := h
  obtain ⟨l, hi⟩ := environment_item h3 h4 h2 (Cells.parse body h2) (args.none_left h1.1)
      (fun {sc p ts} n hf hs => Arguments.parse args h1.1 (sc := sc) n hf.2.2.1 hf.2.2.2 hs) (sc := sc) (r := r) (k := k)
  exact ⟨_, l, by rw [Prose.toks, Atom.toks], fun h => (by cases h), hi⟩

/-! ## Documents -/

theorem inside_place {spec : CommandSpec} {x : Place} {name : Text} (h : TextPlace x)
    (hs : ∃ sh, spec name = some (.env sh) ∧ (sh.ctx = .isItemize ∨ sh.ctx = .isEnumerate ∨ sh.ctx = .none) ∧ sh.args = .none) :
    TextPlace (insidePlace spec x name) := by
  obtain ⟨sh, h1, h2, -⟩ := hs
  unfold insidePlace
  rw [h1]
  dsimp only
  rcases h2 with h2 | h2 | h2 <;> rw [h2]
  · exact ⟨h.1, .inr (.inl rfl)⟩
  · exact ⟨h.1, .inr (.inr (.inl rfl))⟩
  · exact ⟨h.1, .inl rfl⟩

/-- What `Doc.parse` shows: a list of items. -/
structure DocReads (rs ps : CommandSpec) (x : Place) (toks : List Tok → List Tok) (t : Text) (b : Bool) (bracket : Bool) : Prop where
  go : ∀ {sc : Scope} {stop : List Token} {pre : List Elem} {f : Option Int} {k : List Tok}, DocLets stop →
    (Token.right .bracket ∈ stop → bracket = false) → Halted k → (∀ t, k.head? = some t → t.1 ∈ stop) →
    ∃ es f' l', Items ⟨rs, globPrefix⟩ sc stop ⟨pre, f, none⟩ (toks k) ⟨pre ++ es, f', l'⟩ k ∧ Steps ps x es false t b ∧ ∀ e ∈ es, Tame x e

theorem group_takes {rs ps : CommandSpec} {env : LEnv} {n : Nat} {d : Doc}
    (h : DocReads rs ps ⟨.text, env, n⟩ d.toks (d.typst ps ⟨.text, env, n⟩) d.endsLine d.hasBracket) : Takes rs ps ⟨.text, env, n⟩ (.group d) := by
  refine ⟨?_⟩
  intro sc stop b0 g pre r tx b k fill hl hbr hpr hw hs hq
  obtain ⟨es, f', l', h1, h2, -⟩ := h.go (sc := .curlyItem) (pre := [leafOf lcurly]) (f := some 1) (k := rcurly :: (fillToks fill ++ k)) docLets_curly
    (fun h => absurd h (by decide)) (.cons rfl) (fun t ht => by cases ht; decide)
  have hi := Item.group (sc := sc) (one := false) (r := r) (k := .left .curly) (x := ['{']) rfl h1
  rw [show rcurly = (.right .curly, ['}']) from rfl, closing_eq] at hi
  have hw2 := hw.put (gp := true) (f := r.first) (curly_writes h2.writes b) (.node (by decide)) (.node (by decide)) fill (fun _ => rfl) (.inr (.inr rfl))
  rw [Prose.typst, show (Prose.group d).endsLine = false by simp [Prose.endsLine]]
  refine ⟨_, hw2, fun r' ts' h' => ?_⟩
  · rw [Prose.toks]
    exact .more (t := lcurly) (hl _ (by decide)) hi (parse_fill hl fill _ (by simpa [Row.add, curlyElem, rcurly] using h'))

theorem environment_takes {rs ps : CommandSpec} {env : LEnv} {n : Nat} {name : Text} {d : Doc} {y : Place} (hn : EnvName name)
    (hr : ∃ sh, rs name = some (.env sh) ∧ (sh.ctx = .isItemize ∨ sh.ctx = .isEnumerate ∨ sh.ctx = .none) ∧ sh.args = .none)
    (hp : ∃ sh, ps name = some (.env sh) ∧ (sh.ctx = .isItemize ∨ sh.ctx = .isEnumerate ∨ sh.ctx = .none) ∧ sh.args = .none)
    (hy : insidePlace ps ⟨.text, env, n⟩ name = y) (h : DocReads rs ps y d.toks (d.typst ps y) d.endsLine d.hasBracket) :
    Takes rs ps ⟨.text, env, n⟩ (.environment name d) := by
  refine ⟨?_⟩
  intro sc stop b0 g pre r tx b k fill hl hbr hpr hw hs hq
  obtain ⟨shr, hr1, -, hr2⟩ := hr
  obtain ⟨shp, hp1, hp2, -⟩ := hp
  obtain ⟨es, f', l', h1, h2, h3⟩ := h.go (sc := .environment) (pre := [.node .itemBegin [leafOf (.cmd .beginEnv, name)]]) (f := some 1)
    (k := (.cmd .endEnv, name) :: (fillToks fill ++ k)) docLets_environment (fun h => absurd h (by decide)) (.cons rfl)
    (fun t ht => by cases ht; show Token.cmd .endEnv ∈ _; decide)
  have henv : Grammar.environmentArgs rs name = none := by
    unfold Grammar.environmentArgs
    rw [hr1]
    exact if_pos (.inl hr2)
  have hi := Item.environment (sc := sc) (one := false) (r := r) (x := name) henv h1
  rw [closing_eq] at hi
  have hpr := environment_writes (b := b) hn hp1 hp2 (fun e he => ⟨(h3 e he).1, (h3 e he).2.1⟩) (by rw [hy]; exact h2.writes)
  have hw2 := hw.put (gp := true) (f := r.first) hpr (.node (by decide)) (.node (by decide)) fill (fun _ => rfl) (.inr (.inr rfl))
  rw [Prose.typst, Prose.endsLine, hy]
  refine ⟨_, hw2, fun r' ts' h' => ?_⟩
  · rw [Prose.toks]
    refine .more (t := (.cmd .beginEnv, name)) (hl (.cmd .beginEnv) (by decide)) hi (parse_fill hl fill _ ?_)
    simpa [Row.add] using h'

/-- A command with arguments. -/
theorem command_takes {rs ps : CommandSpec} {env : LEnv} {n : Nat} {name : Text} {p : Prose} {shr : CmdShape} {pr : ArgPattern}
    {toks : List Tok → List Tok} (hr : rs name = some (.cmd shr)) (hr' : shr.args = .right pr)
    (h0 : pr ≠ .fixedLen 0) (h1 : pr ≠ .none) (h2 : pr ≠ .greedy) (hk : ∀ k, p.toks k = nameTok name :: toks k) (hb : p.endsLine = false)
    (hf : NameFits ⟨.text, env, n⟩ name)
    (ha : ∀ {sc : Scope} {k : List Tok} (fill : List Blank), Soft k → ∃ args, Grammar.Args ⟨rs, globPrefix⟩ sc pr [] (toks (fillToks fill ++ k)) args
      (fillToks fill) k ∧ ∀ b, Printed ps ⟨.text, env, n⟩ (.node .itemCmd (leafOf (nameTok name) :: args)) (mem b) (p.typst ps ⟨.text, env, n⟩) (mem false)) : Takes rs ps ⟨.text, env, n⟩ p := by
  refine ⟨?_⟩
  intro sc stop b0 g pre r tx b k fill hl hbr hpr hw hs hq
  obtain ⟨args, h3, h4⟩ := ha (sc := sc) fill hs
  have hcmd : Grammar.commandArgs rs name = .right pr := by
    rw [commandArgs_of hr (by rw [hr']; intro h; cases h; exact h0 rfl), hr']
  have hi := Item.command (env := ⟨rs, globPrefix⟩) (sc := sc) (one := false) (r := r) (n := .generic) (name := name) rfl hcmd h1 h2 h3
  have hw2 := hw.put (gp := p.isBase) (f := r.first) (l := some (r.items.length : Int)) (h4 b) (.command hf) (.node (by decide)) fill (fun _ => rfl) (.inr (.inr rfl))
  rw [hb]
  refine ⟨_, hw2, fun r' ts' h' => ?_⟩
  · rw [hk]
    refine .more (t := nameTok name) (hl (.cmd .generic) (show Token.cmd .generic ∈ docKinds by decide)) hi ?_
    rw [show (nameTok name) = (Token.cmd .generic, '\\' :: name) from rfl] at h'
    simpa [Row.add] using h'

theorem fitsKinds_ne {p : ArgPattern} {ks : List ArgKind} (h : TakesExactly p [] ks) (h0 : ks ≠ []) : p ≠ .fixedLen 0 := by
  rintro rfl
  cases ks with
  | nil => exact h0 rfl
  | cons k ks =>
    have := h.1
    cases this

/-- One argument. -/
theorem doc_argument {rs ps : CommandSpec} {x : Place} {toks : List Tok → List Tok} {t : Text} {b bracket : Bool}
    (h : DocReads rs ps x toks t b bracket) {sc : Scope} {p : ArgPattern} {ks : List ArgKind} {k ts' blanks : List Tok} {args : List Elem}
    (square : Bool) (hb : square = true → bracket = false) (hs : square = true → Grammar.seesGroup p .bracket = true)
    (ht : Grammar.takes globPrefix p ks (if square then .bracket else .term) = true)
    (ha : Grammar.Args ⟨rs, globPrefix⟩ sc p (ks ++ [if square then .bracket else .term]) k args blanks ts') :
    ∃ es, Steps ps x es false t b ∧
      Grammar.Args ⟨rs, globPrefix⟩ sc p ks ((if square then lsquare else lcurly) :: toks ((if square then rsquare else rcurly) :: k))
        (.node .clauseArgument [if square then squareElem es else curlyElem es] :: args) blanks ts' := by
  cases square with
  | false =>
    obtain ⟨es, f', l', h1, h2, -⟩ := h.go (sc := .curlyItem) (pre := [leafOf lcurly]) (f := some 1) (k := rcurly :: k) docLets_curly
      (fun h => absurd h (by decide)) (.cons rfl) (fun t ht => by cases ht; decide)
    refine ⟨es, h2, ?_⟩
    have := Grammar.Args.group (sc := sc) (p := p) (ks := ks) (b := .curly) (x := ['{']) (args := args) (blanks := blanks) (ts' := ts') rfl ht h1
      (by rw [show rcurly = (.right .curly, ['}']) from rfl]; exact (congrArg (fun z => Grammar.Args _ sc p _ z args blanks ts')
            (congrArg Prod.snd closing_eq)).mpr ha)
    rw [show rcurly = (.right .curly, ['}']) from rfl] at this
    have he : Grammar.closing (Grammar.argGrouping .curly).2.2.1 ((Token.right .curly, ['}']) :: k) = ([leafOf (Token.right .curly, ['}'])], k) := closing_eq
    rw [he] at this
    exact this
  | true =>
    obtain ⟨es, f', l', h1, h2, -⟩ := h.go (sc := .bracketItem) (pre := [leafOf lsquare]) (f := some 1) (k := rsquare :: k) docLets_square
      (fun _ => hb rfl) (.cons rfl) (fun t ht => by cases ht; decide)
    refine ⟨es, h2, ?_⟩
    have := Grammar.Args.group (sc := sc) (p := p) (ks := ks) (b := .bracket) (x := ['[']) (args := args) (blanks := blanks) (ts' := ts') (hs rfl) ht h1
      (by rw [show rsquare = (.right .bracket, [']']) from rfl]; exact (congrArg (fun z => Grammar.Args _ sc p _ z args blanks ts')
            (congrArg Prod.snd closing_eq)).mpr ha)
    rw [show rsquare = (.right .bracket, [']']) from rfl] at this
    have he : Grammar.closing (Grammar.argGrouping .bracket).2.2.1 ((Token.right .bracket, [']']) :: k) = ([leafOf (Token.right .bracket, [']'])], k) := closing_eq
    rw [he] at this
    exact this

theorem label_takes {rs ps : CommandSpec} {env : LEnv} {n : Nat} {l : Text} (he : env = .none ∨ env = .itemize ∨ env = .enumerate)
    (hr : KnownCommand rs t!"label" (.fixedLen 1)) (h0 : l ≠ []) (hl : ∀ c ∈ l, WordChar c) : Takes rs ps ⟨.text, env, n⟩ (.label l) := by
  obtain ⟨shr, h1, h2⟩ := hr
  refine command_takes (toks := fun k => lcurly :: (.word, l) :: rcurly :: k) h1 h2 (fun h => (by cases h)) (fun h => (by cases h)) (fun h => (by cases h))
    (fun k => by rw [Prose.toks]) (by simp [Prose.endsLine]) ⟨fun _ => by decide, fun _ => by decide⟩ fun {sc k} fill hs => ?_
  refine ⟨[.node .clauseArgument [curlyElem [.node .itemText [leafOf (.word, l)]]]], ?_, fun b => by rw [Prose.typst]; exact label_writes he h0 hl b⟩
  have hover : TakesExactly (.fixedLen 1) [.term] [] := fun k => rfl
  have ha := args_fill (spec := rs) (sc := sc) hover hs fill
  have hi : Items ⟨rs, globPrefix⟩ .curlyItem (Grammar.enders .curlyItem) ⟨[leafOf lcurly], some 1, none⟩ ((.word, l) :: rcurly :: (fillToks fill ++ k))
      ⟨[leafOf lcurly] ++ [.node .itemText [leafOf (.word, l)]], some 1, some 1⟩ (rcurly :: (fillToks fill ++ k)) :=
    .more (t := (.word, l)) (show Token.word ∉ Grammar.enders .curlyItem by decide) (.text (run := []) (.inr ⟨rfl, rfl⟩) (fun t ht => by cases ht)
      (fun t ht => by cases ht; rfl)) (.over fun t ht => by cases ht; decide)
  have := Grammar.Args.group (sc := sc) (p := .fixedLen 1) (ks := []) (b := .curly) (x := ['{']) (args := []) (blanks := fillToks fill) (ts' := k)
    rfl rfl hi (by rw [show rcurly = (.right .curly, ['}']) from rfl]; exact (congrArg (fun z => Grammar.Args _ sc _ _ z [] (fillToks fill) k)
            (congrArg Prod.snd closing_eq)).mpr ha)
  rw [show rcurly = (.right .curly, ['}']) from rfl] at this
  have he : Grammar.closing (Grammar.argGrouping .curly).2.2.1 ((Token.right .curly, ['}']) :: (fillToks fill ++ k)) =
    ([leafOf (Token.right .curly, ['}'])], fillToks fill ++ k) := closing_eq
  rw [he] at this
  exact this

theorem item_takes {rs ps : CommandSpec} {env : LEnv} {n : Nat} (he : env = .itemize ∨ env = .enumerate) (h0 : 0 < n)
    (hr : KnownCommand rs t!"item" .none) : Takes rs ps ⟨.text, env, n⟩ .item := by
  obtain ⟨sh, h1, h2⟩ := hr
  refine takes_of_item (t := nameTok t!"item") (e := .node .itemCmd [leafOf (nameTok t!"item")]) (b' := false) (att := true) (.inl (by decide))
    (.command ⟨fun _ => by decide, fun _ => by decide⟩) (.node (by decide)) (by simp [Prose.endsLine]) (fun _ => rfl)
    (fun b => by rw [Prose.typst]; exact item_writes he h0 b) ?_
  intro sc r k
  refine ⟨k, r.last, by rw [Prose.toks], fun h => (by cases h), .symbol rfl ?_⟩
  rw [commandArgs_of h1 (by rw [h2]; exact fun h => (by cases h)), h2]

theorem symbol_takes {rs ps : CommandSpec} {env : LEnv} {n : Nat} {name : Text} (h : SymbolOk rs name) (h' : SymbolOk ps name)
    (hf : NameFits ⟨.text, env, n⟩ name) :
    Takes rs ps ⟨.text, env, n⟩ (.symbol name) := by
  refine takes_of_item (t := nameTok name) (e := .node .itemCmd [leafOf (nameTok name)]) (b' := false) (att := true)
    (.inl (show Token.cmd .generic ∈ docKinds by decide)) (.command hf) (.node (by decide))
    (by simp [Prose.endsLine]) (fun _ => rfl) (fun b => by rw [Prose.typst]; exact symbol_writes h' b) ?_
  intro sc r k
  exact ⟨k, r.last, by rw [Prose.toks], fun h => (by cases h), symbol_item h⟩

theorem newline_takes {rs ps : CommandSpec} {env : LEnv} {n : Nat} (he : env = .none ∨ env = .itemize ∨ env = .enumerate ∨ env = .figure) :
    Takes rs ps ⟨.text, env, n⟩ .newline := by
  refine takes_of_item (t := newlineTok) (e := leafOf newlineTok) (b' := false) (att := false)
    (.inl (by decide)) ⟨fun h => (by cases h), fun h => (by cases h), fun ht => (by rcases he with rfl | rfl | rfl | rfl <;> cases ht), fun h => (by cases h)⟩
    ⟨fun h => (by cases h), fun h => (by cases h)⟩
    (by simp [Prose.endsLine]) (fun h => (by cases h)) (fun b => by rw [Prose.typst]; exact newline_writes he b) ?_
  intro sc r k
  exact ⟨k, r.last, by rw [Prose.toks], fun _ => rfl, .single rfl⟩

/-! ## The first tokens -/

theorem Prose.halted {spec : CommandSpec} {x : Place} {rest : Text} (p : Prose) (h : p.Ok spec x rest) (ht : p.isText = false) (k : List Tok) :
    Halted (p.toks k) := by
  cases p with
  | text is => cases ht
  | sign c =>
    rw [Prose.Ok] at h
    rw [Prose.toks]
    have : ∀ c ∈ signs, Grammar.isTextPart (signTok c) = false := by decide
    exact .cons (this c h)
  | formula m f => rw [Prose.toks]; cases m <;> exact .cons rfl
  | equations name args body => rw [Prose.toks, Atom.toks]; exact .cons rfl
  | _ => rw [Prose.toks]; exact .cons rfl

theorem Prose.soft {spec : CommandSpec} {x : Place} {rest : Text} (p : Prose) (h : p.Ok spec x rest) (k : List Tok) : Soft (p.toks k) := by
  cases ht : p.isText with
  | false => exact (p.halted h ht k).soft
  | true =>
    cases p with
    | text is =>
      rw [Prose.Ok] at h
      rw [Prose.toks]
      cases is with
      | nil => cases h.1
      | cons i is =>
        intro t h1
        cases h1
        cases i with
        | word w => exact ⟨rfl, fun h2 => h.2.1.1 (by cases h2; rfl)⟩
        | comma => exact ⟨rfl, fun h2 => (by cases h2)⟩
        | blank b => cases h.1
    | _ => cases ht

theorem Proses.soft {spec : CommandSpec} {x : Place} {rest : Text} (ps : Proses) (h : ps.Ok spec x rest) {k : List Tok} (hk : Soft k) :
    Soft (ps.toks k) := by
  cases ps with
  | nil => rw [Proses.toks]; exact hk
  | cons p fill ps =>
    rw [Proses.Ok] at h
    rw [Proses.toks]
    exact p.soft h.1 _

theorem Proses.halted {spec : CommandSpec} {x : Place} {rest : Text} (ps : Proses) (h : ps.Ok spec x rest) (ht : ps.startsText = false)
    {k : List Tok} (hk : Halted k) : Halted (ps.toks k) := by
  cases ps with
  | nil => rw [Proses.toks]; exact hk
  | cons p fill ps =>
    rw [Proses.Ok] at h
    rw [Proses.toks]
    exact p.halted h.1 ht _

/-! ## Parts, one after the other -/

/-- What `Proses.parse` shows. -/
structure TakesAll (rs ps : CommandSpec) (x : Place) (qs : Proses) : Prop where
  go : ∀ {sc : Scope} {stop : List Token} {b0 g : Bool} {pre : List Elem} {r : Row} {t : Text} {b : Bool} {k : List Tok}, DocLets stop →
    (Token.right .bracket ∈ stop → qs.hasBracket = false) → qs.primed g = true → Wrote ps x b0 pre g r t b → Halted k →
    ∃ r1 g1, Wrote ps x b0 pre g1 r1 (t ++ qs.typst ps x) (qs.endsLine b) ∧
      ∀ r' ts', Items ⟨rs, globPrefix⟩ sc stop r1 k r' ts' → Items ⟨rs, globPrefix⟩ sc stop r (qs.toks k) r' ts'

theorem Proses.primed_true : ∀ qs : Proses, qs.primed true = true
  | .nil => rfl
  | .cons p fill qs => by
    rw [Proses.primed, Bool.true_or, qs.primed_true, Bool.and_true]
    cases p <;> rfl

end Mitex
