/-
Printing the elements of documents (Spec/Document.lean) by the templates (Spec/Template.lean).
-/
import Verif.Proof.DocLex
import Verif.Proof.FormulaPrint

namespace Mitex

/-- The memory without a label. -/
abbrev mem (b : Bool) : Mem := ⟨none, b⟩

/-- The elements, one after the other, become the text. -/
abbrev Writes (spec : CommandSpec) (x : Place) (es : List Elem) (b : Bool) (t : Text) (b' : Bool) : Prop :=
  PrintedAll spec (each x es) (mem b) t (mem b')

theorem each_append (x : Place) (es fs : List Elem) : each x (es ++ fs) = each x es ++ each x fs := List.map_append ..

theorem Writes.append {spec : CommandSpec} {x : Place} {es fs : List Elem} {b b1 b' : Bool} {t u : Text} (h : Writes spec x es b t b1)
    (h' : Writes spec x fs b1 u b') : Writes spec x (es ++ fs) b (t ++ u) b' := by
  unfold Writes
  rw [each_append]
  exact PrintedAll.append h h'

theorem Writes.cons {spec : CommandSpec} {x : Place} {e : Elem} {fs : List Elem} {b b1 b' : Bool} {t u : Text}
    (h : Printed spec x e (mem b) t (mem b1)) (h' : Writes spec x fs b1 u b') : Writes spec x (e :: fs) b (t ++ u) b' := .part h h'

theorem Writes.one {spec : CommandSpec} {x : Place} {e : Elem} {b b' : Bool} {t : Text} (h : Printed spec x e (mem b) t (mem b')) :
    Writes spec x [e] b t b' := by
  have := Writes.cons h (show Writes spec x [] b' [] b' from .nil _)
  rwa [List.append_nil] at this

/-- An element that is not white space. -/
theorem printed_of_all {spec : CommandSpec} {x : Place} {e : Elem} {ps : List Piece} {b b' : Bool} {t : Text} (hk : e.kind ≠ .tokenWhiteSpace)
    (ht : template spec x e = .ok ps) (h : PrintedAll spec ps (mem false) t (mem b')) : Printed spec x e (mem b) t (mem b') := by
  refine .mk ht ?_
  rw [if_neg hk]
  exact h

theorem Shows.printed {spec : CommandSpec} {x : Place} {e : Elem} {t : Text} (hk : e.kind ≠ .tokenWhiteSpace) (h : Shows spec x e t) (b : Bool) :
    Printed spec x e (mem b) t (mem false) := by
  have := h.go (mem false) rfl
  cases this with
  | mk ht h =>
    rw [if_neg hk] at h
    exact printed_of_all hk ht h

/-- The first element that is not white space forgets the memory. -/
theorem Writes.fresh {spec : CommandSpec} {x : Place} {e : Elem} {fs : List Elem} {b b0 b' : Bool} {t : Text} (hk : e.kind ≠ .tokenWhiteSpace)
    (h : Writes spec x (e :: fs) b t b') : Writes spec x (e :: fs) b0 t b' := by
  cases h with
  | part h k =>
    cases h with
    | mk ht h =>
      rw [if_neg hk] at h
      refine .part (.mk ht ?_) k
      rw [if_neg hk]
      exact h

/-- Pieces can be divided anywhere. -/
theorem PrintedAll.split {spec : CommandSpec} {qs : List Piece} {m2 : Mem} : ∀ {ps : List Piece} {m : Mem} {t : Text},
    PrintedAll spec (ps ++ qs) m t m2 → ∃ t1 m1 t2, t = t1 ++ t2 ∧ PrintedAll spec ps m t1 m1 ∧ PrintedAll spec qs m1 t2 m2 := by
  intro ps
  induction ps with
  | nil => intro m t h; exact ⟨[], m, t, rfl, .nil m, h⟩
  | cons p ps ih =>
    intro m t h
    cases h with
    | text t k =>
      obtain ⟨t1, m1, t2, rfl, h1, h2⟩ := ih k
      exact ⟨t ++ t1, m1, t2, by simp, .text t h1, h2⟩
    | part h k =>
      obtain ⟨t1, m1, t2, rfl, h1, h2⟩ := ih k
      exact ⟨_, m1, t2, by rw [List.append_assoc], .part h h1, h2⟩
    | blank h k =>
      obtain ⟨t1, m1, t2, rfl, h1, h2⟩ := ih k
      exact ⟨_, m1, t2, by rw [List.append_assoc], .blank h h1, h2⟩
    | dropped h k =>
      obtain ⟨t1, m1, t2, rfl, h1, h2⟩ := ih k
      exact ⟨_, m1, t2, rfl, .dropped h h1, h2⟩
    | dropBlank k =>
      obtain ⟨t1, m1, t2, rfl, h1, h2⟩ := ih k
      exact ⟨_, m1, t2, rfl, .dropBlank h1, h2⟩
    | keepLabel k =>
      obtain ⟨t1, m1, t2, rfl, h1, h2⟩ := ih k
      exact ⟨_, m1, t2, rfl, .keepLabel h1, h2⟩
    | putLabel h k =>
      obtain ⟨t1, m1, t2, rfl, h1, h2⟩ := ih k
      exact ⟨_, m1, t2, by simp, .putLabel h h1, h2⟩
    | noLabel h k =>
      obtain ⟨t1, m1, t2, rfl, h1, h2⟩ := ih k
      exact ⟨_, m1, t2, rfl, .noLabel h h1, h2⟩

/-! ## Leaves -/

theorem Blank.writes {spec : CommandSpec} {x : Place} (c : Blank) (b : Bool) :
    Printed spec x (leafOf c.tok) (mem b) (c.typst x.lists b) (mem c.isLines) := by
  cases c with
  | blanks w =>
    refine .mk (ps := [.blank (.token .tokenWhiteSpace w)]) rfl ?_
    show PrintedAll spec _ (mem b) _ _
    cases b with
    | false =>
      have := PrintedAll.blank (spec := spec) (k := .tokenWhiteSpace) (t := w) (m := mem false) rfl (.nil _)
      rw [List.append_nil] at this
      exact this
    | true => exact .dropped rfl (.nil _)
  | lines w =>
    refine printed_of_all (ps := [.text (w ++ List.replicate (2 * x.lists) ' '), .dropBlank]) (fun h => (by cases h)) rfl ?_
    have := PrintedAll.text (spec := spec) (m := mem false) (w ++ List.replicate (2 * x.lists) ' ') (.dropBlank (.nil _))
    rw [List.append_nil] at this
    exact this
  | comment w => exact printed_of_all (ps := []) (fun h => (by cases h)) rfl (.nil _)

theorem fill_writes {spec : CommandSpec} {x : Place} : ∀ (bs : List Blank) (b : Bool),
    Writes spec x ((fillToks bs).map leafOf) b (fillTypst x.lists b bs) (atLineStart b bs)
  | [], b => .nil _
  | c :: bs, b => .cons (c.writes b) (fill_writes bs c.isLines)

theorem TextItem.writes {spec : CommandSpec} {env : LEnv} {n : Nat} (i : TextItem) (b : Bool) :
    Printed spec ⟨.text, env, n⟩ (leafOf i.tok) (mem b) (i.typst n b) (mem i.isLines) := by
  cases i with
  | word w => exact (shows_word w).printed (fun h => (by cases h)) b
  | comma => exact (shows_comma _).printed (fun h => (by cases h)) b
  | blank c => exact c.writes b

theorem items_write {spec : CommandSpec} {env : LEnv} {n : Nat} : ∀ (is : List TextItem) (b : Bool),
    Writes spec ⟨.text, env, n⟩ ((is.map TextItem.tok).map leafOf) b (itemsTypst n b is) (itemsAtLineStart b is)
  | [], b => .nil _
  | i :: is, b => .cons (i.writes b) (items_write is i.isLines)

/-- A run of text. -/
theorem run_writes {spec : CommandSpec} {env : LEnv} {n : Nat} (is : List TextItem) (b : Bool) :
    Printed spec ⟨.text, env, n⟩ (.node .itemText ((is.map TextItem.tok).map leafOf)) (mem b) (itemsTypst n false is)
      (mem (itemsAtLineStart false is)) :=
  printed_of_all (fun h => (by cases h)) (show template _ _ _ = Except.ok (each _ _) from rfl) (items_write is false)

theorem sign_writes {spec : CommandSpec} {env : LEnv} {n : Nat} {c : Char} (h : c ∈ signs) (b : Bool) :
    Printed spec ⟨.text, env, n⟩ (leafOf (signTok c, [c])) (mem b) ['\\', c] (mem false) := by
  have hs : ∀ c ∈ signs, c = '(' ∨ c = ')' ∨ c = '[' ∨ c = ']' ∨ c = '~' ∨ c = '/' ∨ c = '"' ∨ c = ';' ∨ c = '*' ∨ c = '@' := by decide
  rcases hs c h with rfl | rfl | rfl | rfl | rfl | rfl | rfl | rfl | rfl | rfl <;>
    exact printed_of_all (fun h => (by cases h)) rfl (ShowsAll.go (.one _) (mem false) rfl)

theorem newline_writes {spec : CommandSpec} {env : LEnv} {n : Nat} (he : env = .none ∨ env = .itemize ∨ env = .enumerate ∨ env = .figure) (b : Bool) :
    Printed spec ⟨.text, env, n⟩ (leafOf newlineTok) (mem b) t!"\\ " (mem false) := by
  rcases he with rfl | rfl | rfl | rfl <;> exact printed_of_all (fun h => (by cases h)) rfl (ShowsAll.go (.one _) (mem false) rfl)

theorem apostrophe_writes {spec : CommandSpec} {x : Place} (b : Bool) : Printed spec x (leafOf apostropheTok) (mem b) ['\''] (mem false) :=
  printed_of_all (fun h => (by cases h)) rfl (ShowsAll.go (.one _) (mem false) rfl)

/-! ## Groups -/

theorem silent_writes {spec : CommandSpec} {x : Place} {e : Elem} (hk : e.kind ≠ .tokenWhiteSpace) (h : isSilent e.kind = true) (b : Bool) :
    Printed spec x e (mem b) [] (mem false) := (shows_silent h).printed hk b

/-- Elements between two silent ones. -/
theorem enclosed_writes {spec : CommandSpec} {x : Place} {l r : Elem} {es : List Elem} {b b' : Bool} {t : Text}
    (hl : l.kind ≠ .tokenWhiteSpace ∧ isSilent l.kind = true) (hr : r.kind ≠ .tokenWhiteSpace ∧ isSilent r.kind = true)
    (h : Writes spec x es false t b') : Writes spec x (l :: (es ++ [r])) b t false := by
  have := Writes.cons (silent_writes hl.1 hl.2 b) (h.append (.one (silent_writes hr.1 hr.2 b')))
  rw [List.nil_append, List.append_nil] at this
  exact this

theorem curly_writes {spec : CommandSpec} {env : LEnv} {n : Nat} {es : List Elem} {t : Text} {b' : Bool}
    (h : Writes spec ⟨.text, env, n⟩ es false t b') (b : Bool) : Printed spec ⟨.text, env, n⟩ (curlyElem es) (mem b) t (mem false) := by
  refine printed_of_all (ps := curlyTemplate ⟨.text, env, n⟩ (curlyElem es)) (fun h => (by cases h)) rfl ?_
  have := enclosed_writes (l := leafOf lcurly) (r := leafOf rcurly) (b := false) (by decide) (by decide) h
  have hc : curlyTemplate ⟨.text, env, n⟩ (curlyElem es) = each ⟨.text, env, n⟩ (leafOf lcurly :: (es ++ [leafOf rcurly])) ++ [] := rfl
  rw [hc, List.append_nil]
  exact this

theorem square_writes {spec : CommandSpec} {env : LEnv} {n : Nat} {es : List Elem} {t : Text} {b' : Bool}
    (h : Writes spec ⟨.text, env, n⟩ es false t b') (b : Bool) :
    Printed spec ⟨.text, env, n⟩ (squareElem es) (mem b) (t!"\\[" ++ t ++ t!"\\]") (mem false) := by
  refine printed_of_all (fun h => (by cases h)) (show template _ _ _ = Except.ok (each _ _) from rfl) ?_
  have h1 : Printed spec ⟨.text, env, n⟩ (leafOf lsquare) (mem false) t!"\\[" (mem false) :=
    printed_of_all (fun h => (by cases h)) rfl (ShowsAll.go (.one _) (mem false) rfl)
  have h2 : Printed spec ⟨.text, env, n⟩ (leafOf rsquare) (mem b') t!"\\]" (mem false) :=
    printed_of_all (fun h => (by cases h)) rfl (ShowsAll.go (.one _) (mem false) rfl)
  have := Writes.cons h1 (h.append (.one h2))
  rw [List.append_assoc]
  exact this

theorem argument_writes {spec : CommandSpec} {x : Place} {e : Elem} {b b' : Bool} {t : Text} (h : Printed spec x e (mem false) t (mem b')) :
    Printed spec x (.node .clauseArgument [e]) (mem b) t (mem b') :=
  printed_of_all (fun h => (by cases h)) (show template _ _ _ = Except.ok (each _ _) from rfl) (Writes.one h)

/-- An apostrophe takes elements as its base; in prose that changes nothing. -/
theorem prime_writes {spec : CommandSpec} {env : LEnv} {n : Nat} {e : Elem} {es : List Elem} {b b' : Bool} {t : Text}
    (hk : e.kind ≠ .tokenWhiteSpace) (h : Writes spec ⟨.text, env, n⟩ (e :: es) b t b') :
    Printed spec ⟨.text, env, n⟩ (.node .itemAttachComponent [.node .clauseArgument (e :: es), leafOf apostropheTok]) (mem b) (t ++ ['\'']) (mem false) := by
  refine printed_of_all (fun h => (by cases h)) (show template _ _ _ = Except.ok (each _ _) from rfl) ?_
  refine Writes.cons (b1 := b') ?_ (.one (apostrophe_writes _))
  exact printed_of_all (fun h => (by cases h)) (show template _ _ _ = Except.ok (each _ _) from rfl) (h.fresh hk)

/-! ## Commands -/

theorem proseName_cmd {spec : CommandSpec} {name : Text} {sh : CmdShape} (h : spec name = some (.cmd sh)) :
    writtenName .text name sh = proseName spec name := by
  unfold writtenName proseName aliasOf
  rw [h]
  dsimp only
  cases sh.alias <;> simp

theorem command_template {spec : CommandSpec} {env : LEnv} {n : Nat} {name : Text} {sh : CmdShape} {cs : List Elem} {ps : List Piece}
    (hn : name ∉ specialCommands) (hs : spec name = some (.cmd sh)) (hc : (Elem.node .itemCmd cs).cmdName = some ('\\' :: name))
    (hp : argumentsTemplate ⟨.text, if proseName spec name = t!"substack" then .subStack else env, n⟩ sh (proseName spec name)
      (cs.filter fun c => decide (c.kind ≠ .clauseCommandName)) = .ok ps) :
    template spec ⟨.text, env, n⟩ (.node .itemCmd cs) = .ok (.text (proseName spec name) :: ps) := by
  have h1 : template spec ⟨.text, env, n⟩ (.node .itemCmd cs) = commandTemplate spec ⟨.text, env, n⟩ (.node .itemCmd cs) := rfl
  rw [h1]
  have hb : bareName (.node .itemCmd cs) = some name := by
    unfold bareName
    rw [hc]
    show (if utf8Len '\\' = 1 then some name else none) = _
    rw [if_pos utf8Len_backslash]
  unfold commandTemplate
  rw [hb, hc]
  dsimp only
  have hne : ∀ s ∈ specialCommands, name ≠ s := fun s hs h => hn (h ▸ hs)
  rw [if_neg (hne _ (by decide)), if_neg (hne _ (by decide)), if_neg (hne _ (by decide)), if_neg]
  · unfold normalTemplate
    rw [hs]
    dsimp only
    rw [proseName_cmd hs]
    show Except.map _ (argumentsTemplate _ sh (proseName spec name) (cs.filter fun c => decide (c.kind ≠ .clauseCommandName))) = _
    rw [hp]
    rfl
  · rintro (h | h | h)
    · exact hne _ (by decide) h
    · exact hne _ (by decide) h
    · exact hne _ (by decide) h

theorem symbol_writes {spec : CommandSpec} {env : LEnv} {n : Nat} {name : Text} (h : SymbolOk spec name) (b : Bool) :
    Printed spec ⟨.text, env, n⟩ (.node .itemCmd [leafOf (nameTok name)]) (mem b) (proseName spec name ++ t!" ") (mem false) := by
  obtain ⟨h1, sh, h2, h3⟩ := h
  refine printed_of_all (ps := .text (proseName spec name) :: [.text t!" "]) (fun h => (by cases h)) (command_template h1.2.2 h2 rfl ?_)
    (ShowsAll.go (.text _ (.one _)) (mem false) rfl)
  unfold argumentsTemplate
  rw [h3]

/-- The arguments of a command, as content blocks. -/
inductive ArgsWrite (spec : CommandSpec) (x : Place) : List Elem → Text → Prop
  | nil : ArgsWrite spec x [] []
  | cons {e : Elem} {es : List Elem} {t u : Text} (h : Printed spec x e (mem false) t (mem false)) (hs : ArgsWrite spec x es u) :
      ArgsWrite spec x (.node .clauseArgument [e] :: es) (t!"[" ++ t ++ t!"]" ++ u)

theorem ArgsWrite.kinds {spec : CommandSpec} {x : Place} {es : List Elem} {t : Text} (h : ArgsWrite spec x es t) :
    ∀ e ∈ es, e.kind = .clauseArgument ∧ e.isNode = true := by
  induction h with
  | nil => exact fun e he => by cases he
  | cons h hs ih =>
    intro e he
    rcases List.mem_cons.mp he with rfl | he
    · exact ⟨rfl, rfl⟩
    · exact ih e he

theorem ArgsWrite.all {spec : CommandSpec} {x : Place} {es : List Elem} {t : Text} (h : ArgsWrite spec x es t) :
    PrintedAll spec (es.flatMap fun a => [.text t!"[", .part x a, .text t!"]"]) (mem false) t (mem false) := by
  induction h with
  | nil => exact .nil _
  | @cons e es t u h hs ih =>
    rw [List.flatMap_cons, List.append_assoc, List.append_assoc]
    refine .text _ (.part (argument_writes h) (.text _ ih))

theorem command_writes {spec : CommandSpec} {env : LEnv} {n : Nat} {name : Text} {sh : CmdShape} {p : ArgPattern} {args : List Elem} {t : Text}
    (hn : name ∉ specialCommands) (hs : spec name = some (.cmd sh)) (hp : sh.args = .right p) (h1 : p ≠ .none) (h2 : p ≠ .greedy)
    (h3 : proseName spec name ≠ t!"substack") (h : ArgsWrite spec ⟨.text, env, n⟩ args t) (b : Bool) :
    Printed spec ⟨.text, env, n⟩ (.node .itemCmd (leafOf (nameTok name) :: args)) (mem b) (proseName spec name ++ t ++ t!";") (mem false) := by
  have hf : (leafOf (nameTok name) :: args).filter (fun c => decide (c.kind ≠ .clauseCommandName)) = args := by
    rw [List.filter_cons_of_neg (by simp [leafOf, nameTok, Elem.kind, Token.kind])]
    refine List.filter_eq_self.mpr fun e he => ?_
    rw [(h.kinds e he).1]
    rfl
  have hg : args.filter (fun a => decide (a.kind = .clauseArgument)) = args :=
    List.filter_eq_self.mpr fun e he => by rw [(h.kinds e he).1]; rfl
  rw [List.append_assoc]
  refine printed_of_all (fun h => (by cases h)) (command_template hn hs rfl ?_) (.text _ (h.all.append (ShowsAll.go (.one t!";") (mem false) rfl)))
  rw [hf]
  unfold argumentsTemplate
  rw [hp]
  split
  · next h => cases h; exact absurd rfl h1
  · next h => cases h; exact absurd rfl h2
  · rw [if_neg (fun h => by cases h.1), hg, if_neg h3]

theorem item_writes {spec : CommandSpec} {env : LEnv} {n : Nat} (he : env = .itemize ∨ env = .enumerate) (h : 0 < n) (b : Bool) :
    Printed spec ⟨.text, env, n⟩ (.node .itemCmd [leafOf (nameTok t!"item")]) (mem b) (itemTypst ⟨.text, env, n⟩) (mem false) := by
  have h1 : template spec ⟨.text, env, n⟩ (.node .itemCmd [leafOf (nameTok t!"item")]) = itemTemplate ⟨.text, env, n⟩ := rfl
  refine printed_of_all (ps := [.text (itemTypst ⟨.text, env, n⟩)]) (fun h => (by cases h)) ?_ (ShowsAll.go (.one _) (mem false) rfl)
  rw [h1]
  unfold itemTemplate itemTypst
  have h0 : ¬ (n = 0) := by omega
  rcases he with rfl | rfl <;> simp [h0, spaces]

theorem label_writes {spec : CommandSpec} {env : LEnv} {n : Nat} {l : Text} (he : env = .none ∨ env = .itemize ∨ env = .enumerate)
    (h0 : l ≠ []) (hl : ∀ c ∈ l, WordChar c) (b : Bool) :
    Printed spec ⟨.text, env, n⟩ (.node .itemCmd [leafOf (nameTok t!"label"), .node .clauseArgument [curlyElem [.node .itemText [leafOf (.word, l)]]]])
      (mem b) (t!"<" ++ l ++ t!">") (mem false) := by
  refine printed_of_all (ps := [.text (t!"<" ++ l ++ t!">")]) (fun h => (by cases h)) ?_ (ShowsAll.go (.one _) (mem false) rfl)
  generalize he' : Elem.node .itemCmd [leafOf (nameTok t!"label"), .node .clauseArgument [curlyElem [.node .itemText [leafOf (.word, l)]]]] = e
  have h1 : template spec ⟨.text, env, n⟩ e = labelTemplate ⟨.text, env, n⟩ e := by rw [← he']; rfl
  rw [h1]
  unfold labelTemplate
  have h2 : e.arguments.head? = some (.node .clauseArgument [curlyElem [.node .itemText [leafOf (.word, l)]]]) := by rw [← he']; rfl
  have h3 : (Elem.node .clauseArgument [curlyElem [.node .itemText [leafOf (.word, l)]]]).text = '{' :: (l ++ ['}']) := by
    simp [Elem.text, curlyElem, Elem.leaves, Elem.leaves.go, leafOf, lcurly, rcurly, Token.kind]
  have h4 : undelimited ('{' :: (l ++ ['}'])) = some l := by
    cases l with
    | nil => exact absurd rfl h0
    | cons c l =>
      unfold undelimited
      have : ('{' :: (c :: l ++ ['}'])).getLast? = some '}' := by simp [List.getLast?_cons]
      rw [this]
      simp only [List.cons_append]
      rw [if_pos (by decide)]
      simp [List.dropLast]
  rw [h2]
  show (orCrash (undelimited _) >>= _) = _
  rw [h3, h4]
  show (if _ then _ else _) = _
  rw [if_pos he, trim_black fun c hc => (hl c hc).1]
  rfl

/-! ## Formulas -/

theorem formula_writes {spec : CommandSpec} {env : LEnv} {n : Nat} {m : Marks} {f : Formula} (h : f.Ok spec) (b : Bool) :
    Printed spec ⟨.text, env, n⟩ (.node .itemFormula (leafOf m.open :: (f.elems ++ [leafOf m.close]))) (mem b) (m.typst (f.typst spec)) (mem false) := by
  have h1 : ShowsEach spec ⟨.math, env, n⟩ (leafOf m.open :: (f.elems ++ [leafOf m.close])) ([] ++ (f.typst spec ++ [])) :=
    .cons (shows_silent (by cases m <;> rfl)) ((f.shows h env).append (.one (shows_silent (by cases m <;> rfl))))
  rw [List.nil_append, List.append_nil] at h1
  have hfirst : (Elem.node .itemFormula (leafOf m.open :: (f.elems ++ [leafOf m.close]))).firstToken = (leafOf m.open).firstToken := rfl
  have hlast : (Elem.node .itemFormula (leafOf m.open :: (f.elems ++ [leafOf m.close]))).lastToken = (leafOf m.close).lastToken := by
    have : ∀ (e : Elem) (es : List Elem), Elem.lastToken.go (e :: (es ++ [leafOf m.close])) = (leafOf m.close).lastToken := by
      intro e es
      induction es generalizing e with
      | nil => rfl
      | cons d es ih => exact ih d
    exact this _ _
  have hv : (Elem.node .itemFormula (leafOf m.open :: (f.elems ++ [leafOf m.close]))).isValidFormula = true := by
    unfold Elem.isValidFormula
    rw [hfirst, hlast]
    cases m <;> rfl
  have hi : (Elem.node .itemFormula (leafOf m.open :: (f.elems ++ [leafOf m.close]))).isInline = (leafOf m.open).isInline := by
    unfold Elem.isInline
    rw [hfirst]
  have ht : template spec ⟨.text, env, n⟩ (.node .itemFormula (leafOf m.open :: (f.elems ++ [leafOf m.close]))) =
      formulaTemplate ⟨.text, env, n⟩ (.node .itemFormula (leafOf m.open :: (f.elems ++ [leafOf m.close]))) := rfl
  refine printed_of_all (fun h => (by cases h)) (ht.trans (if_pos hv)) ?_
  rw [hi]
  have hb : PrintedAll spec (each ⟨.math, env, n⟩ (leafOf m.open :: (f.elems ++ [leafOf m.close]))) (mem false) (f.typst spec) (mem false) :=
    h1.go (mem false) rfl
  have key : ∀ s u : Text, PrintedAll spec ([.text s] ++ each ⟨.math, env, n⟩ (leafOf m.open :: (f.elems ++ [leafOf m.close])) ++ [.text u]) (mem false)
      (s ++ f.typst spec ++ u) (mem false) := fun s u =>
    ((ShowsAll.go (.one s) (mem false) rfl).append hb).append (ShowsAll.go (.one u) (mem false) rfl)
  cases m
  · exact key t!"#math.equation(block: false, $" t!"$);"
  · exact key t!"$ " t!" $"
  · exact key t!"#math.equation(block: false, $" t!"$);"
  · exact key t!"$ " t!" $"

/-! ## Environments -/

theorem env_between {name : Text} {args body : List Elem} (hk : ∀ e ∈ body, e.kind ≠ .itemBegin ∧ e.kind ≠ .itemEnd) :
    between (Elem.node .itemEnv (.node .itemBegin (leafOf (.cmd .beginEnv, name) :: args) ::
      (body ++ [.node .itemEnd [leafOf (.cmd .endEnv, name)]]))) = body := by
  unfold between
  show ((Elem.node .itemBegin (leafOf (.cmd .beginEnv, name) :: args)) :: (body ++ [.node .itemEnd [leafOf (.cmd .endEnv, name)]])).filter _ = body
  rw [List.filter_cons_of_neg (by simp [Elem.kind]), List.filter_append, List.filter_cons_of_neg (by simp [Elem.kind]), List.filter_nil,
    List.append_nil]
  exact List.filter_eq_self.mpr fun e he => decide_eq_true (hk e he)

theorem putLabel_writes {spec : CommandSpec} {ps : List Piece} {t : Text} {b b' : Bool} (h : PrintedAll spec ps (mem b) t (mem b')) :
    PrintedAll spec (ps ++ [.putLabel]) (mem b) t (mem b') := by
  have := h.append (.noLabel (m := mem b') rfl (.nil _))
  rw [List.append_nil] at this
  exact this

theorem environment_writes {spec : CommandSpec} {env : LEnv} {n : Nat} {name : Text} {sh : EnvShape} {es : List Elem} {t : Text} {b' : Bool}
    (hn : EnvName name) (hs : spec name = some (.env sh)) (hc : sh.ctx = .isItemize ∨ sh.ctx = .isEnumerate ∨ sh.ctx = .none)
    (hk : ∀ e ∈ es, e.kind ≠ .itemBegin ∧ e.kind ≠ .itemEnd) (h : Writes spec (insidePlace spec ⟨.text, env, n⟩ name) es false t b') (b : Bool) :
    Printed spec ⟨.text, env, n⟩ (.node .itemEnv (.node .itemBegin [leafOf (.cmd .beginEnv, name)] :: (es ++ [.node .itemEnd [leafOf (.cmd .endEnv, name)]])))
      (mem b) (aroundTypst spec name t) (mem b') := by
  have hbetween := env_between (name := name) (args := []) hk
  generalize he : Elem.node .itemEnv (.node .itemBegin [leafOf (.cmd .beginEnv, name)] :: (es ++ [.node .itemEnd [leafOf (.cmd .endEnv, name)]])) = e at hbetween ⊢
  have hkind : e.kind = .itemEnv := by rw [← he]; rfl
  have h1 : template spec ⟨.text, env, n⟩ e = environmentTemplate spec ⟨.text, env, n⟩ e := by rw [← he]; rfl
  have hname : e.envName = some name := by rw [← he]; rfl
  have hal : sh.alias.getD name = aliasOf spec name := by unfold aliasOf; rw [hs]
  unfold insidePlace at h
  rw [hs] at h
  dsimp only at h
  have h2 : ∀ ps, (match sh.ctx with
      | .isItemize => (.ok (each ⟨.text, .itemize, n + 1⟩ (between e)) : Res (List Piece))
      | .isEnumerate => .ok (each ⟨.text, .enumerate, n + 1⟩ (between e))
      | .isMath => .ok (mathEnvTemplate ⟨.text, env, n⟩ .math (sh.alias.getD name) e ++ inMode .text ⟨.text, env, n⟩ [.putLabel])
      | .isMatrix => .ok (mathEnvTemplate ⟨.text, env, n⟩ .matrix (sh.alias.getD name) e ++ inMode .text ⟨.text, env, n⟩ [.putLabel])
      | .isCases => .ok (mathEnvTemplate ⟨.text, env, n⟩ .cases (sh.alias.getD name) e ++ inMode .text ⟨.text, env, n⟩ [.putLabel])
      | .isFigure => (figureTemplate ⟨.text, env, n⟩ (sh.alias.getD name) e).map (· ++ inMode .text ⟨.text, env, n⟩ [.putLabel])
      | .isTable => (tableTemplate ⟨.text, env, n⟩ (sh.alias.getD name) e).map (· ++ inMode .text ⟨.text, env, n⟩ [.putLabel])
      | .none => .ok ([Piece.text (t!"#" ++ sh.alias.getD name ++ t!"[")] ++ each ⟨.text, .none, n⟩ (between e) ++ [Piece.text t!"];"] ++
          inMode .text ⟨.text, env, n⟩ [.putLabel])) = .ok ps → template spec ⟨.text, env, n⟩ e = .ok ps := by
    intro ps hps
    rw [h1]
    unfold environmentTemplate
    rw [hname]
    show (match spec (trim name) with
      | some (.env sh) => _
      | _ => _) = _
    rw [hn.trim, hs]
    exact hps
  unfold aroundTypst
  rw [hs]
  dsimp only
  rcases hc with hc | hc | hc
  · rw [if_pos (.inl hc)]
    rw [hc] at h
    exact printed_of_all (by rw [hkind]; decide) (h2 (each ⟨.text, .itemize, n + 1⟩ (between e)) (by rw [hc])) (by rw [hbetween]; exact h)
  · rw [if_pos (.inr hc)]
    rw [hc] at h
    exact printed_of_all (by rw [hkind]; decide) (h2 (each ⟨.text, .enumerate, n + 1⟩ (between e)) (by rw [hc])) (by rw [hbetween]; exact h)
  · rw [if_neg (by rw [hc]; rintro (h | h) <;> cases h)]
    rw [hc] at h
    refine printed_of_all (by rw [hkind]; decide) (h2 _ (by rw [hc])) ?_
    rw [hbetween, hal]
    refine putLabel_writes ?_
    exact ((ShowsAll.go (.one _) (mem false) rfl).append h).append (m2 := mem b') (by
      have := PrintedAll.text (spec := spec) (m := mem b') t!"];" (.nil _)
      rw [List.append_nil] at this
      exact this)

theorem display_writes {spec : CommandSpec} {env : LEnv} {n : Nat} {name : Text} {sh : EnvShape} {args body : List Elem} {ts : List Text} {u : Text}
    (hn : EnvName name) (hs : spec name = some (.env sh)) (hc : sh.ctx = .isMatrix ∨ sh.ctx = .isCases ∨ sh.ctx = .isMath)
    (ha : ShowsList spec ⟨.math, insideOf sh, n⟩ args ts) (hk : ∀ e ∈ body, e.kind ≠ .itemBegin ∧ e.kind ≠ .itemEnd)
    (hb : ShowsEach spec ⟨.math, insideOf sh, n⟩ body u) (b : Bool) :
    Printed spec ⟨.text, env, n⟩ (.node .itemEnv (.node .itemBegin (leafOf (.cmd .beginEnv, name) :: args) ::
      (body ++ [.node .itemEnd [leafOf (.cmd .endEnv, name)]]))) (mem b)
      (t!"$ " ++ (aliasOf spec name ++ t!"(" ++ namedArguments ts ++ u ++ t!")") ++ t!" $") (mem false) := by
  have h0 := ShowsAll.append (ShowsAll.append (.one t!"$ ") (ShowsAll.append (ShowsAll.append (ShowsAll.append
    (ShowsAll.one (spec := spec) (aliasOf spec name ++ t!"(")) (ha.named 0)) hb) (.one t!")"))) (.one t!" $")
  refine printed_of_all (fun h => (by cases h)) ?_ (putLabel_writes (h0.go (mem false) rfl))
  have h1 : ∀ e, template spec ⟨.text, env, n⟩ (.node .itemEnv e) = environmentTemplate spec ⟨.text, env, n⟩ (.node .itemEnv e) := fun _ => rfl
  rw [h1]
  have hname : (Elem.node .itemEnv (.node .itemBegin (leafOf (.cmd .beginEnv, name) :: args) ::
      (body ++ [.node .itemEnd [leafOf (.cmd .endEnv, name)]]))).envName = some name := rfl
  have hargs : (Elem.node .itemEnv (.node .itemBegin (leafOf (.cmd .beginEnv, name) :: args) ::
      (body ++ [.node .itemEnd [leafOf (.cmd .endEnv, name)]]))).envArguments = args := by
    show (Elem.node .itemBegin (leafOf (.cmd .beginEnv, name) :: args)).arguments = args
    unfold Elem.arguments Elem.childNodes
    show ((leafOf (.cmd .beginEnv, name) :: args).filter Elem.isNode).filter _ = args
    rw [List.filter_cons_of_neg (by exact Bool.false_ne_true), List.filter_eq_self.mpr fun e he => (ha.kinds e he).2]
    refine List.filter_eq_self.mpr fun e he => ?_
    rw [(ha.kinds e he).1]
    rfl
  have hbetween := env_between (name := name) (args := args) hk
  unfold environmentTemplate
  rw [hname]
  show (match spec (trim name) with
    | some (.env sh) => _
    | _ => _) = _
  rw [hn.trim, hs]
  dsimp only
  have hal : sh.alias.getD name = aliasOf spec name := by unfold aliasOf; rw [hs]
  rw [hal]
  unfold mathEnvTemplate
  dsimp only
  rw [hargs, hbetween]
  unfold insideOf at *
  rcases hc with hc | hc | hc <;> rw [hc] <;> simp [inMode]

theorem equations_write {spec : CommandSpec} {env : LEnv} {n : Nat} {name : Text} {args : Arguments} {body : Cells}
    (h : (Atom.environment name args body).Ok spec) (b : Bool) :
    Printed spec ⟨.text, env, n⟩ (Atom.environment name args body).elem (mem b)
      (t!"$ " ++ (Atom.environment name args body).typst spec ++ t!" $") (mem false) := by
  rw [Atom.Ok] at h
  obtain ⟨h1, -, h3, h4, sh, h5, h6, -⟩ := h
  rw [Atom.elem, Atom.typst]
  refine display_writes h1 h5 h6 (Arguments.shows args h3.1 _) (fun e he => ?_) (Cells.shows body h4 h5 h6) b
  have hk : ∀ k ∈ bodyElems, k ≠ .itemBegin ∧ k ≠ .itemEnd := by decide
  exact hk _ (body.kinds h4 e he)

end Mitex
