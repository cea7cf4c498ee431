/-
The templates (Spec/Template.lean) print the trees of formulas as their Typst texts (Spec/Formula.lean).
-/
import Verif.Proof.FormulaTree

namespace Mitex

/-! ## Pieces -/

/-- The pieces become the text, and change nothing in the memory. -/
structure ShowsAll (spec : CommandSpec) (ps : List Piece) (t : Text) : Prop where
  go : ∀ m : Mem, m.skip = false → PrintedAll spec ps m t m

/-- The element becomes the text, and changes nothing in the memory. -/
structure Shows (spec : CommandSpec) (x : Place) (e : Elem) (t : Text) : Prop where
  go : ∀ m : Mem, m.skip = false → Printed spec x e m t m

theorem PrintedAll.append {spec : CommandSpec} {qs : List Piece} {u : Text} {m2 : Mem} : ∀ {ps : List Piece} {m m1 : Mem} {t : Text},
    PrintedAll spec ps m t m1 → PrintedAll spec qs m1 u m2 → PrintedAll spec (ps ++ qs) m (t ++ u) m2 := by
  intro ps
  induction ps with
  | nil => intro m m1 t h hq; cases h; exact hq
  | cons p ps ih =>
    intro m m1 t h hq
    cases h with
    | text t k => rw [List.append_assoc]; exact .text t (ih k hq)
    | part h k => rw [List.append_assoc]; exact .part h (ih k hq)
    | blank h k => rw [List.append_assoc]; exact .blank h (ih k hq)
    | dropped h k => exact .dropped h (ih k hq)
    | dropBlank k => exact .dropBlank (ih k hq)
    | keepLabel k => exact .keepLabel (ih k hq)
    | putLabel h k => rw [List.append_assoc]; exact .putLabel h (ih k hq)
    | noLabel h k => exact .noLabel h (ih k hq)

theorem ShowsAll.nil {spec : CommandSpec} : ShowsAll spec [] [] := ⟨fun m _ => .nil m⟩

theorem ShowsAll.text {spec : CommandSpec} {ps : List Piece} {u : Text} (t : Text) (h : ShowsAll spec ps u) :
    ShowsAll spec (.text t :: ps) (t ++ u) := ⟨fun m hm => .text t (h.go m hm)⟩

theorem ShowsAll.one {spec : CommandSpec} (t : Text) : ShowsAll spec [.text t] t := by
  have := ShowsAll.text t (.nil (spec := spec))
  rwa [List.append_nil] at this

theorem ShowsAll.part {spec : CommandSpec} {x : Place} {e : Elem} {ps : List Piece} {t u : Text} (he : Shows spec x e t) (h : ShowsAll spec ps u) :
    ShowsAll spec (.part x e :: ps) (t ++ u) := ⟨fun m hm => .part (he.go m hm) (h.go m hm)⟩

theorem ShowsAll.append {spec : CommandSpec} {ps qs : List Piece} {t u : Text} (h : ShowsAll spec ps t) (h' : ShowsAll spec qs u) :
    ShowsAll spec (ps ++ qs) (t ++ u) := ⟨fun m hm => (h.go m hm).append (h'.go m hm)⟩

theorem Shows.of {spec : CommandSpec} {x : Place} {e : Elem} {ps : List Piece} {t : Text} (h : template spec x e = .ok ps) (hp : ShowsAll spec ps t) :
    Shows spec x e t := by
  refine ⟨fun m hm => .mk h ?_⟩
  have he : (if e.kind = .tokenWhiteSpace then m else { m with skip := false }) = m := by
    split
    · rfl
    · cases m; cases hm; rfl
  rw [he]
  exact hp.go m hm

/-- All elements, one after the other. -/
abbrev ShowsEach (spec : CommandSpec) (x : Place) (es : List Elem) (t : Text) : Prop := ShowsAll spec (each x es) t

theorem ShowsEach.append {spec : CommandSpec} {x : Place} {es fs : List Elem} {t u : Text} (h : ShowsEach spec x es t) (h' : ShowsEach spec x fs u) :
    ShowsEach spec x (es ++ fs) (t ++ u) := by
  unfold ShowsEach each
  rw [List.map_append]
  exact ShowsAll.append h h'

theorem ShowsEach.cons {spec : CommandSpec} {x : Place} {e : Elem} {es : List Elem} {t u : Text} (h : Shows spec x e t) (h' : ShowsEach spec x es u) :
    ShowsEach spec x (e :: es) (t ++ u) := ShowsAll.part h h'

theorem ShowsEach.nil {spec : CommandSpec} {x : Place} : ShowsEach spec x [] [] := ShowsAll.nil

theorem ShowsEach.one {spec : CommandSpec} {x : Place} {e : Elem} {t : Text} (h : Shows spec x e t) : ShowsEach spec x [e] t := by
  have := ShowsEach.cons h (.nil (x := x))
  rwa [List.append_nil] at this

/-! ## Leaves -/

theorem shows_word {spec : CommandSpec} {x : Place} (w : Text) : Shows spec x (.token .tokenWord w) (wordText x.mode w) := .of rfl (.one _)

theorem shows_space {spec : CommandSpec} {x : Place} (w : Text) : Shows spec x (.token .tokenWhiteSpace w) w := by
  refine .of (ps := [.blank (.token .tokenWhiteSpace w)]) rfl ⟨fun m hm => ?_⟩
  have := PrintedAll.blank (spec := spec) (k := .tokenWhiteSpace) (t := w) hm (.nil m)
  rwa [List.append_nil] at this

theorem shows_blanks {spec : CommandSpec} {x : Place} (n : Nat) : ShowsEach spec x (blankElems n) (spaces n) := by
  unfold blankElems blankToks
  split
  · next h => subst h; exact .nil
  · exact .one (shows_space _)

theorem shows_comma {spec : CommandSpec} {x : Place} (t : Text) : Shows spec x (.token .tokenComma t) t!"\\," := .of rfl (.one _)

theorem shows_part {spec : CommandSpec} {x : Place} (p : TextPart) : Shows spec x (leafOf p.tok) (p.typst x.mode) := by
  cases p with
  | word w =>
    obtain ⟨m, env, n⟩ := x
    cases m <;> exact shows_word w
  | comma => exact shows_comma _
  | blank n => exact shows_space _

theorem shows_parts {spec : CommandSpec} {x : Place} (ps : List TextPart) :
    ShowsEach spec x (ps.map fun p => leafOf p.tok) (partsTypst x.mode ps) := by
  induction ps with
  | nil => exact .nil
  | cons p ps ih => exact .cons (shows_part p) ih

theorem shows_container {spec : CommandSpec} {x : Place} {k : Kind} {cs : List Elem} {t : Text}
    (hk : k = .itemLR ∨ k = .clauseArgument ∨ k = .scopeRoot ∨ k = .itemText ∨ k = .itemBracket) (h : ShowsEach spec x cs t) :
    Shows spec x (.node k cs) t := by
  refine .of ?_ h
  rcases hk with rfl | rfl | rfl | rfl | rfl <;> rfl

theorem shows_silent {spec : CommandSpec} {x : Place} {e : Elem} (h : isSilent e.kind = true) : Shows spec x e [] := by
  refine .of (ps := []) ?_ .nil
  unfold template
  rw [if_pos h]

theorem shows_sign {spec : CommandSpec} {env : LEnv} {n : Nat} {c : Char} (h : c ∈ signs) :
    Shows spec ⟨.math, env, n⟩ (leafOf (signTok c, [c])) (signTypst c) := by
  have hs : ∀ c ∈ signs, c = '(' ∨ c = ')' ∨ c = '[' ∨ c = ']' ∨ c = '~' ∨ c = '/' ∨ c = '"' ∨ c = ';' ∨ c = '*' ∨ c = '@' := by decide
  rcases hs c h with rfl | rfl | rfl | rfl | rfl | rfl | rfl | rfl | rfl | rfl <;> exact .of rfl (.one _)

/-! ## Kinds -/

/-- The kinds of the elements of formulas. -/
def formulaElems : List Kind := [.itemText, .tokenLParen, .tokenRParen, .tokenLBracket, .tokenRBracket, .tokenTilde, .tokenSlash, .tokenDitto,
  .tokenSemicolon, .tokenAsterisk, .tokenAtSign, .itemCmd, .itemCurly, .itemAttachComponent, .itemLR, .itemEnv]

theorem Atom.kind {spec : CommandSpec} (a : Atom) (h : a.Ok spec) : a.elem.kind ∈ formulaElems := by
  cases a with
  | sign c =>
    rw [Atom.Ok] at h
    rw [Atom.elem]
    revert c
    decide
  | _ =>
    rw [Atom.elem]
    simp [formulaElems, Elem.kind, textElem, curlyElem]

/-! ## Groups -/

theorem empty_blanks (n : Nat) : (blankElems n).all isEmptyGroupPart = true := by
  unfold blankElems blankToks
  split <;> rfl

theorem not_empty {k : Kind} (h : k ∈ formulaElems) : ∀ e : Elem, e.kind = k → isEmptyGroupPart e = false := by
  intro e he
  unfold isEmptyGroupPart
  rw [he]
  clear he e
  revert k
  decide

theorem swallow_kind (b : Bool) (e : Elem) (bs : List Elem) : ∃ e' r, swallow b e bs = e' :: r ∧ e'.kind = e.kind := by
  unfold swallow
  split
  · cases e with
    | node k cs => exact ⟨_, _, rfl, rfl⟩
    | token k t => exact ⟨_, _, rfl, rfl⟩
  · exact ⟨_, _, rfl, rfl⟩

theorem shows_curly {spec : CommandSpec} {env : LEnv} {n : Nat} {es : List Elem} {t : Text} (b : Bool) (hb : es.all isEmptyGroupPart = b)
    (h : ∀ env', ShowsEach spec ⟨.math, env', n⟩ es t) : Shows spec ⟨.math, env, n⟩ (curlyElem es) (t ++ if b then t!"zws " else []) := by
  refine .of (ps := curlyTemplate ⟨.math, env, n⟩ (curlyElem es)) rfl ?_
  unfold curlyTemplate
  refine ShowsAll.append ?_ ?_
  · have h1 : ShowsEach spec ⟨.math, if Mode.math = .math ∧ env ≠ .subStack then .mathCurlyGroup else env, n⟩ (leafOf lcurly :: (es ++ [leafOf rcurly]))
        ([] ++ (t ++ [])) := .cons (shows_silent rfl) ((h _).append (.one (shows_silent rfl)))
    rw [List.nil_append, List.append_nil] at h1
    exact h1
  · have hall : (curlyElem es).children.all isEmptyGroupPart = b := by
      rw [← hb]
      simp [curlyElem, Elem.children, isEmptyGroupPart, Elem.kind, leafOf, lcurly, rcurly, Token.kind]
    rw [hall]
    cases b
    · exact .nil
    · exact .one _

/-! ## Commands -/

theorem utf8Len_backslash : utf8Len '\\' = 1 := by decide

theorem aliasOf_cmd {spec : CommandSpec} {name : Text} {sh : CmdShape} (h : spec name = some (.cmd sh)) :
    writtenName .math name sh = aliasOf spec name := by
  unfold writtenName aliasOf
  rw [h, if_neg (fun h => by cases h.1), if_neg (fun h => by cases h.1)]
  dsimp only
  cases sh.alias <;> rfl

/-- A command is printed as the specification says. -/
theorem shows_command {spec : CommandSpec} {env : LEnv} {n : Nat} {name : Text} {sh : CmdShape} {cs : List Elem} {t : Text} {ps : List Piece}
    (hn : name ∉ specialCommands) (hs : spec name = some (.cmd sh)) (hc : (Elem.node .itemCmd cs).cmdName = some ('\\' :: name))
    (hp : argumentsTemplate ⟨.math, if aliasOf spec name = t!"substack" then .subStack else env, n⟩ sh (aliasOf spec name)
      (cs.filter fun c => decide (c.kind ≠ .clauseCommandName)) = .ok ps) (h : ShowsAll spec ps t) :
    Shows spec ⟨.math, env, n⟩ (.node .itemCmd cs) (aliasOf spec name ++ t) := by
  refine .of (ps := .text (aliasOf spec name) :: ps) ?_ (.text _ h)
  have h1 : template spec ⟨.math, env, n⟩ (.node .itemCmd cs) = commandTemplate spec ⟨.math, env, n⟩ (.node .itemCmd cs) := rfl
  rw [h1]
  have hb : bareName (.node .itemCmd cs) = some name := by
    unfold bareName
    rw [hc]
    show (if utf8Len '\\' = 1 then some name else none) = _
    rw [if_pos utf8Len_backslash]
  unfold commandTemplate
  rw [hb, hc]
  dsimp only
  have hne : ∀ s ∈ specialCommands, name ≠ s := fun s hs h => hn (h ▸ hs)
  rw [if_neg (hne _ (by decide)), if_neg (hne _ (by decide)), if_neg (hne _ (by decide)), if_neg]
  · unfold normalTemplate
    rw [hs]
    dsimp only
    rw [aliasOf_cmd hs]
    show Except.map _ (argumentsTemplate _ sh (aliasOf spec name) (cs.filter fun c => decide (c.kind ≠ .clauseCommandName))) = _
    rw [hp]
    rfl
  · rintro (h | h | h)
    · exact hne _ (by decide) h
    · exact hne _ (by decide) h
    · exact hne _ (by decide) h

theorem shows_symbol {spec : CommandSpec} {env : LEnv} {n : Nat} {name : Text} (h : SymbolOk spec name) :
    Shows spec ⟨.math, env, n⟩ (.node .itemCmd [leafOf (nameTok name)]) (aliasOf spec name ++ t!" ") := by
  obtain ⟨h1, sh, h2, h3⟩ := h
  refine shows_command (ps := [.text t!" "]) h1.2.2 h2 rfl ?_ (.one _)
  unfold argumentsTemplate
  rw [h3]

/-- Elements and their texts. -/
inductive ShowsList (spec : CommandSpec) (x : Place) : List Elem → List Text → Prop
  | nil : ShowsList spec x [] []
  | cons {cs : List Elem} {es : List Elem} {t : Text} {ts : List Text} (h : Shows spec x (.node .clauseArgument cs) t)
      (hs : ShowsList spec x es ts) : ShowsList spec x (.node .clauseArgument cs :: es) (t :: ts)

theorem ShowsList.commas {spec : CommandSpec} {x : Place} {es : List Elem} {ts : List Text} (h : ShowsList spec x es ts) :
    ShowsAll spec (commaList .clauseArgument x es) (t!",".intercalate ts) := by
  induction h with
  | nil => exact .nil
  | @cons cs es t ts h hs ih =>
    cases hs with
    | nil =>
      have := ShowsAll.part h (.nil (spec := spec))
      simpa [commaList, List.intercalate] using this
    | @cons cs' es' t' ts' h' hs' =>
      have := ShowsAll.part h (ShowsAll.text t!"," ih)
      simpa [commaList, List.intercalate, Elem.kind] using this

theorem ShowsList.kinds {spec : CommandSpec} {x : Place} {es : List Elem} {ts : List Text} (h : ShowsList spec x es ts) :
    ∀ e ∈ es, e.kind = .clauseArgument ∧ e.isNode = true := by
  induction h with
  | nil => exact fun e he => by cases he
  | cons h hs ih =>
    intro e he
    rcases List.mem_cons.mp he with rfl | he
    · exact ⟨rfl, rfl⟩
    · exact ih e he

theorem shows_arguments {spec : CommandSpec} {env : LEnv} {n : Nat} {name : Text} {sh : CmdShape} {args : List Elem} {ts : List Text}
    (hn : name ∉ specialCommands) (hs : spec name = some (.cmd sh)) (h1 : sh.args ≠ .right .none) (h2 : sh.args ≠ .right .greedy)
    (h3 : (aliasOf spec name).head? ≠ some '#') (h : ∀ env, ShowsList spec ⟨.math, env, n⟩ args ts) :
    Shows spec ⟨.math, env, n⟩ (.node .itemCmd (leafOf (nameTok name) :: args)) (aliasOf spec name ++ t!"(" ++ t!",".intercalate ts ++ t!")") := by
  have hf : (leafOf (nameTok name) :: args).filter (fun c => decide (c.kind ≠ .clauseCommandName)) = args := by
    rw [List.filter_cons_of_neg (by simp [leafOf, nameTok, Elem.kind, Token.kind])]
    refine List.filter_eq_self.mpr fun e he => ?_
    rw [((h env).kinds e he).1]
    rfl
  rw [List.append_assoc, List.append_assoc]
  refine shows_command hn hs rfl ?_ (.text t!"(" ((h (if aliasOf spec name = t!"substack" then .subStack else env)).commas.append (.one t!")")))
  rw [hf]
  unfold argumentsTemplate
  split
  · next h => exact absurd h h1
  · next h => exact absurd h h2
  · rw [if_pos ⟨rfl, h3⟩]; rfl

theorem shows_postfix {spec : CommandSpec} {env : LEnv} {n : Nat} {name : Text} {sh : CmdShape} {e : Elem} {t : Text}
    (hn : name ∉ specialCommands) (hs : spec name = some (.cmd sh)) (h1 : sh.args = .left1)
    (h3 : (aliasOf spec name).head? ≠ some '#') (h : ∀ env, Shows spec ⟨.math, env, n⟩ e t) :
    Shows spec ⟨.math, env, n⟩ (.node .itemCmd [.node .clauseArgument [e], leafOf (nameTok name)]) (aliasOf spec name ++ t!"(" ++ t ++ t!")") := by
  rw [List.append_assoc, List.append_assoc]
  refine shows_command hn hs rfl ?_ (.text t!"(" (ShowsAll.part (shows_container (k := .clauseArgument) (.inr (.inl rfl))
    (.one (h (if aliasOf spec name = t!"substack" then .subStack else env)))) (.one t!")")))
  unfold argumentsTemplate
  rw [h1]
  dsimp only
  rw [if_pos ⟨rfl, h3⟩]
  rfl

theorem shows_over {spec : CommandSpec} {env : LEnv} {n : Nat} {name : Text} {sh : CmdShape} {es es' : List Elem} {t t' : Text}
    (hn : name ∉ specialCommands) (hs : spec name = some (.cmd sh)) (h1 : sh.args = .infixGreedy)
    (h3 : (aliasOf spec name).head? ≠ some '#') (h : ∀ env, ShowsEach spec ⟨.math, env, n⟩ es t) (h' : ∀ env, ShowsEach spec ⟨.math, env, n⟩ es' t') :
    Shows spec ⟨.math, env, n⟩ (.node .itemCmd [.node .clauseArgument es, leafOf (nameTok name), .node .clauseArgument es'])
      (aliasOf spec name ++ t!"(" ++ (t ++ (t!"," ++ (t' ++ t!")")))) := by
  rw [List.append_assoc]
  refine shows_command hn hs rfl ?_ (.text t!"(" (ShowsAll.part (shows_container (k := .clauseArgument) (.inr (.inl rfl))
    (h (if aliasOf spec name = t!"substack" then .subStack else env))) (.text t!"," (ShowsAll.part (shows_container (k := .clauseArgument)
    (.inr (.inl rfl)) (h' (if aliasOf spec name = t!"substack" then .subStack else env))) (.one t!")")))))
  unfold argumentsTemplate
  rw [h1]
  dsimp only
  rw [if_pos ⟨rfl, h3⟩]
  rfl

theorem shows_textCommand {spec : CommandSpec} {env : LEnv} {n : Nat} {name : Text} {sh : CmdShape} {ps : List TextPart}
    (hn : name ∉ specialCommands) (hs : spec name = some (.cmd sh)) (h1 : sh.args = .right (.fixedLen 1))
    (h3 : (aliasOf spec name).head? = some '#') :
    Shows spec ⟨.math, env, n⟩ (.node .itemCmd [leafOf (nameTok name), .node .clauseArgument [curlyElem [textElem ps]]])
      (aliasOf spec name ++ t!"[" ++ partsTypst .text ps ++ t!"];") := by
  rw [List.append_assoc, List.append_assoc]
  have hcurly : ∀ env : LEnv, Shows spec ⟨.text, env, n⟩ (curlyElem [textElem ps]) (partsTypst .text ps) := by
    intro env
    refine .of (ps := curlyTemplate ⟨.text, env, n⟩ (curlyElem [textElem ps])) rfl ?_
    have := ShowsEach.cons (spec := spec) (x := ⟨.text, env, n⟩) (e := leafOf lcurly) (shows_silent rfl)
      (.cons (shows_container (k := .itemText) (.inr (.inr (.inr (.inl rfl)))) (shows_parts (spec := spec) (x := ⟨.text, env, n⟩) ps))
        (.one (e := leafOf rcurly) (shows_silent rfl)))
    simpa [curlyTemplate, inMode, curlyElem, Elem.children, textElem] using this
  have := ShowsAll.text t!"[" (ShowsAll.part (shows_container (k := .clauseArgument) (.inr (.inl rfl)) (.one
    (hcurly (if aliasOf spec name = t!"substack" then .subStack else env)))) (.text t!"]" (.one (spec := spec) t!";")))
  refine shows_command hn hs rfl ?_ this
  unfold argumentsTemplate
  rw [h1]
  dsimp only
  rw [if_neg (fun h => h.2 h3)]
  rfl

/-! ## Scripts and delimiters -/

theorem shows_script {spec : CommandSpec} {env : LEnv} {n : Nat} {super : Bool} {e s : Elem} {t u : Text} (h : Shows spec ⟨.math, env, n⟩ e t)
    (hs : Shows spec ⟨.math, env, n⟩ s u) :
    Shows spec ⟨.math, env, n⟩ (.node .itemAttachComponent [.node .clauseArgument [e], leafOf (markTok super), s])
      (t ++ (if super then t!"^(" else t!"_(") ++ u ++ t!")") := by
  have h1 := ShowsAll.part (x := ⟨.math, env, n⟩) (shows_container (k := .clauseArgument) (.inr (.inl rfl)) (.one h))
    (.text (if super then t!"^(" else t!"_(") (.part hs (.one (spec := spec) t!")")))
  rw [List.append_assoc, List.append_assoc]
  refine .of ?_ h1
  cases super <;> rfl

theorem shows_prime {spec : CommandSpec} {env : LEnv} {n : Nat} {e : Elem} {t : Text} (h : Shows spec ⟨.math, env, n⟩ e t) :
    Shows spec ⟨.math, env, n⟩ (.node .itemAttachComponent [.node .clauseArgument [e], leafOf aposTok]) (t ++ t!"'") := by
  have h1 := ShowsEach.cons (x := ⟨.math, env, n⟩) (shows_container (k := .clauseArgument) (.inr (.inl rfl)) (.one h))
    (.one (e := leafOf aposTok) (t := t!"'") (.of rfl (.one _)))
  exact .of rfl h1

theorem shows_delim {spec : CommandSpec} {env : LEnv} {n : Nat} {d : Delim} (h : d.Ok spec) :
    ShowsAll spec ((if isDot d.elem then [] else [Piece.part ⟨.math, env, n⟩ d.elem]) ++ [.text t!" "]) (d.typst spec) := by
  cases d with
  | sign c =>
    have hs : ∀ c ∈ delimSigns, c ∈ signs ∧ signTypst c = ['\\', c] := by decide
    have := ShowsAll.part (shows_sign (spec := spec) (env := env) (n := n) (hs c h).1) (.one t!" ")
    rw [(hs c h).2] at this
    have hd : ∀ c ∈ delimSigns, isDot (leafOf (signTok c, [c])) = false := by decide
    rw [Delim.elem, hd c h]
    exact this
  | char c =>
    by_cases hc : c = '.'
    · subst hc
      exact .one _
    · have h1 : isDot (.token .tokenWord [c]) = false := by
        unfold isDot
        exact decide_eq_false (fun h => hc (by cases h; rfl))
      have := ShowsAll.part (shows_word (spec := spec) (x := ⟨.math, env, n⟩) [c]) (.one t!" ")
      rw [Delim.elem, h1, Delim.typst, if_neg hc]
      exact this
  | symbol name =>
    obtain ⟨-, sh, h2, -⟩ := h
    have h1 : Shows spec ⟨.math, env, n⟩ (.token .tokenCommandSym ('\\' :: name)) (aliasOf spec name) := by
      refine .of (ps := [.text (aliasOf spec name)]) ?_ (.one _)
      show (do
        let name ← orCrash (if utf8Len '\\' = 1 then some name else none)
        match spec name with
        | some (.cmd sh) => Except.ok [Piece.text (sh.alias.getD name)]
        | _ => refuse (t!"unknown command: \\" ++ name)) = _
      rw [if_pos utf8Len_backslash]
      show (match spec name with
        | some (.cmd sh) => Except.ok [Piece.text (sh.alias.getD name)]
        | _ => refuse (t!"unknown command: \\" ++ name)) = _
      unfold aliasOf
      rw [h2]
    exact ShowsAll.part h1 (.one t!" ")

theorem shows_left {spec : CommandSpec} {env : LEnv} {n : Nat} {d : Delim} (h : d.Ok spec) :
    Shows spec ⟨.math, env, n⟩ (.node .clauseLR [leafOf leftTok, d.elem]) (t!"lr(" ++ d.typst spec) := by
  have := ShowsAll.text t!"lr(" (shows_delim (env := env) (n := n) h)
  refine .of (ps := .text t!"lr(" :: ((if isDot d.elem then [] else [Piece.part ⟨.math, env, n⟩ d.elem]) ++ [.text t!" "])) ?_ this
  have h0 : template spec ⟨.math, env, n⟩ (.node .clauseLR [leafOf leftTok, d.elem]) =
    delimiterTemplate ⟨.math, env, n⟩ (.node .clauseLR [leafOf leftTok, d.elem]) := rfl
  have ha : afterBackslash t!"\\left" = some t!"left" := by
    show (if utf8Len '\\' = 1 then some t!"left" else none) = _
    rw [if_pos utf8Len_backslash]
  rw [h0]
  unfold delimiterTemplate
  simp only [Elem.children, leafOf, leftTok, ha]
  simp [orCrash, Except.map]

theorem shows_right {spec : CommandSpec} {env : LEnv} {n : Nat} {d : Delim} (h : d.Ok spec) :
    Shows spec ⟨.math, env, n⟩ (.node .clauseLR [leafOf rightTok, d.elem]) (d.typst spec ++ t!")") := by
  have := (shows_delim (env := env) (n := n) h).append (.one t!")")
  refine .of ?_ this
  have h0 : template spec ⟨.math, env, n⟩ (.node .clauseLR [leafOf rightTok, d.elem]) =
    delimiterTemplate ⟨.math, env, n⟩ (.node .clauseLR [leafOf rightTok, d.elem]) := rfl
  have ha : afterBackslash t!"\\right" = some t!"right" := by
    show (if utf8Len '\\' = 1 then some t!"right" else none) = _
    rw [if_pos utf8Len_backslash]
  rw [h0]
  unfold delimiterTemplate
  simp only [Elem.children, leafOf, rightTok, ha]
  simp [orCrash, Except.map]

/-! ## Environments -/

theorem nameChar_black {c : Char} (h : NameChar c ∨ c = '*') : isWs c = false := by
  have h0 : c.toNat < 128 := by
    rcases h with (h | rfl) | rfl
    · unfold isAsciiAlpha at h
      simp only [Bool.or_eq_true, Bool.and_eq_true, decide_eq_true_eq] at h
      omega
    · decide
    · decide
  unfold isWs
  simp only [Bool.or_eq_false_iff, Bool.and_eq_false_iff, decide_eq_false_iff_not, beq_eq_false_iff_ne]
  rcases h with (h | rfl) | rfl
  · unfold isAsciiAlpha at h
    simp only [Bool.or_eq_true, Bool.and_eq_true, decide_eq_true_eq] at h
    omega
  · decide
  · decide

theorem trim_black {t : Text} (h : ∀ c ∈ t, isWs c = false) : trim t = t := by
  have h1 : ∀ t : Text, (∀ c ∈ t, isWs c = false) → t.dropWhile isWs = t := by
    intro t h
    cases t with
    | nil => rfl
    | cons c t => rw [List.dropWhile_cons_of_neg (by rw [h c (.head _)]; exact Bool.false_ne_true)]
  unfold trim trimEnd trimStart
  rw [h1 t h, h1 t.reverse (fun c hc => h c (List.mem_reverse.mp hc)), List.reverse_reverse]

theorem EnvName.trim {t : Text} (h : EnvName t) : trim t = t := by
  obtain ⟨l, hl, h⟩ := h
  refine trim_black fun c hc => nameChar_black ?_
  rcases h with rfl | rfl
  · exact .inl (hl c hc)
  · rcases List.mem_append.mp hc with hc | hc
    · exact .inl (hl c hc)
    · exact .inr (List.mem_singleton.mp hc)

/-- The named arguments of an environment. -/
theorem ShowsList.named {spec : CommandSpec} {y : Place} {es : List Elem} {ts : List Text} (h : ShowsList spec y es ts) : ∀ i : Nat,
    ShowsAll spec ((es.zipIdx i).flatMap fun a => [.text (t!"arg" ++ decimal a.2 ++ t!": "), .part y a.1, .text t!","])
      ((ts.zipIdx i).flatMap fun t => t!"arg" ++ decimal t.2 ++ t!": " ++ t.1 ++ t!",") := by
  induction h with
  | nil => exact fun _ => .nil
  | @cons cs es t ts h hs ih =>
    intro i
    rw [List.zipIdx_cons, List.zipIdx_cons, List.flatMap_cons, List.flatMap_cons]
    refine ShowsAll.append ?_ (ih (i + 1))
    have := ShowsAll.text (t!"arg" ++ decimal i ++ t!": ") (ShowsAll.part h (.one (spec := spec) t!","))
    rw [← List.append_assoc] at this
    exact this

/-- The place inside of an environment. -/
def insideOf (sh : EnvShape) : LEnv :=
  match sh.ctx with
  | .isMatrix => .matrix
  | .isCases => .cases
  | _ => .math

theorem shows_environment {spec : CommandSpec} {env : LEnv} {n : Nat} {name : Text} {sh : EnvShape} {args body : List Elem} {ts : List Text} {u : Text}
    (hn : EnvName name) (hs : spec name = some (.env sh)) (hc : sh.ctx = .isMatrix ∨ sh.ctx = .isCases ∨ sh.ctx = .isMath)
    (ha : ShowsList spec ⟨.math, insideOf sh, n⟩ args ts) (hk : ∀ e ∈ body, e.kind ≠ .itemBegin ∧ e.kind ≠ .itemEnd)
    (hb : ShowsEach spec ⟨.math, insideOf sh, n⟩ body u) :
    Shows spec ⟨.math, env, n⟩ (.node .itemEnv (.node .itemBegin (leafOf (.cmd .beginEnv, name) :: args) ::
      (body ++ [.node .itemEnd [leafOf (.cmd .endEnv, name)]]))) (aliasOf spec name ++ t!"(" ++ namedArguments ts ++ u ++ t!")") := by
  have h0 := ShowsAll.append (ShowsAll.append (ShowsAll.append (ShowsAll.one (spec := spec) (aliasOf spec name ++ t!"(")) (ha.named 0)) hb) (.one t!")")
  refine .of ?_ h0
  have h1 : ∀ e, template spec ⟨.math, env, n⟩ (.node .itemEnv e) = environmentTemplate spec ⟨.math, env, n⟩ (.node .itemEnv e) := fun _ => rfl
  rw [h1]
  have hname : (Elem.node .itemEnv (.node .itemBegin (leafOf (.cmd .beginEnv, name) :: args) ::
      (body ++ [.node .itemEnd [leafOf (.cmd .endEnv, name)]]))).envName = some name := rfl
  have hargs : (Elem.node .itemEnv (.node .itemBegin (leafOf (.cmd .beginEnv, name) :: args) ::
      (body ++ [.node .itemEnd [leafOf (.cmd .endEnv, name)]]))).envArguments = args := by
    show (Elem.node .itemBegin (leafOf (.cmd .beginEnv, name) :: args)).arguments = args
    unfold Elem.arguments Elem.childNodes
    show ((leafOf (.cmd .beginEnv, name) :: args).filter Elem.isNode).filter _ = args
    rw [List.filter_cons_of_neg (by exact Bool.false_ne_true), List.filter_eq_self.mpr fun e he => (ha.kinds e he).2]
    refine List.filter_eq_self.mpr fun e he => ?_
    rw [(ha.kinds e he).1]
    rfl
  have hbetween : between (Elem.node .itemEnv (.node .itemBegin (leafOf (.cmd .beginEnv, name) :: args) ::
      (body ++ [.node .itemEnd [leafOf (.cmd .endEnv, name)]]))) = body := by
    unfold between
    show ((Elem.node .itemBegin (leafOf (.cmd .beginEnv, name) :: args)) :: (body ++ [.node .itemEnd [leafOf (.cmd .endEnv, name)]])).filter _ = body
    rw [List.filter_cons_of_neg (by simp [Elem.kind]), List.filter_append, List.filter_cons_of_neg (by simp [Elem.kind]), List.filter_nil,
      List.append_nil]
    exact List.filter_eq_self.mpr fun e he => decide_eq_true (hk e he)
  unfold environmentTemplate
  rw [hname]
  show (match spec (trim name) with
    | some (.env sh) => _
    | _ => _) = _
  rw [hn.trim, hs]
  dsimp only
  have hal : sh.alias.getD name = aliasOf spec name := by unfold aliasOf; rw [hs]
  rw [hal]
  unfold mathEnvTemplate
  dsimp only
  rw [hargs, hbetween]
  unfold insideOf at *
  rcases hc with hc | hc | hc <;> rw [hc] <;> simp [inMode]


/-! ## Kinds of the parts -/

/-- The kinds of the elements in the body of an environment. -/
def bodyElems : List Kind := .tokenWhiteSpace :: .tokenAmpersand :: .itemNewLine :: formulaElems

theorem blanks_kind {n : Nat} : ∀ e ∈ blankElems n, e.kind ∈ bodyElems := by
  unfold blankElems blankToks
  split
  · exact fun e he => by cases he
  · intro e he
    cases List.mem_singleton.mp he
    show Kind.tokenWhiteSpace ∈ bodyElems
    decide

theorem formula_body {k : Kind} (h : k ∈ formulaElems) : k ∈ bodyElems := List.mem_cons_of_mem _ (List.mem_cons_of_mem _ (List.mem_cons_of_mem _ h))

theorem swallow_kinds {b : Bool} {e : Elem} {n : Nat} (he : e.kind ∈ formulaElems) : ∀ e' ∈ swallow b e (blankElems n), e'.kind ∈ bodyElems := by
  have h2 : ∀ e' ∈ e :: blankElems n, e'.kind ∈ bodyElems := by
    intro e' h
    rcases List.mem_cons.mp h with rfl | h
    · exact formula_body he
    · exact blanks_kind e' h
  unfold swallow
  split
  · cases e with
    | node k cs =>
      intro e' h
      cases List.mem_singleton.mp h
      exact formula_body he
    | token k t => exact h2
  · exact h2

theorem Atoms.kinds {spec : CommandSpec} : ∀ as : Atoms, as.Ok spec → ∀ e ∈ as.elems, e.kind ∈ bodyElems
  | .nil, _, e, he => by rw [Atoms.elems] at he; cases he
  | .cons a sp as, h, e, he => by
    rw [Atoms.Ok] at h
    rw [Atoms.elems] at he
    rcases List.mem_append.mp he with he | he
    · exact swallow_kinds (a.kind h.1) e he
    · exact Atoms.kinds as h.2.1 e he

theorem Formula.kinds {spec : CommandSpec} {f : Formula} (h : f.Ok spec) : ∀ e ∈ f.elems, e.kind ∈ bodyElems := by
  cases f with
  | mk lead as =>
    rw [Formula.Ok] at h
    rw [Formula.elems]
    intro e he
    rcases List.mem_append.mp he with he | he
    · exact blanks_kind e he
    · exact as.kinds h e he

theorem Cells.kinds {spec : CommandSpec} : ∀ r : Cells, r.Ok spec → ∀ e ∈ r.elems, e.kind ∈ bodyElems
  | .last f, h, e, he => by
    rw [Cells.Ok] at h
    rw [Cells.elems] at he
    exact Formula.kinds h e he
  | .cons f endsRow r, h, e, he => by
    rw [Cells.Ok] at h
    rw [Cells.elems] at he
    rcases List.mem_append.mp he with he | he
    · exact Formula.kinds h.1 e he
    · rcases List.mem_cons.mp he with rfl | he
      · cases endsRow <;> decide
      · exact Cells.kinds r h.2 e he

/-! ## Formulas -/

theorem shows_separator {spec : CommandSpec} {n : Nat} {name : Text} {sh : EnvShape} (hs : spec name = some (.env sh))
    (hc : sh.ctx = .isMatrix ∨ sh.ctx = .isCases ∨ sh.ctx = .isMath) (endsRow : Bool) :
    Shows spec ⟨.math, insideOf sh, n⟩ (leafOf (sepTok endsRow)) (cellEnd spec name endsRow) := by
  unfold insideOf cellEnd
  rw [hs]
  dsimp only
  rcases hc with hc | hc | hc <;> rw [hc] <;> cases endsRow <;> exact .of rfl (.one _)

mutual
theorem Atom.shows {spec : CommandSpec} {n : Nat} : ∀ a : Atom, a.Ok spec → ∀ env, Shows spec ⟨.math, env, n⟩ a.elem (a.typst spec)
  | .text ps, h, env => by
    rw [Atom.elem, Atom.typst]
    exact shows_container (.inr (.inr (.inr (.inl rfl)))) (shows_parts (x := ⟨.math, env, n⟩) ps)
  | .sign c, h, env => by
    rw [Atom.Ok] at h
    rw [Atom.elem, Atom.typst]
    exact shows_sign h
  | .symbol name, h, env => by
    rw [Atom.Ok] at h
    rw [Atom.elem, Atom.typst]
    exact shows_symbol h
  | .group f, h, env => by
    rw [Atom.Ok] at h
    rw [Atom.elem, Atom.typst]
    exact Formula.groups f h env
  | .command name args, h, env => by
    rw [Atom.Ok] at h
    obtain ⟨h1, h2, -, ⟨sh, p, h3, h4, h5⟩, h6, -⟩ := h
    rw [Atom.elem, Atom.typst]
    exact shows_arguments h1.2.2 h3 (by rw [h4]; exact fun h => h5.1 (by cases h; rfl)) (by rw [h4]; exact fun h => h5.2.1 (by cases h; rfl)) h6
      (Arguments.shows args h2)
  | .textCommand name ps, h, env => by
    rw [Atom.Ok] at h
    obtain ⟨h1, -, ⟨sh, h3, h4⟩, h5⟩ := h
    rw [Atom.elem, Atom.typst]
    exact shows_textCommand h1.2.2 h3 h4 h5
  | .postfix base name, h, env => by
    rw [Atom.Ok] at h
    obtain ⟨h1, -, h2, ⟨sh, h3, h4⟩, h5⟩ := h
    rw [Atom.elem, Atom.typst]
    exact shows_postfix h2.2.2 h3 h4 h5 (Atom.shows base h1)
  | .prime base, h, env => by
    rw [Atom.Ok] at h
    rw [Atom.elem, Atom.typst]
    exact shows_prime (Atom.shows base h.1 env)
  | .script base super s, h, env => by
    rw [Atom.Ok] at h
    rw [Atom.elem, Atom.typst]
    exact shows_script (Atom.shows base h.1 env) (Script.shows s h.2.2 env)
  | .delimited l f r, h, env => by
    rw [Atom.Ok] at h
    rw [Atom.elem, Atom.typst]
    have := ShowsEach.cons (shows_left (env := env) (n := n) h.1) ((Formula.shows f h.2.1 env).append (.one (shows_right h.2.2.1)))
    simp only [List.append_assoc] at this ⊢
    exact shows_container (.inl rfl) this
  | .over l name r, h, env => by
    rw [Atom.Ok] at h
    obtain ⟨h1, h2, h3, ⟨sh, h4, h5⟩, h6, -⟩ := h
    rw [Atom.elem, Atom.typst]
    have := shows_curly (spec := spec) (env := env) (n := n) false (es := [.node .itemCmd [.node .clauseArgument l.elems, leafOf (nameTok name),
      .node .clauseArgument r.elems]]) rfl fun env' => .one (shows_over (env := env') h3.2.2 h4 h5 h6 (Formula.shows l h1) (Formula.shows r h2))
    simpa using this
  | .environment name args body, h, env => by
    rw [Atom.Ok] at h
    obtain ⟨h1, -, h3, h4, sh, h5, h6, -⟩ := h
    rw [Atom.elem, Atom.typst]
    refine shows_environment h1 h5 h6 (Arguments.shows args h3.1 _) (fun e he => ?_) (Cells.shows body h4 h5 h6)
    have hk : ∀ k ∈ bodyElems, k ≠ .itemBegin ∧ k ≠ .itemEnd := by decide
    exact hk _ (body.kinds h4 e he)
theorem Script.shows {spec : CommandSpec} {n : Nat} : ∀ s : Script, s.Ok spec → ∀ env, Shows spec ⟨.math, env, n⟩ s.elem (s.typst spec)
  | .braces f, h, env => by
    rw [Script.Ok] at h
    rw [Script.elem, Script.typst]
    exact Formula.groups f h env
  | .char c, h, env => by
    rw [Script.elem, Script.typst]
    exact shows_word (x := ⟨.math, env, n⟩) [c]
  | .symbol name, h, env => by
    rw [Script.Ok] at h
    rw [Script.elem, Script.typst]
    exact shows_symbol h
theorem Formula.shows {spec : CommandSpec} {n : Nat} : ∀ f : Formula, f.Ok spec → ∀ env, ShowsEach spec ⟨.math, env, n⟩ f.elems (f.typst spec)
  | .mk lead as, h, env => by
    rw [Formula.Ok] at h
    rw [Formula.elems, Formula.typst]
    exact (shows_blanks lead).append (Atoms.shows as h env)
theorem Formula.groups {spec : CommandSpec} {n : Nat} : ∀ f : Formula, f.Ok spec → ∀ env, Shows spec ⟨.math, env, n⟩ (curlyElem f.elems) (f.grouped spec)
  | .mk lead .nil, h, env => by
    rw [Formula.elems, Atoms.elems, List.append_nil, Formula.grouped]
    exact shows_curly true (empty_blanks lead) fun env' => shows_blanks lead
  | .mk lead (.cons a sp as), h, env => by
    rw [Formula.Ok] at h
    have ha := h
    rw [Atoms.Ok] at ha
    have h1 := shows_curly (spec := spec) (env := env) (n := n) false (es := (Formula.mk lead (.cons a sp as)).elems)
      (t := spaces lead ++ (a.typst spec ++ spaces sp ++ as.typst spec)) (by
        rw [Formula.elems, Atoms.elems]
        obtain ⟨e', r, hr, hk⟩ := swallow_kind a.isText a.elem (blankElems sp)
        rw [hr, List.all_append, empty_blanks, List.cons_append, List.all_cons, not_empty (a.kind ha.1) e' hk]
        rfl) (fun env' => by
        rw [Formula.elems]
        refine (shows_blanks lead).append ?_
        have := Atoms.shows (n := n) (.cons a sp as) h env'
        rw [Atoms.typst] at this
        exact this)
    rw [Formula.grouped]
    rw [if_neg Bool.false_ne_true, List.append_nil] at h1
    exact h1
theorem Atoms.shows {spec : CommandSpec} {n : Nat} : ∀ as : Atoms, as.Ok spec → ∀ env, ShowsEach spec ⟨.math, env, n⟩ as.elems (as.typst spec)
  | .nil, h, env => by
    rw [Atoms.elems, Atoms.typst]
    exact .nil
  | .cons a sp as, h, env => by
    rw [Atoms.Ok] at h
    rw [Atoms.elems, Atoms.typst]
    refine ShowsEach.append ?_ (Atoms.shows as h.2.1 env)
    have hno : ShowsEach spec ⟨.math, env, n⟩ (a.elem :: blankElems sp) (a.typst spec ++ spaces sp) :=
      .cons (Atom.shows a h.1 env) (shows_blanks sp)
    unfold swallow
    split
    · next ht =>
      match a, ht with
      | .text ps, _ =>
        rw [Atom.elem, textElem]
        dsimp only
        rw [Atom.typst]
        exact .one (shows_container (.inr (.inr (.inr (.inl rfl)))) ((shows_parts (x := ⟨.math, env, n⟩) ps).append (shows_blanks sp)))
    · exact hno
theorem Arguments.shows {spec : CommandSpec} {n : Nat} : ∀ as : Arguments, as.Ok spec → ∀ env, ShowsList spec ⟨.math, env, n⟩ as.elems (as.typst spec)
  | .nil, h, env => by
    rw [Arguments.elems, Arguments.typst]
    exact .nil
  | .cons square f as, h, env => by
    rw [Arguments.Ok] at h
    rw [Arguments.elems, Arguments.typst]
    refine .cons (shows_container (.inr (.inl rfl)) (.one ?_)) (Arguments.shows as h.2.2 env)
    cases square with
    | false => exact Formula.groups f h.1 env
    | true =>
      have := ShowsEach.cons (x := ⟨.math, env, n⟩) (e := leafOf lsquare) (t := t!"\\[") (.of rfl (.one _))
        ((Formula.shows f h.1 env).append (.one (e := leafOf rsquare) (t := t!"\\]") (.of rfl (.one _))))
      simp only [if_true, List.append_assoc]
      exact shows_container (.inr (.inr (.inr (.inr rfl)))) this
  | .bare c as, h, env => by
    rw [Arguments.Ok] at h
    rw [Arguments.elems, Arguments.typst]
    exact .cons (shows_container (.inr (.inl rfl)) (.one (shows_word (x := ⟨.math, env, n⟩) [c]))) (Arguments.shows as h.2 env)
  | .symbol name as, h, env => by
    rw [Arguments.Ok] at h
    rw [Arguments.elems, Arguments.typst]
    exact .cons (shows_container (.inr (.inl rfl)) (.one (shows_symbol h.1))) (Arguments.shows as h.2.1 env)
  | .spaced m as, h, env => by
    rw [Arguments.Ok] at h
    rw [Arguments.elems, Arguments.typst]
    exact Arguments.shows as h.2.2 env
theorem Cells.shows {spec : CommandSpec} {n : Nat} {name : Text} {sh : EnvShape} : ∀ r : Cells, r.Ok spec → spec name = some (.env sh) →
    (sh.ctx = .isMatrix ∨ sh.ctx = .isCases ∨ sh.ctx = .isMath) → ShowsEach spec ⟨.math, insideOf sh, n⟩ r.elems (r.typst spec name)
  | .last f, h, hs, hc => by
    rw [Cells.Ok] at h
    rw [Cells.elems, Cells.typst]
    exact Formula.shows f h _
  | .cons f endsRow r, h, hs, hc => by
    rw [Cells.Ok] at h
    rw [Cells.elems, Cells.typst, List.append_assoc]
    exact (Formula.shows f h.1 _).append (.cons (shows_separator hs hc endsRow) (Cells.shows r h.2 hs hc))
end

end Mitex
