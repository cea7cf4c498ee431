/-
The tokens of documents (Spec/Document.lean): the lexical grammar cuts their text into them, and the macro engine hands them on.
-/
import Verif.Spec.Document
import Verif.Proof.FormulaMacro

namespace Mitex

/-! ## Tokens -/

def Blank.tok : Blank → Tok
  | .blanks w => (.whitespace, w)
  | .lines w => (.lineBreak, w)
  | .comment w => (.lineComment, '%' :: w)

def fillToks (bs : List Blank) : List Tok := bs.map Blank.tok

def TextItem.tok : TextItem → Tok
  | .word w => (.word, w)
  | .comma => (.comma, [','])
  | .blank b => b.tok

def Marks.open : Marks → Tok
  | .dollar => (.dollar, t!"$")
  | .dollars => (.dollar, t!"$$")
  | .parens => (.cmd .beginMath, t!"\\(")
  | .brackets => (.cmd .beginMath, t!"\\[")

def Marks.close : Marks → Tok
  | .dollar => (.dollar, t!"$")
  | .dollars => (.dollar, t!"$$")
  | .parens => (.cmd .endMath, t!"\\)")
  | .brackets => (.cmd .endMath, t!"\\]")

def newlineTok : Tok := (.newLine, t!"\\\\")
def apostropheTok : Tok := (.apostrophe, ['\''])

def ampTok : Tok := (.ampersand, ['&'])
def slashTok : Tok := (.slash, ['/'])
def commaTok : Tok := (.comma, [','])

def ImageUnit.toks : ImageUnit → List Tok → List Tok
  | .plain, k => k
  | .width, k => nameTok t!"textwidth" :: k
  | .height, k => nameTok t!"textheight" :: k

/-- A word with the option. -/
def ImageOption.word (o : ImageOption) : Text := o.key ++ '=' :: o.value

/-- The blanks before an option. -/
def leadToks (w : Text) : List Tok := if w.isEmpty then [] else [(.whitespace, w)]

def ImageOption.toks (o : ImageOption) (k : List Tok) : List Tok := leadToks o.lead ++ (.word, o.word) :: o.unit.toks k

def optionsToks : List ImageOption → List Tok → List Tok
  | [], k => k
  | [o], k => o.toks k
  | o :: p :: os, k => o.toks (commaTok :: optionsToks (p :: os) k)

def fileToks : List Text → List Tok → List Tok
  | [], k => k
  | [w], k => (.word, w) :: k
  | w :: v :: ws, k => (.word, w) :: slashTok :: fileToks (v :: ws) k

def optToks : Option Text → List Tok → List Tok
  | none, k => k
  | some w, k => lsquare :: (.word, w) :: rsquare :: k

def rulesToks : TableRules → List Tok → List Tok
  | [], k => k
  | (name, fill) :: rs, k => nameTok name :: (fillToks fill ++ rulesToks rs k)

mutual
/-- The tokens of a part, with those that follow. -/
def Prose.toks : Prose → List Tok → List Tok
  | .text is, k => is.map TextItem.tok ++ k
  | .apostrophe, k => apostropheTok :: k
  | .sign c, k => (signTok c, [c]) :: k
  | .newline, k => newlineTok :: k
  | .symbol name, k => nameTok name :: k
  | .group d, k => lcurly :: d.toks (rcurly :: k)
  | .command name args, k => nameTok name :: args.toks k
  | .formula m f, k => m.open :: f.toks (m.close :: k)
  | .equations name args body, k => (Atom.environment name args body).toks k
  | .label l, k => nameTok t!"label" :: lcurly :: (.word, l) :: rcurly :: k
  | .item, k => nameTok t!"item" :: k
  | .environment name d, k => (.cmd .beginEnv, name) :: d.toks ((.cmd .endEnv, name) :: k)
  | .image opts file, k => nameTok t!"includegraphics" ::
    (if opts.isEmpty then lcurly :: fileToks file (rcurly :: k) else lsquare :: optionsToks opts (rsquare :: lcurly :: fileToks file (rcurly :: k)))
  | .colored name model color body, k => nameTok name :: optToks model (lcurly :: color.toks (rcurly :: lcurly :: body.toks (rcurly :: k)))
  | .table name cols fill cells rules, k => (.cmd .beginEnv, name) :: lcurly :: (.word, cols) :: rcurly ::
    (fillToks fill ++ cells.toks (rulesToks rules ((.cmd .endEnv, name) :: k)))
  | .figure name opt fill head ps tail, k => (.cmd .beginEnv, name) :: optToks opt
    (fillToks fill ++ head.toks (ps.toks (tail.toks ((.cmd .endEnv, name) :: k))))
def Doc.toks : Doc → List Tok → List Tok
  | .mk lead ps, k => fillToks lead ++ ps.toks k
def Proses.toks : Proses → List Tok → List Tok
  | .nil, k => k
  | .cons p fill ps, k => p.toks (fillToks fill ++ ps.toks k)
def DocArgs.toks : DocArgs → List Tok → List Tok
  | .nil, k => k
  | .cons square d as, k => (if square then lsquare else lcurly) :: d.toks ((if square then rsquare else rcurly) :: as.toks k)
def TableCells.toks : TableCells → List Tok → List Tok
  | .nil, k => k
  | .cons rules ps ends fill cs, k => rulesToks rules (ps.toks ((if ends then newlineTok else ampTok) :: (fillToks fill ++ cs.toks k)))
def FigMarks.toks : FigMarks → List Tok → List Tok
  | .nil, k => k
  | .centering fill ms, k => nameTok t!"centering" :: (fillToks fill ++ ms.toks k)
  | .caption d fill ms, k => nameTok t!"caption" :: lcurly :: d.toks (rcurly :: (fillToks fill ++ ms.toks k))
  | .label l fill ms, k => nameTok t!"label" :: lcurly :: (.word, l) :: rcurly :: (fillToks fill ++ ms.toks k)
end

/-! ## Lexing -/

theorem lex_fillBlank {spec : CommandSpec} {b : Blank} {rest : Text} {ts : List Tok} (hb : b.Ok rest) (h : Tokenized spec rest ts) :
    Tokenized spec (b.latex ++ rest) (b.tok :: ts) := by
  cases b with
  | blanks w => exact .cons _ _ _ _ _ (.whitespace w rest hb.1 hb.2.1 hb.2.2) h
  | lines w => exact .cons _ _ _ _ _ (.lineBreak w rest hb.1 hb.2.1 hb.2.2) h
  | comment w =>
    refine .cons _ _ _ _ _ (.comment w rest (fun c hc => not_or.mp (hb.1 c hc)) (fun c hc => ?_)) h
    rintro ⟨h1, h2⟩
    exact hb.2 c hc fun h => h.elim h1 h2

theorem lex_fill {spec : CommandSpec} {rest : Text} {ts : List Tok} (h : Tokenized spec rest ts) : ∀ (bs : List Blank), FillOk rest bs →
    Tokenized spec (fillLatex bs ++ rest) (fillToks bs ++ ts)
  | [], _ => h
  | b :: bs, hb => by
    rw [fillLatex, List.append_assoc]
    exact lex_fillBlank hb.1 (lex_fill h bs hb.2)

theorem lex_items {spec : CommandSpec} {rest : Text} {ts : List Tok} (h : Tokenized spec rest ts) : ∀ (is : List TextItem), ItemsOk rest is →
    Tokenized spec (itemsLatex is ++ rest) (is.map TextItem.tok ++ ts)
  | [], _ => h
  | i :: is, hi => by
    rw [itemsLatex, List.append_assoc]
    have hr := lex_items h is hi.2
    have h1 := hi.1
    cases i with
    | word w => exact .cons _ _ _ _ _ (.word w _ h1.1 h1.2.1 h1.2.2) hr
    | comma => exact lex_punct (by decide) hr
    | blank b => exact lex_fillBlank h1 hr

theorem Atom.notDollar {spec : CommandSpec} : ∀ a : Atom, a.Ok spec → ∃ c r, a.latex = c :: r ∧ c ≠ '$'
  | .text ps, h => by
    rw [Atom.Ok] at h
    obtain ⟨h, hb⟩ := h
    rw [Atom.latex]
    cases ps with
    | nil => exact h.elim
    | cons p ps =>
      cases p with
      | word w =>
        obtain ⟨⟨h0, h1, -⟩, -⟩ := h
        cases w with
        | nil => exact absurd rfl h0
        | cons c w =>
          refine ⟨c, w ++ partsLatex ps, rfl, fun hc => ?_⟩
          subst hc
          exact (h1 '$' List.mem_cons_self).2 (by decide)
      | comma => exact ⟨',', _, rfl, by decide⟩
      | blank n => exact absurd rfl (hb n)
  | .sign c, h => by
    rw [Atom.Ok] at h
    have : ∀ c ∈ signs, c ≠ '$' := by decide
    exact ⟨c, [], by rw [Atom.latex], this c h⟩
  | .symbol name, _ => ⟨'\\', name, by rw [Atom.latex], by decide⟩
  | .group f, _ => ⟨'{', f.latex ++ ['}'], by rw [Atom.latex], by decide⟩
  | .command name args, _ => ⟨'\\', name ++ args.latex, by rw [Atom.latex], by decide⟩
  | .textCommand name ps, _ => ⟨'\\', _, by rw [Atom.latex], by decide⟩
  | .postfix base name, h => by
    rw [Atom.Ok] at h
    obtain ⟨c, r, h1, h2⟩ := Atom.notDollar base h.1
    exact ⟨c, r ++ '\\' :: name, by rw [Atom.latex, h1]; rfl, h2⟩
  | .prime base, h => by
    rw [Atom.Ok] at h
    obtain ⟨c, r, h1, h2⟩ := Atom.notDollar base h.1
    exact ⟨c, r ++ ['\''], by rw [Atom.latex, h1]; rfl, h2⟩
  | .script base super s, h => by
    rw [Atom.Ok] at h
    obtain ⟨c, r, h1, h2⟩ := Atom.notDollar base h.1
    exact ⟨c, _, by rw [Atom.latex, h1]; rfl, h2⟩
  | .delimited l f r, _ => ⟨'\\', _, by rw [Atom.latex]; rfl, by decide⟩
  | .over l name r, _ => ⟨'{', _, by rw [Atom.latex], by decide⟩
  | .environment name args body, _ => ⟨'\\', _, by rw [Atom.latex]; rfl, by decide⟩

theorem Formula.notDollar {spec : CommandSpec} {f : Formula} (h : f.Ok spec) (h0 : f.latex ≠ []) (s : Text) : NoMore (· = '$') (f.latex ++ s) := by
  obtain ⟨lead, as⟩ := f
  rw [Formula.Ok] at h
  rw [Formula.latex] at h0 ⊢
  intro c hc h1
  cases lead with
  | succ n => cases hc; exact absurd h1 (by decide)
  | zero =>
    cases as with
    | nil => exact h0 (by rw [Atoms.latex]; rfl)
    | cons a sp as =>
      rw [Atoms.Ok] at h
      rw [Atoms.latex] at hc
      obtain ⟨d, r, h2, h3⟩ := a.notDollar h.1
      rw [h2] at hc
      cases hc
      exact h3 h1

theorem lex_open {spec : CommandSpec} {m : Marks} {s : Text} {ts : List Tok} (hd : m = .dollar → NoMore (· = '$') s)
    (h : Tokenized spec s ts) : Tokenized spec (m.left ++ s) (m.open :: ts) := by
  cases m with
  | dollar => exact .cons _ _ _ _ _ (.dollar s (hd rfl)) h
  | dollars => exact .cons _ _ _ _ _ (.dollars s) h
  | parens => exact .cons _ _ _ _ _ (.beginMath '(' s (.inl rfl)) h
  | brackets => exact .cons _ _ _ _ _ (.beginMath '[' s (.inr rfl)) h

theorem lex_close {spec : CommandSpec} {m : Marks} {s : Text} {ts : List Tok} (hd : m = .dollar → NoMore (· = '$') s)
    (h : Tokenized spec s ts) : Tokenized spec (m.right ++ s) (m.close :: ts) := by
  cases m with
  | dollar => exact .cons _ _ _ _ _ (.dollar s (hd rfl)) h
  | dollars => exact .cons _ _ _ _ _ (.dollars s) h
  | parens => exact .cons _ _ _ _ _ (.endMath ')' s (.inl rfl)) h
  | brackets => exact .cons _ _ _ _ _ (.endMath ']' s (.inr rfl)) h

/-- Names of letters that are not words of the lexer. -/
def FreeName (name : Text) : Prop := name ≠ [] ∧ Lettered name ∧ name ≠ t!"begin" ∧ name ≠ t!"end" ∧ ∀ p ∈ builtinCommands, p.1 ≠ name

instance (name : Text) : Decidable (FreeName name) := by unfold FreeName Lettered; infer_instance

/-- The names of `specialCommands`, and others that are known to be free. -/
def freeNames : List Text := [t!"item", t!"label", t!"includegraphics", t!"textcolor", t!"colorbox", t!"textwidth", t!"textheight", t!"caption",
  t!"centering"] ++ ruleNames

theorem freeNames_free : ∀ n ∈ freeNames, FreeName n ∧ defaultMacros n = none := by decide

theorem lex_word_name {spec : CommandSpec} {name s : Text} {ts : List Tok} (hn : name ∈ freeNames)
    (he : NameEnds s) (h : Tokenized spec s ts) : Tokenized spec ('\\' :: (name ++ s)) (nameTok name :: ts) := by
  obtain ⟨h0, h1, h2, h3, h4⟩ := (freeNames_free name hn).1
  refine .cons _ _ _ _ _ (TokenAt.command name s .generic h0 h1 (fun c hc => (he c hc).1) ?_ h2 h3 (.inr ⟨rfl, fun b hb => h4 _ hb rfl⟩)) h
  rintro ⟨hc, -⟩
  exact (he _ hc).2 rfl

theorem calm_free {name : Text} (hn : name ∈ freeNames) : Calm (nameTok name) := .inr (.unbound (freeNames_free name hn).2)

/-- A word before a special character. -/
theorem lex_word {spec : CommandSpec} {w s : Text} {c : Char} {ts : List Tok} (hw : IsWord w) (hc : c ∈ specials) (h : Tokenized spec (c :: s) ts) :
    Tokenized spec (w ++ c :: s) ((.word, w) :: ts) :=
  .cons _ _ _ _ _ (.word w _ hw.1 hw.2 (fun d hd => by cases hd; exact not_wordChar_of_special hc)) h

/-- A word in braces or brackets. -/
theorem lex_braced {spec : CommandSpec} {w s : Text} {ts : List Tok} (hw : IsWord w) (h : Tokenized spec s ts) :
    Tokenized spec ('{' :: (w ++ '}' :: s)) (lcurly :: (.word, w) :: rcurly :: ts) :=
  lex_punct (c := '{') (k := .left .curly) (by decide) (lex_word hw (by decide) (lex_punct (c := '}') (k := .right .curly) (by decide) h))

theorem lex_opt {spec : CommandSpec} {opt : Option Text} {s : Text} {ts : List Tok} (hw : ∀ w, opt = some w → IsWord w) (h : Tokenized spec s ts) :
    Tokenized spec (optLatex opt ++ s) (optToks opt ts) := by
  cases opt with
  | none => exact h
  | some w =>
    have := lex_punct (c := '[') (k := .left .bracket) (by decide) (lex_word (hw w rfl) (by decide) (lex_punct (c := ']') (k := .right .bracket) (by decide) h))
    simpa [optLatex, optToks, lsquare, rsquare] using this

theorem isWord_option {o : ImageOption} {spec : CommandSpec} (h : o.Ok spec) : IsWord o.word := by
  refine ⟨?_, fun c hc => ?_⟩
  · unfold ImageOption.word
    simp
  · unfold ImageOption.word at hc
    rcases List.mem_append.mp hc with hc | hc
    · exact (h.2.1.2 c hc).1
    · rcases List.mem_cons.mp hc with rfl | hc
      · unfold WordChar; decide
      · exact (h.2.2.1.2 c hc).1

theorem lex_unit {spec : CommandSpec} {u : ImageUnit} {s : Text} {c : Char} {ts : List Tok} (hc : ¬ NameChar c ∧ c ≠ '*') (h : Tokenized spec (c :: s) ts) :
    Tokenized spec (u.latex ++ c :: s) (u.toks ts) := by
  cases u with
  | plain => exact h
  | width => exact lex_word_name (by decide) (fun d hd => by cases hd; exact hc) h
  | height => exact lex_word_name (by decide) (fun d hd => by cases hd; exact hc) h

theorem lex_option {spec spec' : CommandSpec} {o : ImageOption} {s : Text} {c : Char} {ts : List Tok} (ho : o.Ok spec') (hc : ¬ NameChar c ∧ c ≠ '*')
    (hs : c ∈ specials) (h : Tokenized spec (c :: s) ts) : Tokenized spec (o.latex ++ c :: s) (o.toks ts) := by
  have h1 : Tokenized spec (o.word ++ (o.unit.latex ++ c :: s)) ((.word, o.word) :: o.unit.toks ts) := by
    refine .cons _ _ _ _ _ (.word _ _ (isWord_option ho).1 (isWord_option ho).2 (fun d hd => ?_)) (lex_unit hc h)
    cases hu : o.unit <;> rw [hu] at hd <;> cases hd
    · exact not_wordChar_of_special hs
    · exact not_wordChar_of_special (by decide)
    · exact not_wordChar_of_special (by decide)
  have h2 : Tokenized spec (o.lead ++ (o.word ++ (o.unit.latex ++ c :: s))) (o.toks ts) := by
    unfold ImageOption.toks leadToks
    cases hl : o.lead with
    | nil => exact h1
    | cons d l =>
      refine .cons _ _ _ _ _ (.whitespace (d :: l) _ (by simp) (hl ▸ ho.1) (fun e he hb => ?_)) h1
      obtain ⟨a, r, ha⟩ : ∃ a r, o.key = a :: r := by
        cases hk : o.key with
        | nil => exact absurd hk ho.2.1.1
        | cons a r => exact ⟨a, r, rfl⟩
      unfold ImageOption.word at he
      rw [ha] at he
      cases he
      have := (ho.2.1.2 _ (by rw [ha]; exact List.mem_cons_self)).1.1
      rw [hb.1] at this
      cases this
  have : o.latex ++ c :: s = o.lead ++ (o.word ++ (o.unit.latex ++ c :: s)) := by
    simp [ImageOption.latex, ImageOption.word]
  rw [this]
  exact h2

theorem lex_options {spec spec' : CommandSpec} : ∀ (os : List ImageOption) {s : Text} {ts : List Tok}, (∀ o ∈ os, o.Ok spec') →
    Tokenized spec (']' :: s) ts → Tokenized spec (optionsLatex os ++ ']' :: s) (optionsToks os ts)
  | [], s, ts, ho, h => h
  | [o], s, ts, ho, h => lex_option (ho o List.mem_cons_self) (by decide) (by decide) h
  | o :: p :: os, s, ts, ho, h => by
    have h1 := lex_options (p :: os) (fun q hq => ho q (List.mem_cons_of_mem _ hq)) h
    have h2 := lex_option (ho o List.mem_cons_self) (by decide) (by decide) (lex_punct (c := ',') (k := .comma) (by decide) h1)
    rw [optionsLatex, List.append_assoc]
    exact h2

theorem lex_file {spec : CommandSpec} : ∀ (ws : List Text) {s : Text} {ts : List Tok}, (∀ w ∈ ws, IsWord w) →
    Tokenized spec ('}' :: s) ts → Tokenized spec (fileLatex ws ++ '}' :: s) (fileToks ws ts)
  | [], s, ts, ho, h => h
  | [w], s, ts, ho, h => lex_word (ho w List.mem_cons_self) (by decide) h
  | w :: v :: ws, s, ts, ho, h => by
    have h1 := lex_file (v :: ws) (fun q hq => ho q (List.mem_cons_of_mem _ hq)) h
    have h2 := lex_word (ho w List.mem_cons_self) (by decide) (lex_punct (c := '/') (k := .slash) (by decide) h1)
    rw [fileLatex, List.append_assoc]
    exact h2

theorem ruleNames_free {n : Text} (h : n ∈ ruleNames) : n ∈ freeNames := List.mem_append_right _ h

theorem lex_rules {spec spec' : CommandSpec} : ∀ (rs : TableRules) {s : Text} {ts : List Tok}, RulesOk spec' s rs → Tokenized spec s ts →
    Tokenized spec (rulesLatex rs ++ s) (rulesToks rs ts)
  | [], s, ts, ho, h => h
  | (name, fill) :: rs, s, ts, ho, h => by
    obtain ⟨h1, -, h3, h4, -, h6⟩ := ho
    have := lex_word_name (ruleNames_free h1) h3 (lex_fill (lex_rules rs h6 h) fill h4)
    rw [rulesLatex, rulesToks]
    simpa using this

theorem isWord_cols {cols : Text} (h0 : cols ≠ []) (h : ∀ c ∈ cols, isColumnChar c) : IsWord cols := by
  refine ⟨h0, fun c hc => ?_⟩
  rcases h c hc with rfl | rfl | rfl | rfl <;> (unfold WordChar; decide)

theorem DocArgs.nameEnds {as : DocArgs} (h : as.kinds ≠ []) (rest : Text) : NameEnds (as.latex ++ rest) := by
  cases as with
  | nil => exact absurd rfl h
  | cons square d as =>
    rw [DocArgs.latex]
    cases square <;> exact .of (by decide)

theorem Marks.ends (m : Marks) (s : Text) : Ends (m.right ++ s) := by
  cases m <;> exact .of (by decide)

mutual
theorem Prose.lex {spec : CommandSpec} : ∀ (p : Prose) {x : Place} {rest : Text} {ts : List Tok}, p.Ok spec x rest → Tokenized spec rest ts →
    Tokenized spec (p.latex ++ rest) (p.toks ts)
  | .text is, x, rest, ts, hok, h => by
    rw [Prose.Ok] at hok
    rw [Prose.latex, Prose.toks]
    exact lex_items h is hok.2
  | .apostrophe, x, rest, ts, hok, h => by
    rw [Prose.latex, Prose.toks]
    exact lex_punct (by decide) h
  | .sign c, x, rest, ts, hok, h => by
    rw [Prose.Ok] at hok
    rw [Prose.latex, Prose.toks]
    exact lex_punct (signTok_mem hok) h
  | .newline, x, rest, ts, hok, h => by
    rw [Prose.latex, Prose.toks]
    exact .cons _ _ _ _ _ (.newLine _) h
  | .symbol name, x, rest, ts, hok, h => by
    rw [Prose.Ok] at hok
    rw [Prose.latex, Prose.toks]
    exact lex_name hok.1.1 (symbolOk_some hok.1) hok.2.2 h
  | .group d, x, rest, ts, hok, h => by
    rw [Prose.Ok] at hok
    rw [Prose.latex, Prose.toks]
    have := Doc.lex d hok (lex_punct (c := '}') (k := .right .curly) (by decide) h)
    simpa [lcurly, rcurly] using lex_punct (c := '{') (k := .left .curly) (by decide) this
  | .command name args, x, rest, ts, hok, h => by
    rw [Prose.Ok] at hok
    obtain ⟨h1, -, h2, ⟨p, ⟨sh, h3, -⟩, -⟩, -, h4⟩ := hok
    rw [Prose.latex, Prose.toks]
    have := DocArgs.lex args h4 h
    simpa using lex_name h1 (by rw [h3]; rfl) (fun _ => args.nameEnds h2 rest) this
  | .formula m f, x, rest, ts, hok, h => by
    rw [Prose.Ok] at hok
    obtain ⟨h1, h2⟩ := hok
    rw [Prose.latex, Prose.toks]
    have a1 := lex_close (m := m) (fun hm => (h2 hm).2) h
    have a2 := f.lex h1 a1 (m.ends rest)
    have a3 := lex_open (m := m) (fun hm => Formula.notDollar h1 (h2 hm).1 _) a2
    simpa using a3
  | .equations name args body, x, rest, ts, hok, h => by
    rw [Prose.Ok] at hok
    have := (Atom.environment name args body).lex hok h (fun h => h.elim) (fun h => by cases h)
    rw [Prose.latex, Prose.toks]
    rw [Atom.latex] at this
    exact this
  | .label l, x, rest, ts, hok, h => by
    rw [Prose.Ok] at hok
    rw [Prose.latex, Prose.toks]
    have a4 := lex_word_name (name := t!"label") (by decide) (.of (by decide)) (lex_braced hok.2.2 h)
    simpa [lcurly] using a4
  | .item, x, rest, ts, hok, h => by
    rw [Prose.Ok] at hok
    rw [Prose.latex, Prose.toks]
    exact lex_word_name (name := t!"item") (by decide) hok.2.2.2 h
  | .environment name d, x, rest, ts, hok, h => by
    rw [Prose.Ok] at hok
    obtain ⟨h1, -, -, h2⟩ := hok
    rw [Prose.latex, Prose.toks]
    have a1 := lex_end h1 h
    have a2 := Doc.lex d h2 a1
    have a3 := lex_begin h1 a2
    simpa using a3
  | .image opts file, x, rest, ts, hok, h => by
    rw [Prose.Ok] at hok
    obtain ⟨-, h1, h2, h3⟩ := hok
    rw [Prose.latex, Prose.toks]
    have a1 := lex_punct (c := '{') (k := .left .curly) (by decide) (lex_file file h3 (lex_punct (c := '}') (k := .right .curly) (by decide) h))
    cases opts with
    | nil =>
      have a2 := lex_word_name (name := t!"includegraphics") (by decide) (.of (by decide)) a1
      simpa [lcurly, rcurly] using a2
    | cons o os =>
      have a2 := lex_punct (c := '[') (k := .left .bracket) (by decide) (lex_options (o :: os) h1 (lex_punct (c := ']') (k := .right .bracket) (by decide) a1))
      have a3 := lex_word_name (name := t!"includegraphics") (by decide) (.of (by decide)) a2
      simpa [lcurly, rcurly, lsquare, rsquare] using a3
  | .colored name model color body, x, rest, ts, hok, h => by
    rw [Prose.Ok] at hok
    obtain ⟨h1, -, h2, h3, h4⟩ := hok
    rw [Prose.latex, Prose.toks]
    have a1 := Doc.lex body h4 (lex_punct (c := '}') (k := .right .curly) (by decide) h)
    have a2 := Doc.lex color h3 (lex_punct (c := '}') (k := .right .curly) (by decide) (lex_punct (c := '{') (k := .left .curly) (by decide) a1))
    have a3 := lex_opt h2 (lex_punct (c := '{') (k := .left .curly) (by decide) a2)
    have a4 := lex_word_name (name := name) (by rcases h1 with rfl | rfl <;> decide) (by cases model <;> exact .of (by decide)) a3
    simpa [lcurly, rcurly] using a4
  | .table name cols fill cells rules, x, rest, ts, hok, h => by
    rw [Prose.Ok] at hok
    obtain ⟨h1, -, -, h2, h3, h4, -, h5, h6⟩ := hok
    rw [Prose.latex, Prose.toks]
    have a1 := lex_rules rules h6 (lex_end h1 h)
    have a2 := lex_begin h1 (lex_braced (isWord_cols h2 h3) (lex_fill (TableCells.lex cells h5 a1) fill h4))
    simpa using a2
  | .figure name opt fill head ps tail, x, rest, ts, hok, h => by
    rw [Prose.Ok] at hok
    obtain ⟨h1, -, ⟨sh, -, -, -, h2⟩, h3, h4, -, h5, -, h6⟩ := hok
    rw [Prose.latex, Prose.toks]
    have a1 := FigMarks.lex head h4 (Proses.lex ps h5 (FigMarks.lex tail h6 (lex_end h1 h)))
    have a2 := lex_begin h1 (lex_opt (fun w hw => (h2 w hw).2) (lex_fill a1 fill h3))
    simpa using a2
theorem Doc.lex {spec : CommandSpec} : ∀ (d : Doc) {x : Place} {rest : Text} {ts : List Tok}, d.Ok spec x rest → Tokenized spec rest ts →
    Tokenized spec (d.latex ++ rest) (d.toks ts)
  | .mk lead ps, x, rest, ts, hok, h => by
    rw [Doc.Ok] at hok
    rw [Doc.latex, Doc.toks, List.append_assoc]
    exact lex_fill (Proses.lex ps hok.2 h) lead hok.1
theorem Proses.lex {spec : CommandSpec} : ∀ (ps : Proses) {x : Place} {rest : Text} {ts : List Tok}, ps.Ok spec x rest → Tokenized spec rest ts →
    Tokenized spec (ps.latex ++ rest) (ps.toks ts)
  | .nil, x, rest, ts, hok, h => by
    rw [Proses.latex, Proses.toks]
    exact h
  | .cons p fill ps, x, rest, ts, hok, h => by
    rw [Proses.Ok] at hok
    obtain ⟨h1, h2, -, h3⟩ := hok
    rw [Proses.latex, Proses.toks, List.append_assoc, List.append_assoc]
    exact Prose.lex p h1 (lex_fill (Proses.lex ps h3 h) fill h2)
theorem DocArgs.lex {spec : CommandSpec} : ∀ (as : DocArgs) {x : Place} {rest : Text} {ts : List Tok}, as.Ok spec x rest → Tokenized spec rest ts →
    Tokenized spec (as.latex ++ rest) (as.toks ts)
  | .nil, x, rest, ts, hok, h => by
    rw [DocArgs.latex, DocArgs.toks]
    exact h
  | .cons square d as, x, rest, ts, hok, h => by
    rw [DocArgs.Ok] at hok
    obtain ⟨h1, -, h3⟩ := hok
    rw [DocArgs.latex, DocArgs.toks]
    have a1 := DocArgs.lex as h3 h
    cases square
    · have a2 := Doc.lex d h1 (lex_punct (c := '}') (k := .right .curly) (by decide) a1)
      simpa [lcurly, rcurly] using lex_punct (c := '{') (k := .left .curly) (by decide) a2
    · have a2 := Doc.lex d h1 (lex_punct (c := ']') (k := .right .bracket) (by decide) a1)
      simpa [lsquare, rsquare] using lex_punct (c := '[') (k := .left .bracket) (by decide) a2
theorem TableCells.lex {spec : CommandSpec} : ∀ (cs : TableCells) {x : Place} {rest : Text} {ts : List Tok}, cs.Ok spec x rest → Tokenized spec rest ts →
    Tokenized spec (cs.latex ++ rest) (cs.toks ts)
  | .nil, x, rest, ts, hok, h => by
    rw [TableCells.latex, TableCells.toks]
    exact h
  | .cons rules ps ends fill cs, x, rest, ts, hok, h => by
    rw [TableCells.Ok] at hok
    obtain ⟨h1, h2, -, h3, -, h4⟩ := hok
    rw [TableCells.latex, TableCells.toks]
    have a1 := lex_fill (TableCells.lex cs h4 h) fill h3
    have a2 : Tokenized spec ((if ends then t!"\\\\" else t!"&") ++ (fillLatex fill ++ (cs.latex ++ rest)))
        ((if ends then newlineTok else ampTok) :: (fillToks fill ++ cs.toks ts)) := by
      cases ends
      · exact lex_punct (c := '&') (k := .ampersand) (by decide) a1
      · exact .cons _ _ _ _ _ (.newLine _) a1
    have a3 := lex_rules rules h1 (Proses.lex ps h2 a2)
    simpa using a3
theorem FigMarks.lex {spec : CommandSpec} : ∀ (ms : FigMarks) {x : Place} {rest : Text} {ts : List Tok}, ms.Ok spec x rest → Tokenized spec rest ts →
    Tokenized spec (ms.latex ++ rest) (ms.toks ts)
  | .nil, x, rest, ts, hok, h => by
    rw [FigMarks.latex, FigMarks.toks]
    exact h
  | .centering fill ms, x, rest, ts, hok, h => by
    rw [FigMarks.Ok] at hok
    obtain ⟨-, h1, h2, h3⟩ := hok
    rw [FigMarks.latex, FigMarks.toks]
    have := lex_word_name (name := t!"centering") (by decide) h1 (lex_fill (FigMarks.lex ms h3 h) fill h2)
    simpa using this
  | .caption d fill ms, x, rest, ts, hok, h => by
    rw [FigMarks.Ok] at hok
    obtain ⟨-, h1, h2, h3⟩ := hok
    rw [FigMarks.latex, FigMarks.toks]
    have a1 := Doc.lex d h1 (lex_punct (c := '}') (k := .right .curly) (by decide) (lex_fill (FigMarks.lex ms h3 h) fill h2))
    have a2 := lex_word_name (name := t!"caption") (by decide) (.of (by decide)) (lex_punct (c := '{') (k := .left .curly) (by decide) a1)
    simpa [lcurly, rcurly] using a2
  | .label l fill ms, x, rest, ts, hok, h => by
    rw [FigMarks.Ok] at hok
    obtain ⟨-, h1, h2, h3⟩ := hok
    rw [FigMarks.latex, FigMarks.toks]
    have a1 := lex_word_name (name := t!"label") (by decide) (.of (by decide)) (lex_braced h1 (lex_fill (FigMarks.lex ms h3 h) fill h2))
    simpa [lcurly] using a1
end

/-! ## Macros -/

theorem calm_fillBlank (b : Blank) : Calm b.tok := by
  cases b <;> exact calm_of fun n h => (by cases h)

theorem calm_fill (bs : List Blank) : AllCalm (fillToks bs) := by
  intro t ht
  obtain ⟨b, -, rfl⟩ := List.mem_map.mp ht
  exact calm_fillBlank b

theorem calm_items (is : List TextItem) : AllCalm (is.map TextItem.tok) := by
  intro t ht
  obtain ⟨i, -, rfl⟩ := List.mem_map.mp ht
  cases i with
  | blank b => exact calm_fillBlank b
  | _ => exact calm_of fun n h => (by cases h)

theorem calm_open (m : Marks) : Calm m.open := by
  cases m
  · exact calm_of fun n h => (by cases h)
  · exact calm_of fun n h => (by cases h)
  all_goals exact .inl (by refine ⟨?_, ?_, ?_, ?_, fun i => ?_⟩ <;> exact fun h => (by cases h))

theorem calm_close (m : Marks) : Calm m.close := by
  cases m
  · exact calm_of fun n h => (by cases h)
  · exact calm_of fun n h => (by cases h)
  all_goals exact .inl (by refine ⟨?_, ?_, ?_, ?_, fun i => ?_⟩ <;> exact fun h => (by cases h))

theorem calm_word (w : Text) : Calm (.word, w) := calm_of fun n h => (by cases h)

theorem calm_unit (u : ImageUnit) {k : List Tok} (h : AllCalm k) : AllCalm (u.toks k) := by
  cases u
  · exact h
  · exact .cons (calm_free (by decide)) h
  · exact .cons (calm_free (by decide)) h

theorem calm_option (o : ImageOption) {k : List Tok} (h : AllCalm k) : AllCalm (o.toks k) := by
  unfold ImageOption.toks leadToks
  have := AllCalm.cons (calm_word o.word) (calm_unit o.unit h)
  cases o.lead with
  | nil => exact this
  | cons c l => exact .cons (calm_of fun n h => (by cases h)) this

theorem calm_options : ∀ (os : List ImageOption) {k : List Tok}, AllCalm k → AllCalm (optionsToks os k)
  | [], k, h => h
  | [o], k, h => calm_option o h
  | o :: p :: os, k, h => calm_option o (.cons (calm_of fun n h => (by cases h)) (calm_options (p :: os) h))

theorem calm_file : ∀ (ws : List Text) {k : List Tok}, AllCalm k → AllCalm (fileToks ws k)
  | [], k, h => h
  | [w], k, h => .cons (calm_word w) h
  | w :: v :: ws, k, h => .cons (calm_word w) (.cons (calm_of fun n h => (by cases h)) (calm_file (v :: ws) h))

theorem calm_opt (o : Option Text) {k : List Tok} (h : AllCalm k) : AllCalm (optToks o k) := by
  cases o with
  | none => exact h
  | some w => exact .cons calm_lsquare (.cons (calm_word w) (.cons calm_rsquare h))

theorem calm_rules {spec : CommandSpec} : ∀ (rs : TableRules) {s : Text} {k : List Tok}, RulesOk spec s rs → AllCalm k → AllCalm (rulesToks rs k)
  | [], s, k, ho, h => h
  | (name, fill) :: rs, s, k, ho, h => by
    obtain ⟨h1, -, -, -, -, h6⟩ := ho
    exact .cons (calm_free (ruleNames_free h1)) ((calm_fill fill).append (calm_rules rs h6 h))

mutual
theorem Prose.calm {spec : CommandSpec} : ∀ (p : Prose) {x : Place} {rest : Text}, p.Ok spec x rest → ∀ {k : List Tok}, AllCalm k → AllCalm (p.toks k)
  | .text is, x, rest, hok, k, h => by
    rw [Prose.toks]
    exact (calm_items is).append h
  | .apostrophe, x, rest, hok, k, h => by
    rw [Prose.toks]
    exact .cons (calm_of fun n h => (by cases h)) h
  | .sign c, x, rest, hok, k, h => by
    rw [Prose.toks]
    exact .cons (calm_sign c) h
  | .newline, x, rest, hok, k, h => by
    rw [Prose.toks]
    exact .cons (calm_of fun n h => (by cases h)) h
  | .symbol name, x, rest, hok, k, h => by
    rw [Prose.Ok] at hok
    rw [Prose.toks]
    exact .cons (calm_name hok.1.1) h
  | .group d, x, rest, hok, k, h => by
    rw [Prose.Ok] at hok
    rw [Prose.toks]
    exact .cons calm_lcurly (Doc.calm d hok (.cons calm_rcurly h))
  | .command name args, x, rest, hok, k, h => by
    rw [Prose.Ok] at hok
    rw [Prose.toks]
    exact .cons (calm_name hok.1) (DocArgs.calm args hok.2.2.2.2.2 h)
  | .formula m f, x, rest, hok, k, h => by
    rw [Prose.Ok] at hok
    rw [Prose.toks]
    exact .cons (calm_open m) (f.calm hok.1 (.cons (calm_close m) h))
  | .equations name args body, x, rest, hok, k, h => by
    rw [Prose.Ok] at hok
    rw [Prose.toks]
    exact (Atom.environment name args body).calm hok h
  | .label l, x, rest, hok, k, h => by
    rw [Prose.toks]
    exact .cons (.inr (.unbound (by decide))) (.cons calm_lcurly (.cons (calm_of fun n h => (by cases h)) (.cons calm_rcurly h)))
  | .item, x, rest, hok, k, h => by
    rw [Prose.toks]
    exact .cons (.inr (.unbound (by decide))) h
  | .environment name d, x, rest, hok, k, h => by
    rw [Prose.Ok] at hok
    rw [Prose.toks]
    exact .cons (calm_begin hok.2.1) (Doc.calm d hok.2.2.2 (.cons (calm_end name) h))
  | .image opts file, x, rest, hok, k, h => by
    rw [Prose.toks]
    have h1 : AllCalm (lcurly :: fileToks file (rcurly :: k)) := .cons calm_lcurly (calm_file file (.cons calm_rcurly h))
    refine .cons (calm_free (by decide)) ?_
    split
    · exact h1
    · exact .cons calm_lsquare (calm_options opts (.cons calm_rsquare h1))
  | .colored name model color body, x, rest, hok, k, h => by
    rw [Prose.Ok] at hok
    obtain ⟨h1, -, -, h3, h4⟩ := hok
    rw [Prose.toks]
    refine .cons (calm_free (by rcases h1 with rfl | rfl <;> decide)) (calm_opt model (.cons calm_lcurly (Doc.calm color h3 (.cons calm_rcurly
      (.cons calm_lcurly (Doc.calm body h4 (.cons calm_rcurly h))))))) 
  | .table name cols fill cells rules, x, rest, hok, k, h => by
    rw [Prose.Ok] at hok
    obtain ⟨-, h1, -, -, -, -, -, h5, h6⟩ := hok
    rw [Prose.toks]
    exact .cons (calm_begin h1) (.cons calm_lcurly (.cons (calm_word cols) (.cons calm_rcurly ((calm_fill fill).append
      (TableCells.calm cells h5 (calm_rules rules h6 (.cons (calm_end name) h)))))))
  | .figure name opt fill head ps tail, x, rest, hok, k, h => by
    rw [Prose.Ok] at hok
    obtain ⟨-, h1, -, -, h4, -, h5, -, h6⟩ := hok
    rw [Prose.toks]
    exact .cons (calm_begin h1) (calm_opt opt ((calm_fill fill).append (FigMarks.calm head h4 (Proses.calm ps h5 (FigMarks.calm tail h6
      (.cons (calm_end name) h))))))
theorem Doc.calm {spec : CommandSpec} : ∀ (d : Doc) {x : Place} {rest : Text}, d.Ok spec x rest → ∀ {k : List Tok}, AllCalm k → AllCalm (d.toks k)
  | .mk lead ps, x, rest, hok, k, h => by
    rw [Doc.Ok] at hok
    rw [Doc.toks]
    exact (calm_fill lead).append (Proses.calm ps hok.2 h)
theorem Proses.calm {spec : CommandSpec} : ∀ (ps : Proses) {x : Place} {rest : Text}, ps.Ok spec x rest → ∀ {k : List Tok}, AllCalm k →
    AllCalm (ps.toks k)
  | .nil, x, rest, hok, k, h => by
    rw [Proses.toks]
    exact h
  | .cons p fill ps, x, rest, hok, k, h => by
    rw [Proses.Ok] at hok
    rw [Proses.toks]
    exact Prose.calm p hok.1 ((calm_fill fill).append (Proses.calm ps hok.2.2.2 h))
theorem DocArgs.calm {spec : CommandSpec} : ∀ (as : DocArgs) {x : Place} {rest : Text}, as.Ok spec x rest → ∀ {k : List Tok}, AllCalm k →
    AllCalm (as.toks k)
  | .nil, x, rest, hok, k, h => by
    rw [DocArgs.toks]
    exact h
  | .cons square d as, x, rest, hok, k, h => by
    rw [DocArgs.Ok] at hok
    rw [DocArgs.toks]
    have h1 := DocArgs.calm as hok.2.2 h
    cases square
    · exact .cons calm_lcurly (Doc.calm d hok.1 (.cons calm_rcurly h1))
    · exact .cons calm_lsquare (Doc.calm d hok.1 (.cons calm_rsquare h1))
theorem TableCells.calm {spec : CommandSpec} : ∀ (cs : TableCells) {x : Place} {rest : Text}, cs.Ok spec x rest → ∀ {k : List Tok}, AllCalm k →
    AllCalm (cs.toks k)
  | .nil, x, rest, hok, k, h => by
    rw [TableCells.toks]
    exact h
  | .cons rules ps ends fill cs, x, rest, hok, k, h => by
    rw [TableCells.Ok] at hok
    obtain ⟨h1, h2, -, -, -, h4⟩ := hok
    rw [TableCells.toks]
    refine calm_rules rules h1 (Proses.calm ps h2 (.cons ?_ ((calm_fill fill).append (TableCells.calm cs h4 h))))
    cases ends <;> exact calm_of fun n h => (by cases h)
theorem FigMarks.calm {spec : CommandSpec} : ∀ (ms : FigMarks) {x : Place} {rest : Text}, ms.Ok spec x rest → ∀ {k : List Tok}, AllCalm k →
    AllCalm (ms.toks k)
  | .nil, x, rest, hok, k, h => by
    rw [FigMarks.toks]
    exact h
  | .centering fill ms, x, rest, hok, k, h => by
    rw [FigMarks.Ok] at hok
    rw [FigMarks.toks]
    exact .cons (calm_free (by decide)) ((calm_fill fill).append (FigMarks.calm ms hok.2.2.2 h))
  | .caption d fill ms, x, rest, hok, k, h => by
    rw [FigMarks.Ok] at hok
    rw [FigMarks.toks]
    exact .cons (calm_free (by decide)) (.cons calm_lcurly (Doc.calm d hok.2.1 (.cons calm_rcurly ((calm_fill fill).append
      (FigMarks.calm ms hok.2.2.2 h)))))
  | .label l fill ms, x, rest, hok, k, h => by
    rw [FigMarks.Ok] at hok
    rw [FigMarks.toks]
    exact .cons (calm_free (by decide)) (.cons calm_lcurly (.cons (calm_word l) (.cons calm_rcurly ((calm_fill fill).append
      (FigMarks.calm ms hok.2.2.2 h)))))
end

end Mitex
