/-
The tokens of formulas (Spec/Formula.lean), and that the lexical grammar cuts their text into them.
-/
import Verif.Spec.Formula

namespace Mitex

/-! ## Tokens -/

def blankToks (n : Nat) : List Tok := if n = 0 then [] else [(.whitespace, spaces n)]

/-- A character before a list of tokens: it continues a word. -/
def prepend (c : Char) : List Tok → List Tok
  | (.word, w) :: ts => (.word, c :: w) :: ts
  | ts => (.word, [c]) :: ts

def signTok : Char → Token
  | '(' => .left .paren
  | ')' => .right .paren
  | '[' => .left .bracket
  | ']' => .right .bracket
  | '~' => .tilde
  | '/' => .slash
  | '"' => .ditto
  | ';' => .semicolon
  | '*' => .asterisk
  | _ => .atSign

def TextPart.tok : TextPart → Tok
  | .word w => (.word, w)
  | .comma => (.comma, [','])
  | .blank n => (.whitespace, spaces n)

def nameTok (name : Text) : Tok := (.cmd .generic, '\\' :: name)
def lcurly : Tok := (.left .curly, ['{'])
def rcurly : Tok := (.right .curly, ['}'])
def lsquare : Tok := (.left .bracket, ['['])
def rsquare : Tok := (.right .bracket, [']'])
def leftTok : Tok := (.cmd .left, t!"\\left")
def rightTok : Tok := (.cmd .right, t!"\\right")
def markTok (super : Bool) : Tok := if super then (.caret, ['^']) else (.underscore, ['_'])
def sepTok (endsRow : Bool) : Tok := if endsRow then (.newLine, t!"\\\\") else (.ampersand, ['&'])

def Delim.toks : Delim → List Tok → List Tok
  | .sign c, k => (signTok c, [c]) :: k
  | .char c, k => prepend c k
  | .symbol name, k => nameTok name :: k

mutual
/-- The tokens of a part, with those that follow. -/
def Atom.toks : Atom → List Tok → List Tok
  | .text ps, k => ps.map TextPart.tok ++ k
  | .sign c, k => (signTok c, [c]) :: k
  | .symbol name, k => nameTok name :: k
  | .group f, k => lcurly :: f.toks (rcurly :: k)
  | .command name args, k => nameTok name :: args.toks k
  | .textCommand name ps, k => nameTok name :: lcurly :: (ps.map TextPart.tok ++ rcurly :: k)
  | .postfix base name, k => base.toks (nameTok name :: k)
  | .prime base, k => base.toks ((.apostrophe, ['\'']) :: k)
  | .script base super s, k => base.toks (markTok super :: s.toks k)
  | .delimited l f r, k => leftTok :: l.toks (f.toks (rightTok :: r.toks k))
  | .over l name r, k => lcurly :: l.toks (nameTok name :: r.toks (rcurly :: k))
  | .environment name args body, k => (.cmd .beginEnv, name) :: args.toks (body.toks ((.cmd .endEnv, name) :: k))
def Script.toks : Script → List Tok → List Tok
  | .braces f, k => lcurly :: f.toks (rcurly :: k)
  | .char c, k => prepend c k
  | .symbol name, k => nameTok name :: k
def Formula.toks : Formula → List Tok → List Tok
  | .mk lead as, k => blankToks lead ++ as.toks k
def Atoms.toks : Atoms → List Tok → List Tok
  | .nil, k => k
  | .cons a sp as, k => a.toks (blankToks sp ++ as.toks k)
def Arguments.toks : Arguments → List Tok → List Tok
  | .nil, k => k
  | .cons square f as, k => (if square then lsquare else lcurly) :: f.toks ((if square then rsquare else rcurly) :: as.toks k)
  | .bare c as, k => prepend c (as.toks k)
  | .symbol name as, k => nameTok name :: as.toks k
  | .spaced n as, k => blankToks n ++ as.toks k
def Cells.toks : Cells → List Tok → List Tok
  | .last f, k => f.toks k
  | .cons f endsRow r, k => f.toks (sepTok endsRow :: r.toks k)
end

/-! ## Words and blanks -/

theorem isWs_space : isWs ' ' = true := by decide

theorem not_wordChar_of_ws {c : Char} (h : isWs c = true) : ¬ WordChar c := fun hw => by
  rw [hw.1] at h; cases h

theorem not_wordChar_of_special {c : Char} (h : c ∈ specials) : ¬ WordChar c := fun hw => hw.2 h

theorem nl_ws {c : Char} (h : c = '\n' ∨ c = '\r') : isWs c = true := by
  rcases h with rfl | rfl <;> decide

theorem punctuation_special : ∀ p ∈ punctuation, p.1 ∈ specials := by decide

theorem backslash_special : '\\' ∈ specials := by decide

/-- A token that is not a word does not start with a character of a word. -/
theorem tokenAt_noWord {spec : CommandSpec} {s : Text} {k : Token} {t rest : Text} (h : TokenAt spec s k t rest) (hk : k ≠ .word) :
    NoMore (fun c => isWs c = false ∧ c ∉ specials) s := by
  have hb : ∀ {r : Text} {c : Char}, ('\\' :: r).head? = some c → ¬ WordChar c := by
    intro r c hc
    cases hc
    exact not_wordChar_of_special backslash_special
  intro c hc
  show ¬ WordChar c
  cases h with
  | lineBreak t rest h0 h1 h2 =>
    cases t with
    | nil => exact absurd rfl h0
    | cons d t => cases hc; exact not_wordChar_of_ws (nl_ws (h1 _ List.mem_cons_self))
  | whitespace t rest h0 h1 h2 =>
    cases t with
    | nil => exact absurd rfl h0
    | cons d t => cases hc; exact not_wordChar_of_ws (h1 _ List.mem_cons_self).1
  | word => exact absurd rfl hk
  | comment t rest h1 h2 => cases hc; exact not_wordChar_of_special (by decide)
  | punct d k rest h => cases hc; exact not_wordChar_of_special (punctuation_special _ h)
  | dollars => cases hc; exact not_wordChar_of_special (by decide)
  | dollar => cases hc; exact not_wordChar_of_special (by decide)
  | newLine => exact hb hc
  | backslash => exact hb hc
  | beginMath => exact hb hc
  | endMath => exact hb hc
  | symbol => exact hb hc
  | starred => exact hb hc
  | command => exact hb hc
  | beginEnv => exact hb hc
  | endEnv => exact hb hc
  | badBegin => exact hb hc
  | badEnd => exact hb hc

theorem tokenAt_word {spec : CommandSpec} {s t rest : Text} (h : TokenAt spec s .word t rest) :
    s = t ++ rest ∧ t ≠ [] ∧ (∀ c ∈ t, WordChar c) ∧ NoMore (fun c => isWs c = false ∧ c ∉ specials) rest := by
  generalize hk : Token.word = k at h
  cases h with
  | word t rest h0 h1 h2 => exact ⟨rfl, h0, h1, h2⟩
  | punct d k rest h => subst hk; exact absurd h (by simp [punctuation])
  | _ => cases hk

theorem lex_prepend {spec : CommandSpec} {c : Char} {s : Text} {ts : List Tok} (hc : WordChar c) (h : Tokenized spec s ts) :
    Tokenized spec (c :: s) (prepend c ts) := by
  have hone : ∀ d ∈ [c], isWs d = false ∧ d ∉ specials := by
    intro d hd
    rw [List.mem_singleton.mp hd]
    exact hc
  cases h with
  | nil => exact .cons _ _ _ _ _ (.word [c] [] (by simp) hone (fun d hd => (by cases hd))) .nil
  | cons s k t rest toks h1 h2 =>
    by_cases hk : k = .word
    · subst hk
      obtain ⟨rfl, h3, h4, h5⟩ := tokenAt_word h1
      refine .cons _ _ _ _ _ (.word (c :: t) rest (by simp) ?_ h5) h2
      intro d hd
      rcases List.mem_cons.mp hd with rfl | hd
      · exact hc
      · exact h4 d hd
    · have he : prepend c ((k, t) :: toks) = (.word, [c]) :: (k, t) :: toks := by
        cases k <;> first | rfl | exact absurd rfl hk
      rw [he]
      exact .cons _ _ _ _ _ (.word [c] s (by simp) hone (tokenAt_noWord h1 hk)) (.cons _ _ _ _ _ h1 h2)

theorem space_class : ∀ n, ∀ c ∈ spaces n, c = ' ' := by
  intro n c hc
  exact List.eq_of_mem_replicate hc

/-- The text does not start with a blank. -/
def NoBlank (s : Text) : Prop := ∀ c, s.head? = some c → isWs c = false

theorem spaces_ne {n : Nat} (h : 0 < n) : spaces n ≠ [] := by
  cases n with
  | zero => omega
  | succ n => simp [spaces, List.replicate_succ]

theorem lex_whitespace {spec : CommandSpec} {n : Nat} {s : Text} {ts : List Tok} (hn : 0 < n) (hs : NoBlank s) (h : Tokenized spec s ts) :
    Tokenized spec (spaces n ++ s) ((.whitespace, spaces n) :: ts) := by
  refine .cons _ _ _ _ _ (.whitespace (spaces n) s (spaces_ne hn) ?_ ?_) h
  · intro c hc
    rw [space_class n c hc]
    decide
  · intro c hc hw
    rw [hs c hc] at hw
    cases hw.1

theorem lex_blank {spec : CommandSpec} {s : Text} {ts : List Tok} (n : Nat) (hs : NoBlank s) (h : Tokenized spec s ts) :
    Tokenized spec (spaces n ++ s) (blankToks n ++ ts) := by
  unfold blankToks
  split
  · next hn => subst hn; exact h
  · exact lex_whitespace (by omega) hs h

theorem lex_punct {spec : CommandSpec} {c : Char} {k : Token} {s : Text} {ts : List Tok} (hp : (c, k) ∈ punctuation)
    (h : Tokenized spec s ts) : Tokenized spec (c :: s) ((k, [c]) :: ts) :=
  .cons _ _ _ _ _ (.punct c k s hp) h

theorem signTok_mem {c : Char} (h : c ∈ signs) : (c, signTok c) ∈ punctuation := by
  revert c
  decide

theorem delimSigns_sub {c : Char} (h : c ∈ delimSigns) : c ∈ signs := by
  revert c
  decide

/-! ## Names -/

theorem lex_name {spec : CommandSpec} {name s : Text} {ts : List Tok} (hn : PlainName name) (hs : (spec name).isSome)
    (he : Lettered name → NameEnds s) (h : Tokenized spec s ts) : Tokenized spec ('\\' :: (name ++ s)) (nameTok name :: ts) := by
  refine .cons _ _ _ _ _ ?_ h
  rcases hn.1 with ⟨h0, h1, h2, h3, h4⟩ | ⟨l, rfl, h0, h1⟩ | ⟨c, rfl, h1, h2, h3⟩
  · refine TokenAt.command name s .generic h0 h1 (fun c hc => (he h1 c hc).1) ?_ h2 h3 (.inr ⟨rfl, h4⟩)
    rintro ⟨hc, -⟩
    exact (he h1 _ hc).2 rfl
  · have := TokenAt.starred (spec := spec) l s h0 h1 hs
    simpa using this
  · exact TokenAt.symbol c s h1 h2 h3

theorem NameEnds.head {c : Char} {s : Text} (h1 : ¬ NameChar c) (h2 : c ≠ '*') : NameEnds (c :: s) := by
  intro d hd
  cases hd
  exact ⟨h1, h2⟩

theorem NameEnds.append {s t : Text} (h : NameEnds s) (ht : NameEnds t) : NameEnds (s ++ t) := by
  cases s with
  | nil => exact ht
  | cons c s => intro d hd; exact h d hd

theorem noName : ∀ c ∈ ['{', '}', '[', ']', '(', ')', '/', '\\', '&', '$', '_', '^', '\'', ' '], ¬ NameChar c ∧ c ≠ '*' := by decide

theorem NameEnds.of {c : Char} {s : Text} (h : c ∈ ['{', '}', '[', ']', '(', ')', '/', '\\', '&', '$', '_', '^', '\'', ' ']) :
    NameEnds (c :: s) := .head (noName c h).1 (noName c h).2

theorem symbolOk_some {spec : CommandSpec} {name : Text} (h : SymbolOk spec name) : (spec name).isSome := by
  obtain ⟨_, sh, h, _⟩ := h
  rw [h]; rfl

/-- `\left` and `\right` -/
theorem lex_left {spec : CommandSpec} {s : Text} {ts : List Tok} (hs : NameEnds s) (h : Tokenized spec s ts) :
    Tokenized spec (t!"\\left" ++ s) (leftTok :: ts) := by
  refine .cons _ _ _ _ _ (TokenAt.command t!"left" s .left (by decide) (by decide) (fun c hc => (hs c hc).1) ?_ (by decide) (by decide)
    (.inl (by decide))) h
  rintro ⟨hc, -⟩
  exact (hs _ hc).2 rfl

theorem lex_right {spec : CommandSpec} {s : Text} {ts : List Tok} (hs : NameEnds s) (h : Tokenized spec s ts) :
    Tokenized spec (t!"\\right" ++ s) (rightTok :: ts) := by
  refine .cons _ _ _ _ _ (TokenAt.command t!"right" s .right (by decide) (by decide) (fun c hc => (hs c hc).1) ?_ (by decide) (by decide)
    (.inl (by decide))) h
  rintro ⟨hc, -⟩
  exact (hs _ hc).2 rfl

/-! ## Clauses -/

theorem clause_plain {name rest : Text} (h : EnvName name) : Clause ('{' :: (name ++ '}' :: rest)) name rest := by
  refine ⟨'}' :: rest, ⟨[], 0, name ++ '}' :: rest, .nil, rfl, ⟨['{'], [], rfl, rfl, rfl⟩⟩, ⟨h, fun _ c hc => ?_⟩,
    ⟨[], 0, rest, .nil, rfl, ⟨['}'], [], rfl, rfl, rfl⟩⟩⟩
  cases hc
  decide

theorem lex_begin {spec : CommandSpec} {name s : Text} {ts : List Tok} (hn : EnvName name) (h : Tokenized spec s ts) :
    Tokenized spec (t!"\\begin" ++ '{' :: (name ++ '}' :: s)) ((.cmd .beginEnv, name) :: ts) :=
  .cons _ _ _ _ _ (.beginEnv _ _ _ (clause_plain hn)) h

theorem lex_end {spec : CommandSpec} {name s : Text} {ts : List Tok} (hn : EnvName name) (h : Tokenized spec s ts) :
    Tokenized spec (t!"\\end" ++ '{' :: (name ++ '}' :: s)) ((.cmd .endEnv, name) :: ts) :=
  .cons _ _ _ _ _ (.endEnv _ _ _ (clause_plain hn)) h

/-! ## Runs of text -/

theorem parts_head {ps : List TextPart} (h : PartsOk ps) :
    ∃ c r, partsLatex ps = c :: r ∧ ((∀ n, ps.head? ≠ some (.blank n)) → isWs c = false) ∧
      ((∀ v, ps.head? ≠ some (.word v)) → ¬ WordChar c) := by
  cases ps with
  | nil => exact h.elim
  | cons p ps =>
    cases p with
    | word w =>
      obtain ⟨⟨h0, h1, -⟩, -⟩ := h
      cases w with
      | nil => exact absurd rfl h0
      | cons c w =>
        exact ⟨c, w ++ partsLatex ps, rfl, fun _ => (h1 c List.mem_cons_self).1, fun hv => absurd rfl (hv (c :: w))⟩
    | comma => exact ⟨',', partsLatex ps, rfl, fun _ => by decide, fun _ => not_wordChar_of_special (by decide)⟩
    | blank n =>
      obtain ⟨⟨h0, -⟩, -⟩ := h
      cases n with
      | zero => omega
      | succ n => exact ⟨' ', spaces n ++ partsLatex ps, rfl, fun hb => absurd rfl (hb (n + 1)), fun _ => not_wordChar_of_ws (by decide)⟩

theorem lex_parts {spec : CommandSpec} {s : Text} {ts : List Tok} (hs : NoMore WordChar s) (h : Tokenized spec s ts) :
    ∀ ps : List TextPart, PartsOk ps → Tokenized spec (partsLatex ps ++ s) (ps.map TextPart.tok ++ ts) := by
  intro ps
  induction ps with
  | nil => intro hp; exact hp.elim
  | cons p ps ih =>
    intro hp
    have hrest : Tokenized spec (partsLatex ps ++ s) (ps.map TextPart.tok ++ ts) := by
      by_cases h0 : ps = []
      · subst h0; exact h
      · exact ih (hp.2 h0)
    have hcut : partsLatex (p :: ps) ++ s = p.latex ++ (partsLatex ps ++ s) := by
      simp [partsLatex]
    rw [hcut]
    cases p with
    | word w =>
      obtain ⟨h1, h2, h3⟩ := hp.1
      refine .cons _ _ _ _ _ (.word w _ h1 h2 ?_) hrest
      by_cases h0 : ps = []
      · subst h0; exact hs
      · obtain ⟨c, r, he, -, hc⟩ := parts_head (hp.2 h0)
        intro d hd
        rw [he] at hd
        cases hd
        exact hc h3
    | comma => exact lex_punct (by decide) hrest
    | blank n =>
      obtain ⟨h1, q, h2, h3⟩ := hp.1
      have h0 : ps ≠ [] := fun h0 => by subst h0; cases h2
      refine lex_whitespace h1 ?_ hrest
      obtain ⟨c, r, he, hc, -⟩ := parts_head (hp.2 h0)
      intro d hd
      rw [he] at hd
      cases hd
      refine hc fun k hk => ?_
      rw [h2] at hk
      cases hk
      exact h3 k rfl

/-! ## Formulas -/

/-- What follows a formula: the end of the group, the cell, the environment or the input. -/
def Ends (rest : Text) : Prop := ∀ c, rest.head? = some c → c ∈ ['}', ']', '\\', '&', '$']

theorem Ends.of {c : Char} {s : Text} (h : c ∈ ['}', ']', '\\', '&', '$']) : Ends (c :: s) := by
  intro d hd
  cases hd
  exact h

theorem ends_special : ∀ c ∈ ['}', ']', '\\', '&', '$'], c ∈ specials ∧ isWs c = false ∧ ¬ NameChar c ∧ c ≠ '*' := by decide

theorem Ends.nameEnds {s : Text} (h : Ends s) : NameEnds s := fun c hc => (ends_special c (h c hc)).2.2

theorem Ends.noBlank {s : Text} (h : Ends s) : NoBlank s := fun c hc => (ends_special c (h c hc)).2.1

theorem Ends.noWord {s : Text} (h : Ends s) : NoMore WordChar s :=
  fun c hc => not_wordChar_of_special (ends_special c (h c hc)).1

theorem signs_special : ∀ c ∈ signs, c ∈ specials ∧ isWs c = false := by decide

theorem Atom.head {spec : CommandSpec} : ∀ a : Atom, a.Ok spec →
    ∃ c r, a.latex = c :: r ∧ isWs c = false ∧ (a.startsText = false → c ∈ specials)
  | .text ps, h => by
    rw [Atom.Ok] at h
    obtain ⟨c, r, h1, h2, -⟩ := parts_head h.1
    exact ⟨c, r, by rw [Atom.latex, h1], h2 h.2, fun h0 => (by cases h0)⟩
  | .sign c, h => by
    rw [Atom.Ok] at h
    exact ⟨c, [], by rw [Atom.latex], (signs_special c h).2, fun _ => (signs_special c h).1⟩
  | .symbol name, _ => ⟨'\\', name, by rw [Atom.latex], by decide, fun _ => by decide⟩
  | .group f, _ => ⟨'{', f.latex ++ ['}'], by rw [Atom.latex], by decide, fun _ => by decide⟩
  | .command name args, _ => ⟨'\\', name ++ args.latex, by rw [Atom.latex], by decide, fun _ => by decide⟩
  | .textCommand name ps, _ => ⟨'\\', _, by rw [Atom.latex], by decide, fun _ => by decide⟩
  | .postfix base name, h => by
    rw [Atom.Ok] at h
    obtain ⟨c, r, h1, h2, h3⟩ := Atom.head base h.1
    exact ⟨c, r ++ '\\' :: name, by rw [Atom.latex, h1]; rfl, h2, h3⟩
  | .prime base, h => by
    rw [Atom.Ok] at h
    obtain ⟨c, r, h1, h2, h3⟩ := Atom.head base h.1
    exact ⟨c, r ++ ['\''], by rw [Atom.latex, h1]; rfl, h2, h3⟩
  | .script base super s, h => by
    rw [Atom.Ok] at h
    obtain ⟨c, r, h1, h2, h3⟩ := Atom.head base h.1
    exact ⟨c, _, by rw [Atom.latex, h1]; rfl, h2, h3⟩
  | .delimited l f r, _ => ⟨'\\', _, by rw [Atom.latex]; rfl, by decide, fun _ => by decide⟩
  | .over l name r, _ => ⟨'{', _, by rw [Atom.latex], by decide, fun _ => by decide⟩
  | .environment name args body, _ => ⟨'\\', _, by rw [Atom.latex]; rfl, by decide, fun _ => by decide⟩

theorem Atoms.noBlank {spec : CommandSpec} {as : Atoms} (h : as.Ok spec) {s : Text} (hs : NoBlank s) : NoBlank (as.latex ++ s) := by
  cases as with
  | nil => rw [Atoms.latex]; exact hs
  | cons a sp as =>
    rw [Atoms.Ok] at h
    obtain ⟨c, r, h1, h2, -⟩ := a.head h.1
    intro d hd
    rw [Atoms.latex, h1] at hd
    cases hd
    exact h2

theorem Atoms.noWord {spec : CommandSpec} {as : Atoms} (h : as.Ok spec) (ht : as.startsText = false) {s : Text} (hs : NoMore WordChar s) :
    NoMore WordChar (as.latex ++ s) := by
  cases as with
  | nil => rw [Atoms.latex]; exact hs
  | cons a sp as =>
    rw [Atoms.Ok] at h
    obtain ⟨c, r, h1, -, h2⟩ := a.head h.1
    intro d hd
    rw [Atoms.latex, h1] at hd
    cases hd
    exact not_wordChar_of_special (h2 ht)

theorem noWord_spaces {n : Nat} {s : Text} (h : NoMore WordChar s) : NoMore WordChar (spaces n ++ s) := by
  cases n with
  | zero => exact h
  | succ n =>
    intro c hc
    cases hc
    exact not_wordChar_of_ws (by decide)

theorem Delim.lex {spec : CommandSpec} (d : Delim) (hok : d.Ok spec) {rest : Text} {ts : List Tok} (h : Tokenized spec rest ts)
    (hn : d.EndsName → NameEnds rest) : Tokenized spec (d.latex ++ rest) (d.toks ts) := by
  cases d with
  | sign c => exact lex_punct (signTok_mem (delimSigns_sub hok)) h
  | char c => exact lex_prepend hok.1 h
  | symbol name => exact lex_name hok.1 (symbolOk_some hok) hn h

theorem Delim.nameEnds {spec : CommandSpec} (d : Delim) (hok : d.Ok spec) {rest : Text} : NameEnds (d.latex ++ rest) := by
  cases d with
  | sign c =>
    have hd : ∀ c ∈ delimSigns, c ∈ ['{', '}', '[', ']', '(', ')', '/', '\\', '&', '$', '_', '^', '\'', ' '] := by decide
    exact .of (hd c hok)
  | char c => exact .head hok.2 fun h => hok.1.2 (by rw [h]; decide)
  | symbol name => exact .of (by decide)

theorem Arguments.head {spec : CommandSpec} : ∀ {as : Arguments}, as.Ok spec → as.kinds ≠ [] →
    ∃ c r, as.latex = c :: r ∧ (as.isSpaced = false → isWs c = false)
  | .nil, _, hk => absurd rfl hk
  | .cons square f as, _, _ => by
    rw [Arguments.latex]
    exact ⟨_, _, rfl, fun _ => by cases square <;> decide⟩
  | .bare c as, h, _ => by
    rw [Arguments.Ok] at h
    rw [Arguments.latex]
    exact ⟨_, _, rfl, fun _ => h.1.1⟩
  | .symbol name as, h, _ => by
    rw [Arguments.latex]
    exact ⟨_, _, rfl, fun _ => by decide⟩
  | .spaced n as, h, _ => by
    rw [Arguments.Ok] at h
    obtain ⟨c, r, hl, -⟩ := Arguments.head h.2.2 h.2.1
    rw [Arguments.latex, hl]
    cases n with
    | zero => exact ⟨c, r, rfl, fun h => by cases h⟩
    | succ n => exact ⟨' ', spaces n ++ c :: r, rfl, fun h => by cases h⟩

theorem Arguments.ends {spec : CommandSpec} (as : Arguments) (h : as.Ok spec) (hk : as.kinds ≠ []) {rest : Text} (hn : NameEnds as.latex) :
    NameEnds (as.latex ++ rest) := by
  obtain ⟨c, r, hl, -⟩ := Arguments.head h hk
  rw [hl] at hn ⊢
  intro d hd
  exact hn d hd

theorem Arguments.noBlank {spec : CommandSpec} (as : Arguments) (h : as.Ok spec) (hs : as.isSpaced = false) (hk : as.kinds ≠ []) {rest : Text} :
    NoBlank (as.latex ++ rest) := by
  obtain ⟨c, r, hl, hc⟩ := Arguments.head h hk
  rw [hl]
  intro d hd
  cases hd
  exact hc hs

theorem Arguments.endsName_symbol {name : Text} {rest : Text} : ∀ as : Arguments, ((Arguments.symbol name as).EndsName → NameEnds rest) → as.EndsName → NameEnds rest
  | .nil, _, h => h.elim
  | .cons _ _ _, hn, h => hn h
  | .bare _ _, hn, h => hn h
  | .symbol _ _, hn, h => hn h
  | .spaced _ _, hn, h => hn h

theorem Arguments.ends_lettered {spec : CommandSpec} {name : Text} {rest : Text} (as : Arguments) (h : as.Ok spec) (h2 : Lettered name → NameEnds as.latex)
    (hn : (Arguments.symbol name as).EndsName → NameEnds rest) (hl : Lettered name) : NameEnds (as.latex ++ rest) := by
  cases as with
  | nil => exact hn hl
  | cons _ _ _ => exact Arguments.ends (spec := spec) _ h (fun h => by cases h) (h2 hl)
  | bare _ _ => exact Arguments.ends (spec := spec) _ h (fun h => by cases h) (h2 hl)
  | symbol _ _ => exact Arguments.ends (spec := spec) _ h (fun h => by cases h) (h2 hl)
  | spaced _ _ => exact Arguments.ends (spec := spec) _ h (by rw [Arguments.Ok] at h; exact h.2.1) (h2 hl)

mutual
theorem Atom.lex {spec : CommandSpec} : ∀ (a : Atom), a.Ok spec → ∀ {rest : Text} {ts : List Tok}, Tokenized spec rest ts →
    (a.EndsName → NameEnds rest) → (a.isText = true → NoMore WordChar rest) → Tokenized spec (a.latex ++ rest) (a.toks ts)
  | .text ps, hok, rest, ts, h, hn, ht => by
    rw [Atom.Ok] at hok
    rw [Atom.latex, Atom.toks]
    exact lex_parts (ht rfl) h ps hok.1
  | .sign c, hok, rest, ts, h, hn, ht => by
    rw [Atom.Ok] at hok
    rw [Atom.latex, Atom.toks]
    exact lex_punct (signTok_mem hok) h
  | .symbol name, hok, rest, ts, h, hn, ht => by
    rw [Atom.Ok] at hok
    rw [Atom.latex, Atom.toks]
    exact lex_name hok.1 (symbolOk_some hok) hn h
  | .group f, hok, rest, ts, h, hn, ht => by
    rw [Atom.Ok] at hok
    rw [Atom.latex, Atom.toks]
    have := Formula.lex f hok (lex_punct (c := '}') (k := .right .curly) (by decide) h) (.of (by decide))
    simpa [lcurly, rcurly] using lex_punct (c := '{') (k := .left .curly) (by decide) this
  | .command name args, hok, rest, ts, h, hn, ht => by
    rw [Atom.Ok] at hok
    obtain ⟨h1, h2, h3, ⟨sh, p, h4, -⟩, -, h5⟩ := hok
    rw [Atom.latex, Atom.toks]
    have := Arguments.lex args h2 h hn
    simpa using lex_name h1 (by rw [h4]; rfl) (fun hl => args.ends h2 h3 (h5 hl)) this
  | .textCommand name ps, hok, rest, ts, h, hn, ht => by
    rw [Atom.Ok] at hok
    obtain ⟨h1, h2, ⟨sh, h4, -⟩, -⟩ := hok
    rw [Atom.latex, Atom.toks]
    have := lex_parts (Ends.noWord (.of (by decide))) (lex_punct (c := '}') (k := .right .curly) (by decide) h) ps h2.1
    have := lex_punct (c := '{') (k := .left .curly) (by decide) this
    have := lex_name h1 (by rw [h4]; rfl) (fun _ => .of (by decide)) this
    simpa [lcurly, rcurly] using this
  | .postfix base name, hok, rest, ts, h, hn, ht => by
    rw [Atom.Ok] at hok
    obtain ⟨h1, -, h2, ⟨sh, h4, -⟩, -⟩ := hok
    rw [Atom.latex, Atom.toks]
    have := Atom.lex base h1 (lex_name h2 (by rw [h4]; rfl) hn h) (fun _ => .of (by decide)) (fun _ => Ends.noWord (.of (by decide)))
    simpa using this
  | .prime base, hok, rest, ts, h, hn, ht => by
    rw [Atom.Ok] at hok
    rw [Atom.latex, Atom.toks]
    have := Atom.lex base hok.1 (lex_punct (c := '\'') (k := .apostrophe) (by decide) h) (fun _ => .of (by decide))
      (fun _ c hc => by cases hc; exact not_wordChar_of_special (by decide))
    simpa using this
  | .script base super s, hok, rest, ts, h, hn, ht => by
    rw [Atom.Ok] at hok
    rw [Atom.latex, Atom.toks]
    have h1 := Script.lex s hok.2.2 h hn
    cases super
    · have := Atom.lex base hok.1 (lex_punct (c := '_') (k := .underscore) (by decide) h1) (fun _ => .of (by decide))
        (fun _ c hc => by cases hc; exact not_wordChar_of_special (by decide))
      simpa [markTok] using this
    · have := Atom.lex base hok.1 (lex_punct (c := '^') (k := .caret) (by decide) h1) (fun _ => .of (by decide))
        (fun _ c hc => by cases hc; exact not_wordChar_of_special (by decide))
      simpa [markTok] using this
  | .delimited l f r, hok, rest, ts, h, hn, ht => by
    rw [Atom.Ok] at hok
    obtain ⟨h1, h2, h3, h4⟩ := hok
    rw [Atom.latex, Atom.toks]
    have a1 := Delim.lex r h3 h hn
    have a2 := lex_right (Delim.nameEnds r h3) a1
    have a3 := Formula.lex f h2 a2 (.of (by decide))
    have a4 := Delim.lex l h1 a3 (fun hl => (h4 hl).append (.of (by decide)))
    have a5 := lex_left (Delim.nameEnds l h1) a4
    simpa using a5
  | .over l name r, hok, rest, ts, h, hn, ht => by
    rw [Atom.Ok] at hok
    obtain ⟨h1, h2, h3, ⟨sh, h4, -⟩, -, h5⟩ := hok
    rw [Atom.latex, Atom.toks]
    have a1 := Formula.lex r h2 (lex_punct (c := '}') (k := .right .curly) (by decide) h) (.of (by decide))
    have a2 := lex_name h3 (by rw [h4]; rfl) (fun hl => (h5 hl).append (.of (by decide))) a1
    have a3 := Formula.lex l h1 a2 (.of (by decide))
    have a4 := lex_punct (c := '{') (k := .left .curly) (by decide) a3
    simpa [lcurly, rcurly] using a4
  | .environment name args body, hok, rest, ts, h, hn, ht => by
    rw [Atom.Ok] at hok
    obtain ⟨h1, -, h2, h3, -⟩ := hok
    rw [Atom.latex, Atom.toks]
    have a1 := lex_end h1 h
    have a2 := Cells.lex body h3 a1 (.of (by decide))
    have a3 := Arguments.lex args h2.1 a2 (fun h => absurd h h2.2)
    have a4 := lex_begin h1 a3
    simpa using a4
theorem Script.lex {spec : CommandSpec} : ∀ (s : Script), s.Ok spec → ∀ {rest : Text} {ts : List Tok}, Tokenized spec rest ts →
    (s.EndsName → NameEnds rest) → Tokenized spec (s.latex ++ rest) (s.toks ts)
  | .braces f, hok, rest, ts, h, hn => by
    rw [Script.Ok] at hok
    rw [Script.latex, Script.toks]
    have := Formula.lex f hok (lex_punct (c := '}') (k := .right .curly) (by decide) h) (.of (by decide))
    simpa [lcurly, rcurly] using lex_punct (c := '{') (k := .left .curly) (by decide) this
  | .char c, hok, rest, ts, h, hn => by
    rw [Script.Ok] at hok
    rw [Script.latex, Script.toks]
    exact lex_prepend hok h
  | .symbol name, hok, rest, ts, h, hn => by
    rw [Script.Ok] at hok
    rw [Script.latex, Script.toks]
    exact lex_name hok.1 (symbolOk_some hok) hn h
theorem Formula.lex {spec : CommandSpec} : ∀ (f : Formula), f.Ok spec → ∀ {rest : Text} {ts : List Tok}, Tokenized spec rest ts →
    Ends rest → Tokenized spec (f.latex ++ rest) (f.toks ts)
  | .mk lead as, hok, rest, ts, h, he => by
    rw [Formula.Ok] at hok
    rw [Formula.latex, Formula.toks, List.append_assoc]
    exact lex_blank lead (as.noBlank hok he.noBlank) (Atoms.lex as hok h he)
theorem Atoms.lex {spec : CommandSpec} : ∀ (as : Atoms), as.Ok spec → ∀ {rest : Text} {ts : List Tok}, Tokenized spec rest ts →
    Ends rest → Tokenized spec (as.latex ++ rest) (as.toks ts)
  | .nil, hok, rest, ts, h, he => by
    rw [Atoms.latex, Atoms.toks]
    exact h
  | .cons a sp as, hok, rest, ts, h, he => by
    rw [Atoms.Ok] at hok
    obtain ⟨h1, h2, h3, h4⟩ := hok
    rw [Atoms.latex, Atoms.toks, List.append_assoc]
    have a1 := lex_blank sp (as.noBlank h2 he.noBlank) (Atoms.lex as h2 h he)
    have a2 := Atom.lex a h1 a1 ?_ (fun ht => noWord_spaces (as.noWord h2 (h3 ht) he.noWord))
    · simpa using a2
    · intro hn
      have := (h4 hn).append he.nameEnds
      simpa using this
theorem Arguments.lex {spec : CommandSpec} : ∀ (as : Arguments), as.Ok spec → ∀ {rest : Text} {ts : List Tok}, Tokenized spec rest ts →
    (as.EndsName → NameEnds rest) → Tokenized spec (as.latex ++ rest) (as.toks ts)
  | .nil, hok, rest, ts, h, hn => by
    rw [Arguments.latex, Arguments.toks]
    exact h
  | .cons square f as, hok, rest, ts, h, hn => by
    rw [Arguments.Ok] at hok
    obtain ⟨h1, -, h3⟩ := hok
    rw [Arguments.latex, Arguments.toks]
    have a1 := Arguments.lex as h3 h hn
    cases square
    · have a2 := Formula.lex f h1 (lex_punct (c := '}') (k := .right .curly) (by decide) a1) (.of (by decide))
      simpa [lcurly, rcurly] using lex_punct (c := '{') (k := .left .curly) (by decide) a2
    · have a2 := Formula.lex f h1 (lex_punct (c := ']') (k := .right .bracket) (by decide) a1) (.of (by decide))
      simpa [lsquare, rsquare] using lex_punct (c := '[') (k := .left .bracket) (by decide) a2
  | .bare c as, hok, rest, ts, h, hn => by
    rw [Arguments.Ok] at hok
    rw [Arguments.latex, Arguments.toks]
    exact lex_prepend hok.1 (Arguments.lex as hok.2 h hn)
  | .symbol name as, hok, rest, ts, h, hn => by
    rw [Arguments.Ok] at hok
    rw [Arguments.latex, Arguments.toks]
    have a1 := Arguments.lex as hok.2.1 h (as.endsName_symbol hn)
    have := lex_name hok.1.1 (symbolOk_some hok.1) (fun hl => as.ends_lettered hok.2.1 hok.2.2 hn hl) a1
    simpa using this
  | .spaced n as, hok, rest, ts, h, hn => by
    rw [Arguments.Ok] at hok
    rw [Arguments.latex, Arguments.toks, List.append_assoc]
    exact lex_blank n (as.noBlank hok.2.2 hok.1 hok.2.1) (Arguments.lex as hok.2.2 h hn)
theorem Cells.lex {spec : CommandSpec} : ∀ (r : Cells), r.Ok spec → ∀ {rest : Text} {ts : List Tok}, Tokenized spec rest ts →
    Ends rest → Tokenized spec (r.latex ++ rest) (r.toks ts)
  | .last f, hok, rest, ts, h, he => by
    rw [Cells.Ok] at hok
    rw [Cells.latex, Cells.toks]
    exact Formula.lex f hok h he
  | .cons f endsRow r, hok, rest, ts, h, he => by
    rw [Cells.Ok] at hok
    rw [Cells.latex, Cells.toks]
    have a1 := Cells.lex r hok.2 h he
    cases endsRow
    · have a2 := Formula.lex f hok.1 (lex_punct (c := '&') (k := .ampersand) (by decide) a1) (.of (by decide))
      simpa [sepTok] using a2
    · have a2 := Formula.lex f hok.1 (Tokenized.cons _ _ _ _ _ (.newLine _) a1) (.of (by decide))
      simpa [sepTok] using a2
end

end Mitex
