/-
Vocabulary for C87: texts in which two names are exchanged.
-/
import Verif.Spec.Expansion
import Verif.Spec.Local

namespace Mitex

/-- The name, after the names `a` and `b` are exchanged. -/
def exchange (a b n : Text) : Text := if n = a then b else if n = b then a else n

/-- The token, after the names are exchanged: commands carry names, and so do the reports about commands that are defined again. -/
def exchangeTok (a b : Text) : Tok → Tok
  | (.cmd k, '\\' :: n) => (.cmd k, '\\' :: exchange a b n)
  | (.error, n) => (.error, exchange a b n)
  | t => t

/-- A name that is neither predefined nor one of the words of the macro expander itself. -/
def OwnName (n : Text) : Prop :=
  defaultMacros n = none ∧ n ∉ [t!"mitexrecurse", t!"fi", t!"invalid number of arguments", t!"unmatched environment"]

/-- The commands that define environments. -/
def environmentDefiners : List Text := [t!"newenvironment", t!"newenvironment*", t!"renewenvironment", t!"renewenvironment*"]

/-- The name cannot be cut out of the word. -/
def SpellsNot (n w : Text) : Prop := (∀ p q, w = p ++ q → q ≠ n) ∧ ∀ c ∈ w, [c] ≠ n

/-- No environment of the text is called `a` or `b`: none is defined, or no word of the text can be cut to such a name. -/
def NoEnvironment (a b : Text) (ts : List Tok) : Prop :=
  (∀ n ∈ environmentDefiners, cmdTok n ∉ ts) ∨ ∀ w, (.word, w) ∈ ts → SpellsNot a w ∧ SpellsNot b w

/-- The token says the name `n`: it is the command `n`, or a report about it. -/
def SaysName (n : Text) (t : Tok) : Prop := (∃ k, t = (.cmd k, '\\' :: n)) ∨ t = (.error, n)

/-- A name that the lexer reads as a command without a meaning of its own. -/
def CommandWord (n : Text) : Prop := n ≠ [] ∧ (∀ c ∈ n, NameChar c) ∧ n ≠ t!"begin" ∧ n ≠ t!"end" ∧ ∀ k, (n, k) ∉ builtinCommands

/-- A text in which the commands `\a` and `\b` are exchanged, and its tokens.  Between the commands stand parts that are lexed by themselves, and
say neither name. -/
inductive Exchanged (spec : CommandSpec) (a b : Text) : Text → Text → List Tok → Prop
  | nil : Exchanged spec a b [] [] []
  | part {p r r' : Text} {tp tr : List Tok} (hp : tokensOf spec p = .ok tp) (hw : ∀ t ∈ tp, t.1 ≠ .cmd .errorBeginEnv ∧ t.1 ≠ .cmd .errorEndEnv)
      (hn : ∀ t ∈ tp, ¬ SaysName a t ∧ ¬ SaysName b t) (hs : ∀ t, tp.getLast? = some t → Separate t r) (h : Exchanged spec a b r r' tr) :
      Exchanged spec a b (p ++ r) (p ++ r') (tp ++ tr)
  | name {n r r' : Text} {tr : List Tok} (hn : n = a ∨ n = b) (hr : NoMore (fun c => NameChar c ∨ c = '*') r) (h : Exchanged spec a b r r' tr) :
      Exchanged spec a b ('\\' :: n ++ r) ('\\' :: exchange a b n ++ r') (cmdTok n :: tr)

end Mitex
