/-
Vocabulary for C88: definitions that a text does not use.
-/
import Verif.Spec.Renamed

namespace Mitex

/-- The text does not mention the name: no command and no `\begin` is called by it, and if environments are defined, no word can be cut to it. -/
def Unmentioned (n : Text) (ts : List Tok) : Prop :=
  (∀ k, (.cmd k, '\\' :: n) ∉ ts) ∧ (.cmd .beginEnv, n) ∉ ts ∧
  ((∀ d ∈ environmentDefiners, cmdTok d ∉ ts) ∨ ∀ w, (.word, w) ∈ ts → SpellsNot n w)

/-- `LeftOut ns e s s'`: in the text `s`, which is read with the macros and conditionals `e`, names `ns` are defined at places where the expander
arrives (not in arguments or in other definitions); without these definitions the text is `s'`. -/
inductive LeftOut : List Text → Eng → List Tok → List Tok → Prop
  | done {e : Eng} {ts : List Tok} : LeftOut [] e ts ts
  /-- tokens that are handed on, between the definitions -/
  | pass {ns : List Text} {e : Eng} {t : Tok} {s s' : List Tok} (ht : Ordinary t ∨ HandedOn e.macros t) (h : LeftOut ns e s s') : LeftOut ns e (t :: s) (t :: s')
  /-- other definitions -/
  | keep {ns : List Text} {e : Eng} {cmd name : Text} {d : DeclareCmdOrEnv} {v : Macro} {s s' s2 s2' : List Tok}
      (hc : e.macros cmd = some (.declare (.cmdOrEnv d)))
      (hb : (definesEnvironments d ∧ DefinesEnv s (some (name, v)) s2) ∨ (¬ definesEnvironments d ∧ Defines s (some (name, v)) s2))
      (hb' : (definesEnvironments d ∧ DefinesEnv s' (some (name, v)) s2') ∨ (¬ definesEnvironments d ∧ Defines s' (some (name, v)) s2'))
      (h : LeftOut ns ⟨if stores d (e.macros name) then bindName e.macros name v else e.macros, e.ifs⟩ s2 s2') :
      LeftOut ns e (cmdTok cmd :: s) (cmdTok cmd :: s')
  /-- calls of macros -/
  | call {ns : List Text} {e : Eng} {name nm : Text} {n : Nat} {o : Option (List Tok)} {b out : List Tok} {as : List (List Tok)} {s s' s2 s2' : List Tok}
      (hc : e.macros name = some (.cmd nm n o b)) (ha : Called n o s (some as) s2) (ha' : Called n o s' (some as) s2') (hf : Filled as b out)
      (h : LeftOut ns e (out ++ s2) (out ++ s2')) : LeftOut ns e (cmdTok name :: s) (cmdTok name :: s')
  /-- conditionals -/
  | cond {ns : List Text} {e : Eng} {i : IfName} {x : Text} {s s' : List Tok} (h : LeftOut ns ⟨e.macros, (opened i).1 :: e.ifs⟩ s s') :
      LeftOut ns e ((.cmd (.cif i), x) :: s) ((.cmd (.cif i), x) :: s')
  | fi {ns : List Text} {m : MacroTable} {c : Option IfState} {ifs : List (Option IfState)} {x : Text} {s s' : List Tok} (h : LeftOut ns ⟨m, ifs⟩ s s') :
      LeftOut ns ⟨m, c :: ifs⟩ ((.cmd .endIf, x) :: s) ((.cmd .endIf, x) :: s')
  /-- a definition of one of the names -/
  | define {ns : List Text} {e : Eng} {cmd name : Text} {d : DeclareCmdOrEnv} {v : Macro} {s s2 s' : List Tok}
      (hc : e.macros cmd = some (.declare (.cmdOrEnv d))) (hd : d ≠ .newCommand true ∧ d ≠ .newEnvironment true)
      (hb : (definesEnvironments d ∧ DefinesEnv s (some (name, v)) s2) ∨ (¬ definesEnvironments d ∧ Defines s (some (name, v)) s2))
      (h : LeftOut ns e s2 s') : LeftOut (name :: ns) e (cmdTok cmd :: s) s'

/-- The names that are defined: all different, and the program's own. -/
def FreshNames (ns : List Text) : Prop := ns.Nodup ∧ ∀ n ∈ ns, OwnName n

/-- The tokens of a definition text: every brace has its partner, and the last token is no `#`. -/
def DefinitionText (ts : List Tok) : Prop :=
  level opensBrace closesBrace ts = 0 ∧ (∀ p, p <+: ts → 0 ≤ level opensBrace closesBrace p) ∧ ∀ h, ts.getLast? ≠ some (.hash, h)

/-- The number of parameters, as it is written: nothing, or a digit in brackets. -/
def writtenCount : Option Nat → Text
  | none => []
  | some k => ['[', Nat.digitChar k, ']']

/-- `\newcommand{\name}[count]{body}`. -/
def writtenDefinition (n : Text) (count : Option Nat) (body : Text) : Text :=
  t!"\\newcommand" ++ '{' :: '\\' :: n ++ '}' :: writtenCount count ++ '{' :: body ++ ['}']

end Mitex
