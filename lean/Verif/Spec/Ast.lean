/-
Vocabulary for C80: the parts of delimiters and environments in a syntax tree, as the comments of crates/mitex-parser/src/syntax.rs
describe them.  Written with the constructors of trees only, without the accessors.
-/
import Verif.Spec.Tree

namespace Mitex
namespace Ast

/-- Whitespace, line breaks and comments. -/
def blankKinds : List Kind := [.tokenLineBreak, .tokenWhiteSpace, .tokenComment]

/-- The clause of the command `name` (`\left` or `\right`) with the blanks after it and the delimiter, if any. -/
def IsClause (name : Text) (blanks : List Elem) (delim : Option (Kind × Text)) (e : Elem) : Prop :=
  e = .node .clauseLR (.token .clauseCommandName name :: blanks ++ (delim.map fun d => Elem.token d.1 d.2).toList) ∧
    (∀ b ∈ blanks, IsLeaf blankKinds b) ∧ ∀ d, delim = some d → d.1 ∉ .clauseCommandName :: blankKinds

/-- `\left` with a delimiter, items, and `\right` with a delimiter, which may be missing. -/
structure Delimited (e l : Elem) (mid : List Elem) (r : Option Elem) : Prop where
  parts : e = .node .itemLR (l :: mid ++ r.toList)
  left : ∃ bs d, IsClause t!"\\left" bs d l
  right : ∀ c, r = some c → ∃ bs d, IsClause t!"\\right" bs d c
  /-- Other clauses lie deeper, in items of their own. -/
  inner : ∀ x ∈ mid, x.kind ≠ .clauseLR

/-- `\begin{name}` with arguments, items, and `\end{name'}`, which may be missing. -/
structure Environment (e : Elem) (name : Text) (args mid : List Elem) (closing : Option Text) : Prop where
  parts : e = .node .itemEnv (.node .itemBegin (.token .tokenCommandSym name :: args) :: mid ++
    (closing.map fun n => Elem.node .itemEnd [.token .tokenCommandSym n]).toList)
  args : ∀ a ∈ args, IsArg a
  /-- Other environments are items of their own. -/
  inner : ∀ x ∈ mid, x.kind ≠ .itemBegin ∧ x.kind ≠ .itemEnd

end Ast
end Mitex
