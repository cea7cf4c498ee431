import Verif.Spec.Rules
import Verif.Spec.Expansion
import Verif.Spec.Grammar
import Verif.Spec.Template
import Verif.Model.Glob

/-!
# What a conversion answers, from the input text to the output text

This file composes the four small specifications: the lexical grammar (`Spec/Rules`, `Spec/Clause`:
how a text is cut into tokens), the rewriting rules of macros (`Spec/Expansion`), the grammar of documents
(`Spec/Grammar`) and the templates (`Spec/Template`).  No function of the model's lexer, engine, parser or
converter occurs in it.
-/

namespace Mitex

/-- The tokens the parser is to read: those of the text, rewritten by its macro definitions if macros are
enabled. -/
def Delivered (spec : CommandSpec) (macros : Bool) (input : Text) (toks : List Tok) : Prop :=
  ∃ raw, Tokenized spec input raw ∧ (if macros then Expands atStart raw toks else toks = raw)

/-- `tree` is the document that the text denotes. -/
def Denotes (spec : CommandSpec) (macros : Bool) (input : Text) (tree : Elem) : Prop :=
  ∃ toks, Delivered spec macros input toks ∧ Grammar.Document ⟨spec, globPrefix⟩ toks tree

/-- The answers a conversion can give. `dflt` is the specification the templates are read from, `spec` the
one that directs the reading of the text. -/
inductive Answers (dflt spec : CommandSpec) (macros : Bool) (mode : Mode) (input : Text) : Res Text → Prop
  /-- the text denotes a document, and its templates print `out` -/
  | printed {tree : Elem} {out : Text} {m' : Mem} : Denotes spec macros input tree →
      Printed dflt (Place.top mode) tree ⟨none, true⟩ out m' → Answers dflt spec macros mode input (.ok out)
  /-- the text denotes a document, and its templates refuse it with a message -/
  | refused {tree : Elem} {msg : Text} : Denotes spec macros input tree →
      Failed dflt (Place.top mode) tree ⟨none, true⟩ (.error msg) → Answers dflt spec macros mode input (.error (.error msg))
  /-- the text denotes a document, and one of its templates crashes -/
  | crashed {tree : Elem} : Denotes spec macros input tree →
      Failed dflt (Place.top mode) tree ⟨none, true⟩ .panic → Answers dflt spec macros mode input (.error .panic)
  /-- the tokens are not those of a document (the tree builder panics) -/
  | unreadable {toks : List Tok} : Delivered spec macros input toks →
      (¬ ∃ tree, Grammar.Document ⟨spec, globPrefix⟩ toks tree) → Answers dflt spec macros mode input (.error .panic)
  /-- the expansion of macros comes to a definition it panics on -/
  | collapsed {raw : List Tok} : macros = true → Tokenized spec input raw → Collapses atStart raw →
      Answers dflt spec macros mode input (.error .panic)
  /-- the text cannot be cut into tokens -/
  | stuck : Stuck spec input → Answers dflt spec macros mode input (.error .panic)

/-- The expansion of macros never ends. -/
def Endless (spec : CommandSpec) (macros : Bool) (input : Text) : Prop :=
  macros = true ∧ ∃ raw, Tokenized spec input raw ∧ ∀ n, Lasts n atStart raw

end Mitex
