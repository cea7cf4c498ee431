/-
C80: the typed view of the tree (`EnvItem`, `BeginItem`, `EndItem`, `LRItem`, `LRClause`) agrees with the tree.
-/
import Verif.Model.Ast
import Verif.Model.StandardSpec
import Verif.Proof.Ast
import Verif.Props.Grammar

namespace Mitex
open Ast

/-- The tokens of a text, and the tokens delivered by the macro engine, spell `\left` and `\right`. -/
theorem lr_delivered (spec : CommandSpec) (s : Text) (toks : List Tok) (h : tokensOf spec s = .ok toks) :
    AllLR toks ∧ ∀ fuel outs, expandAll fuel toks = .ok outs → AllLR outs := by
  have hd : ∀ t ∈ toks, LRok t := by
    intro t ht
    have hs := tokensOf_shape h t ht
    exact ⟨fun hk => (by rw [hk] at hs; exact hs), fun hk => (by rw [hk] at hs; exact hs)⟩
  refine ⟨hd, fun fuel outs ho => ?_⟩
  have inv : TokInv LRok := {
    err := fun t => ⟨fun h => (by cases h), fun h => (by cases h)⟩
    fi := ⟨fun h => (by cases h), fun h => (by cases h)⟩
    char := fun w c _ _ => ⟨fun h => (by cases h), fun h => (by cases h)⟩
    suf := fun a b _ _ => ⟨fun h => (by cases h), fun h => (by cases h)⟩
    leak := Or.inl fun d _ _ _ _ => ⟨fun h => (by cases h), fun h => (by cases h)⟩ }
  unfold expandAll at ho
  split at ho
  · cases ho
  · rename_i e c hr
    cases ho
    have := (engRun_inv inv fuel (e := Eng.new) (defaultTable_inv _) (c := ⟨toks, []⟩)
      ⟨hd, fun _ h => (by cases h)⟩).1 e c hr
    exact this.2.2

theorem parse_good {fuel : Nat} {env : PEnv} {macros : Bool} {s : Text} {tree : Elem} (h : parse fuel env macros s = .ok tree)
    {e : Elem} (he : e ∈ tree.descendants) : Good e := by
  have hg : tree.Forall Good := by
    cases macros with
    | false =>
      obtain ⟨toks, h1, h2⟩ := (C62_text env fuel s tree).1 h
      exact document_good h2 (lr_delivered _ _ _ h1).1
    | true =>
      obtain ⟨toks, outs, h1, h2, h3⟩ := (C62_text_macro env fuel s tree).1 h
      exact document_good h3 ((lr_delivered _ _ _ h1).2 fuel outs h2)
  exact Forall_self (Forall_sub _ _ _ hg he)

/-! ### Clauses -/

theorem lastToken_append (cs : List Elem) (k : Kind) (t : Text) : Elem.lastToken.go (cs ++ [.token k t]) = some (k, t) := by
  induction cs with
  | nil => simp [Elem.lastToken.go, Elem.lastToken]
  | cons c cs ih =>
    cases cs with
    | nil =>
      rw [List.singleton_append, Elem.lastToken.go]
      simpa [Elem.lastToken.go, Elem.lastToken] using ih
    | cons c' cs => rw [List.cons_append, List.cons_append, Elem.lastToken.go]; exact ih

theorem isClause_left {name : Text} {bs : List Elem} {d : Option (Kind × Text)} {e : Elem} (h : IsClause name bs d e) :
    e.clauseIsLeft = decide (name = t!"\\left") := by
  obtain ⟨rfl, _, _⟩ := h
  simp [Elem.clauseIsLeft, Elem.firstToken]

theorem isClause_sym {name : Text} {bs : List Elem} {d : Option (Kind × Text)} {e : Elem} (h : IsClause name bs d e) :
    (∀ x, d = some x → e.clauseSym = some x) ∧
    (d = none → bs = [] → e.clauseSym = none) ∧
    ∀ bs' k t, d = none → bs = bs' ++ [.token k t] → e.clauseSym = some (k, t) := by
  obtain ⟨rfl, hb, hd⟩ := h
  unfold Elem.clauseSym
  refine ⟨?_, ?_, ?_⟩
  · rintro ⟨k, t⟩ rfl
    have hk : k ≠ .clauseCommandName := fun h => hd _ rfl (by rw [h]; exact List.mem_cons_self)
    rw [Elem.lastToken]
    simp only [Option.map_some, Option.toList_some]
    rw [lastToken_append]
    simp [hk]
  · rintro rfl rfl
    simp [Elem.lastToken, Elem.lastToken.go]
  · rintro bs' k t rfl rfl
    obtain ⟨k', t', hk', e'⟩ := hb (.token k t) (List.mem_append_right _ List.mem_cons_self)
    cases e'
    have hk : k ≠ .clauseCommandName := fun h => (by rw [h] at hk'; revert hk'; decide)
    rw [Elem.lastToken]
    simp only [Option.map_none, Option.toList_none, List.append_nil]
    rw [← List.cons_append, lastToken_append]
    simp [hk]

/-- **C80.** Every clause of a parsed tree is a `\left` or `\right` with its blanks and its delimiter; `is_left` tells which of them, and
`sym` is the delimiter.  (A defect: without a delimiter, `sym` is the last of the blanks after the command, if there are any.) -/
theorem C80_clause (fuel : Nat) (env : PEnv) (macros : Bool) (s : Text) (tree : Elem) (h : parse fuel env macros s = .ok tree)
    (cs : List Elem) (he : .node .clauseLR cs ∈ tree.descendants) :
    ∃ name bs d, IsClause name bs d (.node .clauseLR cs) ∧ (name = t!"\\left" ∨ name = t!"\\right") ∧
      ((Elem.node .clauseLR cs).clauseIsLeft = true ↔ name = t!"\\left") ∧
      (∀ x, d = some x → (Elem.node .clauseLR cs).clauseSym = some x) ∧
      (d = none → bs = [] → (Elem.node .clauseLR cs).clauseSym = none) ∧
      ∀ bs' k t, d = none → bs = bs' ++ [.token k t] → (Elem.node .clauseLR cs).clauseSym = some (k, t) := by
  obtain ⟨name, bs, d, hn, hc⟩ := parse_good h he
  refine ⟨name, bs, d, hc, hn, ?_, isClause_sym hc⟩
  rw [isClause_left hc, decide_eq_true_eq]

/-! ### Delimiters -/

theorem isClause_node {name : Text} {bs : List Elem} {d : Option (Kind × Text)} {e : Elem} (h : IsClause name bs d e) :
    e.isNode = true ∧ e.kind = .clauseLR := by
  obtain ⟨rfl, _, _⟩ := h
  exact ⟨rfl, rfl⟩

theorem castClause_some {e : Elem} (h : e.kind = .clauseLR) : e.castClause = some e := if_pos h

/-- **C80.** Every delimited item of a parsed tree is a `\left` clause, items, and a `\right` clause or nothing; `left` and `right` answer
with these clauses.  If there is no `\right`, `right` answers nothing or (a defect) the clause of `\left` — in the case that no node follows
it.  So the clause answered by `right` is a `\right` if and only if the item is closed. -/
theorem C80_delimited (fuel : Nat) (env : PEnv) (macros : Bool) (s : Text) (tree : Elem) (h : parse fuel env macros s = .ok tree)
    (cs : List Elem) (he : .node .itemLR cs ∈ tree.descendants) :
    ∃ l mid r, Delimited (.node .itemLR cs) l mid r ∧
      (Elem.node .itemLR cs).lrLeft = some l ∧ l.clauseIsLeft = true ∧
      (∀ c, r = some c → (Elem.node .itemLR cs).lrRight = some c ∧ c.clauseIsLeft = false) ∧
      (r = none → (∃ x ∈ mid, x.isNode = true) → (Elem.node .itemLR cs).lrRight = none) ∧
      (r = none → (∀ x ∈ mid, x.isNode = false) → (Elem.node .itemLR cs).lrRight = some l) := by
  obtain ⟨l, mid, r, hd⟩ := parse_good h he
  have hp : cs = l :: mid ++ r.toList := by have := hd.parts; cases this; rfl
  obtain ⟨bs, d, hl⟩ := hd.left
  obtain ⟨n1, k1⟩ := isClause_node hl
  refine ⟨l, mid, r, hd, ?_, ?_, ?_, ?_, ?_⟩
  · subst hp
    simp [Elem.lrLeft, Elem.childNodes, Elem.children, n1, castClause_some k1]
  · rw [isClause_left hl]; rfl
  · rintro c rfl
    obtain ⟨bs', d', hr⟩ := hd.right c rfl
    obtain ⟨n2, k2⟩ := isClause_node hr
    refine ⟨?_, by rw [isClause_left hr]; decide⟩
    subst hp
    simp [Elem.lrRight, Elem.childNodes, Elem.children, n1, n2, castClause_some k2, List.getLast?_cons, List.getLast?_append]
  · rintro rfl ⟨x, hx, hn⟩
    subst hp
    have hne : mid.filter Elem.isNode ≠ [] := List.ne_nil_of_mem (List.mem_filter.2 ⟨hx, hn⟩)
    have : (Elem.node .itemLR (l :: mid ++ (none : Option Elem).toList)).childNodes.getLast? = some ((mid.filter Elem.isNode).getLast hne) := by
      unfold Elem.childNodes Elem.children
      dsimp only
      rw [Option.toList_none, List.append_nil, List.filter_cons_of_pos n1, List.getLast?_cons, List.getLast?_eq_some_getLast hne]
      rfl
    unfold Elem.lrRight
    rw [this, Option.bind_some]
    refine if_neg (hd.inner _ ?_)
    exact (List.mem_filter.1 (List.getLast_mem hne)).1
  · rintro rfl hn
    subst hp
    have : mid.filter Elem.isNode = [] := List.filter_eq_nil_iff.2 fun x hx => (by rw [hn x hx]; decide)
    simp [Elem.lrRight, Elem.childNodes, Elem.children, n1, this, castClause_some k1]

/-- C80: the symbols of a delimited item are the delimiters of its clauses (by `C80_delimited`, every `\left` of a parsed tree is
such an item). -/
theorem C80_symbols (cs : List Elem) (l : Elem) (mid : List Elem) (r : Option Elem)
    (hd : Delimited (.node .itemLR cs) l mid r) :
    (∀ bs x, IsClause t!"\\left" bs (some x) l → (Elem.node .itemLR cs).lrLeftSym = some x) ∧
    ∀ c bs x, r = some c → IsClause t!"\\right" bs (some x) c → (Elem.node .itemLR cs).lrRightSym = some x := by
  have hp : cs = l :: mid ++ r.toList := by have := hd.parts; cases this; rfl
  obtain ⟨_, _, hl⟩ := hd.left
  obtain ⟨n1, k1⟩ := isClause_node hl
  subst hp
  constructor
  · intro bs x hx
    unfold Elem.lrLeftSym
    simp [Elem.lrLeft, Elem.childNodes, Elem.children, n1, castClause_some k1, (isClause_sym hx).1 x rfl]
  · rintro c bs x rfl hx
    obtain ⟨n2, k2⟩ := isClause_node hx
    unfold Elem.lrRightSym
    simp [Elem.lrRight, Elem.childNodes, Elem.children, n1, n2, castClause_some k2, List.getLast?_cons, List.getLast?_append,
      (isClause_sym hx).1 x rfl]

/-! ### Environments -/

/-- **C80.** Every environment of a parsed tree is a begin clause with a name and arguments, items, and an end clause or nothing; the
accessors answer with the name, the arguments, and the name of the end clause. -/
theorem C80_environment (fuel : Nat) (env : PEnv) (macros : Bool) (s : Text) (tree : Elem) (h : parse fuel env macros s = .ok tree)
    (cs : List Elem) (he : .node .itemEnv cs ∈ tree.descendants) :
    ∃ name args mid closing, Environment (.node .itemEnv cs) name args mid closing ∧
      (Elem.node .itemEnv cs).envBegin = some (.node .itemBegin (.token .tokenCommandSym name :: args)) ∧
      (Elem.node .itemEnv cs).envName = some name ∧ (Elem.node .itemEnv cs).envArguments = args ∧
      (Elem.node .itemEnv cs).envEnd = closing.map (fun n => Elem.node .itemEnd [.token .tokenCommandSym n]) ∧
      (Elem.node .itemEnv cs).envEnd.bind Elem.endName = closing := by
  obtain ⟨name, args, mid, closing, hd⟩ := parse_good h he
  have hp := hd.parts
  cases hp
  have hb : ∀ tl : List Elem, (Elem.node .itemEnv (.node .itemBegin (.token .tokenCommandSym name :: args) :: tl)).envBegin =
      some (.node .itemBegin (.token .tokenCommandSym name :: args)) := by
    intro tl
    simp [Elem.envBegin, Elem.childNodes, Elem.children, Elem.isNode, Elem.kind]
  have ha : (Elem.node .itemBegin (.token .tokenCommandSym name :: args)).arguments = args := by
    unfold Elem.arguments Elem.childNodes Elem.children
    rw [List.filter_cons_of_neg (by simp [Elem.isNode]), List.filter_filter]
    refine List.filter_eq_self.2 fun a h => ?_
    obtain ⟨cs, rfl⟩ := hd.args a h
    rfl
  have hm : (mid.filter Elem.isNode).find? (fun c => decide (c.kind = .itemEnd)) = none := by
    refine List.find?_eq_none.2 fun x hx => ?_
    simpa using (hd.inner x (List.mem_filter.1 hx).1).2
  have hend : ∀ x : Option Text, (Elem.node .itemEnv (.node .itemBegin (.token .tokenCommandSym name :: args) :: mid ++
      (x.map fun n => Elem.node .itemEnd [.token .tokenCommandSym n]).toList)).envEnd =
      x.map (fun n => Elem.node .itemEnd [.token .tokenCommandSym n]) := by
    intro x
    unfold Elem.envEnd Elem.childNodes Elem.children
    dsimp only
    rw [List.cons_append, List.filter_cons_of_pos rfl, List.find?_cons_of_neg (by simp [Elem.kind]), List.filter_append, List.find?_append, hm]
    cases x with
    | none => rfl
    | some n => rfl
  refine ⟨name, args, mid, closing, hd, hb _, ?_, ?_, hend closing, ?_⟩
  · unfold Elem.envName
    rw [List.cons_append, hb]
    rfl
  · unfold Elem.envArguments
    rw [List.cons_append, hb]
    exact ha
  · rw [hend closing]
    cases closing <;> rfl

/-! ### Examples -/

/-- What the accessors answer for the delimited items of a text. -/
def symbolsOf (s : Text) : Option (List (Option (Kind × Text) × Option (Kind × Text) × Option Bool)) :=
  match parse 50 ⟨defaultSpec, globPrefix⟩ false s with
  | .ok tree => some ((tree.descendants.filter fun e => decide (e.kind = .itemLR)).map fun e =>
      (e.lrLeftSym, e.lrRightSym, e.lrRight.map Elem.clauseIsLeft))
  | .error _ => none

/-- What the accessors answer for the environments of a text. -/
def namesOf (s : Text) : Option (List (Option Text × Nat × Option Text)) :=
  match parse 50 ⟨defaultSpec, globPrefix⟩ false s with
  | .ok tree => some ((tree.descendants.filter fun e => decide (e.kind = .itemEnv)).map fun e =>
      (e.envName, e.envArguments.length, e.envEnd.bind Elem.endName))
  | .error _ => none

set_option synthInstance.maxSize 1024 in
/-- C80 on examples: nested delimiters, with commands and dots; the defects on unclosed and empty delimiters; environments with and without
arguments, closed, unclosed, and closed by the wrong name (the parser does not compare the names). -/
theorem C80_example :
    symbolsOf t!"\\left( \\left\\lbrace x \\right. \\right]" =
      some [(some (.tokenLParen, t!"("), some (.tokenRBracket, t!"]"), some false),
        (some (.tokenCommandSym, t!"\\lbrace"), some (.tokenWord, t!"."), some false)] ∧
    symbolsOf t!"\\left(" = some [(some (.tokenLParen, t!"("), some (.tokenLParen, t!"("), some true)] ∧
    symbolsOf t!"\\left(x" = some [(some (.tokenLParen, t!"("), none, none)] ∧
    symbolsOf t!"\\left \\right" = some [(some (.tokenWhiteSpace, t!" "), none, some false)] ∧
    namesOf t!"\\begin{array}{c}\\begin{matrix}a\\end{matrix}\\end{array}" =
      some [(some t!"array", 1, some t!"array"), (some t!"matrix", 0, some t!"matrix")] ∧
    namesOf t!"\\begin{matrix}a\\end{array}" = some [(some t!"matrix", 0, some t!"array")] ∧
    namesOf t!"{\\begin{matrix}a}" = some [(some t!"matrix", 0, none)] := by
  refine ⟨?_, ?_, ?_, ?_, ?_, ?_, ?_⟩ <;> decide +kernel

end Mitex
