/-
The grammar of the parser (C62): which syntax tree belongs to a token list.  Written as a relation, from the comments of
crates/mitex-parser/src/parser.rs and the documentation of the specification; trees are described directly, without the builder, the
checkpoints and the loops of the parser.  The types of tokens, kinds, scopes, patterns and trees are shared with the model, and `leafOf`
(the leaf of a token) and `ifDepth` (Spec/Tree.lean).
-/
import Verif.Spec.Tree

namespace Mitex
namespace Grammar

/-! ## Tokens -/

/-- The tokens that end a list of items in a scope. -/
def enders : Scope → List Token
  | .root => []
  | .dollarFormula => [.right .curly, .cmd .endEnv, .cmd .right, .dollar]
  | .cmdFormula => [.right .curly, .cmd .endEnv, .cmd .right, .cmd .endMath]
  | .environment => [.right .curly, .cmd .endEnv]
  | .curlyItem => [.right .curly]
  | .bracketItem => [.right .curly, .right .bracket, .cmd .endEnv, .cmd .right]
  | .parenItem => [.right .curly, .right .paren, .cmd .endEnv, .cmd .right]
  | .lr => [.right .curly, .cmd .endEnv, .cmd .right]

/-- The tokens that end the operand of a greedy command: also the separators of cells and rows. -/
def greedyEnders (sc : Scope) : List Token :=
  .ampersand :: (if sc = .environment then [.newLine] else []) ++ enders sc

/-- Blanks and comments. -/
def isBlank (k : Token) : Bool := decide (k ∈ [Token.lineBreak, .whitespace, .lineComment])

/-- The tokens that continue a text. -/
def isTextPart (k : Token) : Bool := isBlank k || decide (k ∈ [Token.word, .comma])

/-- Tokens that are items by themselves, and whether a script may be attached to them. -/
def single (k : Token) : Option Bool :=
  if k ∈ [Token.ampersand, .newLine, .lineBreak, .whitespace, .lineComment, .hash, .asterisk, .atSign, .error] then some false
  else if k ∈ [Token.left .bracket, .left .paren, .right .bracket, .right .paren, .tilde, .slash, .ditto, .semicolon,
    .cmd .errorBeginEnv, .cmd .errorEndEnv] then some true
  else none

/-- Tokens that cannot stand where they are. -/
def misplaced (k : Token) : Bool :=
  match k with
  | .right .curly | .macroArg _ | .cmd .endEnv | .cmd .endMath => true
  | _ => false

/-- Groups in a list of items: the scope inside, the closing token, the kind of the node, and whether a script may be attached. -/
def grouping : Token → Option (Scope × Token × Kind × Bool)
  | .left .curly => some (.curlyItem, .right .curly, .itemCurly, true)
  | .dollar => some (.dollarFormula, .dollar, .itemFormula, false)
  | .cmd .beginMath => some (.cmdFormula, .cmd .endMath, .itemFormula, false)
  | _ => none

/-- Groups as arguments: the kind of argument, the scope inside, the closing token, and the kind of the node. -/
def argGrouping : BraceKind → ArgKind × Scope × Token × Kind
  | .curly => (.term, .curlyItem, .right .curly, .itemCurly)
  | .bracket => (.bracket, .bracketItem, .right .bracket, .itemBracket)
  | .paren => (.paren, .parenItem, .right .paren, .itemParen)

/-- Tokens that are looked up as commands: commands, the conditionals that are not comments, and a stray `\right`. -/
def isCommand (n : CommandName) : Bool :=
  match n with
  | .generic | .celse | .endIf | .right => true
  | .cif i => decide (i ≠ .ifFalse ∧ i ≠ .ifTypst)
  | _ => false

/-- The rest of a word after its first character. -/
def restOfWord (cs : Text) (ts : List Tok) : List Tok := if cs = [] then ts else (.word, cs) :: ts

/-- The closing token, if it is there, and the tokens after it. -/
def closing (k : Token) (ts : List Tok) : List Elem × List Tok :=
  match ts with
  | t :: ts' => if t.1 = k then ([leafOf t], ts') else ([], ts)
  | [] => ([], [])

/-! ## Patterns -/

/-- May a command with this pattern take an argument of kind `k` after arguments of the kinds `ks`? -/
def takes (g : GlobFn) (p : ArgPattern) (ks : List ArgKind) (k : ArgKind) : Bool :=
  match p with
  | .none => false
  | .fixedLen n | .rangeLen _ n => decide (ks.length < n)
  | .greedy => true
  | .glob re => g re ((ks ++ [k]).map argLetter)

/-- Only patterns with brackets and parentheses see groups in them; for the others they are ordinary characters. -/
def seesGroup (p : ArgPattern) (b : BraceKind) : Bool :=
  match b, p with
  | .curly, _ => true
  | _, .glob _ => true
  | _, _ => false

/-- The kind of argument that starts with the token. -/
def argKindOf : Token → ArgKind
  | .left b => (argGrouping b).1
  | _ => .term

/-- The arguments are over: a separator, a script mark, the end of the list, or the pattern takes no more. -/
def argsOver (g : GlobFn) (sc : Scope) (p : ArgPattern) (ks : List ArgKind) (k : Token) : Bool :=
  decide (k ∈ [Token.ampersand, .caret, .underscore] ∨ k ∈ enders sc) || !takes g p ks (argKindOf k)

/-! ## Rows -/

/-- The items of the node being built so far.  `first` is the position where its list of items starts, `last` the position of the item a
script would be attached to; both relative to the node, negative for a position before the node. -/
structure Row where
  items : List Elem
  first : Option Int
  last : Option Int

/-- The row with more items. -/
def Row.add (r : Row) (es : List Elem) : Row := { r with items := r.items ++ es }

/-- What a command finds on its left: the items that stay, and the items from the position on as one argument (no argument without a
position).  There is no answer if the position is outside of the node: the program panics then. -/
def Row.operand (r : Row) (p : Option Int) : Option (List Elem × List Elem) :=
  match p with
  | none => some (r.items, [])
  | some i =>
    if 0 ≤ i ∧ i ≤ r.items.length then
      some (r.items.take i.toNat, [.node .clauseArgument (r.items.drop i.toNat)])
    else none

/-- The row of a new node after the first `n` items. -/
def Row.enter (r : Row) (n : Nat) (items : List Elem) : Row :=
  ⟨items, r.first.map (· - (n : Int)), r.last.map (· - (n : Int))⟩

/-- Back in the row around the node. -/
def Row.leave (n : Nat) (inner : Row) (items : List Elem) : Row :=
  ⟨items, inner.first.map (· + (n : Int)), inner.last.map (· + (n : Int))⟩

/-! ## Delimiters -/

/-- `\left` or `\right` with its delimiter: a command, one character, or another token that is not a command or a dollar sign. -/
def delimiter (t : Tok) (ts : List Tok) : Elem × List Tok :=
  let blanks := ts.takeWhile fun t => isBlank t.1
  let rest := ts.dropWhile fun t => isBlank t.1
  let clause (es : List Elem) : Elem := .node .clauseLR (leafOf t :: blanks.map leafOf ++ es)
  match rest with
  | (.cmd .generic, x) :: rest' => (clause [.token .tokenCommandSym x], rest')
  | (.cmd _, _) :: _ | (.dollar, _) :: _ | [] | (.word, []) :: _ => (clause [], rest)
  | (.word, c :: cs) :: rest' => (clause [.token .tokenWord [c]], restOfWord cs rest')
  | t' :: rest' => (clause [leafOf t'], rest')

/-- The closing delimiter, if it is there. -/
def rightDelimiter (ts : List Tok) : List Elem × List Tok :=
  match ts with
  | (.cmd .right, x) :: ts' => let d := delimiter (.cmd .right, x) ts'; ([d.1], d.2)
  | _ => ([], ts)

/-! ## Commands and environments -/

/-- The arguments of a command: by its entry in the specification. -/
def commandArgs (spec : CommandSpec) (name : Text) : ArgShape :=
  match spec name with
  | some (.cmd sh) => if sh.args = .right (.fixedLen 0) then .right .none else sh.args
  | _ => .right .none

/-- The arguments of an environment, if any. -/
def environmentArgs (spec : CommandSpec) (name : Text) : Option ArgPattern :=
  match spec name with
  | some (.env sh) => if sh.args = .none ∨ sh.args = .fixedLen 0 then none else some sh.args
  | _ => none

/-! ## The grammar -/

mutual
/-- `Item env sc one r ts att r' ts'`: in the scope `sc`, after the row `r`, the tokens `ts` start with an item; with it the row is `r'`,
the tokens `ts'` are left, and `att` says whether a script may be attached to it.  `one`: only one character of a word is wanted. -/
inductive Item (env : PEnv) : Scope → Bool → Row → List Tok → Bool → Row → List Tok → Prop
  /-- The end of the input. -/
  | over {sc : Scope} {one : Bool} {r : Row} : Item env sc one r [] true r []
  /-- A single token. -/
  | single {sc : Scope} {one att : Bool} {r : Row} {k : Token} {x : Text} {ts : List Tok} (h : single k = some att) :
      Item env sc one r ((k, x) :: ts) att (r.add [leafOf (k, x)]) ts
  /-- A token that cannot stand here. -/
  | misplaced {sc : Scope} {one : Bool} {r : Row} {k : Token} {x : Text} {ts : List Tok} (h : misplaced k = true) :
      Item env sc one r ((k, x) :: ts) true (r.add [.node .tokenError [leafOf (k, x)]]) ts
  /-- A text: the longest run of words, commas and blanks that starts with a word or a comma. -/
  | text {sc : Scope} {one : Bool} {r : Row} {k : Token} {x : Text} {run ts : List Tok} (h : k = .comma ∨ k = .word ∧ one = false)
      (hr : ∀ t ∈ run, isTextPart t.1 = true) (he : ∀ t, ts.head? = some t → isTextPart t.1 = false) :
      Item env sc one r ((k, x) :: (run ++ ts)) true (r.add [.node .itemText (((k, x) :: run).map leafOf)]) ts
  /-- One character of a word. -/
  | char {sc : Scope} {r : Row} {c : Char} {cs : Text} {ts : List Tok} :
      Item env sc true r ((.word, c :: cs) :: ts) true (r.add [.token .tokenWord [c]]) (restOfWord cs ts)
  /-- (The lexer delivers no empty words.) -/
  | noChar {sc : Scope} {r : Row} {ts : List Tok} : Item env sc true r ((.word, []) :: ts) true r ((.word, []) :: ts)
  /-- A group or a formula, with its closing token unless the items end otherwise. -/
  | group {sc sc' : Scope} {one att : Bool} {r r' : Row} {k close : Token} {kind : Kind} {x : Text} {ts ts' : List Tok}
      (h : grouping k = some (sc', close, kind, att)) (hi : Items env sc' (enders sc') ⟨[leafOf (k, x)], some 1, none⟩ ts r' ts') :
      Item env sc one r ((k, x) :: ts) att (r.add [.node kind (r'.items ++ (closing close ts').1)]) (closing close ts').2
  /-- An environment without arguments. -/
  | environment {sc : Scope} {one : Bool} {r r' : Row} {x : Text} {ts ts' : List Tok} (h : environmentArgs env.spec x = none)
      (hi : Items env .environment (enders .environment) ⟨[.node .itemBegin [leafOf (.cmd .beginEnv, x)]], some 1, none⟩ ts r' ts') :
      Item env sc one r ((.cmd .beginEnv, x) :: ts) true
        (r.add [.node .itemEnv (r'.items ++ (closing (.cmd .endEnv) ts').1.map fun e => .node .itemEnd [e])]) (closing (.cmd .endEnv) ts').2
  /-- An environment with arguments: blanks after them follow the opening clause.  The row around forgets its last item. -/
  | environmentArgs {sc : Scope} {one : Bool} {r r' : Row} {p : ArgPattern} {x : Text} {args : List Elem} {blanks ts ts1 ts' : List Tok}
      (h : environmentArgs env.spec x = some p) (hp : p ≠ .greedy) (ha : Args env sc p [] ts args blanks ts1)
      (hi : Items env .environment (enders .environment)
        ⟨.node .itemBegin (leafOf (.cmd .beginEnv, x) :: args) :: blanks.map leafOf, some (1 + blanks.length), none⟩ ts1 r' ts') :
      Item env sc one r ((.cmd .beginEnv, x) :: ts) true
        { r.add [.node .itemEnv (r'.items ++ (closing (.cmd .endEnv) ts').1.map fun e => .node .itemEnd [e])] with last := none }
        (closing (.cmd .endEnv) ts').2
  /-- `\left` … `\right` -/
  | delimited {sc : Scope} {one : Bool} {r r' : Row} {x : Text} {ts ts' : List Tok}
      (hi : Items env .lr (enders .lr) ⟨[(delimiter (.cmd .left, x) ts).1], some 1, none⟩ (delimiter (.cmd .left, x) ts).2 r' ts') :
      Item env sc one r ((.cmd .left, x) :: ts) true (r.add [.node .itemLR (r'.items ++ (rightDelimiter ts').1)]) (rightDelimiter ts').2
  /-- A block comment (`\iffalse`) or Typst code (`\iftypst`): all tokens up to the matching `\fi`, as they are. -/
  | block {sc : Scope} {one : Bool} {r : Row} {i : IfName} {kind : Kind} {x y : Text} {body ts : List Tok}
      (h : (i, kind) = (.ifFalse, .itemBlockComment) ∨ (i, kind) = (.ifTypst, .itemTypstCode)) (hb : ifDepth body 0 = some 0) :
      Item env sc one r ((.cmd (.cif i), x) :: (body ++ (.cmd .endIf, y) :: ts)) true (r.add [.node kind (body.map leafOf)]) ts
  /-- The matching `\fi` is missing. -/
  | blockOpen {sc : Scope} {one : Bool} {r : Row} {i : IfName} {kind : Kind} {x : Text} {body : List Tok}
      (h : (i, kind) = (.ifFalse, .itemBlockComment) ∨ (i, kind) = (.ifTypst, .itemTypstCode)) (hb : ifDepth body 0 ≠ none) :
      Item env sc one r ((.cmd (.cif i), x) :: body) true (r.add [.node kind (body.map leafOf)]) []
  /-- A command without arguments, known or not. -/
  | symbol {sc : Scope} {one : Bool} {r : Row} {n : CommandName} {name : Text} {ts : List Tok} (hn : isCommand n = true)
      (h : commandArgs env.spec name = .right .none) :
      Item env sc one r ((.cmd n, '\\' :: name) :: ts) true (r.add [.node .itemCmd [leafOf (.cmd n, '\\' :: name)]]) ts
  /-- A command with arguments on its right: blanks between them are dropped, blanks after them follow the command.  The row forgets its
  last item. -/
  | command {sc : Scope} {one : Bool} {r : Row} {n : CommandName} {name : Text} {p : ArgPattern} {args : List Elem} {blanks ts ts' : List Tok}
      (hn : isCommand n = true) (h : commandArgs env.spec name = .right p) (h1 : p ≠ .none) (h2 : p ≠ .greedy)
      (ha : Args env sc p [] ts args blanks ts') :
      Item env sc one r ((.cmd n, '\\' :: name) :: ts) true
        { r.add (.node .itemCmd (leafOf (.cmd n, '\\' :: name) :: args) :: blanks.map leafOf) with last := none } ts'
  /-- A command that takes all that follows. -/
  | greedy {sc : Scope} {one : Bool} {r r' : Row} {n : CommandName} {name : Text} {ts ts' : List Tok} (hn : isCommand n = true)
      (h : commandArgs env.spec name = .right .greedy) (hi : Items env sc (greedyEnders sc) ⟨[], some 0, none⟩ ts r' ts') :
      Item env sc one r ((.cmd n, '\\' :: name) :: ts) false
        { r.add [.node .itemCmd [leafOf (.cmd n, '\\' :: name), .node .clauseArgument r'.items]] with last := none } ts'
  /-- A command that takes the last item (or all items, if none is known). -/
  | postfix {sc : Scope} {one : Bool} {r : Row} {n : CommandName} {name : Text} {kept arg : List Elem} {ts : List Tok}
      (hn : isCommand n = true) (h : commandArgs env.spec name = .left1) (ho : r.operand (r.last.or r.first) = some (kept, arg)) :
      Item env sc one r ((.cmd n, '\\' :: name) :: ts) false
        { r with items := kept ++ [.node .itemCmd (arg ++ [leafOf (.cmd n, '\\' :: name)])] } ts
  /-- A command that takes all items on its left and all that follows.  The row forgets where it starts. -/
  | infix {sc : Scope} {one : Bool} {r r' : Row} {n : CommandName} {name : Text} {kept arg : List Elem} {ts ts' : List Tok}
      (hn : isCommand n = true) (h : commandArgs env.spec name = .infixGreedy) (ho : r.operand r.first = some (kept, arg))
      (hi : Items env sc (greedyEnders sc) ⟨[], some 0, none⟩ ts r' ts') :
      Item env sc one r ((.cmd n, '\\' :: name) :: ts) false
        ⟨kept ++ [.node .itemCmd (arg ++ [leafOf (.cmd n, '\\' :: name), .node .clauseArgument r'.items])], none, none⟩ ts'
  /-- An apostrophe with a base. -/
  | prime {sc : Scope} {one : Bool} {r : Row} {x : Text} {kept arg : List Elem} {ts : List Tok} (hl : r.last ≠ none)
      (ho : r.operand r.last = some (kept, arg)) :
      Item env sc one r ((.apostrophe, x) :: ts) false
        { r with items := kept ++ [.node .itemAttachComponent (arg ++ [leafOf (.apostrophe, x)])] } ts
  /-- An apostrophe without a base. -/
  | apostrophe {sc : Scope} {one : Bool} {r : Row} {x : Text} {ts : List Tok} (hl : r.last = none) :
      Item env sc one r ((.apostrophe, x) :: ts) false (r.add [leafOf (.apostrophe, x)]) ts
  /-- A subscript or superscript: the last item, if any, is its base; the script is the next item, or one character of a word. -/
  | script {sc : Scope} {one att : Bool} {r r' : Row} {k : Token} {x : Text} {kept arg : List Elem} {blanks ts ts' : List Tok}
      (hk : k = .underscore ∨ k = .caret) (ho : r.operand r.last = some (kept, arg)) (hb : ∀ t ∈ blanks, isBlank t.1 = true)
      (he : ∀ t, ts.head? = some t → isBlank t.1 = false)
      (hi : Item env sc true (r.enter kept.length (arg ++ leafOf (k, x) :: blanks.map leafOf)) ts att r' ts') :
      Item env sc one r ((k, x) :: (blanks ++ ts)) false (Row.leave kept.length r' (kept ++ [.node .itemAttachComponent r'.items])) ts'
/-- Items up to one of the tokens `stop` (or the end of the input). -/
inductive Items (env : PEnv) : Scope → List Token → Row → List Tok → Row → List Tok → Prop
  | over {sc : Scope} {stop : List Token} {r : Row} {ts : List Tok} (h : ∀ t, ts.head? = some t → t.1 ∈ stop) : Items env sc stop r ts r ts
  | more {sc : Scope} {stop : List Token} {r r1 r' : Row} {t : Tok} {att : Bool} {ts ts1 ts' : List Tok} (h : t.1 ∉ stop)
      (hi : Item env sc false r (t :: ts) att r1 ts1)
      (hs : Items env sc stop (if att then { r1 with last := some r.items.length } else r1) ts1 r' ts') : Items env sc stop r (t :: ts) r' ts'
/-- `Args env sc p ks ts args blanks ts'`: after arguments of the kinds `ks`, a command with the pattern `p` takes the arguments `args` from
the tokens `ts`; the blanks after the last one are `blanks`, the tokens `ts'` are left. -/
inductive Args (env : PEnv) : Scope → ArgPattern → List ArgKind → List Tok → List Elem → List Tok → List Tok → Prop
  | over {sc : Scope} {p : ArgPattern} {ks : List ArgKind} {ts : List Tok}
      (h : ∀ t, ts.head? = some t → isBlank t.1 = false ∧ t ≠ (.word, []) ∧ argsOver env.glob sc p ks t.1 = true) :
      Args env sc p ks ts [] [] ts
  | blank {sc : Scope} {p : ArgPattern} {ks : List ArgKind} {t : Tok} {args : List Elem} {blanks ts ts' : List Tok} (h : isBlank t.1 = true)
      (ha : Args env sc p ks ts args blanks ts') : Args env sc p ks (t :: ts) args (if args.isEmpty then t :: blanks else blanks) ts'
  /-- One character of a word is an argument. -/
  | char {sc : Scope} {p : ArgPattern} {ks : List ArgKind} {c : Char} {cs : Text} {args : List Elem} {blanks ts ts' : List Tok}
      (h : takes env.glob p ks .term = true) (ha : Args env sc p (ks ++ [.term]) (restOfWord cs ts) args blanks ts') :
      Args env sc p ks ((.word, c :: cs) :: ts) (.node .clauseArgument [.token .tokenWord [c]] :: args) blanks ts'
  /-- A group. -/
  | group {sc : Scope} {p : ArgPattern} {ks : List ArgKind} {b : BraceKind} {x : Text} {r' : Row} {args : List Elem}
      {blanks ts ts1 ts' : List Tok} (hs : seesGroup p b = true) (h : takes env.glob p ks (argGrouping b).1 = true)
      (hi : Items env (argGrouping b).2.1 (enders (argGrouping b).2.1) ⟨[leafOf (.left b, x)], some 1, none⟩ ts r' ts1)
      (ha : Args env sc p (ks ++ [(argGrouping b).1]) (closing (argGrouping b).2.2.1 ts1).2 args blanks ts') :
      Args env sc p ks ((.left b, x) :: ts)
        (.node .clauseArgument [.node (argGrouping b).2.2.2 (r'.items ++ (closing (argGrouping b).2.2.1 ts1).1)] :: args) blanks ts'
  /-- A bracket or parenthesis as an ordinary character. -/
  | bracket {sc : Scope} {p : ArgPattern} {ks : List ArgKind} {b : BraceKind} {x : Text} {args : List Elem}
      {blanks ts ts' : List Tok} (hs : seesGroup p b = false) (h : takes env.glob p ks (argGrouping b).1 = true)
      (ha : Args env sc p (ks ++ [(argGrouping b).1]) ts args blanks ts') :
      Args env sc p ks ((.left b, x) :: ts) (.node .clauseArgument [leafOf (.left b, x)] :: args) blanks ts'
  /-- Any other item. -/
  | item {sc : Scope} {p : ArgPattern} {ks : List ArgKind} {k : Token} {x : Text} {att : Bool} {r' : Row} {args : List Elem}
      {blanks ts ts1 ts' : List Tok} (hk : k ≠ .word ∧ (∀ b, k ≠ .left b) ∧ isBlank k = false) (h : argsOver env.glob sc p ks k = false)
      (hi : Item env sc false ⟨[], none, none⟩ ((k, x) :: ts) att r' ts1)
      (ha : Args env sc p (ks ++ [.term]) ts1 args blanks ts') :
      Args env sc p ks ((k, x) :: ts) (.node .clauseArgument r'.items :: args) blanks ts'
end

/-- The tree of a document. -/
def Document (env : PEnv) (ts : List Tok) (e : Elem) : Prop :=
  ∃ r, Items env .root [] ⟨[], some 0, none⟩ ts r [] ∧ e = .node .scopeRoot r.items

end Grammar
end Mitex
