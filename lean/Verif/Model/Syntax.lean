/-
Model of crates/mitex-parser/src/syntax.rs: syntax kinds, trees and typed accessors.
-/
import Verif.Model.Token

namespace Mitex

/-- syntax.rs:47-105 `SyntaxKind`, in source order. -/
inductive Kind where
  | tokenError | tokenLineBreak | tokenWhiteSpace | tokenComment
  | tokenLBrace | tokenRBrace | tokenLBracket | tokenRBracket | tokenLParen | tokenRParen
  | tokenComma | tokenTilde | tokenSlash | tokenWord | tokenDollar | tokenBeginMath | tokenEndMath
  | tokenAmpersand | tokenHash | tokenAsterisk | tokenAtSign | tokenUnderscore | tokenCaret
  | tokenApostrophe | tokenDitto | tokenSemicolon | tokenCommandSym
  | clauseCommandName | clauseArgument | clauseLR
  | itemNewLine | itemText | itemCurly | itemBracket | itemParen | itemCmd | itemEnv | itemLR
  | itemBegin | itemEnd | itemBlockComment | itemTypstCode | itemAttachComponent | itemFormula
  | scopeRoot
  deriving DecidableEq, Repr

/-- The variants in declaration order, as seen by the macro `enum_from_repr!` (syntax.rs:19-45). -/
def Kind.variants : List Kind := [
  .tokenError, .tokenLineBreak, .tokenWhiteSpace, .tokenComment,
  .tokenLBrace, .tokenRBrace, .tokenLBracket, .tokenRBracket, .tokenLParen, .tokenRParen,
  .tokenComma, .tokenTilde, .tokenSlash, .tokenWord, .tokenDollar, .tokenBeginMath, .tokenEndMath,
  .tokenAmpersand, .tokenHash, .tokenAsterisk, .tokenAtSign, .tokenUnderscore, .tokenCaret,
  .tokenApostrophe, .tokenDitto, .tokenSemicolon, .tokenCommandSym,
  .clauseCommandName, .clauseArgument, .clauseLR,
  .itemNewLine, .itemText, .itemCurly, .itemBracket, .itemParen, .itemCmd, .itemEnv, .itemLR,
  .itemBegin, .itemEnd, .itemBlockComment, .itemTypstCode, .itemAttachComponent, .itemFormula,
  .scopeRoot]

/-- syntax.rs:164-168 `kind as u16`: the discriminant, i.e. the position in the declaration. -/
def Kind.toRaw (k : Kind) : Nat := k.ctorIdx

/-- syntax.rs:5-45, 170-174 `from_repr`: the `match` generated by `arms!` numbers the variants 0, 0+1, …;
`none` is the `expect` panic of line 172. -/
def Kind.fromRaw (n : Nat) : Option Kind := Kind.variants[n]?

/-- syntax.rs:107-147 `From<Token> for SyntaxKind`. -/
def Token.kind : Token → Kind
  | .lineBreak => .tokenLineBreak
  | .whitespace => .tokenWhiteSpace
  | .lineComment => .tokenComment
  | .left .curly => .tokenLBrace
  | .right .curly => .tokenRBrace
  | .left .bracket => .tokenLBracket
  | .right .bracket => .tokenRBracket
  | .left .paren => .tokenLParen
  | .right .paren => .tokenRParen
  | .comma => .tokenComma
  | .tilde => .tokenTilde
  | .slash => .tokenSlash
  | .underscore => .tokenUnderscore
  | .apostrophe => .tokenApostrophe
  | .ditto => .tokenDitto
  | .semicolon => .tokenSemicolon
  | .caret => .tokenCaret
  | .word => .tokenWord
  | .dollar => .tokenDollar
  | .ampersand => .tokenAmpersand
  | .hash => .tokenHash
  | .asterisk => .tokenAsterisk
  | .atSign => .tokenAtSign
  | .newLine => .itemNewLine
  | .macroArg _ => .tokenWord
  | .cmd .errorBeginEnv | .cmd .errorEndEnv | .error => .tokenError
  | .cmd .beginEnv | .cmd .endEnv => .tokenCommandSym
  | .cmd .beginMath => .tokenBeginMath
  | .cmd .endMath => .tokenEndMath
  | .cmd _ => .clauseCommandName

/-- syntax.rs:149-160 `SyntaxKind::is_trivia`. -/
def Kind.isTrivia : Kind → Bool
  | .tokenLineBreak | .tokenWhiteSpace | .tokenComment | .itemNewLine => true
  | _ => false

/-- rowan green trees / `SyntaxElement`: a token with text or a node with children. -/
inductive Elem where
  | token (k : Kind) (text : Text)
  | node (k : Kind) (children : List Elem)
  deriving Repr

namespace Elem

/-- `SyntaxElement::kind`. -/
def kind : Elem → Kind
  | token k _ => k
  | node k _ => k

/-- `SyntaxNode::children_with_tokens`; a token has none. -/
def children : Elem → List Elem
  | token .. => []
  | node _ cs => cs

/-- `as_node().is_some()`. -/
def isNode : Elem → Bool
  | token .. => false
  | node .. => true

/-- The leaves in document order: `descendants_with_tokens().filter_map(into_token)`. -/
def leaves : Elem → List (Kind × Text)
  | token k t => [(k, t)]
  | node _ cs => go cs
where
  go : List Elem → List (Kind × Text)
    | [] => []
    | e :: es => e.leaves ++ go es

/-- `text().to_string()`: the concatenated texts of the leaves. -/
def text (e : Elem) : Text := (e.leaves.map Prod.snd).flatten

/-- rowan `SyntaxNode::first_token`: follow first children; an empty node has none (rowan's
`first_token` is `first_child_or_token()?.first_token()`). -/
def firstToken : Elem → Option (Kind × Text)
  | token k t => some (k, t)
  | node _ [] => none
  | node _ (e :: _) => e.firstToken

/-- rowan `SyntaxNode::last_token`: follow last children. -/
def lastToken : Elem → Option (Kind × Text)
  | token k t => some (k, t)
  | node _ cs => go cs
where
  go : List Elem → Option (Kind × Text)
    | [] => none
    | [e] => e.lastToken
    | _ :: e :: es => go (e :: es)

/-- `SyntaxNode::children`: the child nodes. -/
def childNodes (e : Elem) : List Elem := e.children.filter isNode

/-- The text of a token. -/
def tokenText : Elem → Text
  | token _ t => t
  | node .. => []

/-- syntax.rs:240-246 `FormulaItem::is_display`. -/
def isDisplay (e : Elem) : Bool :=
  match e.firstToken with
  | some (k, t) =>
    (decide (k = .tokenDollar) && decide (t = t!"$$"))
    || (decide (k = .tokenBeginMath) && decide (t = t!"\\["))
  | none => false

/-- syntax.rs:248-254 `FormulaItem::is_inline`. -/
def isInline (e : Elem) : Bool :=
  match e.firstToken with
  | some (k, t) =>
    (decide (k = .tokenDollar) && decide (t = t!"$"))
    || (decide (k = .tokenBeginMath) && decide (t = t!"\\("))
  | none => false

/-- syntax.rs:256-270 `FormulaItem::is_valid`. -/
def isValidFormula (e : Elem) : Bool :=
  match e.firstToken, e.lastToken with
  | some (k, t), some (k', t') =>
    if k = .tokenDollar ∧ k' = .tokenDollar then
      (decide (t = t!"$") && decide (t' = t!"$"))
      || (decide (t = t!"$$") && decide (t' = t!"$$"))
    else if k = .tokenBeginMath ∧ k' = .tokenEndMath then
      (decide (t = t!"\\(") && decide (t' = t!"\\)"))
      || (decide (t = t!"\\[") && decide (t' = t!"\\]"))
    else false
  | _, _ => false

/-- syntax.rs:311-317 `CmdItem::name_tok`: the first child token that is a command name. -/
def cmdName (e : Elem) : Option Text :=
  (e.children.find? fun c => !c.isNode && decide (c.kind = .clauseCommandName)).map tokenText

/-- syntax.rs:319-324, 428-433 `CmdItem::arguments`, `BeginItem::arguments`. -/
def arguments (e : Elem) : List Elem :=
  e.childNodes.filter fun c => decide (c.kind = .clauseArgument)

/-- syntax.rs:343-346 `EnvItem::begin`. -/
def envBegin (e : Elem) : Option Elem := e.childNodes.find? fun c => decide (c.kind = .itemBegin)

/-- syntax.rs:421-426 `BeginItem::name`. -/
def beginName (e : Elem) : Option Text :=
  match e.firstToken with
  | some (.tokenCommandSym, t) => some t
  | _ => none

/-- syntax.rs:353-356 `EnvItem::name_tok`. -/
def envName (e : Elem) : Option Text := e.envBegin.bind beginName

/-- syntax.rs:358-361 `EnvItem::arguments`. -/
def envArguments (e : Elem) : List Elem :=
  match e.envBegin with
  | some b => b.arguments
  | none => []

/-- Every element of the tree (the element itself included) satisfies `p`. -/
def Forall (p : Elem → Prop) : Elem → Prop
  | token k t => p (token k t)
  | node k cs => p (node k cs) ∧ go p cs
where
  go (p : Elem → Prop) : List Elem → Prop
    | [] => True
    | e :: es => e.Forall p ∧ go p es

/-- Height of a tree. -/
def depth : Elem → Nat
  | token .. => 1
  | node _ cs => go cs + 1
where
  go : List Elem → Nat
    | [] => 0
    | e :: es => max e.depth (go es)

end Elem

end Mitex
