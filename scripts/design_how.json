{
 "C01": [
  "Model/Token",
  "induction on the text over `lexOne`"
 ],
 "C02": [
  "Model/Token",
  "byte counters against the rules of Spec/Clause; the panic is characterised exactly"
 ],
 "C03": [
  "Model/Stream (`LexCache`, `Lexer`), any page size",
  "refinement to the list of the remaining tokens"
 ],
 "C04": [
  "Model/Token",
  "from C59: the token rules of Spec/Lexical"
 ],
 "C05": [
  "Model/Token",
  "from the token rules"
 ],
 "C06": [
  "Model/Token (`lex_begin_end` with its byte counter)",
  "both directions against Spec/Clause"
 ],
 "C07": [
  "Model/Engine",
  "transparent steps; induction on the tokens"
 ],
 "C08": [
  "Model/Engine (peeked token, stack of pages, lexer) and the list engine",
  "simulation in both directions"
 ],
 "C09": [
  "Model/Engine",
  "exact step of a call; substitution against Spec/Macro"
 ],
 "C10": [
  "Model/Engine",
  "parameter marks against Spec/Macro, both directions"
 ],
 "C11": [
  "Model/Engine",
  "exact steps of the definitions"
 ],
 "C12": [
  "Model/Engine",
  "exact steps of the definitions"
 ],
 "C13": [
  "Model/Engine",
  "exact steps of the definitions"
 ],
 "C14": [
  "Model/Engine",
  "invariant over all runs"
 ],
 "C15": [
  "Model/Engine",
  "invariant over all runs"
 ],
 "C16": [
  "Model/Engine",
  "bracket counting against Spec/Macro"
 ],
 "C17": [
  "Model/Engine",
  "against the rules of Spec/Expansion, both directions"
 ],
 "C18": [
  "Model/Engine",
  "exact: an expansion ends iff the rewriting of Spec/Expansion does; measure for acyclic linear macros; endless runs by an invariant"
 ],
 "C19": [
  "Model/Engine",
  "exact steps of the conditionals, skipping against Spec/Expansion"
 ],
 "C20": [
  "Model/Engine",
  "exact steps of environments"
 ],
 "C21": [
  "Model/Engine",
  "invariant over all runs"
 ],
 "C22": [
  "Model/SnapshotMap",
  "refinement to a stack of maps (Spec/ScopedMap) over all histories"
 ],
 "C23": [
  "Model/SnapshotMap",
  "from the refinement"
 ],
 "C24": [
  "Model/Glob",
  "loop invariant, all literal patterns"
 ],
 "C25": [
  "Model/Glob, Model/StandardSpec",
  "case analysis lifted to all strings; all patterns of the standard package"
 ],
 "C26": [
  "Model/Glob",
  "safety invariant of every step (all patterns); termination by a lexicographic measure, with a phase argument for the frames of the brace stack"
 ],
 "C27": [
  "Model/ArgMatch",
  "induction over the kinds"
 ],
 "C28": [
  "Model/Parser",
  "measure on tokens and depth, mutual fuel induction"
 ],
 "C29": [
  "Model/Parser (with an explicit green-node builder)",
  "invariant of the builder, mutual fuel induction"
 ],
 "C30": [
  "Model/Parser",
  "conservation of tokens, mutual fuel induction"
 ],
 "C31": [
  "Model/Parser",
  "shape invariant"
 ],
 "C32": [
  "Model/Parser",
  "shape invariant"
 ],
 "C33": [
  "Model/Parser, Model/ArgMatch",
  "shape invariant"
 ],
 "C34": [
  "Model/Parser",
  "shape invariant"
 ],
 "C35": [
  "Model/Syntax",
  "complete finite table"
 ],
 "C36": [
  "Model/Syntax",
  "induction on the children"
 ],
 "C37": [
  "Model/Convert",
  "frame lemma by induction on the tree"
 ],
 "C38": [
  "Model/Convert",
  "from the templates, C61"
 ],
 "C39": [
  "all stages",
  "composition of the stages, induction on the text"
 ],
 "C40": [
  "all stages",
  "composition of the stages, induction on the text"
 ],
 "C41": [
  "Model/Convert",
  "induction on the tree; sub-converter calls tracked by Spec/Conversion"
 ],
 "C42": [
  "Model/Parser, Model/Convert",
  "induction on the tree"
 ],
 "C43": [
  "Model/Convert",
  "relation between trees that differ in comments, induction"
 ],
 "C44": [
  "Model/Convert",
  "from the templates"
 ],
 "C45": [
  "Model/Convert",
  "specification of column specifications in Spec/Table"
 ],
 "C46": [
  "all stages",
  "exact, through C61/C62/C65; sufficient conditions on tokens and documents"
 ],
 "C47": [
  "Model/Convert",
  "Spec/Table against the loop over cells"
 ],
 "C48": [
  "all stages",
  "from C66"
 ],
 "C49": [
  "Model/Convert",
  "height of the tree"
 ],
 "C50": [
  "Model/SpecQuery",
  "equational"
 ],
 "C51": [
  "Model/SpecQuery",
  "fold over packages"
 ],
 "C52": [
  "Model/Spec, Model/SpecQuery",
  "case analysis and induction"
 ],
 "C53": [
  "Model/Cli",
  "decision table over all options"
 ],
 "C54": [
  "Model/Cli",
  "paths against Spec/Path, both directions"
 ],
 "C55": [
  "Model/SpecQuery",
  "permutation invariance of the generated texts"
 ],
 "C56": [
  "Model/Cli",
  "case analysis over all byte strings"
 ],
 "C57": [
  "Model/Engine",
  "invariant over all runs"
 ],
 "C58": [
  "all stages",
  "from the templates: what is printed is contained in the answer"
 ],
 "C59": [
  "Model/Token",
  "both directions against the lexical grammar Spec/Lexical"
 ],
 "C60": [
  "Model/Stream",
  "equational, UTF-8 boundaries"
 ],
 "C61": [
  "Model/Convert",
  "both directions against the templates of Spec/Template; failures too"
 ],
 "C62": [
  "Model/Parser",
  "both directions against the grammar of Spec/Grammar; panics too"
 ],
 "C63": [
  "Model/Compile",
  "all crash points of all runs, with an arbitrary operating system"
 ],
 "C64": [
  "Model/Glob",
  "both directions against Spec/Glob, all patterns without stars"
 ],
 "C65": [
  "Model/Engine",
  "both directions against the rewriting rules of Spec/Expansion; panics too"
 ],
 "C66": [
  "all stages",
  "composition of C59, C65, C62, C61"
 ],
 "C67": [
  "all stages",
  "structural induction on the formulas of Spec/Formula through lexer, engine, grammar and templates"
 ],
 "C68": [
  "all stages",
  "structural induction on the documents of Spec/Document through lexer, engine, grammar and templates; the row of items carries the text printed so far, so apostrophes may regroup items"
 ],
 "C69": [
  "Model/Glob",
  "invariant of the main loop: the answer is the match from here or the match from the last star; at a new star the way back is redundant (dominance lemma about separators)"
 ],
 "C70": [
  "The converter and parser as for C61 and C62. Spec/Nesting.lean defines a one-pass reader of Typst text that keeps the stack of open marks (parentheses, brackets, dollar signs, quotes, escapes), and what is required of the elements (Tidy) and of the names of the specification (NamesNeutral).",
  "Proof/Nesting: the texts and pieces of templates act on the stack; Proof/NestingTemplate and NestingAll: every template of C61 leaves the stack as it was, but \\left and \\right clauses, which open and close one parenthesis; Proof/NestingGrammar: mutual induction over the grammar of C62 shows that delimiter clauses and bare symbols stand only where these templates expect them, and that copied tokens have no marks (token invariant of the lexer and engine). Props/Nesting: C70_nested for all tidy trees, C70_default by evaluation of all entries of the default specification, C70_tokens and C70_words for all inputs without the risky commands; counterexamples for what is excluded."
 ],
 "C71": [
  "Spec/Program: a small language of texts with macros, its tokens and its meaning as a recursive function; macro engine, lexer pages, parser and converter as before",
  "Induction over programs and pieces: each piece delivers its value (composition of Delivers); bodies are read again with arguments already substituted, so the proof is over pieces with token lists in the places of the parameters; final by Passive; then the same tokens reach the parser"
 ],
 "C72": [
  "Model/Lazy: the parser written a second time over an abstract lexer (peek, eat, consume_utf8_bytes), with the real page-filling plain and macro lexers, over a source that may panic when it is asked for more",
  "simulation: a lexer state `Follows` a token list; parserFrom on a lexer and parseToks on the list agree step by step up to the errors the lexer can raise (LazySim); a successful lazy parse has consumed the source (LazyKeep); the macro lexer follows the output of the one-go engine run, page by page (LazyLex)"
 ],
 "C73": [
  "Model/GlobCapture: the matcher with the vector of captures (begin, extend, end, the capture index in states and wildcards, truncation when a brace is abandoned); Spec/GlobCapture: what the captures of a match are",
  "erasing the captures commutes with every round (Proof/GlobCapture); an invariant on all places in states and captures (Proof/GlobBounds); for steady patterns an invariant of the walk: the captures so far, extended by captures for the rest, are right, and whatever differs earlier differs by a longer star (Proof/GlobWalk)"
 ],
 "C74": [
  "Spec/Size: size of trees and tokens, depth of lists, the bound; the templates of C61, the grammar of C62, the tokens of C02",
  "every template costs less than its element: each part leaves something for the marks around it, a waiting label is paid when it is met (Proof/SizeTemplate, SizeAll; induction over what is printed); reading creates no size (Proof/SizeTree; induction over the grammar); the attained bound from C68"
 ],
 "C75": [
  "Spec/Local: reading item by item, what looks to the left, closed items, tokens that are not continued; the grammar of C62, the lexical rules of C59, the templates of C61",
  "induction over the grammar: what is read before a token does not change with what follows (Proof/Local); rows can be moved, and items that stand alone do not see what is before them (Proof/LocalJoin); rules of the lexer are local (Proof/LocalClosed); templates are printed one after the other"
 ],
 "C76": [
  "Spec/Agree: mentioned names, specifications that agree on a text; the grammar of C62, the templates of C61",
  "the lexer looks up only prefixes of what follows a backslash (Proof/AgreeLex); derivations of the grammar are carried over from one specification to the other, as an item leaves only tokens of the text (Proof/AgreeParse); the macro engine delivers only tokens of the text and `\\fi` (invariant of C21); the parts of a template are elements of the tree that are commands, environments or delimiters made from those tokens (Proof/TemplateParts, Proof/AgreeConvert)"
 ],
 "C77": [
  "Spec/FormulaAlone: the marks of a formula, texts that are formulas; the grammar of C62, the templates of C61",
  "the derivation of the formula is cut at the closing mark (one token of lookahead, C75), carried over from the scope of the formula to the scope of a document by induction on derivations, as the scope is only seen through the tokens that end it, and its row is moved back by one item (Proof/LocalFormula); the tree being one closed formula gives the derivation back; the marks are silent in the templates"
 ],
 "C78": [
  "Model/SpecJson: JSON values, the visitors derived by serde (tagged by \"kind\"; objects and arrays), compile_spec, generate, the Typst helpers; Spec/SpecJson: what a JSON value says",
  "each reader is shown equivalent to the relation of the specification (by cases on the kind, Proof/SpecJson); likeness of values by induction on the relation (Proof/SpecJsonAlike); maps by the lemmas of C50 and C51"
 ],
 "C79": [
  "Model/SpecJson: process-spec and the scope, with any type of handlers",
  "lookups after a fold of insertions, by induction on the definitions"
 ],
 "C80": [
  "Model/Ast: the accessors; Spec/Ast: the parts of clauses, delimited items and environments",
  "an invariant of the grammar (C62): the header of a row is never taken as an operand, and no other item of a row is a clause; mutual induction on Item, Items and Args (Proof/Ast)"
 ],
 "C81": [
  "Spec/OneFormula: one formula; Spec/Nesting: the marks of Typst",
  "C70 with the stack of a formula that must not be closed at the bottom; the stacks of both runs are compared mark by mark"
 ],
 "C82": [
  "Spec/Words: the words of a text; Spec/Within: the parts of an element that are converted within math",
  "by the templates of C61: every template in math starts after and ends with a character that is not part of a word; induction on the derivation (Proof/Words, Proof/WordsAll)"
 ],
 "C83": [
  "Spec/Shown: which commands and environments do not show their arguments (unspoken, leftOut), the words of a tree (shown) and of a text (spoken)",
  "by the templates of C61: every template holds its parts in the order of the source (Proof/Shown, Proof/ShownAll), induction on the derivation; with C30 (the tree reads the tokens) for texts"
 ],
 "C84": [
  "Spec/Blank: tokens and trees that differ in the texts of blanks (AlikeTok, Alike)",
  "simulation along the rewriting rules of C65 (Proof/BlankMacro) and along the grammar of C62 (Proof/Blank), from there to C43 (Proof/BlankTree); the tokens of joined texts by C59 and C75"
 ],
 "C85": [
  "Spec/Respaced: texts that differ in stretches of white space (Respaced, squeezed)",
  "alike templates for alike trees, element by element (Proof/Respaced, RespacedCmd, RespacedAll), induction over the exact output of C61; the trees by C84"
 ],
 "C86": [
  "Spec/Layout: texts that differ in layout (SameLines), no comments within clauses (PlainClauses)",
  "simulation along the lexical rules of C59 (Proof/Layout, Proof/LayoutLex), from there to C85"
 ],
 "C87": [
  "Spec/Renamed: exchanging two names in tokens and texts (exchange, exchangeTok, Exchanged), names of macros (OwnName, CommandWord, NoEnvironment)",
  "simulation along the rewriting rules of C65 with tables renamed by the exchange, an involution (Proof/Renamed); lexing by C59"
 ],
 "C88": [
  "Spec/Unused: texts that do not mention a name (Unmentioned), texts with definitions left out (LeftOut), written definitions (writtenDefinition, DefinitionText)",
  "the rewriting rules of C65 look a name up only where it stands in the text (Proof/Unused), closed under expansion by the simulation of C87 with the identity; induction on LeftOut, with the determinism of the steps; lexing by C59"
 ],
 "C89": [
  "the rewriting rules of C65",
  "every rule of C65 delivers tokens that are rewritten to themselves with the predefined table, and with the conditionals that are still open; induction on the expansion"
 ],
 "C90": [
  "Model/Utf8: std::str::from_utf8, wasm_into_str, the plugin functions, on lists of bytes",
  "decoding one character is the inverse of encoding, by arithmetic over all ranges; induction over the characters; errors by cases of the byte at which they arise"
 ],
 "C91": [
  "the grammar (C62), the lexical grammar (C59), the runs of the engine (C19)",
  "the tokens of the block by C59, its tree by C62, the output by unfolding the converter at the node; losslessness (C01) turns the texts of the tokens back into the body"
 ],
 "C92": [
  "the language of formulas (C67) and a relation between formulas: one pair of braces less (Spec/Braces)",
  "mutual induction on the relation: the Typst texts of C67 are equal, and the LaTeX texts are equal but for braces"
 ]
}