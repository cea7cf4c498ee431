# Formal model of mitex in Lean 4 — design and trusted base

(Generated by `scripts/design.py` from `design_head.md`, `design_how.json`, `design_tail.md`, `properties.jsonl`, `MANIFEST.json`.)

## Layout

* `lean/Verif/Model/*`  – the model, one file per Rust source file; every definition cites the file and lines it models.
* `lean/Verif/Spec/*`   – small independent specifications used in the statements: rules, grammars, templates, data types.
  They use the vocabulary of the model (tokens, trees, the record of a command specification), but none of its algorithms.
* `lean/Verif/Proof/*`  – lemmas.
* `lean/Verif/Props/*`  – the property theorems, named `Cnn_…`, with examples beside them that meet their hypotheses.
* `scripts/`            – `conformance.py` replays the repository's snapshot tests on the model, `captures.py` those of glob captures, `genspec.py` transcribes the standard package,
  `manifest.py`, `addprop.py`, `mutlog.py`, `design.py` keep the records.
* `seeded/LOG.jsonl`    – the wrong programs the theorems were tested against.

## Modelling conventions

* `&str` is `List Char` (`Text`); where the code counts bytes the model counts UTF-8 bytes of the characters, and slicing off a boundary is a panic.
  Globs work on bytes (`List Nat`), as in the code.
* `Except Stop α`: `Stop.panic` is a Rust panic (`unwrap`, slice, `assert!`), `Stop.fuel` is "the loop did not finish within the given number of
  steps" (only where the Rust loop or recursion is not structurally bounded; there are theorems that it never happens for enough fuel, or that it
  happens for every fuel), `Stop.error msg` is a `ConvertError`.
* `&mut self` functions return the new state.  The formatter of the converter is a field of its state.
* The stages are modelled one after the other: `tokensOf` (the whole text), the macro engine on the list of tokens, the parser on the delivered
  list, the converter on the tree.  In the code the lexer is lazy: it is pulled by the engine, which is pulled by the parser.  C03 and C08 prove that
  the pages and the buffers between the first two are unobservable.  The interleaved run is a second model (Model/Lazy); C72 proves that it gives
  the same answers.  (The two could differ only between an endless expansion and a panic of a later stage: the code may panic in the parser before
  the expansion goes on for ever, the staged model calls it endless.  Neither is a success, and C72 covers that too.)

## The properties

| id | property | modelled in | how it is proved | status |
|----|----------|-------------|------------------|--------|
| C01 | Lexing is lossless | Model/Token | induction on the text over `lexOne` | proved |
| C02 | Lexing terminates, and panics only at a torn clause | Model/Token | byte counters against the rules of Spec/Clause; the panic is characterised exactly | proved |
| C03 | Paged lexing is unobservable | Model/Stream (`LexCache`, `Lexer`), any page size | refinement to the list of the remaining tokens | proved |
| C04 | Starred command names follow the spec | Model/Token | from C59: the token rules of Spec/Lexical | proved |
| C05 | Token classes are maximal and pure | Model/Token | from the token rules | proved |
| C06 | \begin{name}/\end{name} are one token carrying the name | Model/Token (`lex_begin_end` with its byte counter) | both directions against Spec/Clause | proved |
| C07 | Macro lexing is transparent without macros | Model/Engine | transparent steps; induction on the tokens | proved |
| C08 | Macro engine buffering is unobservable | Model/Engine (peeked token, stack of pages, lexer) and the list engine | simulation in both directions | proved |
| C09 | Macro bodies are substituted faithfully | Model/Engine | exact step of a call; substitution against Spec/Macro | proved |
| C10 | Parameter marks in definitions | Model/Engine | parameter marks against Spec/Macro, both directions | proved |
| C11 | \newcommand defines, and reports redefinition | Model/Engine | exact steps of the definitions | proved |
| C12 | \renewcommand rebinds, and reports missing names | Model/Engine | exact steps of the definitions | proved |
| C13 | \providecommand never overrides | Model/Engine | exact steps of the definitions | proved |
| C14 | Definitions are local to their name | Model/Engine | invariant over all runs | proved |
| C15 | No macro takes more than nine arguments | Model/Engine | invariant over all runs | proved |
| C16 | Braced groups are read to the matching brace | Model/Engine | bracket counting against Spec/Macro | proved |
| C17 | Arguments of user macros are bound one by one | Model/Engine | against the rules of Spec/Expansion, both directions | proved |
| C18 | When macro expansion ends | Model/Engine | exact: an expansion ends iff the rewriting of Spec/Expansion does; measure for acyclic linear macros; endless runs by an invariant | proved |
| C19 | Conditionals select a branch | Model/Engine | exact steps of the conditionals, skipping against Spec/Expansion | proved |
| C20 | User environments are unfolded around their body | Model/Engine | exact steps of environments | proved |
| C21 | Parameter marks never leak to the parser | Model/Engine | invariant over all runs | proved |
| C22 | Scope rollback is exact | Model/SnapshotMap | refinement to a stack of maps (Spec/ScopedMap) over all histories | proved |
| C23 | The scoped table is a map | Model/SnapshotMap | from the refinement | proved |
| C24 | Literal argument patterns match prefixes | Model/Glob | loop invariant, all literal patterns | proved |
| C25 | The optional-argument patterns of the standard spec | Model/Glob, Model/StandardSpec | case analysis lifted to all strings; all patterns of the standard package | proved |
| C26 | Pattern matching is total, except for stars inside braces | Model/Glob | safety invariant of every step (all patterns); termination by a lexicographic measure, with a phase argument for the frames of the brace stack | proved |
| C27 | Argument matchers never take too many arguments | Model/ArgMatch | induction over the kinds | proved |
| C28 | Parsing terminates | Model/Parser | measure on tokens and depth, mutual fuel induction | proved |
| C29 | When parsing succeeds | Model/Parser (with an explicit green-node builder) | invariant of the builder, mutual fuel induction | proved |
| C30 | Nothing but trivia and conditionals is lost by the parser | Model/Parser | conservation of tokens, mutual fuel induction | proved |
| C31 | The syntax tree is rooted and well nested | Model/Parser | shape invariant | proved |
| C32 | Commands always have their name, environments their begin clause | Model/Parser | shape invariant | proved |
| C33 | Fixed-arity commands get at most their arity | Model/Parser, Model/ArgMatch | shape invariant | proved |
| C34 | Groups are closed or the input is over | Model/Parser | shape invariant | proved |
| C35 | Syntax kinds round-trip | Model/Syntax | complete finite table | proved |
| C36 | A formula is never both inline and display | Model/Syntax | induction on the children | proved |
| C37 | Conversion restores its context | Model/Convert | frame lemma by induction on the tree | proved |
| C38 | List items are indented by nesting depth | Model/Convert | from the templates, C61 | proved |
| C39 | Plain text converts to itself, escaped | all stages | composition of the stages, induction on the text | proved |
| C40 | Plain math converts letter by letter | all stages | composition of the stages, induction on the text | proved |
| C41 | Unknown commands are never dropped silently | Model/Convert | induction on the tree; sub-converter calls tracked by Spec/Conversion | proved |
| C42 | Parse errors are never dropped silently | Model/Parser, Model/Convert | induction on the tree | proved |
| C43 | Comments do not influence the output | Model/Convert | relation between trees that differ in comments, induction | proved |
| C44 | Formulas are wrapped once | Model/Convert | from the templates | proved |
| C45 | Table headers follow the column spec | Model/Convert | specification of column specifications in Spec/Table | proved |
| C46 | When a conversion panics | all stages | exact, through C61/C62/C65; sufficient conditions on tokens and documents | proved |
| C47 | Table cells and where they are closed | Model/Convert | Spec/Table against the loop over cells | proved |
| C48 | Which specification governs a conversion | all stages | from C66 | proved |
| C49 | Conversion terminates and is a function of the tree | Model/Convert | height of the tree | proved |
| C50 | Sugared specs canonicalise | Model/SpecQuery | equational | proved |
| C51 | Later packages override earlier ones | Model/SpecQuery | fold over packages | proved |
| C52 | A name is a command or an environment, never both | Model/Spec, Model/SpecQuery | case analysis and induction | proved |
| C53 | CLI argument resolution | Model/Cli | decision table over all options | proved |
| C54 | The default output path | Model/Cli | paths against Spec/Path, both directions | proved |
| C55 | The generated prelude binds each alias once | Model/SpecQuery | permutation invariance of the generated texts | proved |
| C56 | An empty WASM spec means the default spec | Model/Cli | case analysis over all byte strings | proved |
| C57 | The macro engine panics only on malformed definitions | Model/Engine | invariant over all runs | proved |
| C58 | What is converted is kept | all stages | from the templates: what is printed is contained in the answer | proved |
| C59 | The token sequence is the one of the lexical grammar | Model/Token | both directions against the lexical grammar Spec/Lexical | proved |
| C60 | Consuming characters of the peeked token | Model/Stream | equational, UTF-8 boundaries | proved |
| C61 | The output of the converter is exactly the composition of fixed templates | Model/Convert | both directions against the templates of Spec/Template; failures too | proved |
| C62 | The syntax tree is exactly the one of the grammar | Model/Parser | both directions against the grammar of Spec/Grammar; panics too | proved |
| C63 | Compiling touches nothing but the output file, at every crash point | Model/Compile | all crash points of all runs, with an arbitrary operating system | proved |
| C64 | Meaning of glob patterns without stars | Model/Glob | both directions against Spec/Glob, all patterns without stars | proved |
| C65 | Macro expansion is exactly the rewriting of the rules | Model/Engine | both directions against the rewriting rules of Spec/Expansion; panics too | proved |
| C66 | The answer of a conversion, end to end | all stages | composition of C59, C65, C62, C61 | proved |
| C67 | Formulas of any depth become the Typst formula written for them | all stages | structural induction on the formulas of Spec/Formula through lexer, engine, grammar and templates | proved |
| C68 | Documents of any depth become the Typst document written for them | all stages | structural induction on the documents of Spec/Document through lexer, engine, grammar and templates; the row of items carries the text printed so far, so apostrophes may regroup items | proved |
| C69 | Meaning of glob patterns with stars | Model/Glob | invariant of the main loop: the answer is the match from here or the match from the last star; at a new star the way back is redundant (dominance lemma about separators) | proved |
| C70 | The Typst output is well nested | The converter and parser as for C61 and C62. Spec/Nesting.lean defines a one-pass reader of Typst text that keeps the stack of open marks (parentheses, brackets, dollar signs, quotes, escapes), and what is required of the elements (Tidy) and of the names of the specification (NamesNeutral). | Proof/Nesting: the texts and pieces of templates act on the stack; Proof/NestingTemplate and NestingAll: every template of C61 leaves the stack as it was, but \left and \right clauses, which open and close one parenthesis; Proof/NestingGrammar: mutual induction over the grammar of C62 shows that delimiter clauses and bare symbols stand only where these templates expect them, and that copied tokens have no marks (token invariant of the lexer and engine). Props/Nesting: C70_nested for all tidy trees, C70_default by evaluation of all entries of the default specification, C70_tokens and C70_words for all inputs without the risky commands; counterexamples for what is excluded. | proved |
| C71 | Texts with macros mean textual substitution | Spec/Program: a small language of texts with macros, its tokens and its meaning as a recursive function; macro engine, lexer pages, parser and converter as before | Induction over programs and pieces: each piece delivers its value (composition of Delivers); bodies are read again with arguments already substituted, so the proof is over pieces with token lists in the places of the parameters; final by Passive; then the same tokens reach the parser | proved |
| C72 | Pulling tokens on demand changes nothing | Model/Lazy: the parser written a second time over an abstract lexer (peek, eat, consume_utf8_bytes), with the real page-filling plain and macro lexers, over a source that may panic when it is asked for more | simulation: a lexer state `Follows` a token list; parserFrom on a lexer and parseToks on the list agree step by step up to the errors the lexer can raise (LazySim); a successful lazy parse has consumed the source (LazyKeep); the macro lexer follows the output of the one-go engine run, page by page (LazyLex) | proved |
| C73 | Captures of glob matching | Model/GlobCapture: the matcher with the vector of captures (begin, extend, end, the capture index in states and wildcards, truncation when a brace is abandoned); Spec/GlobCapture: what the captures of a match are | erasing the captures commutes with every round (Proof/GlobCapture); an invariant on all places in states and captures (Proof/GlobBounds); for steady patterns an invariant of the walk: the captures so far, extended by captures for the rest, are right, and whatever differs earlier differs by a longer star (Proof/GlobWalk) | proved |
| C74 | The size of the output | Spec/Size: size of trees and tokens, depth of lists, the bound; the templates of C61, the grammar of C62, the tokens of C02 | every template costs less than its element: each part leaves something for the marks around it, a waiting label is paid when it is met (Proof/SizeTemplate, SizeAll; induction over what is printed); reading creates no size (Proof/SizeTree; induction over the grammar); the attained bound from C68 | proved |
| C75 | Parts of a document are converted independently | Spec/Local: reading item by item, what looks to the left, closed items, tokens that are not continued; the grammar of C62, the lexical rules of C59, the templates of C61 | induction over the grammar: what is read before a token does not change with what follows (Proof/Local); rows can be moved, and items that stand alone do not see what is before them (Proof/LocalJoin); rules of the lexer are local (Proof/LocalClosed); templates are printed one after the other | proved |
| C76 | Only the entries of the names mentioned in the text matter | Spec/Agree: mentioned names, specifications that agree on a text; the grammar of C62, the templates of C61 | the lexer looks up only prefixes of what follows a backslash (Proof/AgreeLex); derivations of the grammar are carried over from one specification to the other, as an item leaves only tokens of the text (Proof/AgreeParse); the macro engine delivers only tokens of the text and `\fi` (invariant of C21); the parts of a template are elements of the tree that are commands, environments or delimiters made from those tokens (Proof/TemplateParts, Proof/AgreeConvert) | proved |
| C77 | A formula in a document is the formula converted alone | Spec/FormulaAlone: the marks of a formula, texts that are formulas; the grammar of C62, the templates of C61 | the derivation of the formula is cut at the closing mark (one token of lookahead, C75), carried over from the scope of the formula to the scope of a document by induction on derivations, as the scope is only seen through the tokens that end it, and its row is moved back by one item (Proof/LocalFormula); the tree being one closed formula gives the derivation back; the marks are silent in the templates | proved |
| C78 | Specifications written as JSON mean what they say | Model/SpecJson: JSON values, the visitors derived by serde (tagged by "kind"; objects and arrays), compile_spec, generate, the Typst helpers; Spec/SpecJson: what a JSON value says | each reader is shown equivalent to the relation of the specification (by cases on the kind, Proof/SpecJson); likeness of values by induction on the relation (Proof/SpecJsonAlike); maps by the lemmas of C50 and C51 | proved |
| C79 | Handlers are in scope under the names written for them | Model/SpecJson: process-spec and the scope, with any type of handlers | lookups after a fold of insertions, by induction on the definitions | proved |
| C80 | The typed view of the tree agrees with the tree | Model/Ast: the accessors; Spec/Ast: the parts of clauses, delimited items and environments | an invariant of the grammar (C62): the header of a row is never taken as an operand, and no other item of a row is a clause; mutual induction on Item, Items and Args (Proof/Ast) | proved |
| C81 | A converted formula is one Typst formula | Spec/OneFormula: one formula; Spec/Nesting: the marks of Typst | C70 with the stack of a formula that must not be closed at the bottom; the stacks of both runs are compared mark by mark | proved |
| C82 | Names, letters and numbers of a formula are never joined | Spec/Words: the words of a text; Spec/Within: the parts of an element that are converted within math | by the templates of C61: every template in math starts after and ends with a character that is not part of a word; induction on the derivation (Proof/Words, Proof/WordsAll) | proved |
| C83 | The words of a document stand in the output, in the order of the source | Spec/Shown: which commands and environments do not show their arguments (unspoken, leftOut), the words of a tree (shown) and of a text (spoken) | by the templates of C61: every template holds its parts in the order of the source (Proof/Shown, Proof/ShownAll), induction on the derivation; with C30 (the tree reads the tokens) for texts | proved |
| C84 | What a comment says does not matter | Spec/Blank: tokens and trees that differ in the texts of blanks (AlikeTok, Alike) | simulation along the rewriting rules of C65 (Proof/BlankMacro) and along the grammar of C62 (Proof/Blank), from there to C43 (Proof/BlankTree); the tokens of joined texts by C59 and C75 | proved |
| C85 | Only the white space of the output depends on the white space of the source | Spec/Respaced: texts that differ in stretches of white space (Respaced, squeezed) | alike templates for alike trees, element by element (Proof/Respaced, RespacedCmd, RespacedAll), induction over the exact output of C61; the trees by C84 | proved |
| C86 | Layout does not matter: line ends, tabulators, numbers of spaces | Spec/Layout: texts that differ in layout (SameLines), no comments within clauses (PlainClauses) | simulation along the lexical rules of C59 (Proof/Layout, Proof/LayoutLex), from there to C85 | proved |
| C87 | What macros are called does not matter | Spec/Renamed: exchanging two names in tokens and texts (exchange, exchangeTok, Exchanged), names of macros (OwnName, CommandWord, NoEnvironment) | simulation along the rewriting rules of C65 with tables renamed by the exchange, an involution (Proof/Renamed); lexing by C59 | proved |
| C88 | Definitions that are not used leave no trace | Spec/Unused: texts that do not mention a name (Unmentioned), texts with definitions left out (LeftOut), written definitions (writtenDefinition, DefinitionText) | the rewriting rules of C65 look a name up only where it stands in the text (Proof/Unused), closed under expansion by the simulation of C87 with the identity; induction on LeftOut, with the determinism of the steps; lexing by C59 | proved |
| C89 | Macro expansion is idempotent | the rewriting rules of C65 | every rule of C65 delivers tokens that are rewritten to themselves with the predefined table, and with the conditionals that are still open; induction on the expansion | proved |
| C90 | The plugin and the command line tool take exactly UTF-8 | Model/Utf8: std::str::from_utf8, wasm_into_str, the plugin functions, on lists of bytes | decoding one character is the inverse of encoding, by arithmetic over all ranges; induction over the characters; errors by cases of the byte at which they arise | proved |
| C91 | Typst code is copied verbatim, block comments leave nothing | the grammar (C62), the lexical grammar (C59), the runs of the engine (C19) | the tokens of the block by C59, its tree by C62, the output by unfolding the converter at the node; losslessness (C01) turns the texts of the tokens back into the body | proved |
| C92 | Braces that are not needed make no difference in formulas | the language of formulas (C67) and a relation between formulas: one pair of braces less (Spec/Braces) | mutual induction on the relation: the Typst texts of C67 are equal, and the LaTeX texts are equal but for braces | proved |

How to read the claims: C59 (lexer), C65 (macro engine), C62 (parser) and C61 (converter) each say that the code computes *exactly* a relation
given by rules in `Spec/`, for all inputs, including the failures; C66 composes them; C67 and later ones instantiate the composition on languages of
formulas and documents given as data types.  Where the naive property is false of the code, the property was restated to what is true (both
directions where possible) and the failure is itself a theorem; the list of defects is below.

## Defects of the code found on the way

Proved ones name the theorem.

1. Recursive macros are expanded for ever (C18_recursion_diverges); so are some acyclic macros that duplicate an argument (C18_duplication_diverges).
2. `#` as the last token of a definition panics (C10_trailing_mark_panics, C10_not_total).
3. `\newcommand{\begin{x}}{y}` panics (C57_begin_as_name_panics).
4. A word that is not a braced argument is split wrongly between the arguments of a macro (C17_word_miscount).
5. `\else` nested in skipped text ends the skipping (C19_nested_else_breaks_skipping).
6. The parser panics on `\alpha x_\over y`, `&_\limits` and the like (C29_panics; C62_panics says exactly when).
7. A custom specification is used for reading, but the converter prints by the default one (C48_custom_rejected, C48_exact); a custom
   specification without a command the parser needs makes the converter panic (C46_custom_spec_panics).
8. The converter panics on `\label` or `\includegraphics` without a braced argument, `\caption` without argument in a figure, `tabular` without argument (C46_crashes).
9. The last cell of a table is not closed when its row is not ended by `\\` (C47_unclosed).
10. The default output path of `mitex compile x.tex` is `x.tex` itself, which is overwritten (C54_clobbers_exactly, C63_source_lost).
11. `\left(` without `\right` gives an unbalanced `lr(`.
12. A comment inside `\begin{…}` makes the clause slip back by a byte; the lexer then panics or tears a character (C06_exact, C02_panics_exactly).
13. `\mitexrecurse{#1}` delivers a raw parameter to the parser (C21_recurse_leaks); definitions inside of definitions lose their parameters.
14. An environment with a greedy argument pattern in a custom specification panics.
15. Patterns with stars inside braces can loop for ever (C26_not_total).
16. The text of a comment inside `\label{…}` is printed (C43_label_comment).
17. A `\label` in a figure that stands before an inner environment is printed after it.
18. A script that is a command with arguments makes the row forget its last item (C62_script_forgets); the second `\over` of a row loses its left operand
    (C62_infix_forgets); `x_\limits` applies `limits` to the wrong thing (C62_lost_operands).
19. Braces in globs: nested ones are wrong, the empty alternative is not a full match, alternatives are not tried again (C64_limits).
20. Malformed definitions silently swallow tokens; a user environment without end swallows the rest of the document (rules `broken`, `envUnclosed`, `envUnmatched` of Spec/Expansion, C65).
21. `$a$$b$`: the `$$` is one token that closes the first formula.
22. `\includegraphics[width=\textwidth]{a.png}` becomes `#image(width:  * 100%, "a.png")`, which is not Typst: the code expects a factor before `\textwidth` (Spec/Document requires one).
23. The memory "a line has just started" outlives environments and cells: in `\begin{itemize}…` newline `\end{itemize} x` the blank before `x` is dropped (`endsLine` in Spec/Document), and a rule or separator of a table does not clear it.
24. In a table, a figure or any environment an apostrophe (or script) after `&`, `\\` or a rule is attached to the item before it, so that it moves into the previous cell, or takes a rule with it (excluded from Spec/Document by `primed`).
25. Stars and separators in globs: only the last star is tried again, so that `*[!a]*b` does not match `x/yb`; in prefix mode `*a/b` refuses `xa/` (C69_limits).
26. `glob_match_with_captures` keeps captures of abandoned attempts: `*??` on `abc` gives four captures for three wildcards, `*a?b` on `axcaxb` reports the
    `?` of the attempt given up; with nested braces (`{b,bb{x,y}}bz` on `bbz`) a capture is `2..1`, with which slicing panics; `?` captures single bytes of
    characters (C73_abandoned, C73_bytes).
27. A `\label` in an environment inside of an inline formula waits, and is put after the next environment of the text, which has nothing to do with it
    (C75_limits).
28. `\begin{array}\end{array}` (an environment with arguments, of which none is given) is converted in a formula, but refused at the top level
    (`error unexpected: "array"`): there `\end` is taken as the argument.  `$\begin{array}$x$\end{array}$` and its inside alone differ in the same way
    (C77_limits).
29. A script after a formula is attached to the item before the formula: `x $y$^2` (formulas do not become the last item; `Reaches`/`settles` in
    Spec/Local state it).
30. Words are copied to Typst text as they are: backticks, `<…>`, `=` and `- ` at the start of a line keep their meaning in Typst
    (C61 states the exact output).
31. packages/mitex/specs/prelude.typ: `define-glob-env` has `alias: none` as default, but the alias of a `glob-env` is required by
    query.rs:55-63; one such definition makes the whole specification unreadable (C78_refused).
32. query.rs: the optional `alias` may be left out of `cmd` and `env` in an object, but not if the item is written as an array (C78).
33. arg_match.rs:66-74: the counter of a fixed length pattern is a `u8` and is increased on every try of a term: with length 255 the 256th
    try overflows (panic in debug builds; C27_byte_debug; without effect in release builds: C27_byte_release).
34. syntax.rs:374-377: `LRItem::right` of an unclosed `\left(` without nodes after it answers the clause of `\left` itself (C80_delimited,
    C80_example).
35. syntax.rs:406-411: `LRClause::sym` of a clause without delimiter answers the last blank after the command (C80_clause, C80_example).
36. parser.rs: `\begin{a}…\end{b}` is accepted, the names are not compared (C80_example); the converter uses the name of the begin clause only.
37. macro_engine.rs: a user macro named `\newcommand` (or another of the defining commands) can be defined; the later definitions then expand
    it instead of defining.
38. macro_engine.rs: in `\newcommand{\a}[1] {x}` the blank before the body is taken as the definition.
39. converter.rs: brackets in a label, an unclosed `\left` or `\begin{tabular}` in math mode leave brackets or cells open in the result;
    these are the words excluded in C70 and C81.
40. lexer and converter: `\begin{a}` in Typst code (`\iftypst…\fi`) is copied as `a` only, since the token of a clause keeps just the name
    (C91_example).
41. converter.rs: the braces around the base of a script are dropped: `{ab}^2` becomes `a b ^(2 )`, where the exponent is that of `b`
    alone in Typst, and `{x^a}^b` becomes `x ^(a )^(b )` (C92_base_lost).

## Trusted base

* **Lean's kernel** (4.33.0).  No axioms of our own, no compiled evaluation.  Of the theorems in `MANIFEST.json`, all depend at most on
  `propext`, `Classical.choice`, `Quot.sound` (`#print axioms` on each: about four in five use all three, the rest fewer or none).
* **The reading of the Rust code into the model.**  Evidence: `scripts/conformance.py` replays the repository's snapshot tests (conversion, syntax trees,
  macro expansion, globs: 1571 cases) on the model without a mismatch; `scripts/captures.py` replays the 1268 assertions of the glob crate on the matcher with captures.  This is testing, not proof.
* **Dependencies modelled from their documentation**: `logos` (longest match, priorities), `rowan` (green-node builder with checkpoints), `ena` (undo
  log), `rustc_hash` (a finite map), `std` (paths, `chars`, UTF-8).
* **The statements** in `Spec/` and `Props/`.

### Modelled

| Rust | model |
|------|-------|
| mitex-lexer: token.rs, stream.rs, lib.rs | Model/Token, Model/Stream |
| mitex-lexer: macro_engine.rs | Model/Engine |
| mitex-lexer: snapshot_map.rs | Model/SnapshotMap |
| mitex-glob: `glob_match`, `glob_match_prefix`; `glob_match_with_captures` | Model/Glob; Model/GlobCapture |
| mitex-parser: arg_match.rs, parser.rs, syntax.rs | Model/ArgMatch, Model/ArgCounter (the `u8` counter), Model/Parser, Model/Syntax, Model/Ast |
| mitex-spec: lib.rs, query.rs, preludes.rs; mitex-spec-gen build.rs (merging) | Model/Spec, Model/SpecQuery |
| packages/mitex/specs/latex/standard.typ | Model/StandardSpec (transcribed entry by entry) |
| mitex: converter.rs, lib.rs | Model/Convert |
| the interleaving of lexer, macro engine and parser | Model/Lazy |
| mitex-cli: lib.rs (`process_opts`), main.rs (`compile`); mitex-wasm | Model/Cli, Model/Compile |

### Not modelled, and simplifications

* Stack overflow on deep nesting, memory, integer overflow of `i32`/`u32` indices at 2^31 bytes.
* The rkyv encoding, reading JSON text (values are modelled, C78), `clap`, `version.rs`, logging, the file system side of `build.rs`, the handlers of the Typst package.
* Most theorems are about the stages run one after the other; the interleaved run is Model/Lazy, and C72 transfers the answers.
* The escapes in messages of `{:?}` of texts are simplified to those of quotes, backslashes and control characters.
* `std::str::from_utf8` is not in /repo; Model/Utf8 follows the source of the standard library (C90), without its steps over words of ASCII.
* Paths are texts following the documentation of `std::path` (Unix); links between files are not modelled.
* Some loops of the code are written in closed form (`takeWhile` for a scanning loop); the comments say where.
* The macro table of `mitex` is used without scopes by the engine; the scoped table itself (C22, C23) is modelled in full.

## Testing the theorems

`seeded/LOG.jsonl` records several rounds of wrong programs: one edit of a model definition each, the whole project rebuilt, and the theorems that failed.
Edits after which everything still built led to tighter theorems (field `tightened`), or are marked as equivalent to the original.
