
How to read the claims: C59 (lexer), C65 (macro engine), C62 (parser) and C61 (converter) each say that the code computes *exactly* a relation
given by rules in `Spec/`, for all inputs, including the failures; C66 composes them; C67 and later ones instantiate the composition on languages of
formulas and documents given as data types.  Where the naive property is false of the code, the property was restated to what is true (both
directions where possible) and the failure is itself a theorem; the list of defects is below.

## Defects of the code found on the way

Proved ones name the theorem.

1. Recursive macros are expanded for ever (C18_recursion_diverges); so are some acyclic macros that duplicate an argument (C18_duplication_diverges).
2. `#` as the last token of a definition panics (C10_trailing_mark_panics, C10_not_total).
3. `\newcommand{\begin{x}}{y}` panics (C57_begin_as_name_panics).
4. A word that is not a braced argument is split wrongly between the arguments of a macro (C17_word_miscount).
5. `\else` nested in skipped text ends the skipping (C19_nested_else_breaks_skipping).
6. The parser panics on `\alpha x_\over y`, `&_\limits` and the like (C29_panics; C62_panics says exactly when).
7. A custom specification is used for reading, but the converter prints by the default one (C48_custom_rejected, C48_exact); a custom
   specification without a command the parser needs makes the converter panic (C46_custom_spec_panics).
8. The converter panics on `\label` or `\includegraphics` without a braced argument, `\caption` without argument in a figure, `tabular` without argument (C46_crashes).
9. The last cell of a table is not closed when its row is not ended by `\\` (C47_unclosed).
10. The default output path of `mitex compile x.tex` is `x.tex` itself, which is overwritten (C54_clobbers_exactly, C63_source_lost).
11. `\left(` without `\right` gives an unbalanced `lr(`.
12. A comment inside `\begin{…}` makes the clause slip back by a byte; the lexer then panics or tears a character (C06_exact, C02_panics_exactly).
13. `\mitexrecurse{#1}` delivers a raw parameter to the parser (C21_recurse_leaks); definitions inside of definitions lose their parameters.
14. An environment with a greedy argument pattern in a custom specification panics.
15. Patterns with stars inside braces can loop for ever (C26_not_total).
16. The text of a comment inside `\label{…}` is printed (C43_label_comment).
17. A `\label` in a figure that stands before an inner environment is printed after it.
18. A script that is a command with arguments makes the row forget its last item (C62_script_forgets); the second `\over` of a row loses its left operand
    (C62_infix_forgets); `x_\limits` applies `limits` to the wrong thing (C62_lost_operands).
19. Braces in globs: nested ones are wrong, the empty alternative is not a full match, alternatives are not tried again (C64_limits).
20. Malformed definitions silently swallow tokens; a user environment without end swallows the rest of the document (rules `broken`, `envUnclosed`, `envUnmatched` of Spec/Expansion, C65).
21. `$a$$b$`: the `$$` is one token that closes the first formula.
22. `\includegraphics[width=\textwidth]{a.png}` becomes `#image(width:  * 100%, "a.png")`, which is not Typst: the code expects a factor before `\textwidth` (Spec/Document requires one).
23. The memory "a line has just started" outlives environments and cells: in `\begin{itemize}…` newline `\end{itemize} x` the blank before `x` is dropped (`endsLine` in Spec/Document), and a rule or separator of a table does not clear it.
24. In a table, a figure or any environment an apostrophe (or script) after `&`, `\\` or a rule is attached to the item before it, so that it moves into the previous cell, or takes a rule with it (excluded from Spec/Document by `primed`).
25. Stars and separators in globs: only the last star is tried again, so that `*[!a]*b` does not match `x/yb`; in prefix mode `*a/b` refuses `xa/` (C69_limits).
26. `glob_match_with_captures` keeps captures of abandoned attempts: `*??` on `abc` gives four captures for three wildcards, `*a?b` on `axcaxb` reports the
    `?` of the attempt given up; with nested braces (`{b,bb{x,y}}bz` on `bbz`) a capture is `2..1`, with which slicing panics; `?` captures single bytes of
    characters (C73_abandoned, C73_bytes).
27. A `\label` in an environment inside of an inline formula waits, and is put after the next environment of the text, which has nothing to do with it
    (C75_limits).
28. `\begin{array}\end{array}` (an environment with arguments, of which none is given) is converted in a formula, but refused at the top level
    (`error unexpected: "array"`): there `\end` is taken as the argument.  `$\begin{array}$x$\end{array}$` and its inside alone differ in the same way
    (C77_limits).
29. A script after a formula is attached to the item before the formula: `x $y$^2` (formulas do not become the last item; `Reaches`/`settles` in
    Spec/Local state it).
30. Words are copied to Typst text as they are: backticks, `<…>`, `=` and `- ` at the start of a line keep their meaning in Typst
    (C61 states the exact output).
31. packages/mitex/specs/prelude.typ: `define-glob-env` has `alias: none` as default, but the alias of a `glob-env` is required by
    query.rs:55-63; one such definition makes the whole specification unreadable (C78_refused).
32. query.rs: the optional `alias` may be left out of `cmd` and `env` in an object, but not if the item is written as an array (C78).
33. arg_match.rs:66-74: the counter of a fixed length pattern is a `u8` and is increased on every try of a term: with length 255 the 256th
    try overflows (panic in debug builds; C27_byte_debug; without effect in release builds: C27_byte_release).
34. syntax.rs:374-377: `LRItem::right` of an unclosed `\left(` without nodes after it answers the clause of `\left` itself (C80_delimited,
    C80_example).
35. syntax.rs:406-411: `LRClause::sym` of a clause without delimiter answers the last blank after the command (C80_clause, C80_example).
36. parser.rs: `\begin{a}…\end{b}` is accepted, the names are not compared (C80_example); the converter uses the name of the begin clause only.
37. macro_engine.rs: a user macro named `\newcommand` (or another of the defining commands) can be defined; the later definitions then expand
    it instead of defining.
38. macro_engine.rs: in `\newcommand{\a}[1] {x}` the blank before the body is taken as the definition.
39. converter.rs: brackets in a label, an unclosed `\left` or `\begin{tabular}` in math mode leave brackets or cells open in the result;
    these are the words excluded in C70 and C81.
40. lexer and converter: `\begin{a}` in Typst code (`\iftypst…\fi`) is copied as `a` only, since the token of a clause keeps just the name
    (C91_example).
41. converter.rs: the braces around the base of a script are dropped: `{ab}^2` becomes `a b ^(2 )`, where the exponent is that of `b`
    alone in Typst, and `{x^a}^b` becomes `x ^(a )^(b )` (C92_base_lost).

## Trusted base

* **Lean's kernel** (4.33.0).  No axioms of our own, no compiled evaluation.  Of the theorems in `MANIFEST.json`, all depend at most on
  `propext`, `Classical.choice`, `Quot.sound` (`#print axioms` on each: about four in five use all three, the rest fewer or none).
* **The reading of the Rust code into the model.**  Evidence: `scripts/conformance.py` replays the repository's snapshot tests (conversion, syntax trees,
  macro expansion, globs: 1571 cases) on the model without a mismatch; `scripts/captures.py` replays the 1268 assertions of the glob crate on the matcher with captures.  This is testing, not proof.
* **Dependencies modelled from their documentation**: `logos` (longest match, priorities), `rowan` (green-node builder with checkpoints), `ena` (undo
  log), `rustc_hash` (a finite map), `std` (paths, `chars`, UTF-8).
* **The statements** in `Spec/` and `Props/`.

### Modelled

| Rust | model |
|------|-------|
| mitex-lexer: token.rs, stream.rs, lib.rs | Model/Token, Model/Stream |
| mitex-lexer: macro_engine.rs | Model/Engine |
| mitex-lexer: snapshot_map.rs | Model/SnapshotMap |
| mitex-glob: `glob_match`, `glob_match_prefix`; `glob_match_with_captures` | Model/Glob; Model/GlobCapture |
| mitex-parser: arg_match.rs, parser.rs, syntax.rs | Model/ArgMatch, Model/ArgCounter (the `u8` counter), Model/Parser, Model/Syntax, Model/Ast |
| mitex-spec: lib.rs, query.rs, preludes.rs; mitex-spec-gen build.rs (merging) | Model/Spec, Model/SpecQuery |
| packages/mitex/specs/latex/standard.typ | Model/StandardSpec (transcribed entry by entry) |
| mitex: converter.rs, lib.rs | Model/Convert |
| the interleaving of lexer, macro engine and parser | Model/Lazy |
| mitex-cli: lib.rs (`process_opts`), main.rs (`compile`); mitex-wasm | Model/Cli, Model/Compile |

### Not modelled, and simplifications

* Stack overflow on deep nesting, memory, integer overflow of `i32`/`u32` indices at 2^31 bytes.
* The rkyv encoding, reading JSON text (values are modelled, C78), `clap`, `version.rs`, logging, the file system side of `build.rs`, the handlers of the Typst package.
* Most theorems are about the stages run one after the other; the interleaved run is Model/Lazy, and C72 transfers the answers.
* The escapes in messages of `{:?}` of texts are simplified to those of quotes, backslashes and control characters.
* `std::str::from_utf8` is not in /repo; Model/Utf8 follows the source of the standard library (C90), without its steps over words of ASCII.
* Paths are texts following the documentation of `std::path` (Unix); links between files are not modelled.
* Some loops of the code are written in closed form (`takeWhile` for a scanning loop); the comments say where.
* The macro table of `mitex` is used without scopes by the engine; the scoped table itself (C22, C23) is modelled in full.

## Testing the theorems

`seeded/LOG.jsonl` records several rounds of wrong programs: one edit of a model definition each, the whole project rebuilt, and the theorems that failed.
Edits after which everything still built led to tighter theorems (field `tightened`), or are marked as equivalent to the original.
