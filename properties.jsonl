{"id": "C01", "title": "Lexing is lossless", "statement": "The source spans of the successive tokens of a plain lexer are contiguous: concatenated in order they are exactly the input text; no character is skipped or read twice.", "quantifier": "every input string and every command specification", "why_tests_cant": "the space of input strings (and specs) is infinite; tests sample a few", "anchors": ["crates/mitex-lexer/src/token.rs: Token", "crates/mitex-lexer/src/stream.rs: lex_one"]}
{"id": "C02", "title": "Lexing terminates, and panics only at a torn clause", "statement": "Lexing any text terminates, never reports an error, and every token spans at least one character. It panics exactly on the texts in which cutting into tokens arrives at a \\begin or \\end whose clause contains comments that make the lexer slip back into the middle of a multi-byte character (each comment before a brace of the clause moves the reading position back one byte); in particular never on ASCII texts and never on texts without comments. (One would expect it never to panic.)", "quantifier": "every input string and every command specification", "why_tests_cant": "a panic or an endless loop may hide behind one specific character sequence; it must be excluded for all of them", "anchors": ["crates/mitex-lexer/src/token.rs: Token, lex_command_name, lex_begin_end", "crates/mitex-lexer/src/stream.rs: lex_one"]}
{"id": "C03", "title": "Paged lexing is unobservable", "statement": "Eating tokens one by one from Lexer::new yields exactly the full token sequence of the text, whatever the page size of the peek cache; peek/peek_text always announce the token that the next eat returns; after the end every further eat returns None.", "quantifier": "every input, every page size >= 1, every number of eat calls", "why_tests_cant": "page boundaries fall at token 170, 340, ...; no test input hits every alignment", "anchors": ["crates/mitex-lexer/src/stream.rs: LexCache::bump", "crates/mitex-lexer/src/lib.rs: Lexer::next, eat, peek"]}
{"id": "C04", "title": "Starred command names follow the spec", "statement": "A command token `\\name` is lexed with the longest run of letters/@; a directly following `*` belongs to it iff the specification has an item called `name*`.", "quantifier": "every name, every following text, every spec", "why_tests_cant": "the space of input strings (and specs) is infinite; tests sample a few", "anchors": ["crates/mitex-lexer/src/token.rs: lex_command_name, advance_ascii_name"]}
{"id": "C05", "title": "Token classes are maximal and pure", "statement": "A Word token contains no whitespace and no TeX-special character and is as long as possible (what follows it starts with a special or whitespace character or is empty); line breaks, whitespace and comments are likewise maximal and contain only their own characters.", "quantifier": "every input string", "why_tests_cant": "the space of input strings (and specs) is infinite; tests sample a few", "anchors": ["crates/mitex-lexer/src/token.rs: Token"]}
{"id": "C06", "title": "\\begin{name}/\\end{name} are one token carrying the name", "statement": "`\\begin` is lexed as a single begin token with the text `name`, lexing going on at `rest`, exactly if blanks, `{`, a name of letters/@ with an optional final star, blanks and `}` follow, where lexing goes on after the closing brace; the same for `\\end`. Comments may stand before either brace, but each of them makes the lexer slip back one byte, so that a clause with a comment is mostly not recognised. (One would expect comments to be ignored.)", "quantifier": "every text after \\begin or \\end, every specification", "why_tests_cant": "the space of input strings (and specs) is infinite; tests sample a few", "anchors": ["crates/mitex-lexer/src/token.rs: lex_begin_end"]}
{"id": "C07", "title": "Macro lexing is transparent without macros", "statement": "If the text contains no definition command (\\newcommand & co.), no \\iftrue and no \\else, the macro-expanding lexer delivers exactly the tokens of the plain lexer.", "quantifier": "every input string and spec", "why_tests_cant": "the space of input strings (and specs) is infinite; tests sample a few", "anchors": ["crates/mitex-lexer/src/macro_engine.rs: do_bump, trapped_by_macro"]}
{"id": "C08", "title": "Macro engine buffering is unobservable", "statement": "The tokens delivered by eating from a macro-expanding Lexer are those of an unbuffered, run-to-completion expansion of the token list, for every page size; in particular page refills in the middle of an expansion change nothing.", "quantifier": "every token list, every page size, every interleaving of refills", "why_tests_cant": "refill points depend on the lengths of all expansions before", "anchors": ["crates/mitex-lexer/src/macro_engine.rs: do_bump", "crates/mitex-lexer/src/stream.rs: StreamContext, LexCache", "crates/mitex-lexer/src/lib.rs: Lexer::next, eat"]}
{"id": "C09", "title": "Macro bodies are substituted faithfully", "statement": "Expanding a macro with arguments replaces every `#i` of the stored body by the i-th argument, verbatim and in order, and keeps every other token; a parameter without argument vanishes (bodies without \\mitexrecurse).", "quantifier": "every body, every argument list", "why_tests_cant": "the space of input strings (and specs) is infinite; tests sample a few", "anchors": ["crates/mitex-lexer/src/macro_engine.rs: expand_tokens"]}
{"id": "C10", "title": "Parameter marks in definitions", "statement": "Storing a definition turns every `#d` (d in 1..9) into parameter d, leaves the rest of the word after the digit and all other tokens in place; storing panics exactly if the definition text ends in `#`.", "quantifier": "every definition body", "why_tests_cant": "the space of input strings (and specs) is infinite; tests sample a few", "anchors": ["crates/mitex-lexer/src/macro_engine.rs: process_macro_def"]}
{"id": "C11", "title": "\\newcommand defines, and reports redefinition", "statement": "After a well-formed `\\newcommand{\\name}{body}` the name is bound to that body; an error token carrying the name is delivered iff the name was already bound; nothing else is delivered.", "quantifier": "every macro table, name, balanced body, continuation", "why_tests_cant": "holds for every reachable macro table", "anchors": ["crates/mitex-lexer/src/macro_engine.rs: trapped_by_macro, identify_macro_update"]}
{"id": "C12", "title": "\\renewcommand rebinds, and reports missing names", "statement": "After a well-formed `\\renewcommand{\\name}{body}` the name is bound to the new body; an error token is delivered iff the name was not bound before.", "quantifier": "every macro table, name, balanced body, continuation", "why_tests_cant": "holds for every reachable macro table", "anchors": ["crates/mitex-lexer/src/macro_engine.rs: trapped_by_macro, identify_macro_update"]}
{"id": "C13", "title": "\\providecommand never overrides", "statement": "A well-formed `\\providecommand{\\name}{body}` binds the name iff it was unbound, otherwise leaves the macro table unchanged, and delivers nothing.", "quantifier": "every macro table, name, balanced body, continuation", "why_tests_cant": "holds for every reachable macro table", "anchors": ["crates/mitex-lexer/src/macro_engine.rs: trapped_by_macro, identify_macro_update"]}
{"id": "C14", "title": "Definitions are local to their name", "statement": "Whatever tokens are processed, one engine step changes the binding of at most one name; processing text without definition commands changes none.", "quantifier": "every engine state and every token list", "why_tests_cant": "frame property over all states", "anchors": ["crates/mitex-lexer/src/macro_engine.rs: trapped_by_macro, add_macro"]}
{"id": "C15", "title": "No macro takes more than nine arguments", "statement": "Every macro ever bound by user input takes at most nine arguments; a definition asking for more is rejected and leaves the table unchanged.", "quantifier": "every input, every reachable macro table", "why_tests_cant": "invariant over all histories of definitions", "anchors": ["crates/mitex-lexer/src/macro_engine.rs: identify_macro_update"]}
{"id": "C16", "title": "Braced groups are read to the matching brace", "statement": "Reading a braced argument `{body}` returns exactly body (for every brace-balanced body, however deep) and leaves the stream just after the matching closing brace.", "quantifier": "every balanced body, every continuation", "why_tests_cant": "the space of input strings (and specs) is infinite; tests sample a few", "anchors": ["crates/mitex-lexer/src/stream.rs: read_until_balanced"]}
{"id": "C17", "title": "Arguments of user macros are bound one by one", "statement": "Calling an n-argument macro binds the next n arguments — braced groups, single tokens, or single characters of words — ignoring blanks and comments between them; a default stands for the last argument if only that is missing, and with fewer arguments an error token is delivered. A word shorter than the number of missing arguments is counted for one argument more than it has characters (a defect).", "quantifier": "every n, every default and every text that follows the call", "why_tests_cant": "the space of input strings (and specs) is infinite; tests sample a few", "anchors": ["crates/mitex-lexer/src/macro_engine.rs: read_macro_args"]}
{"id": "C18", "title": "When macro expansion ends", "statement": "Lexing a text with macro expansion comes to an end (or a panic) exactly if rewriting the text by the macro rules does not go on for ever, whatever the buffer size. It ends for every text without definitions and whenever the macros are acyclic and use each parameter at most once; it never ends once a macro without parameters is called whose definition leads (after ordinary text) to a call of a macro of the same kind, directly or mutually.", "quantifier": "every text, every buffer size; every macro table and every call for the sufficient conditions", "why_tests_cant": "Non-termination cannot be observed by a test, and termination must hold for every text.", "anchors": ["crates/mitex-lexer/src/macro_engine.rs: do_bump, trapped_by_macro"]}
{"id": "C19", "title": "Conditionals select a branch", "statement": "`\\iftrue A \\else B \\fi` delivers what A alone delivers; `\\iffalse A \\else B \\fi` delivers A only inside a block comment and then B; the skipped text ends before the first \\else or \\fi outside of nested conditionals, where an inner \\else already counts as the end of the inner conditional (a defect: one would expect nested conditionals to be skipped as a whole).", "quantifier": "every A, B", "why_tests_cant": "the space of input strings (and specs) is infinite; tests sample a few", "anchors": ["crates/mitex-lexer/src/macro_engine.rs: trapped_by_if, trapped_by_else, trapped_by_endif, skip_false_tokens"]}
{"id": "C20", "title": "User environments are unfolded around their body", "statement": "`\\begin{e}` args body `\\end{e}` of a user-defined environment is replaced by its begin part, the body and its end part, in this order, with the arguments substituted in both parts; nested environments in the body stay intact.", "quantifier": "every body with balanced environments, every argument list", "why_tests_cant": "the space of input strings (and specs) is infinite; tests sample a few", "anchors": ["crates/mitex-lexer/src/macro_engine.rs: trapped_by_macro, read_env_body"]}
{"id": "C21", "title": "Parameter marks never leak to the parser", "statement": "No token delivered by the macro-expanding lexer is a raw macro parameter, unless the text uses \\mitexrecurse (which copies its argument unsubstituted and thereby can leak one).", "quantifier": "every input", "why_tests_cant": "the space of input strings (and specs) is infinite; tests sample a few", "anchors": ["crates/mitex-lexer/src/macro_engine.rs: expand_tokens, process_macro_def"]}
{"id": "C22", "title": "Scope rollback is exact", "statement": "Rolling the macro table back to a snapshot restores exactly the bindings present when the snapshot was taken, for any properly nested history of inserts, removals, inner snapshots, inner commits and inner rollbacks in between.", "quantifier": "every history of operations", "why_tests_cant": "histories are unbounded and nest arbitrarily", "anchors": ["crates/mitex-lexer/src/snapshot_map.rs: SnapshotMap::snapshot, rollback_to, commit, insert, remove", "crates/mitex-lexer/src/macro_engine.rs: create_scope, restore"]}
{"id": "C23", "title": "The scoped table is a map", "statement": "Between rollbacks the table behaves like a finite map: get returns the last inserted, not removed value of the key; insert/remove report correctly whether the key was new/present; commit never changes any binding; after clear it behaves like a new table, and snapshots taken before can no longer be committed or rolled back.", "quantifier": "every history of operations", "why_tests_cant": "histories are unbounded", "anchors": ["crates/mitex-lexer/src/snapshot_map.rs: SnapshotMap"]}
{"id": "C24", "title": "Literal argument patterns match prefixes", "statement": "For a pattern without special characters, prefix matching accepts a string iff it is a prefix of the pattern, full matching accepts it iff equal.", "quantifier": "every literal pattern and every string", "why_tests_cant": "the space of input strings (and specs) is infinite; tests sample a few", "anchors": ["crates/mitex-glob/src/lib.rs: glob_match_prefix, glob_match"]}
{"id": "C25", "title": "The optional-argument patterns of the standard spec", "statement": "Pattern `{,b}t` (\\sqrt etc.) accepts exactly the prefixes of `t` and `bt`; `{,b}tt` those of `tt` and `btt`; `{,b}` those of `b`: an optional bracket argument is recognised iff it comes first.", "quantifier": "every string over the argument kinds", "why_tests_cant": "all strings, not the five tried in the unit test", "anchors": ["crates/mitex-glob/src/lib.rs: glob_match_prefix", "crates/mitex-parser/src/arg_match.rs: ArgMatcher::try_match"]}
{"id": "C26", "title": "Pattern matching is total, except for stars inside braces", "statement": "Glob matching never panics, for any pattern and text, in either mode. It ends with an answer, which does not depend on how long it is allowed to run, after a number of rounds bounded by twice the product of the lengths (plus constants) whenever no star of the pattern stands inside braces (a brace group with a class or an escape in it counting as never closed); without stars the bound is the length of the pattern. The unrestricted claim that matching always ends is false: `{//**//bb,*` against `//b/` runs forever.", "quantifier": "every pattern and every string, both modes", "why_tests_cant": "a hang or out-of-range access may need a specific combination of stars, separators and nested braces", "anchors": ["crates/mitex-glob/src/lib.rs: glob_match_internal, skip_braces, skip_globstars, BraceStack"]}
{"id": "C27", "title": "Argument matchers never take too many arguments", "statement": "A fixed/range-length matcher accepts terms exactly until its maximum, the empty matcher accepts none and the greedy matcher all; brackets and parentheses are demoted to plain terms except for glob patterns.", "quantifier": "every matcher and every sequence of argument kinds", "why_tests_cant": "the space of input strings (and specs) is infinite; tests sample a few", "anchors": ["crates/mitex-parser/src/arg_match.rs: ArgMatcher, ArgMatcherBuilder::start_match"]}
{"id": "C28", "title": "Parsing terminates", "statement": "Parsing any token stream terminates.", "quantifier": "every token list and spec", "why_tests_cant": "divergence cannot be observed by a finite test", "anchors": ["crates/mitex-parser/src/parser.rs: Parser::parse"]}
{"id": "C29", "title": "When parsing succeeds", "statement": "Parsing the tokens the lexer or the macro engine delivers either yields a tree or panics in the tree builder, nothing else; it yields a tree whenever no script mark directly precedes a command that takes the preceding item, for every specification whose environments do not take greedy arguments (the standard one is such). The unrestricted claim that it never panics is false: `\\alpha x_\\over y` and `&_\\limits` panic. (Exactly when it panics is part of C62.)", "quantifier": "every token list and spec", "why_tests_cant": "a panic may hide behind one specific token combination", "anchors": ["crates/mitex-parser/src/parser.rs: Parser::parse, attach_component, command"]}
{"id": "C30", "title": "Nothing but trivia and conditionals is lost by the parser", "statement": "The texts of the tree leaves, in order, are the texts of the tokens, in order, except that whitespace/comment tokens may be missing and the \\iffalse, \\iftypst and \\fi around comments and typst code are dropped: no content token is lost, duplicated or reordered.", "quantifier": "every token list and spec for which parsing succeeds", "why_tests_cant": "the space of input strings (and specs) is infinite; tests sample a few", "anchors": ["crates/mitex-parser/src/parser.rs: Parser"]}
{"id": "C31", "title": "The syntax tree is rooted and well nested", "statement": "The result is a single ScopeRoot node and every node opened is closed exactly once.", "quantifier": "every token list and spec for which parsing succeeds", "why_tests_cant": "the space of input strings (and specs) is infinite; tests sample a few", "anchors": ["crates/mitex-parser/src/parser.rs: Parser::parse, item_list, item_group"]}
{"id": "C32", "title": "Commands always have their name, environments their begin clause", "statement": "Every command node of a parsed tree has a name token, starting with a backslash; every environment node's first child is a begin clause whose first token is the environment name, so name lookups on parsed trees never fail.", "quantifier": "every token list and spec for which parsing succeeds", "why_tests_cant": "every node of every tree", "anchors": ["crates/mitex-parser/src/parser.rs: command, environment", "crates/mitex-parser/src/syntax.rs: CmdItem::name_tok, EnvItem::name_tok, BeginItem::name"]}
{"id": "C33", "title": "Fixed-arity commands get at most their arity", "statement": "In a parsed tree a command whose spec takes n terms has at most n argument nodes; commands without arguments have none.", "quantifier": "every token list and spec for which parsing succeeds", "why_tests_cant": "every node of every tree", "anchors": ["crates/mitex-parser/src/parser.rs: command, match_arguments", "crates/mitex-parser/src/arg_match.rs: ArgMatcher"]}
{"id": "C34", "title": "Groups are closed or the input is over", "statement": "A curly group either ends with `}` or reaches the end of input; a formula group starts with `$`, `$$`, `\\(` or `\\[`.", "quantifier": "every token list and spec for which parsing succeeds", "why_tests_cant": "every node of every tree", "anchors": ["crates/mitex-parser/src/parser.rs: item_group, item_list, stop_by_scope"]}
{"id": "C35", "title": "Syntax kinds round-trip", "statement": "Converting a syntax kind to the raw u16 and back yields the same kind; raw values out of range are rejected.", "quantifier": "all kinds and all u16 values", "why_tests_cant": "finite table, proved over the whole table", "anchors": ["crates/mitex-parser/src/syntax.rs: SyntaxKind, from_repr"]}
{"id": "C36", "title": "A formula is never both inline and display", "statement": "No formula node is inline and display at once; a valid formula is exactly one of the two.", "quantifier": "every formula node", "why_tests_cant": "the space of input strings (and specs) is infinite; tests sample a few", "anchors": ["crates/mitex-parser/src/syntax.rs: FormulaItem::is_display, is_inline, is_valid"]}
{"id": "C37", "title": "Conversion restores its context", "statement": "After converting any part of a document successfully, the mode (text/math), the current environment and the list indentation are what they were before.", "quantifier": "every syntax tree and every converter state", "why_tests_cant": "the space of input strings (and specs) is infinite; tests sample a few", "anchors": ["crates/mitex/src/converter.rs: Converter::convert, enter_mode, exit_mode, enter_env, exit_env"]}
{"id": "C38", "title": "List items are indented by nesting depth", "statement": "Inside d nested itemize/enumerate environments \\item emits a line break, 2(d-1) spaces and the marker; the indentation never underflows; outside lists \\item is an error.", "quantifier": "every nesting of environments", "why_tests_cant": "the space of input strings (and specs) is infinite; tests sample a few", "anchors": ["crates/mitex/src/converter.rs: convert_command_item, convert_env"]}
{"id": "C39", "title": "Plain text converts to itself, escaped", "statement": "Converting a text without commands, groups and formulas (ordinary words, spaces, comments, and any punctuation other than backslash, braces and dollar) in text mode succeeds and returns the same text with exactly the documented escapes, without comments and with the indentation after line breaks removed; words and single spaces come out unchanged.", "quantifier": "every such text, of any length", "why_tests_cant": "end-to-end over all plain documents", "anchors": ["crates/mitex/src/converter.rs: convert_inner, Converter::convert", "crates/mitex-parser/src/parser.rs: content, text", "crates/mitex-lexer/src/token.rs: Token"]}
{"id": "C40", "title": "Plain math converts letter by letter", "statement": "Converting a text without commands, groups, formulas and scripts in math mode yields each character of a word followed by one space, in order, with the documented escapes for punctuation, with and without macro expansion.", "quantifier": "every such text, of any length", "why_tests_cant": "end-to-end over all plain inputs", "anchors": ["crates/mitex/src/converter.rs: convert_inner, Converter::convert"]}
{"id": "C41", "title": "Unknown commands are never dropped silently", "statement": "If conversion succeeds, every converted command and environment is known to the specification used for conversion; converting an unknown command fails with a message naming it.", "quantifier": "every syntax tree", "why_tests_cant": "the space of input strings (and specs) is infinite; tests sample a few", "anchors": ["crates/mitex/src/converter.rs: convert_normal_command, convert_command_sym, convert_env"]}
{"id": "C42", "title": "Parse errors are never dropped silently", "statement": "If conversion succeeds, the converted part of the tree contains no error element.", "quantifier": "every syntax tree", "why_tests_cant": "the space of input strings (and specs) is infinite; tests sample a few", "anchors": ["crates/mitex/src/converter.rs: Converter::convert"]}
{"id": "C43", "title": "Comments do not influence the output", "statement": "Line comments and block comments contribute nothing to the output: changing the text of comments, other than comments inside a part that is copied verbatim (labels, image names and options, color models, column specifications, typst code, error messages), does not change the result of conversion. Inside a label a comment does leak into the output.", "quantifier": "every syntax tree and every replacement of comment texts", "why_tests_cant": "the space of input strings (and specs) is infinite; tests sample a few", "anchors": ["crates/mitex/src/converter.rs: Converter::convert"]}
{"id": "C44", "title": "Formulas are wrapped once", "statement": "In text mode a valid inline formula becomes `#math.equation(block: false, $`body`$);`, a display formula `$ `body` $`; in math mode no wrapper is added; an ill-delimited formula is an error.", "quantifier": "every formula node and state", "why_tests_cant": "the space of input strings (and specs) is infinite; tests sample a few", "anchors": ["crates/mitex/src/converter.rs: convert_formula"]}
{"id": "C45", "title": "Table headers follow the column spec", "statement": "Converting a tabular with column spec over l, c, r, | emits as many columns as letters, the alignments in order and one vertical rule per bar at the number of letters before it; any other character is an error.", "quantifier": "every column specification string", "why_tests_cant": "the space of input strings (and specs) is infinite; tests sample a few", "anchors": ["crates/mitex/src/converter.rs: convert_env_table"]}
{"id": "C46", "title": "When a conversion panics", "statement": "convert_text, convert_math and convert_math_no_macro panic exactly if the text cannot be cut into tokens, the macro expansion comes to a bad definition, the tokens are no document of the grammar, or a template crashes (a label, image, caption or table without its argument, a greedy command unknown to the given specification). In particular a parsed document whose label/image/caption/table commands have their arguments converts without a panic in either mode and for every specification.", "quantifier": "every input, mode and specification", "why_tests_cant": "The absence of panics concerns all inputs.", "anchors": ["crates/mitex/src/converter.rs: convert_inner"]}
{"id": "C47", "title": "Table cells and where they are closed", "statement": "Every cell of a converted tabular that is ended by `&` or `\\\\` is written as `[`, its converted content and `]`, in order; what follows the last separator is written as rules and space if it is nothing else, and otherwise opens a cell that is never closed (a defect).", "quantifier": "every tabular body", "why_tests_cant": "the space of input strings (and specs) is infinite; tests sample a few", "anchors": ["crates/mitex/src/converter.rs: convert_env_table"]}
{"id": "C48", "title": "Which specification governs a conversion", "statement": "A specification passed to convert_math/convert_text directs lexing and parsing; the output is that of the templates of the default specification for the document so denoted. A command is accepted only if it is built in or known to the default specification, and a symbol of the default specification is written as its alias.", "quantifier": "every specification, input, mode", "why_tests_cant": "It must hold for all specifications and inputs.", "anchors": ["crates/mitex/src/converter.rs: convert_inner"]}
{"id": "C49", "title": "Conversion terminates and is a function of the tree", "statement": "Converting any syntax tree terminates; success yields the complete output and failure yields an error message and no output.", "quantifier": "every syntax tree", "why_tests_cant": "the space of input strings (and specs) is infinite; tests sample a few", "anchors": ["crates/mitex/src/converter.rs: convert_inner, TypstRepr"]}
{"id": "C50", "title": "Sugared specs canonicalise", "statement": "Converting a sugared specification yields for every name exactly the canonical shape of its sugar (sym, cmd0-2, left1-cmd, matrix-env, normal-env, glob-env, alias-sym, greedy-cmd, infix-cmd, glob-cmd) and defines no other names.", "quantifier": "every sugared specification", "why_tests_cant": "the space of input strings (and specs) is infinite; tests sample a few", "anchors": ["crates/mitex-spec/src/query.rs: From<CommandSpecItem>, From<CommandSpecRepr>", "crates/mitex-spec/src/preludes.rs: command"]}
{"id": "C51", "title": "Later packages override earlier ones", "statement": "Merging a list of packages binds each name to its item in the last package defining it.", "quantifier": "every list of packages", "why_tests_cant": "the space of input strings (and specs) is infinite; tests sample a few", "anchors": ["crates/mitex-cli/src/main.rs: generate", "crates/mitex-spec/src/query.rs: PackagesVec"]}
{"id": "C52", "title": "A name is a command or an environment, never both", "statement": "get_cmd and get_env never both succeed for one name, and one of them succeeds iff the name is specified; SpecBuilder keeps the last added item per name.", "quantifier": "every spec, every name, every sequence of add_command", "why_tests_cant": "the space of input strings (and specs) is infinite; tests sample a few", "anchors": ["crates/mitex-spec/src/lib.rs: CommandSpec::get, get_cmd, get_env", "crates/mitex-spec/src/preludes.rs: SpecBuilder"]}
{"id": "C53", "title": "CLI argument resolution", "statement": "`mitex compile` accepts input/output either as positional or as named arguments but never mixed, requires an input, rejects more than two positionals, and keeps explicitly given paths unchanged.", "quantifier": "every combination of arguments", "why_tests_cant": "the space of input strings (and specs) is infinite; tests sample a few", "anchors": ["crates/mitex-cli/src/lib.rs: process_opts"]}
{"id": "C54", "title": "The default output path", "statement": "Without explicit output `mitex compile p` writes to p with the extension `tex` (the documentation says `typ`) replacing that of its file name or added to it (trailing separators dropped), and to p itself if p has no file name. It therefore overwrites its input exactly if the input file name has the extension `tex` (with a non-empty stem) or the path has no file name.", "quantifier": "every non-empty input path", "why_tests_cant": "Paths are unbounded texts with dots and separators anywhere; tests sample a few file names.", "anchors": ["crates/mitex-cli/src/lib.rs: process_opts"]}
{"id": "C55", "title": "The generated prelude binds each alias once", "statement": "The prelude written by `mitex compile` binds every alphanumeric alias of the spec except Typst keywords exactly once, in sorted order, and nothing else, independent of map iteration order.", "quantifier": "every spec and every iteration order", "why_tests_cant": "hash iteration order is arbitrary", "anchors": ["crates/mitex-cli/src/main.rs: compile"]}
{"id": "C56", "title": "An empty WASM spec means the default spec", "statement": "convert_math/convert_text of the WASM API with an empty spec argument equal the library functions with the default spec, and invalid UTF-8 input is an error.", "quantifier": "every input", "why_tests_cant": "the space of input strings (and specs) is infinite; tests sample a few", "anchors": ["crates/mitex-wasm/src/lib.rs: extract_spec, convert_math, convert_text"]}
{"id": "C57", "title": "The macro engine panics only on malformed definitions", "statement": "Lexing with macro expansion never panics, unless the text contains a definition command (\\newcommand & co.) and moreover a parameter mark `#` or a \\begin/\\end clause.", "quantifier": "all texts, all specifications, all numbers of steps", "why_tests_cant": "The panic sites (unwraps on command names, on parameter digits, on \\mitexrecurse stripping) are reached only through combinations of definitions, stored bodies and calls; a test suite samples a few, the claim ranges over every text and every expansion history.", "anchors": ["crates/mitex-lexer/src/macro_engine.rs: process_macro_def, identify_macro_update, expand_tokens, do_bump"]}
{"id": "C58", "title": "What is converted is kept", "statement": "In a successful conversion, every part of the document that is to be converted is converted in a definite place (mode, environment and list nesting), and the text its conversion alone produces in that place occurs as one contiguous piece of the output: nothing that follows edits or drops it.", "quantifier": "every syntax tree, every specification, both modes, every converted part at any depth", "why_tests_cant": "the document and its nesting are unbounded; a loss could depend on any surrounding construct", "anchors": ["crates/mitex/src/converter.rs: Converter::convert, convert_env, convert_command"]}
{"id": "C59", "title": "The token sequence is the one of the lexical grammar", "statement": "Lexing a text yields exactly the tokens the documented lexical grammar cuts it into (maximal runs for words, blanks, line breaks and comments; one token per punctuation character; $$ before $; backslash sequences by longest name with the kinds of the built-in names; whole \\begin{..}/\\end{..} clauses), and the grammar cuts every text in exactly one way or gets stuck at a torn \\begin/\\end clause.", "quantifier": "every text, every specification", "why_tests_cant": "Ranges over all texts and all specifications; longest match and kind of every token depend on what follows.", "anchors": ["crates/mitex-lexer/src/token.rs: Token, lex_command_name, lex_begin_end", "crates/mitex-lexer/src/stream.rs: lex_one"]}
{"id": "C60", "title": "Consuming characters of the peeked token", "statement": "After any number of eats, Lexer::consume_utf8_bytes with the byte length of the first characters of the next token leaves the rest of that token (nothing if it is used up) and all following tokens to be delivered, whatever the page size; a count ending inside a character panics.", "quantifier": "every token sequence, position, split point and page size", "why_tests_cant": "Split points, multi-byte characters and page boundaries cannot be enumerated.", "anchors": ["crates/mitex-lexer/src/lib.rs: Lexer::consume_utf8_bytes"]}
{"id": "C61", "title": "The output of the converter is exactly the composition of fixed templates", "statement": "For every syntax tree, mode, list nesting and waiting label, conversion succeeds if and only if the per-construct templates (words, punctuation, groups, delimiters, scripts, commands by their specification entry, colors, images, labels, list items, formulas, math/figure/table/list/other environments) print a text, and the output is exactly that text: the fixed text of the template with the conversions of exactly the listed parts, in order, in the listed context; nothing else is written and no state but the waiting label and the blank flag changes. Conversion fails, with a given error message or with a crash, if and only if the templates fail with it at the first failing part (unknown command or environment, invalid formula, item outside a list, unknown column, unexpected token; missing or malformed arguments crash). Every element either prints or fails, never both, and the templates are unambiguous. E.g. a two-argument command in a formula becomes name(first,second), a script becomes base_(script).", "quantifier": "all trees (of any depth), all specifications, modes, contexts, waiting labels; all inputs for the document-level form", "why_tests_cant": "trees nest arbitrarily: a test fixes one tree; the claim is that each construct is written the same way in every context, including which context its parts get, and that nothing is written besides", "anchors": ["crates/mitex/src/converter.rs: Converter::convert, convert_command, convert_env, convert_normal_command, convert_color, convert_env_figure, convert_env_table"]}
{"id": "C62", "title": "The syntax tree is exactly the one of the grammar", "statement": "Parsing a text yields a tree if and only if the grammar (words and commas with blanks form texts; braces, dollars, \\left..\\right, environments and conditionals form groups closed by their own ends; commands take the arguments their specification entry allows, greedily or from the left where declared; scripts and primes attach to the last item) has a tree for its delivered tokens, and it is that tree; the grammar gives every token sequence at most one tree, and the parser panics exactly where it gives none.", "quantifier": "every text (with and without macro expansion), every token sequence delivered by the lexer, every specification and glob matcher", "why_tests_cant": "The space of token sequences and specifications is infinite and nested; operands taken from the left make the result depend on unboundedly much context.", "anchors": ["crates/mitex-parser/src/parser.rs: parse, Parser::content, Parser::item_list, Parser::command, Parser::match_arguments, Parser::environment, Parser::attach_component, Parser::item_lr, Parser::item_group"]}
{"id": "C63", "title": "Compiling touches nothing but the output file, at every crash point", "statement": "While `mitex compile` runs, and wherever it is interrupted, every file other than the output file is unchanged, and the output file is either unchanged or holds a prefix of the new document. If reading, decoding or converting fails, no file changes. If it reports success, the output file holds exactly the header, the prelude and the converted text of the input. (As the default output of a .tex file is that file itself, the source is among the files that can be lost.)", "quantifier": "every file system state, every pair of input and output paths, every failure of the operating system and every crash point during the run", "why_tests_cant": "a test runs one input on a healthy disk to the end; it cannot enumerate the points of interruption nor the failures of the disk", "anchors": ["crates/mitex-cli/src/main.rs:compile", "crates/mitex-cli/src/lib.rs:process_opts"]}
{"id": "C64", "title": "Meaning of glob patterns without stars", "statement": "A glob pattern made of literal bytes, escapes, `?`, classes (with ranges and negation) and one level of brace alternatives accepts exactly the byte sequences its syntax describes: each atom one byte, `?` anything but `/`, ranges inclusive, the longest alternative that matches as a whole, every leading `!` flipping the answer; prefix matching accepts exactly the beginnings up to alternatives. With unambiguous alternatives, full matching is the union over the choices of alternatives. A failing alternative is passed over as a whole however deeply it is nested. (Nested alternatives themselves are matched wrongly, in both directions.)", "quantifier": "every well-written pattern without stars, every text, both modes", "why_tests_cant": "patterns and texts are unbounded and the matcher is a hand-written backtracking automaton over indices; the tests of the crate sample about two hundred pairs", "anchors": ["crates/mitex-glob/src/lib.rs:glob_match_internal", "crates/mitex-glob/src/lib.rs:unescape", "crates/mitex-glob/src/lib.rs:skip_braces"]}
{"id": "C65", "title": "Macro expansion is exactly the rewriting of the rules", "statement": "The tokens the macro-expanding lexer delivers for a text are exactly those obtained by rewriting the text from left to right with the rules of macro expansion: definitions (all kinds, with their counts, defaults and every way they can be broken), calls of commands and environments with the arguments read as the rules say, substitution including the text copied after \\mitexrecurse, conditionals with skipped branches and stray \\else and \\fi. A text has at most one expansion; the lexer panics exactly on the texts whose rewriting meets a bad definition, and runs for ever exactly if the rewriting does.", "quantifier": "every text, every command specification, every page size of the look-ahead buffer, every outcome (tokens, panic, divergence)", "why_tests_cant": "macro programs are unbounded in length, nesting and number of rewriting steps, and the outcome depends on the whole history of definitions; tests sample a few dozen snippets", "anchors": ["crates/mitex-lexer/src/macro_engine.rs:MacroEngine", "crates/mitex-lexer/src/macro_engine.rs:read_macro_args", "crates/mitex-lexer/src/macro_engine.rs:define_command", "crates/mitex-lexer/src/stream.rs:next_arg", "crates/mitex-lexer/src/lib.rs:Lexer"]}
{"id": "C66", "title": "The answer of a conversion, end to end", "statement": "For every input text, mode, specification and with macros on or off, convert_text / convert_math / convert_math_no_macro answer exactly what the composed rules say: they return the text `out` iff the input is cut into tokens by the lexical rules, these are rewritten by the macro rules (if macros are on), the result is the token sequence of a document of the grammar and the templates print that document as `out`; they return the error `msg` iff a template refuses with `msg`; they panic iff the text is stuck in the lexer, a macro definition is bad, the tokens are no document, or a template crashes; they run for ever iff macros are on and the rewriting never ends. Exactly one of these holds for every text.", "quantifier": "all input texts, both modes, all specifications (default and given), macros on/off", "why_tests_cant": "It settles the outcome for every text, including non-termination, and excludes any other behaviour; tests sample texts.", "anchors": ["crates/mitex/src/lib.rs:convert_text, convert_math, convert_math_no_macro", "crates/mitex/src/converter.rs:convert_inner", "crates/mitex-parser/src/lib.rs:parse, parse_without_macro"]}
{"id": "C67", "title": "Formulas of any depth become the Typst formula written for them", "statement": "For every formula built, to any depth and length, from words, punctuation, symbols, groups, commands with arguments in braces or square brackets or of a single character or symbol (\\frac12, \\mathbb R, \\hat\\alpha), with blanks before them or not, text commands, postfix commands, commands between their arguments in braces ({a \\over b}), primes, sub- and superscripts, \\left/\\right delimiters and matrix, cases and alignment environments of any number of rows and cells, all taken from the command specification, convert_math (with and without macro expansion) returns exactly the Typst text given by a structural translation: names replaced by their aliases, arguments in parentheses separated by commas, scripts in parentheses, empty groups filled by zws, environment arguments named arg0, arg1, ..., cells and rows separated as the kind of environment requires, words spread out letter by letter, punctuation escaped, blanks kept.", "quantifier": "all formulas of the described language (unbounded nesting and length, any blanks), all command specifications for which the formula is well formed", "why_tests_cant": "formulas nest without bound and every construct can occur in every other one; tests cover a few shapes", "anchors": ["crates/mitex/src/converter.rs: Converter::convert", "crates/mitex-parser/src/parser.rs: Parser", "crates/mitex-lexer/src/lib.rs: Lexer", "crates/mitex/src/lib.rs: convert_math, convert_math_no_macro"]}
{"id": "C68", "title": "Documents of any depth become the Typst document written for them", "statement": "For every document built, to any depth and length, from runs of words, commas and blanks, apostrophes, punctuation, line breaks, symbols, groups, commands with arguments in braces or square brackets, formulas in $...$, $$...$$, \\(...\\) and \\[...\\], displayed equation environments, labels, itemize and enumerate lists with their items, images with their options, colored text and boxes, tables with rules and cells, figures with captions, centering and labels, and other environments without arguments, with line ends, comments and indentation between the parts, all taken from the command specification, convert_text returns exactly the Typst text given by a structural translation: \\textbf and \\textit become #strong and #emph, other commands their alias, arguments become content blocks and the command ends with a semicolon, punctuation is escaped, formulas become inline or block equations, labels become <...>, an image becomes #image with its width and height (times 100% for \\textwidth and \\textheight), a table becomes #table with its columns, rules and one content block per cell, a figure becomes #figure with the last caption and, after it, the last label, each item starts a new line with the mark of the innermost list and its indentation, line ends are kept and the next line is indented anew by the depth of the lists, blanks at the start of a line and comments are dropped, and an apostrophe in prose stays where it is whatever the parser attaches it to.", "quantifier": "all documents of the described language (unbounded nesting and length, any blanks, line ends and comments), all command specifications for which the document is well formed", "why_tests_cant": "documents nest without bound and every construct can occur in every other one; tests cover a few shapes", "anchors": ["crates/mitex/src/converter.rs: Converter::convert, Converter::convert_env, LaTeXEnv", "crates/mitex-parser/src/parser.rs: Parser", "crates/mitex-lexer/src/lib.rs: Lexer", "crates/mitex/src/lib.rs: convert_text"]}
{"id": "C69", "title": "Meaning of glob patterns with stars", "statement": "A glob pattern made of literal bytes, escapes, `?`, classes and stars outside of braces matches exactly the texts its syntax describes: every atom one byte, every star any bytes but the separator, however often the matcher has to go back (provided no atom matches the separator besides other bytes, and doubled stars only without separators); in prefix mode, for texts without separators, it accepts exactly the texts that can be continued to a match. So a command with such an argument pattern goes on taking arguments exactly as long as what it has taken can be completed.", "quantifier": "every pattern of atoms and stars, every text, both modes", "why_tests_cant": "the number of ways to distribute the text over the stars is unbounded; correctness of backtracking to the last star only is a global argument", "anchors": ["crates/mitex-glob/src/lib.rs: glob_match, glob_match_prefix, glob_match_internal", "crates/mitex-parser/src/arg_match.rs: GlobMatcher"]}
{"id": "C70", "title": "The Typst output is well nested", "statement": "In the Typst text that a conversion returns, every parenthesis, square bracket, dollar sign and quotation mark that is not escaped is closed by its own kind and in the right order, whatever the input (also if the brackets, braces and formulas of the input are not balanced), provided that every \\left has its \\right, the last row of each table is ended, and what is copied from the input (labels, image names and options, color models, Typst code) contains no such marks. In particular this holds for every input without \\left, \\iftypst, \\label, \\includegraphics, color commands and tabular.", "quantifier": "all input texts, specifications with neutral names (the default one is), modes, with and without macros, all fuel", "why_tests_cant": "Brackets of the output come from many templates nested in each other to any depth; a test sees only the nestings it writes down, and unbalanced inputs can unbalance the output in ways no sample shows.", "anchors": ["crates/mitex/src/converter.rs: Converter::convert, convert_env_str, convert_command", "crates/mitex/src/lib.rs: convert_text, convert_math"]}
{"id": "C71", "title": "Texts with macros mean textual substitution", "statement": "A text that defines commands and environments with \\newcommand and \\newenvironment and uses them (calls in bodies, in arguments, in environments and in the kept branch of \\iftrue, nested to any depth) is converted to exactly the same answer as the text without macros that one gets by replacing each call by its body, with the meanings of the arguments in the places of the parameters. The result of the expansion is final: expanding it again changes nothing. The growth is exponential: for each n there is a text of 3n+14 tokens whose expansion has 2^n words.", "quantifier": "all well-formed programs (any number of definitions, any nesting of calls, groups, environments and conditionals), all page sizes, all specifications, text and math mode, all sufficiently large fuel", "why_tests_cant": "Substitution composes: that a body is read again after its arguments were put in, in any nesting, is a statement about all programs, not about single expansions.", "anchors": ["crates/mitex-lexer/src/macro_engine.rs: MacroEngine::bump, run_macro, read_macro_args", "crates/mitex-lexer/src/lib.rs: Lexer", "crates/mitex/src/lib.rs: convert_text, convert_math, convert_math_no_macro"]}
{"id": "C72", "title": "Pulling tokens on demand changes nothing", "statement": "The parser pulls tokens from a lexer that reads the source, and expands macros, one page at a time while the tree is being built. The answer (the tree and the converted text, an error message, or a panic) is the same as when the whole text is tokenised first, then expanded, then parsed, whatever the page sizes of the two caches. A run that succeeds has read the whole text; a text whose tokenisation panics never succeeds, even if the panic lies behind tokens that are parsed before it is reached; a text whose macro expansion loops never succeeds.", "quantifier": "all texts, all command specifications, all page sizes >= 1, with and without macros, text and math mode, all bounds on the number of steps", "why_tests_cant": "Where the page boundaries fall relative to definitions, calls, arguments and words that are split by the parser depends on the text and on the size of a token on the platform; tests see one page size and few alignments.", "anchors": ["crates/mitex-lexer/src/lib.rs: Lexer::next, eat, peek, consume_utf8_bytes", "crates/mitex-lexer/src/stream.rs: LexCache, StreamContext::lex_one, next_token", "crates/mitex-lexer/src/macro_engine.rs: MacroEngine::do_bump", "crates/mitex-parser/src/parser.rs: Parser (whole file)", "crates/mitex/src/lib.rs: convert_text, convert_math, convert_math_no_macro"]}
{"id": "C73", "title": "Captures of glob matching", "statement": "Matching a glob pattern with captures gives captures exactly if matching without captures answers yes, ends exactly when it ends, never panics, and every capture lies within the text, for every pattern and text. For patterns of literals, escapes, `?`, classes and stars outside of braces in which stars do not touch and after a star at most one `?` or class stands before the next star, directly behind the star, the captures are exactly the places of what the wildcards stand for, in order, one for each, in the match with the earliest stars as short as possible. (For other patterns captures of abandoned attempts may remain in the result, and with nested braces a capture may end before it begins.)", "quantifier": "every pattern (answers, bounds), every steady pattern of atoms and stars (the captures), every text", "why_tests_cant": "captures are mutated across backtracking, so that what is left of an abandoned attempt depends on the whole history of the match; the number of attempts is unbounded", "anchors": ["crates/mitex-glob/src/lib.rs: glob_match_with_captures, glob_match_internal, State::begin_capture, State::extend_capture, State::end_capture, State::add_char_capture"]}
{"id": "C74", "title": "The size of the output", "statement": "The output of a conversion cannot explode. Without macros it is at most (A + 2·L + 2·digits(W) + 100)·W characters for W = 12·(length of the input) + 1, where A is the length of the longest name the specification writes (64 for the default one) and L the depth of nested lists in the document; so it is at most quadratic in the length of the input, and linear up to the length of numbers when lists are not nested deeper and deeper. With macros the same holds for the size of the expansion. The quadratic bound is attained up to a factor: n lines below n nested lists.", "quantifier": "every input, specification, mode and successful conversion; no bound on nesting", "why_tests_cant": "a bound on the growth of the output is about all inputs of all lengths; the expensive ones (deep lists, many columns, labels moved out of environments) only show their cost asymptotically", "anchors": ["crates/mitex/src/converter.rs: Converter::convert, convert_command, convert_env, convert_env_math, convert_env_table, convert_env_figure", "crates/mitex/src/lib.rs: convert_text, convert_math, convert_math_no_macro", "crates/mitex-parser/src/parser.rs: Parser::parse"]}
{"id": "C75", "title": "Parts of a document are converted independently", "statement": "If a text a ends with a closed group, formula or environment, and a text b does not start with (or contain at its top level) something that looks to the left, the conversion of a followed by b is the conversion of a followed by the conversion of b: the outputs are joined, and the first failure is the failure of the whole. The parser looks one token ahead only: the tree of what stands before a token does not depend on what follows the token.", "quantifier": "all token lists and texts a and b with the stated ends, all specifications, modes, with and without macro expansion (then without macro calls); no bound on lengths", "why_tests_cant": "that nothing of b leaks into the conversion of a and nothing of a into that of b is a statement about all pairs of texts; the leaks (scripts, infix commands, missing arguments, waiting labels, dropped blanks) appear only in particular combinations", "anchors": ["crates/mitex-parser/src/parser.rs: Parser::content, Parser::item_list, Parser::match_arguments", "crates/mitex-lexer/src/token.rs", "crates/mitex/src/converter.rs: Converter::convert, skip_next_space, label", "crates/mitex/src/lib.rs: convert_text, convert_math, convert_math_no_macro"]}
{"id": "C76", "title": "Only the entries of the names mentioned in the text matter", "statement": "If two command specifications have the same entries for all names that are mentioned in a text (after a backslash, or somewhere after \\begin), then the text has the same tokens, the same tree and the same conversion with both, or the conversion fails with the same error; with macro expansion they must also agree on `fi`. So adding, removing or changing entries (or a whole package) whose names are not mentioned never changes the result.", "quantifier": "all texts, all pairs of command specifications (both the one given for parsing and the built-in one used for printing), both modes, with and without macro expansion; no bound on the text or the specifications", "why_tests_cant": "a test compares the results for some specifications and texts; that no other entry is ever consulted (in the lexer for starred names, in the parser, in the converter) is a statement about all of them", "anchors": ["crates/mitex-lexer/src/token.rs: lex_command_name, advance_ascii_name", "crates/mitex-parser/src/parser.rs: Parser::command, Parser::environment", "crates/mitex/src/converter.rs: convert_command, convert_env, TokenCommandSym", "crates/mitex-spec/src/lib.rs: CommandSpec::get, get_cmd, get_env"]}
{"id": "C77", "title": "A formula in a document is the formula converted alone", "statement": "If a text is one formula ($x$, $$x$$, \\(x\\) or \\[x\\]), then convert_text of it is convert_math of x alone between the Typst marks of an inline formula or a formula on its own line, and it fails if convert_math of x fails, with the same error; x alone has the syntax tree of the inside of the formula; and convert_math of the text with the marks is convert_math of x. Conditions: the closing mark does not continue the last token of x, the parser reads the text as one closed formula, no environment in x lacks its arguments before a token that ends the formula, and no command of x is a macro.", "quantifier": "all texts x, all four pairs of marks, all command specifications, success and failure; no bound on length or nesting", "why_tests_cant": "a test compares one formula in its marks with the formula alone; the parser reads it in a different scope (with other ending tokens and positions), and that this never shows is a statement about all formulas", "anchors": ["crates/mitex-parser/src/parser.rs: Parser::item_group, ParseScope, stop_by_scope, match_arguments", "crates/mitex/src/converter.rs: Converter::convert (ItemFormula), convert_inner", "crates/mitex-parser/src/syntax.rs: FormulaItem", "crates/mitex/src/lib.rs: convert_text, convert_math"]}
{"id": "C78", "title": "Specifications written as JSON mean what they say", "statement": "compile_spec (and the generation of the default specification) accepts exactly the JSON values that describe a specification, and the result knows of each name the canonical form of its last entry and nothing else: the order of the members of an object, unknown members and the place of the tag do not matter, an optional alias may be missing or null, lengths are bytes, an unknown kind is refused. Converting through the WASM interface with a compiled specification is converting with the specification described. What is written as JSON is read back as it was, and the helpers of the Typst package describe the items they are documented to.", "quantifier": "all JSON values, all entries and nesting of them, all inputs of the conversion", "why_tests_cant": "a test reads one JSON file; which values are refused and that order and unknown members never matter are statements about all of them", "anchors": ["crates/mitex-spec/src/query.rs: CommandSpecItem, CommandSpecRepr, PackageSpec, PackagesVec", "crates/mitex-spec/src/lib.rs: ArgPattern, ArgShape, ContextFeature, CmdShape, EnvShape", "crates/mitex-wasm/src/lib.rs: compile_spec", "crates/mitex-spec-gen/build.rs: generate", "packages/mitex/specs/prelude.typ: define-cmd, define-env"]}
{"id": "C79", "title": "Handlers are in scope under the names written for them", "statement": "process-spec of the Typst package keeps of each command its last definition and binds in the scope, under each name, the handler last offered under that name: the alias of a definition without a leading #, or the command name if it has no alias. The scope used for eval holds of each name the entry of the last package having it.", "quantifier": "all lists of definitions, all lists of packages, all handlers", "why_tests_cant": "tests load one package; overriding depends on all definitions and their order", "anchors": ["packages/mitex/specs/prelude.typ: process-spec", "packages/mitex/specs/mod.typ: mitex-scope"]}
{"id": "C80", "title": "The typed view of the tree agrees with the tree", "statement": "In every parsed tree, an environment is a begin clause with name and arguments, items that are no clauses, and an end clause or nothing, and EnvItem::begin, end, name_tok, arguments and EndItem::name answer with them; a delimited item is a \\left clause, items, and a \\right clause or nothing, and LRItem::left, right, left_sym, right_sym, LRClause::is_left and sym answer with them (with two exceptions stated: right of an unclosed item without nodes is the \\left clause, sym of a clause without delimiter is the last blank).", "quantifier": "all inputs, specifications, glob matchers, with and without macro expansion, all elements of the tree at any depth", "why_tests_cant": "the accessors take the first or last child of some kind; that no other child can be mistaken for it depends on all the ways items attach to and swallow their neighbours", "anchors": ["crates/mitex-parser/src/syntax.rs: EnvItem, BeginItem, EndItem, LRItem, LRClause", "crates/mitex-parser/src/parser.rs: item_lr, clause_lr, environment"]}
{"id": "C81", "title": "A converted formula is one Typst formula", "statement": "The Typst package evaluates the answer of convert_math between two dollar signs. If the marks copied from the input are harmless (with the default specification: if the text does not contain the words \\left, \\iftypst, \\label, \\includegraphics, \\color, \\textcolor, \\colorbox, tabular), the formula opened by the first dollar sign is closed by the last one and by none before it, and all brackets, strings and inner formulas of the answer are closed within it.", "quantifier": "all inputs and specifications accepted by the converter, with and without macro expansion", "why_tests_cant": "a dollar sign is written by headings, colors, inner formulas and text in formulas at any depth; whether it opens or closes depends on everything around it", "anchors": ["packages/mitex/mitex.typ: mimath", "crates/mitex/src/converter.rs: Converter::convert"]}
{"id": "C82", "title": "Names, letters and numbers of a formula are never joined", "statement": "In the result of converting a formula, the words (runs of letters, digits, dots and characters beyond ASCII) before, in, and after the translation of any part of the formula are never run together: each letter and digit of the source and each name written for a command is a word of its own, so that \\alpha b is not read as alphab. (Copied Typst code must not end within a word.)", "quantifier": "all formulas and specifications, with and without macro expansion, all parts of the formula at any depth", "why_tests_cant": "whether a space follows depends on what kind of element was written last, in every combination of neighbours, scripts, delimiters, environments and groups", "anchors": ["crates/mitex/src/converter.rs: Converter::convert", "crates/mitex/src/converter.rs: convert_normal_command"]}
{"id": "C83", "title": "The words of a document stand in the output, in the order of the source", "statement": "In every successful conversion, in text or math mode, the characters of the words of the document stand in the output in the order of the source: no argument, cell, row, item, script, delimited part or group is dropped, or moved before another. Excepted are what is not meant to be shown: block comments, the arguments of labels, images, rules and items, column specifications and other arguments of environments that are no formulas, captions (moved to the front of the figure), and dots (the empty delimiter).", "quantifier": "all texts and trees, with and without macro expansion, and all specifications (used both for parsing and converting)", "why_tests_cant": "every branch of the converter (command aliases, tables, lists, matrices, infix and greedy commands) decides which of its children are written and in what order; tests see few combinations", "anchors": ["crates/mitex/src/converter.rs: Converter::convert", "crates/mitex/src/converter.rs: convert_command_sym, convert_env", "crates/mitex/src/lib.rs: convert_math, convert_text"]}
{"id": "C84", "title": "What a comment says does not matter", "statement": "If two texts differ only in what a line comment says (from the percent sign to the end of the line: braces, conditionals, commands, anything), they are converted to the same output, in either mode, with or without macros, or fail with the same message, provided no comment stands in a part that is read as it is (a label, an image name, a column specification, ...). More generally, neither the expansion of macros nor the parser looks at what blanks, line ends and comments say: texts whose tokens differ in nothing else expand to such tokens and have syntax trees of the same shape, or panic alike, or loop alike.", "quantifier": "all texts around the comment, all comments, all specifications, and all pairs of token lists that differ in blanks", "why_tests_cant": "a comment may stand anywhere: in the definition or an argument of a macro, in a skipped branch of a conditional, before a script, between a command and its arguments; every place where the lexer, the macro engine and the parser skip blanks would have to be tested with every content", "anchors": ["crates/mitex-lexer/src/macro_engine.rs: MacroEngine", "crates/mitex-lexer/src/token.rs: Token::LineComment, is_trivia", "crates/mitex-parser/src/parser.rs: Parser, trivia", "crates/mitex/src/converter.rs: Converter::convert"]}
{"id": "C85", "title": "Only the white space of the output depends on the white space of the source", "statement": "If two texts differ only in how long their stretches of white space are and what they are made of (a blank stays a blank and an end of line stays an end of line, but its characters, the indentation and the number of spaces are arbitrary) and in what comments say, and the parts that are read as they are (labels, image names, column specifications, ...) are the same, then their outputs are the same if every stretch of white space in them is written as one space: no word, no operator, no piece of markup changes, and words are neither joined nor split. If one text is refused or makes the converter crash, so does the other, with the same message. This holds in either mode, with or without macros.", "quantifier": "all pairs of texts with such tokens, all specifications, modes", "why_tests_cant": "white space may stand anywhere, of any length and kind: within arguments, before scripts, between rows and cells, in macros and environments; each place of the lexer, the engine, the parser and the converter that skips, drops or copies white space would have to be tested with every kind of it", "anchors": ["crates/mitex-lexer/src/token.rs: Token::Whitespace, LineBreak", "crates/mitex-lexer/src/macro_engine.rs: MacroEngine", "crates/mitex-parser/src/parser.rs: Parser, trivia", "crates/mitex/src/converter.rs: Converter::convert, skip_next_space"]}
{"id": "C86", "title": "Layout does not matter: line ends, tabulators, numbers of spaces", "statement": "If a text is laid out anew (every stretch of blanks becomes some other stretch of blanks, every stretch of line ends some other stretch of line ends; all other characters stay), the output is the same but for stretches of white space, and a text that is refused or crashes the converter still does, with the same message. In particular a document with Windows line ends gives the same output as the document with Unix line ends if each stretch of white space is written as one space. This holds in either mode, with or without macros, for every specification, provided no comment stands between \\begin or \\end and the braces (a text without comments has none), and the parts that are read as they are (labels, image names, ...) contain the same blanks.", "quantifier": "all texts, all layouts of them, all specifications and modes", "why_tests_cant": "every place of every document can be laid out anew in infinitely many ways; lexer, macro engine, parser and converter all treat white space specially somewhere", "anchors": ["crates/mitex-lexer/src/token.rs: Token::Whitespace, LineBreak, lex_begin_env", "crates/mitex-lexer/src/macro_engine.rs: MacroEngine", "crates/mitex-parser/src/parser.rs: Parser", "crates/mitex/src/converter.rs: Converter::convert"]}
{"id": "C87", "title": "What macros are called does not matter", "statement": "If two command names \\a and \\b are exchanged everywhere in a text (in particular: if a macro is renamed consistently to a name not used so far), macro expansion delivers the same tokens with the same two names exchanged, or panics alike, or runs forever alike; and if neither name is left after expansion, the text is converted to the same output, or refused with the same message. This holds for every text and specification and in either mode, provided the names are neither predefined nor words of the expander, and no environment of the text is called by them.", "quantifier": "all texts, all pairs of names that are not predefined, all specifications and modes", "why_tests_cant": "the names and the texts are arbitrary; that only the identity of a name matters is a statement about all renamings at once, through redefinitions, recursive expansion, defaults, conditionals and nested calls", "anchors": ["crates/mitex-lexer/src/macro_engine.rs: MacroEngine", "crates/mitex-lexer/src/stream.rs", "crates/mitex-lexer/src/token.rs: lex_command_name"]}
{"id": "C88", "title": "Definitions that are not used leave no trace", "statement": "If commands or environments are defined in a text (at its start, or anywhere else outside of arguments and of other definitions: after other definitions, text, calls of macros, in groups and in conditionals) whose names are new, different, and not mentioned by the rest of the text, then macro expansion delivers exactly what it delivers for the text without these definitions, or panics alike, or runs forever alike; and the text is converted to the same output as the text without the definitions, or refused with the same message. In particular \\newcommand{\\name}[n]{body} can be put in front of any text that does not mention \\name, whatever the body is.", "quantifier": "all texts, all definitions in them, all specifications and modes", "why_tests_cant": "the definitions, their bodies, their places and the rest of the text are arbitrary; a definition could leak through lookahead, paging, the shared table, or a shadowed meaning only in particular histories of redefinitions", "anchors": ["crates/mitex-lexer/src/macro_engine.rs: MacroEngine", "crates/mitex-lexer/src/macro_engine.rs: define_command", "crates/mitex-lexer/src/stream.rs", "crates/mitex-parser/src/parser.rs: Parser"]}
{"id": "C89", "title": "Macro expansion is idempotent", "statement": "The tokens that are delivered by macro expansion are delivered unchanged when they are expanded again (nothing is left to be expanded or decided), unless the name of a defining command has been made an environment and is therefore delivered; if a text defines no environments, no defining command is ever delivered. Hence, if the tokens delivered for a text are the tokens of a second text, both are converted to the same output, or refused with the same message, and the second text is converted alike with macros switched on and off.", "quantifier": "all texts, all definitions, calls and conditionals in them, all specifications and modes", "why_tests_cant": "definitions, bodies, nesting of calls and conditionals are arbitrary; a half-expanded call, a conditional that is decided but still delivered, or a token that changes its meaning on the second pass shows only in particular combinations", "anchors": ["crates/mitex-lexer/src/macro_engine.rs: MacroEngine", "crates/mitex-lexer/src/macro_engine.rs: bump", "crates/mitex-lexer/src/stream.rs", "crates/mitex-parser/src/parser.rs: Parser"]}
{"id": "C90", "title": "The plugin and the command line tool take exactly UTF-8", "statement": "The bytes given to convert_math / convert_text of the Typst plugin, or read from the input file by the command line tool, are accepted exactly if they are the UTF-8 encoding of a text (no overlong forms, no surrogates, nothing above U+10FFFF, nothing replaced or dropped); the plugin then answers with the UTF-8 encoding of what the library answers for that text, and the file written by the tool is read back as the document. Any other input is refused without converting and without a panic: the message names the length of the longest start that is the encoding of a text, says that the input is incomplete exactly if it could be continued to the encoding of a text, and otherwise the number of bytes at fault.", "quantifier": "all lists of bytes, all texts, all specifications", "why_tests_cant": "the inputs are arbitrary byte strings: faults at any position, in any byte of a sequence, truncated sequences, boundaries of every range", "anchors": ["crates/mitex-wasm/src/lib.rs: wasm_into_str", "crates/mitex-wasm/src/lib.rs: convert_math", "crates/mitex-wasm/src/lib.rs: convert_text", "crates/mitex-cli/src/main.rs: compile"]}
{"id": "C91", "title": "Typst code is copied verbatim, block comments leave nothing", "statement": "Whatever stands between \\iftypst and \\fi (with its conditionals balanced, no \\begin or \\end, and not swallowing the \\fi by a comment) is copied to the output character by character: it is neither escaped nor translated; and whatever stands between \\iffalse and \\fi leaves nothing. If the \\fi is missing, this holds up to the end of the text. With macros switched on, what is copied is the body after the expansion of its macros, hence the body itself if it calls none. Inside of a document, such a block is one item between the parts before and after it.", "quantifier": "all texts as bodies of blocks, all specifications and modes, with and without macros", "why_tests_cant": "the body is arbitrary: every special character of LaTeX, nested blocks, comments, unbalanced brackets, formulas", "anchors": ["crates/mitex-parser/src/parser.rs: Parser", "crates/mitex/src/converter.rs: convert", "crates/mitex-lexer/src/macro_engine.rs: MacroEngine"]}
{"id": "C92", "title": "Braces that are not needed make no difference in formulas", "statement": "x^{2} and x^2, {a}+{b} and a+b, \\frac{{a}b}{c} and \\frac{ab}{c} \\frac{1}{2}, \\frac 1 2 and \\frac12 are converted to the same Typst code: braces around a part, around several parts in a row, around a script of one character or symbol or an argument of one character, and blanks before arguments, can be added and removed at will, at any depth and any number of times, as long as both texts are formulas (names and words do not run together) and the braces are not empty.", "quantifier": "all formulas of the language of C67 (nested without bound), all sequences of additions and removals of unneeded braces in them, all specifications for which they are formulas", "why_tests_cant": "the braces stand at any depth and in any combination with scripts, primes, arguments, cells and delimiters; a test compares single pairs of texts", "anchors": ["crates/mitex/src/converter.rs: convert (ItemCurly, ItemAttachComponent)", "crates/mitex-parser/src/parser.rs: item_group, attach", "crates/mitex/src/lib.rs: convert_math, convert_math_no_macro"]}
