{
 "C54": [
  "proved",
  "Exact (C54_default_output, C54_clobbers_exactly). The documented behaviour (extension .typ) is false of the code: C54_negation, C54_clobbers_tex."
 ],
 "C26": [
  "proved",
  "Stars inside braces can loop forever (C26_not_total, a bug of the code), so termination is proved for all patterns whose stars stand outside of braces."
 ],
 "C02": [
  "proved",
  "Exact (C02_panics_exactly); C02_not_total is a concrete panic, C02_total_unless_slip and its corollaries are sufficient conditions."
 ],
 "C06": [
  "proved",
  "Exact (C06_exact, rules of Spec/Clause); C06_plain_clause: without comments these are the expected clauses; C06_comment_breaks_clause shows the defect."
 ],
 "C10": [
  "proved",
  "Exact (C10_exact); C10_trailing_mark_panics, C10_not_total show the defect."
 ],
 "C17": [
  "proved",
  "Exact (C17_exact, rules of Spec/Expansion); C17_word_miscount shows the defect."
 ],
 "C18": [
  "proved",
  "Exact (C18_exact). That expansion always ends is false of the code: recursion never ends (C18_recursion_diverges; concretely C18_self_reference_diverges, also for the buffered lexer), nor do some acyclic macros that duplicate arguments (C18_duplication_diverges). Sufficient: C18_acyclic_linear_terminates, C18_no_definitions_terminates."
 ],
 "C19": [
  "proved",
  "C19_exact gives the end of the skipped text for every text; C19_nested_else_breaks_skipping shows the defect."
 ],
 "C21": [
  "proved",
  "C21_recurse_leaks shows that the condition is needed."
 ],
 "C57": [
  "proved",
  "C65_panics gives the exact condition; C57_begin_as_name_panics and C10_not_total are concrete panics."
 ],
 "C29": [
  "proved",
  "The naive claim (never panics) is false of the code: C29_panics. C62_panics characterises the panics exactly."
 ],
 "C48": [
  "proved",
  "C48_exact; that a command of the given specification is accepted is false of the code (C48_custom_rejected)."
 ],
 "C47": [
  "proved",
  "C47_closed and C47_unclosed cover both cases of what follows the last separator; C47_unclosed_example shows the defect end to end."
 ],
 "C46": [
  "proved",
  "Exact (C46_exact). That a conversion never panics is false of the code: C46_crashes (nine short inputs), C46_custom_spec_panics. Sufficient conditions: C46_no_panic, C46_tokens, C46_documents; C46_needed: the argument condition is necessary."
 ],
 "C59": [
  "proved",
  "All texts, both directions."
 ],
 "C71": [
  "proved",
  "Well-formed: no recursion, names not redefined, calls with all their arguments in braces, definitions with digits and single blocks; the exceptions of the code (C10-C20) are outside this class. Adjacent words keep their boundaries (`-#1` gives two words)."
 ],
 "C72": [
  "proved",
  "C72_answers/C72_success relate the tree of the interleaved run to the run of the stages one after the other; C72_converts/C72_outcome the converted text; C72_stuck the panics of the source reader. Where the expansion loops, the two runs agree that there is no success (which stop comes first is then not compared)."
 ],
 "C73": [
  "proved",
  "C73_same: the answer of the matcher without captures; C73_bounds: within the text; C73_right: the captures are those of a match (Spec/GlobCapture), and the least such; C73_unique: independent of the number of rounds; C73_abandoned, C73_bytes: what is wrong for patterns outside of the steady ones (defect 26)."
 ],
 "C74": [
  "proved",
  "C74_tree: for every printed document; C74_no_macro, C74_macro: from the input and from the expansion; C74_quadratic: from the length of the input alone; C74_default: the names of the default specification; C74_attained: lines below nested lists need quadratic output."
 ],
 "C75": [
  "proved",
  "C75_lookahead, C75_tree: trees; C75_tokens: tokens; C75_output: outputs of trees; C75_no_macro, C75_converts: the functions of the library; C75_example: the hypotheses are met; C75_limits: the conditions are needed. Not covered: parts divided inside of a text (the tree has one text item instead of two there)."
 ],
 "C76": [
  "proved",
  "C76_tokens, C76_parse, C76_converts: tokens, tree and conversion; C76_entry, C76_package: entries and packages that are not mentioned; C76_mentioned: the entries of mentioned names do matter. \"Mentioned\" is a condition on the text alone and may hold of names that are not looked up (every text after \\begin counts)."
 ],
 "C77": [
  "proved",
  "C77_tree: the tree of x alone; C77_output: the two outputs, and failures; C77_converts, C77_no_macro: the API functions; C77_given: environments without arguments lack none; C77_example: the hypotheses are met; C77_limits: the conditions are needed (\\begin{array}\\end{array} is converted in a formula and refused alone)."
 ],
 "C78": [
  "proved",
  "C78_compile, C78_generate: accepted exactly, and what is known; C78_convert: end to end over the WASM interface, with JSON text, UTF-8 and rkyv as parameters; C78_alike: order and unknown members at any depth; C78_written, C78_written_repr: writing and reading; C78_helpers, C78_refused (with a defect of define-glob-env); C78_default: the default specification; C78_unambiguous, C78_determined; C78_example."
 ],
 "C79": [
  "proved",
  "C79_process: both dictionaries, exactly; C79_scope: the sum of the scopes; C79_example."
 ],
 "C80": [
  "proved",
  "C80_environment, C80_delimited, C80_clause: parts and accessors of every element; C80_symbols: the delimiters; C80_example: nested, unclosed and mismatched cases, with the defects."
 ],
 "C81": [
  "proved",
  "C81_one_formula: from the parts of the tree; C81_tokens, C81_words: conditions on the text, with the default specification; C81_example: formulas at several depths."
 ],
 "C82": [
  "proved",
  "C82_apart: every part in math, at any depth; C82_formula: for texts without \\iftypst; C82_symbol: names of commands without arguments; C82_letters: letters and digits; C82_example."
 ],
 "C83": [
  "proved",
  "C83_words: for every document, with `shown` computed from its tree; C83_text: for texts none of whose tokens hides words, all characters of the words of the token stream (after macros); C83_example, C83_example_text, C83_example_list."
 ],
 "C84": [
  "proved",
  "C84_text: two texts with different comments; C84_comments_macro, C84_comments: token lists that differ in comments; C84_tokens: the tokens of a text with a comment; C84_expansion: macros and conditionals; C84_syntax: the parser; C84_example."
 ],
 "C85": [
  "proved",
  "C85_text: two texts with different blanks; C85_spacing_macro, C85_spacing: token lists that differ in white space and comments; C85_gaps: what it means for the outputs; C85_words: the same without white space; C85_tokens: the tokens of a text with a blank; C85_unquoted: when the parts read as they are cannot differ; C85_example."
 ],
 "C86": [
  "proved",
  "C86_layout: any two layouts; C86_plain: texts without comments; C86_windows, C86_crlf: Windows line ends; C86_blanks: blanks replaced by blanks; C86_tokens: the tokens; C86_no_comments; C86_example."
 ],
 "C87": [
  "proved",
  "C87_expansion: equivariance of the expansion under exchanging two names; C87_converts: documents, given the tokens; C87_tokens: the tokens of a text with commands exchanged; C87_text: texts; C87_example."
 ],
 "C88": [
  "proved",
  "C88_expansion: the expansion with and without the definitions; C88_converts: documents, given the tokens; C88_newcommand: texts that start with a written \\newcommand; C88_example, C88_example_middle. The places of the definitions are those of the relation LeftOut."
 ],
 "C89": [
  "proved",
  "C89_idempotent: expansion of the delivered tokens; C89_no_definitions: when the hypothesis on defining commands holds; C89_converts: documents; C89_example."
 ],
 "C90": [
  "proved",
  "C90_encoding: the encoding is the one of Lean's library; C90_exact, C90_fails: which bytes are decoded; C90_position, C90_kind: what is reported; C90_plugin, C90_refused, C90_text: the plugin; C90_reads, C90_read_back: the command line tool; C90_example. from_utf8 of the standard library is modelled from its source."
 ],
 "C91": [
  "proved",
  "C91_code, C91_comment, C91_open: without macros; C91_expanded, C91_macros: with macros; C91_place: in a document; C91_example. That \\begin{…} is not copied verbatim is defect 40."
 ],
 "C92": [
  "proved",
  "C92_braces, C92_no_macro: formulas that differ in unneeded braces only (Spec/Braces) are converted alike; C92_only_braces: the relation changes nothing but braces and blanks in the LaTeX text; C92_two_characters: the ways to write \\frac{1}{2}; C92_needed: braces that do make a difference; C92_base_lost: defect 41; C92_example."
 ]
}