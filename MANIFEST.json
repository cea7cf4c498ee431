{
 "claims": [
  {
   "property": "C01",
   "status": "proved",
   "theorems": [
    "Mitex.C01_lossless",
    "Mitex.C01_lossless_flat"
   ],
   "note": ""
  },
  {
   "property": "C02",
   "status": "proved",
   "theorems": [
    "Mitex.C02_terminates",
    "Mitex.C02_total_unless_slip",
    "Mitex.C02_total_no_comment",
    "Mitex.C02_total_ascii",
    "Mitex.C02_not_total",
    "Mitex.C02_panics_exactly"
   ],
   "note": "Exact (C02_panics_exactly); C02_not_total is a concrete panic, C02_total_unless_slip and its corollaries are sufficient conditions."
  },
  {
   "property": "C03",
   "status": "proved",
   "theorems": [
    "Mitex.C03_paging_unobservable",
    "Mitex.C03_lexer_delivers_tokens"
   ],
   "note": ""
  },
  {
   "property": "C04",
   "status": "proved",
   "theorems": [
    "Mitex.C04_starred_names"
   ],
   "note": ""
  },
  {
   "property": "C05",
   "status": "proved",
   "theorems": [
    "Mitex.C05_pure_and_maximal",
    "Mitex.C05_no_split_tokens"
   ],
   "note": ""
  },
  {
   "property": "C06",
   "status": "proved",
   "theorems": [
    "Mitex.C06_begin_clause",
    "Mitex.C06_end_clause",
    "Mitex.C06_comment_breaks_clause",
    "Mitex.C06_begin_converse",
    "Mitex.C06_bytes",
    "Mitex.C06_white_space",
    "Mitex.C06_exact",
    "Mitex.C06_plain_clause"
   ],
   "note": "Exact (C06_exact, rules of Spec/Clause); C06_plain_clause: without comments these are the expected clauses; C06_comment_breaks_clause shows the defect."
  },
  {
   "property": "C07",
   "status": "proved",
   "theorems": [
    "Mitex.C07_unbound_tokens_pass",
    "Mitex.C07_transparent"
   ],
   "note": ""
  },
  {
   "property": "C08",
   "status": "proved",
   "theorems": [
    "Mitex.C08_buffering_unobservable",
    "Mitex.C08_buffering_unobservable_conv",
    "Mitex.C08_panics_alike"
   ],
   "note": ""
  },
  {
   "property": "C09",
   "status": "proved",
   "theorems": [
    "Mitex.C09_expansion_substitutes",
    "Mitex.C09_substitution_is_positional",
    "Mitex.C09_call_is_replaced",
    "Mitex.C09_call_delivers"
   ],
   "note": ""
  },
  {
   "property": "C10",
   "status": "proved",
   "theorems": [
    "Mitex.C10_parameter_marks",
    "Mitex.C10_trailing_mark_panics",
    "Mitex.C10_not_total",
    "Mitex.C10_marks_lossless",
    "Mitex.C10_exact"
   ],
   "note": "Exact (C10_exact); C10_trailing_mark_panics, C10_not_total show the defect."
  },
  {
   "property": "C11",
   "status": "proved",
   "theorems": [
    "Mitex.C11_newcommand",
    "Mitex.C11_newenvironment"
   ],
   "note": ""
  },
  {
   "property": "C12",
   "status": "proved",
   "theorems": [
    "Mitex.C12_renewcommand",
    "Mitex.C12_renewenvironment"
   ],
   "note": ""
  },
  {
   "property": "C13",
   "status": "proved",
   "theorems": [
    "Mitex.C13_providecommand"
   ],
   "note": ""
  },
  {
   "property": "C14",
   "status": "proved",
   "theorems": [
    "Mitex.C14_one_name_per_step",
    "Mitex.C14_only_definitions_define",
    "Mitex.C14_no_definition_no_change"
   ],
   "note": ""
  },
  {
   "property": "C15",
   "status": "proved",
   "theorems": [
    "Mitex.C15_at_most_nine",
    "Mitex.C15_more_rejected"
   ],
   "note": ""
  },
  {
   "property": "C16",
   "status": "proved",
   "theorems": [
    "Mitex.C16_group_read",
    "Mitex.C16_bracket_read",
    "Mitex.C16_stops_at_matching_brace"
   ],
   "note": ""
  },
  {
   "property": "C17",
   "status": "proved",
   "theorems": [
    "Mitex.C17_arguments_bound",
    "Mitex.C17_word_miscount",
    "Mitex.C17_word_miscount_text",
    "Mitex.C17_missing_arguments",
    "Mitex.C17_exact",
    "Mitex.C17_one_reading"
   ],
   "note": "Exact (C17_exact, rules of Spec/Expansion); C17_word_miscount shows the defect."
  },
  {
   "property": "C18",
   "status": "proved",
   "theorems": [
    "Mitex.C18_exact",
    "Mitex.C18_recursion_diverges",
    "Mitex.C18_self_reference_diverges",
    "Mitex.C18_self_reference_diverges_lexer",
    "Mitex.C18_duplication_diverges",
    "Mitex.C18_acyclic_linear_terminates",
    "Mitex.C18_no_definitions_terminates"
   ],
   "note": "Exact (C18_exact). That expansion always ends is false of the code: recursion never ends (C18_recursion_diverges; concretely C18_self_reference_diverges, also for the buffered lexer), nor do some acyclic macros that duplicate arguments (C18_duplication_diverges). Sufficient: C18_acyclic_linear_terminates, C18_no_definitions_terminates."
  },
  {
   "property": "C19",
   "status": "proved",
   "theorems": [
    "Mitex.C19_iftrue_else",
    "Mitex.C19_iftrue",
    "Mitex.C19_iffalse_else",
    "Mitex.C19_iffalse",
    "Mitex.C19_iftypst_else",
    "Mitex.C19_undecided",
    "Mitex.C19_undecided_else",
    "Mitex.C19_nested_else_breaks_skipping",
    "Mitex.C19_exact"
   ],
   "note": "C19_exact gives the end of the skipped text for every text; C19_nested_else_breaks_skipping shows the defect."
  },
  {
   "property": "C20",
   "status": "proved",
   "theorems": [
    "Mitex.C20_environment_unfolds",
    "Mitex.C20_environment_delivers"
   ],
   "note": ""
  },
  {
   "property": "C21",
   "status": "proved",
   "theorems": [
    "Mitex.C21_no_raw_parameters",
    "Mitex.C21_recurse_leaks"
   ],
   "note": "C21_recurse_leaks shows that the condition is needed."
  },
  {
   "property": "C22",
   "status": "proved",
   "theorems": [
    "Mitex.C22_rollback_exact",
    "Mitex.C22_refinement"
   ],
   "note": ""
  },
  {
   "property": "C23",
   "status": "proved",
   "theorems": [
    "Mitex.C23_get_last",
    "Mitex.C23_clear",
    "Mitex.C23_insert_remove",
    "Mitex.C23_commit_unobservable"
   ],
   "note": ""
  },
  {
   "property": "C24",
   "status": "proved",
   "theorems": [
    "Mitex.C24_literal_prefix",
    "Mitex.C24_literal_full"
   ],
   "note": ""
  },
  {
   "property": "C25",
   "status": "proved",
   "theorems": [
    "Mitex.C25_optional_first",
    "Mitex.C25_optional_bracket_term",
    "Mitex.C25_optional_bracket_two_terms",
    "Mitex.C25_optional_bracket",
    "Mitex.C25_standard_patterns",
    "Mitex.C25_parser_matcher"
   ],
   "note": ""
  },
  {
   "property": "C26",
   "status": "proved",
   "theorems": [
    "Mitex.C26_no_panic",
    "Mitex.C26_terminates_without_stars",
    "Mitex.C26_terminates",
    "Mitex.C26_answer_unique",
    "Mitex.C26_parser_matcher",
    "Mitex.C26_not_total"
   ],
   "note": "Stars inside braces can loop forever (C26_not_total, a bug of the code), so termination is proved for all patterns whose stars stand outside of braces."
  },
  {
   "property": "C27",
   "status": "proved",
   "theorems": [
    "Mitex.C27_byte_release",
    "Mitex.C27_byte_debug",
    "Mitex.C27_fixed_and_range",
    "Mitex.C27_none",
    "Mitex.C27_greedy",
    "Mitex.C27_glob",
    "Mitex.C27_greedy_iff"
   ],
   "note": ""
  },
  {
   "property": "C28",
   "status": "proved",
   "theorems": [
    "Mitex.C28_delivered",
    "Mitex.C28_terminates",
    "Mitex.C28_text"
   ],
   "note": ""
  },
  {
   "property": "C29",
   "status": "proved",
   "theorems": [
    "Mitex.C29_total",
    "Mitex.C29_only_panic",
    "Mitex.C29_standard",
    "Mitex.C29_panics"
   ],
   "note": "The naive claim (never panics) is false of the code: C29_panics. C62_panics characterises the panics exactly."
  },
  {
   "property": "C30",
   "status": "proved",
   "theorems": [
    "Mitex.C30_reads",
    "Mitex.C30_content",
    "Mitex.C30_text"
   ],
   "note": ""
  },
  {
   "property": "C31",
   "status": "proved",
   "theorems": [
    "Mitex.C31_root",
    "Mitex.C31_shapes"
   ],
   "note": ""
  },
  {
   "property": "C32",
   "status": "proved",
   "theorems": [
    "Mitex.C32_command_name",
    "Mitex.C32_environment_name"
   ],
   "note": ""
  },
  {
   "property": "C33",
   "status": "proved",
   "theorems": [
    "Mitex.C33_command_arity",
    "Mitex.C33_environment_arity"
   ],
   "note": ""
  },
  {
   "property": "C34",
   "status": "proved",
   "theorems": [
    "Mitex.C34_groups_closed",
    "Mitex.C34_group_starts"
   ],
   "note": ""
  },
  {
   "property": "C35",
   "status": "proved",
   "theorems": [
    "Mitex.C35_kind_roundtrip",
    "Mitex.C35_raw_roundtrip",
    "Mitex.C35_out_of_range",
    "Mitex.C35_raw_u16"
   ],
   "note": ""
  },
  {
   "property": "C36",
   "status": "proved",
   "theorems": [
    "Mitex.C36_not_both",
    "Mitex.C36_valid_exactly_one"
   ],
   "note": ""
  },
  {
   "property": "C37",
   "status": "proved",
   "theorems": [
    "Mitex.C37_restores"
   ],
   "note": ""
  },
  {
   "property": "C38",
   "status": "proved",
   "theorems": [
    "Mitex.C38_item_exact",
    "Mitex.C38_outside",
    "Mitex.C38_items",
    "Mitex.C38_list"
   ],
   "note": ""
  },
  {
   "property": "C39",
   "status": "proved",
   "theorems": [
    "Mitex.C39_plain_text",
    "Mitex.C39_words"
   ],
   "note": ""
  },
  {
   "property": "C40",
   "status": "proved",
   "theorems": [
    "Mitex.C40_plain_math",
    "Mitex.C40_words"
   ],
   "note": ""
  },
  {
   "property": "C41",
   "status": "proved",
   "theorems": [
    "Mitex.C41_known",
    "Mitex.C41_unknown_command",
    "Mitex.C41_unknown_symbol",
    "Mitex.C41_unknown_environment"
   ],
   "note": ""
  },
  {
   "property": "C42",
   "status": "proved",
   "theorems": [
    "Mitex.C42_no_error",
    "Mitex.C42_reported"
   ],
   "note": ""
  },
  {
   "property": "C43",
   "status": "proved",
   "theorems": [
    "Mitex.C43_comments",
    "Mitex.C43_comment_silent",
    "Mitex.C43_label_comment"
   ],
   "note": ""
  },
  {
   "property": "C44",
   "status": "proved",
   "theorems": [
    "Mitex.C44_formula",
    "Mitex.C44_invalid"
   ],
   "note": ""
  },
  {
   "property": "C45",
   "status": "proved",
   "theorems": [
    "Mitex.C45_header",
    "Mitex.C45_unknown",
    "Mitex.C45_empty_table"
   ],
   "note": ""
  },
  {
   "property": "C46",
   "status": "proved",
   "theorems": [
    "Mitex.C46_exact",
    "Mitex.C46_no_panic",
    "Mitex.C46_needed",
    "Mitex.C46_delivered",
    "Mitex.C46_tokens",
    "Mitex.C46_documents",
    "Mitex.C46_crashes",
    "Mitex.C46_custom_spec_panics"
   ],
   "note": "Exact (C46_exact). That a conversion never panics is false of the code: C46_crashes (nine short inputs), C46_custom_spec_panics. Sufficient conditions: C46_no_panic, C46_tokens, C46_documents; C46_needed: the argument condition is necessary."
  },
  {
   "property": "C47",
   "status": "proved",
   "theorems": [
    "Mitex.C47_cells",
    "Mitex.C47_closed",
    "Mitex.C47_unclosed",
    "Mitex.C47_unclosed_example"
   ],
   "note": "C47_closed and C47_unclosed cover both cases of what follows the last separator; C47_unclosed_example shows the defect end to end."
  },
  {
   "property": "C48",
   "status": "proved",
   "theorems": [
    "Mitex.C48_custom_rejected",
    "Mitex.C48_default_governs",
    "Mitex.C48_symbol",
    "Mitex.C48_exact"
   ],
   "note": "C48_exact; that a command of the given specification is accepted is false of the code (C48_custom_rejected)."
  },
  {
   "property": "C49",
   "status": "proved",
   "theorems": [
    "Mitex.C49_terminates",
    "Mitex.C49_fuel_irrelevant",
    "Mitex.C49_outcome",
    "Mitex.C49_output_independent"
   ],
   "note": ""
  },
  {
   "property": "C50",
   "status": "proved",
   "theorems": [
    "Mitex.C50_item",
    "Mitex.C50_canonicalise"
   ],
   "note": ""
  },
  {
   "property": "C51",
   "status": "proved",
   "theorems": [
    "Mitex.C51_merge"
   ],
   "note": ""
  },
  {
   "property": "C52",
   "status": "proved",
   "theorems": [
    "Mitex.C52_exclusive",
    "Mitex.C52_covering",
    "Mitex.C52_faithful",
    "Mitex.C52_builder",
    "Mitex.C52_helpers",
    "Mitex.C52_constants"
   ],
   "note": ""
  },
  {
   "property": "C53",
   "status": "proved",
   "theorems": [
    "Mitex.C53_accepts_iff",
    "Mitex.C53_errors",
    "Mitex.C53_keeps_paths"
   ],
   "note": ""
  },
  {
   "property": "C54",
   "status": "proved",
   "theorems": [
    "Mitex.C54_default_output",
    "Mitex.C54_clobbers_exactly",
    "Mitex.C54_replaces",
    "Mitex.C54_no_extension",
    "Mitex.C54_clobbers_tex",
    "Mitex.C54_negation"
   ],
   "note": "Exact (C54_default_output, C54_clobbers_exactly). The documented behaviour (extension .typ) is false of the code: C54_negation, C54_clobbers_tex."
  },
  {
   "property": "C55",
   "status": "proved",
   "theorems": [
    "Mitex.C55_prelude",
    "Mitex.C55_document",
    "Mitex.C55_order_independent"
   ],
   "note": ""
  },
  {
   "property": "C56",
   "status": "proved",
   "theorems": [
    "Mitex.C56_empty_spec",
    "Mitex.C56_given_spec",
    "Mitex.C56_invalid_utf8"
   ],
   "note": ""
  },
  {
   "property": "C57",
   "status": "proved",
   "theorems": [
    "Mitex.C57_panic_needs_definition",
    "Mitex.C57_begin_as_name_panics"
   ],
   "note": "C65_panics gives the exact condition; C57_begin_as_name_panics and C10_not_total are concrete panics."
  },
  {
   "property": "C58",
   "status": "proved",
   "theorems": [
    "Mitex.C58_kept"
   ],
   "note": ""
  },
  {
   "property": "C59",
   "status": "proved",
   "theorems": [
    "Mitex.C59_token",
    "Mitex.C59_no_token",
    "Mitex.C59_unambiguous",
    "Mitex.C59_tokens",
    "Mitex.C59_outcome"
   ],
   "note": "All texts, both directions."
  },
  {
   "property": "C60",
   "status": "proved",
   "theorems": [
    "Mitex.C60_consume",
    "Mitex.C60_off_boundary"
   ],
   "note": ""
  },
  {
   "property": "C61",
   "status": "proved",
   "theorems": [
    "Mitex.C61_exact",
    "Mitex.C61_fails",
    "Mitex.C61_outcome",
    "Mitex.C61_unambiguous",
    "Mitex.C61_document",
    "Mitex.C61_document_fails",
    "Mitex.C61_two_arguments",
    "Mitex.C61_script"
   ],
   "note": ""
  },
  {
   "property": "C62",
   "status": "proved",
   "theorems": [
    "Mitex.C62_exact",
    "Mitex.C62_unambiguous",
    "Mitex.C62_panics",
    "Mitex.C62_text",
    "Mitex.C62_text_macro",
    "Mitex.C62_script_char",
    "Mitex.C62_script_forgets",
    "Mitex.C62_script_without_base",
    "Mitex.C62_infix_forgets",
    "Mitex.C62_lost_operands"
   ],
   "note": ""
  },
  {
   "property": "C63",
   "status": "proved",
   "theorems": [
    "Mitex.C63_only_output",
    "Mitex.C63_input_kept",
    "Mitex.C63_output_prefix",
    "Mitex.C63_failure_keeps",
    "Mitex.C63_success",
    "Mitex.C63_succeeds",
    "Mitex.C63_written",
    "Mitex.C63_source_lost"
   ],
   "note": ""
  },
  {
   "property": "C64",
   "status": "proved",
   "theorems": [
    "Mitex.C64_exact",
    "Mitex.C64_atoms",
    "Mitex.C64_sound",
    "Mitex.C64_alternatives",
    "Mitex.C64_skips_nested",
    "Mitex.C64_limits"
   ],
   "note": ""
  },
  {
   "property": "C65",
   "status": "proved",
   "theorems": [
    "Mitex.C65_exact",
    "Mitex.C65_lexer",
    "Mitex.C65_panics",
    "Mitex.C65_unambiguous",
    "Mitex.C65_outcome"
   ],
   "note": ""
  },
  {
   "property": "C66",
   "status": "proved",
   "theorems": [
    "Mitex.C66_exact",
    "Mitex.C66_endless",
    "Mitex.C66_outcome",
    "Mitex.C66_no_macro",
    "Mitex.C66_converts"
   ],
   "note": ""
  },
  {
   "property": "C67",
   "status": "proved",
   "theorems": [
    "Mitex.C67_formula",
    "Mitex.C67_formula_no_macro"
   ],
   "note": ""
  },
  {
   "property": "C68",
   "status": "proved",
   "theorems": [
    "Mitex.C68_document"
   ],
   "note": ""
  },
  {
   "property": "C69",
   "status": "proved",
   "theorems": [
    "Mitex.C69_full",
    "Mitex.C69_prefix",
    "Mitex.C69_arguments",
    "Mitex.C69_limits"
   ],
   "note": ""
  },
  {
   "property": "C70",
   "status": "proved",
   "theorems": [
    "Mitex.C70_nested",
    "Mitex.C70_default",
    "Mitex.C70_tokens",
    "Mitex.C70_words"
   ],
   "note": ""
  },
  {
   "property": "C71",
   "status": "proved",
   "theorems": [
    "Mitex.C71_value",
    "Mitex.C71_final",
    "Mitex.C71_converts",
    "Mitex.C71_formula",
    "Mitex.C71_growth"
   ],
   "note": "Well-formed: no recursion, names not redefined, calls with all their arguments in braces, definitions with digits and single blocks; the exceptions of the code (C10-C20) are outside this class. Adjacent words keep their boundaries (`-#1` gives two words)."
  },
  {
   "property": "C72",
   "status": "proved",
   "theorems": [
    "Mitex.C72_answers",
    "Mitex.C72_success",
    "Mitex.C72_converts",
    "Mitex.C72_outcome",
    "Mitex.C72_stuck"
   ],
   "note": "C72_answers/C72_success relate the tree of the interleaved run to the run of the stages one after the other; C72_converts/C72_outcome the converted text; C72_stuck the panics of the source reader. Where the expansion loops, the two runs agree that there is no success (which stop comes first is then not compared)."
  },
  {
   "property": "C73",
   "status": "proved",
   "theorems": [
    "Mitex.C73_same",
    "Mitex.C73_bounds",
    "Mitex.C73_right",
    "Mitex.C73_unique",
    "Mitex.C73_abandoned",
    "Mitex.C73_bytes"
   ],
   "note": "C73_same: the answer of the matcher without captures; C73_bounds: within the text; C73_right: the captures are those of a match (Spec/GlobCapture), and the least such; C73_unique: independent of the number of rounds; C73_abandoned, C73_bytes: what is wrong for patterns outside of the steady ones (defect 26)."
  },
  {
   "property": "C74",
   "status": "proved",
   "theorems": [
    "Mitex.C74_tree",
    "Mitex.C74_no_macro",
    "Mitex.C74_macro",
    "Mitex.C74_quadratic",
    "Mitex.C74_default",
    "Mitex.C74_attained"
   ],
   "note": "C74_tree: for every printed document; C74_no_macro, C74_macro: from the input and from the expansion; C74_quadratic: from the length of the input alone; C74_default: the names of the default specification; C74_attained: lines below nested lists need quadratic output."
  },
  {
   "property": "C75",
   "status": "proved",
   "theorems": [
    "Mitex.C75_lookahead",
    "Mitex.C75_tree",
    "Mitex.C75_tokens",
    "Mitex.C75_output",
    "Mitex.C75_no_macro",
    "Mitex.C75_converts",
    "Mitex.C75_example",
    "Mitex.C75_limits"
   ],
   "note": "C75_lookahead, C75_tree: trees; C75_tokens: tokens; C75_output: outputs of trees; C75_no_macro, C75_converts: the functions of the library; C75_example: the hypotheses are met; C75_limits: the conditions are needed. Not covered: parts divided inside of a text (the tree has one text item instead of two there)."
  },
  {
   "property": "C76",
   "status": "proved",
   "theorems": [
    "Mitex.C76_tokens",
    "Mitex.C76_parse",
    "Mitex.C76_converts",
    "Mitex.C76_entry",
    "Mitex.C76_package",
    "Mitex.C76_mentioned"
   ],
   "note": "C76_tokens, C76_parse, C76_converts: tokens, tree and conversion; C76_entry, C76_package: entries and packages that are not mentioned; C76_mentioned: the entries of mentioned names do matter. \"Mentioned\" is a condition on the text alone and may hold of names that are not looked up (every text after \\begin counts)."
  },
  {
   "property": "C77",
   "status": "proved",
   "theorems": [
    "Mitex.C77_tree",
    "Mitex.C77_output",
    "Mitex.C77_no_macro",
    "Mitex.C77_converts",
    "Mitex.C77_given",
    "Mitex.C77_example",
    "Mitex.C77_limits"
   ],
   "note": "C77_tree: the tree of x alone; C77_output: the two outputs, and failures; C77_converts, C77_no_macro: the API functions; C77_given: environments without arguments lack none; C77_example: the hypotheses are met; C77_limits: the conditions are needed (\\begin{array}\\end{array} is converted in a formula and refused alone)."
  },
  {
   "property": "C78",
   "status": "proved",
   "theorems": [
    "Mitex.C78_determined",
    "Mitex.C78_compile",
    "Mitex.C78_unambiguous",
    "Mitex.C78_convert",
    "Mitex.C78_generate",
    "Mitex.C78_alike",
    "Mitex.C78_bytes",
    "Mitex.C78_written",
    "Mitex.C78_written_repr",
    "Mitex.C78_helpers",
    "Mitex.C78_refused",
    "Mitex.C78_example",
    "Mitex.C78_default",
    "Mitex.C78_default_answer"
   ],
   "note": "C78_compile, C78_generate: accepted exactly, and what is known; C78_convert: end to end over the WASM interface, with JSON text, UTF-8 and rkyv as parameters; C78_alike: order and unknown members at any depth; C78_written, C78_written_repr: writing and reading; C78_helpers, C78_refused (with a defect of define-glob-env); C78_default: the default specification; C78_unambiguous, C78_determined; C78_example."
  },
  {
   "property": "C79",
   "status": "proved",
   "theorems": [
    "Mitex.C79_process",
    "Mitex.C79_scope",
    "Mitex.C79_example"
   ],
   "note": "C79_process: both dictionaries, exactly; C79_scope: the sum of the scopes; C79_example."
  },
  {
   "property": "C80",
   "status": "proved",
   "theorems": [
    "Mitex.C80_clause",
    "Mitex.C80_delimited",
    "Mitex.C80_symbols",
    "Mitex.C80_environment",
    "Mitex.C80_example"
   ],
   "note": "C80_environment, C80_delimited, C80_clause: parts and accessors of every element; C80_symbols: the delimiters; C80_example: nested, unclosed and mismatched cases, with the defects."
  },
  {
   "property": "C81",
   "status": "proved",
   "theorems": [
    "Mitex.C81_one_formula",
    "Mitex.C81_tokens",
    "Mitex.C81_words",
    "Mitex.C81_example"
   ],
   "note": "C81_one_formula: from the parts of the tree; C81_tokens, C81_words: conditions on the text, with the default specification; C81_example: formulas at several depths."
  },
  {
   "property": "C82",
   "status": "proved",
   "theorems": [
    "Mitex.C82_apart",
    "Mitex.C82_formula",
    "Mitex.C82_symbol",
    "Mitex.C82_letters",
    "Mitex.C82_example"
   ],
   "note": "C82_apart: every part in math, at any depth; C82_formula: for texts without \\iftypst; C82_symbol: names of commands without arguments; C82_letters: letters and digits; C82_example."
  },
  {
   "property": "C83",
   "status": "proved",
   "theorems": [
    "Mitex.C83_words",
    "Mitex.C83_text",
    "Mitex.C83_example",
    "Mitex.C83_example_text",
    "Mitex.C83_example_list"
   ],
   "note": "C83_words: for every document, with `shown` computed from its tree; C83_text: for texts none of whose tokens hides words, all characters of the words of the token stream (after macros); C83_example, C83_example_text, C83_example_list."
  },
  {
   "property": "C84",
   "status": "proved",
   "theorems": [
    "Mitex.C84_syntax",
    "Mitex.C84_comments",
    "Mitex.C84_expansion",
    "Mitex.C84_comments_macro",
    "Mitex.C84_tokens",
    "Mitex.C84_text",
    "Mitex.C84_example"
   ],
   "note": "C84_text: two texts with different comments; C84_comments_macro, C84_comments: token lists that differ in comments; C84_tokens: the tokens of a text with a comment; C84_expansion: macros and conditionals; C84_syntax: the parser; C84_example."
  },
  {
   "property": "C85",
   "status": "proved",
   "theorems": [
    "Mitex.C85_unquoted",
    "Mitex.C85_spacing",
    "Mitex.C85_words",
    "Mitex.C85_gaps",
    "Mitex.C85_spacing_macro",
    "Mitex.C85_tokens",
    "Mitex.C85_text",
    "Mitex.C85_example"
   ],
   "note": "C85_text: two texts with different blanks; C85_spacing_macro, C85_spacing: token lists that differ in white space and comments; C85_gaps: what it means for the outputs; C85_words: the same without white space; C85_tokens: the tokens of a text with a blank; C85_unquoted: when the parts read as they are cannot differ; C85_example."
  },
  {
   "property": "C86",
   "status": "proved",
   "theorems": [
    "Mitex.C86_tokens",
    "Mitex.C86_layout",
    "Mitex.C86_no_comments",
    "Mitex.C86_plain",
    "Mitex.C86_crlf",
    "Mitex.C86_blanks",
    "Mitex.C86_windows",
    "Mitex.C86_example"
   ],
   "note": "C86_layout: any two layouts; C86_plain: texts without comments; C86_windows, C86_crlf: Windows line ends; C86_blanks: blanks replaced by blanks; C86_tokens: the tokens; C86_no_comments; C86_example."
  },
  {
   "property": "C87",
   "status": "proved",
   "theorems": [
    "Mitex.C87_expansion",
    "Mitex.C87_converts",
    "Mitex.C87_tokens",
    "Mitex.C87_text",
    "Mitex.C87_example"
   ],
   "note": "C87_expansion: equivariance of the expansion under exchanging two names; C87_converts: documents, given the tokens; C87_tokens: the tokens of a text with commands exchanged; C87_text: texts; C87_example."
  },
  {
   "property": "C88",
   "status": "proved",
   "theorems": [
    "Mitex.C88_expansion",
    "Mitex.C88_converts",
    "Mitex.C88_newcommand",
    "Mitex.C88_example",
    "Mitex.C88_example_middle"
   ],
   "note": "C88_expansion: the expansion with and without the definitions; C88_converts: documents, given the tokens; C88_newcommand: texts that start with a written \\newcommand; C88_example, C88_example_middle. The places of the definitions are those of the relation LeftOut."
  },
  {
   "property": "C89",
   "status": "proved",
   "theorems": [
    "Mitex.C89_idempotent",
    "Mitex.C89_no_definitions",
    "Mitex.C89_converts",
    "Mitex.C89_example"
   ],
   "note": "C89_idempotent: expansion of the delivered tokens; C89_no_definitions: when the hypothesis on defining commands holds; C89_converts: documents; C89_example."
  },
  {
   "property": "C90",
   "status": "proved",
   "theorems": [
    "Mitex.C90_encoding",
    "Mitex.C90_exact",
    "Mitex.C90_fails",
    "Mitex.C90_position",
    "Mitex.C90_kind",
    "Mitex.C90_plugin",
    "Mitex.C90_refused",
    "Mitex.C90_message",
    "Mitex.C90_text",
    "Mitex.C90_reads",
    "Mitex.C90_read_back",
    "Mitex.C90_example"
   ],
   "note": "C90_encoding: the encoding is the one of Lean's library; C90_exact, C90_fails: which bytes are decoded; C90_position, C90_kind: what is reported; C90_plugin, C90_refused, C90_text: the plugin; C90_reads, C90_read_back: the command line tool; C90_example. from_utf8 of the standard library is modelled from its source."
  },
  {
   "property": "C91",
   "status": "proved",
   "theorems": [
    "Mitex.C91_code",
    "Mitex.C91_comment",
    "Mitex.C91_open",
    "Mitex.C91_expanded",
    "Mitex.C91_macros",
    "Mitex.C91_place",
    "Mitex.C91_example"
   ],
   "note": "C91_code, C91_comment, C91_open: without macros; C91_expanded, C91_macros: with macros; C91_place: in a document; C91_example. That \\begin{\u2026} is not copied verbatim is defect 40."
  },
  {
   "property": "C92",
   "status": "proved",
   "theorems": [
    "Mitex.C92_braces",
    "Mitex.C92_no_macro",
    "Mitex.C92_only_braces",
    "Mitex.C92_two_characters",
    "Mitex.C92_example",
    "Mitex.C92_needed",
    "Mitex.C92_base_lost"
   ],
   "note": "C92_braces, C92_no_macro: formulas that differ in unneeded braces only (Spec/Braces) are converted alike; C92_only_braces: the relation changes nothing but braces and blanks in the LaTeX text; C92_two_characters: the ways to write \\frac{1}{2}; C92_needed: braces that do make a difference; C92_base_lost: defect 41; C92_example."
  }
 ]
}