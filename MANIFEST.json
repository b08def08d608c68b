{
 "claims": [
  {
   "property": "C01",
   "status": "proved",
   "theorems": [
    "Chomp.C01_stream_fidelity",
    "Chomp.C01_peek_invisible"
   ],
   "note": ""
  },
  {
   "property": "C02",
   "status": "proved",
   "theorems": [
    "Chomp.C02_position",
    "Chomp.C02_position_past_end"
   ],
   "note": "C02_position covers every sequence of calls that consumes at most the whole text. C02_position_past_end records that a next() at end of input still moves the column."
  },
  {
   "property": "C03",
   "status": "proved",
   "theorems": [
    "Chomp.C03_consume_str_ok"
   ],
   "note": ""
  },
  {
   "property": "C04",
   "status": "partial",
   "theorems": [
    "Chomp.C04_consume_str_err_partial",
    "Chomp.C04_consume_str_panics",
    "Chomp.C04_consume_str_misreports",
    "Chomp.C04_consume_str_err_any",
    "Chomp.C04_consume_str_exact",
    "Chomp.C04_right_report_iff",
    "Chomp.C04_panics_iff"
   ],
   "note": "The full statement is false of the code: the number of matched characters is used as a byte offset (C04_consume_str_panics, C04_consume_str_misreports). C04_consume_str_exact says what happens for every string and text, C04_panics_iff when it panics and C04_right_report_iff when the report is right; C04_consume_str_err_partial is the full statement for expected strings whose characters except the last are ASCII."
  },
  {
   "property": "C05",
   "status": "proved",
   "theorems": [
    "Chomp.C05_skip_while",
    "Chomp.C05_take_chars_from",
    "Chomp.C05_take_chars_from_err"
   ],
   "note": ""
  },
  {
   "property": "C06",
   "status": "proved",
   "theorems": [
    "Chomp.C06_parse_complete"
   ],
   "note": ""
  },
  {
   "property": "C07",
   "status": "proved",
   "theorems": [
    "Chomp.C07_iter_strict_sound",
    "Chomp.C07_item_error_not_lost",
    "Chomp.C07_iter_strict_complete",
    "Chomp.C07_iter_strict_error"
   ],
   "note": ""
  },
  {
   "property": "C08",
   "status": "proved",
   "theorems": [
    "Chomp.C08_merge_all",
    "Chomp.C08_merge_monoid",
    "Chomp.C08_constructors"
   ],
   "note": ""
  },
  {
   "property": "C09",
   "status": "partial",
   "theorems": [
    "Chomp.C09_content_eq_partial",
    "Chomp.C09_content_eq_iff",
    "Chomp.C09_not_transitive"
   ],
   "note": "Transitivity is false of the code (C09_not_transitive). Reflexivity, symmetry and hash compatibility are proved, and C09_content_eq_iff characterises equality exactly."
  },
  {
   "property": "C10",
   "status": "proved",
   "theorems": [
    "Chomp.C10_error_applies",
    "Chomp.C10_convert_succeeds_iff",
    "Chomp.C10_convert_error",
    "Chomp.C10_convert_expression",
    "Chomp.C10_parsed_program"
   ],
   "note": "For syntax trees with an empty concatenation/alternation/call, which the parser never produces, conversion fails with the corresponding Empty error."
  },
  {
   "property": "C11",
   "status": "proved",
   "theorems": [
    "Chomp.C11_lookup_innermost",
    "Chomp.C11_program_meaning",
    "Chomp.C11_expression_meaning"
   ],
   "note": ""
  },
  {
   "property": "C12",
   "status": "proved",
   "theorems": [
    "Chomp.C12_expression_closed",
    "Chomp.C12_program_closed"
   ],
   "note": ""
  },
  {
   "property": "C13",
   "status": "proved",
   "theorems": [
    "Chomp.C13_expression_restores",
    "Chomp.C13_program_lets"
   ],
   "note": ""
  },
  {
   "property": "C14",
   "status": "proved",
   "theorems": [
    "Chomp.C14_parser_no_panic",
    "Chomp.C14_parser_terminates",
    "Chomp.C14_print_parse",
    "Chomp.C14_parse_print",
    "Chomp.C14_parser_produces",
    "Chomp.C14_round_trip"
   ],
   "note": ""
  },
  {
   "property": "C15",
   "status": "proved",
   "theorems": [
    "Chomp.C15_substitute_meaning",
    "Chomp.C15_substitute_core",
    "Chomp.C15_deepen_meaning"
   ],
   "note": ""
  },
  {
   "property": "C16",
   "status": "proved",
   "theorems": [
    "Chomp.C16_substitute_restores",
    "Chomp.C16_reduce_no_panic",
    "Chomp.C16_rename_roundtrip"
   ],
   "note": ""
  },
  {
   "property": "C17",
   "status": "proved",
   "theorems": [
    "Chomp.C17_reduce_steps",
    "Chomp.C17_arguments_by_position",
    "Chomp.C17_reduce_errors"
   ],
   "note": ""
  },
  {
   "property": "C18",
   "status": "proved",
   "theorems": [
    "Chomp.C18_reduced_settled",
    "Chomp.C18_reduce_idempotent"
   ],
   "note": ""
  },
  {
   "property": "C19",
   "status": "proved",
   "theorems": [
    "Chomp.C19_reduce_closed"
   ],
   "note": ""
  },
  {
   "property": "C20",
   "status": "proved",
   "theorems": [
    "Chomp.C20_reduce_ignores_names",
    "Chomp.C20_inference_ignores_names"
   ],
   "note": ""
  },
  {
   "property": "C21",
   "status": "partial",
   "theorems": [
    "Chomp.C21_reduction_can_diverge",
    "Chomp.C21_simply_typed_reduces_partial",
    "Chomp.C21_omega_converts",
    "Chomp.C21_program_can_diverge",
    "Chomp.C21_first_order_returns_partial",
    "Chomp.C21_first_order_compiles_partial",
    "Chomp.C21_reduces_iff_usable_partial",
    "Chomp.C21_omega_not_usable",
    "Chomp.C21_repository_grammars",
    "Chomp.C21_result_iff",
    "Chomp.C21_error_blocked",
    "Chomp.C21_error_iff",
    "Chomp.C21_diverges_iff",
    "Chomp.C21_next_unique"
   ],
   "note": "The full statement is false of the code: C21_program_can_diverge exhibits an accepted program whose reduction never returns. Proved: reduction yields a result exactly for the programs that are usable as grammars (intersection types, C21_reduces_iff_usable_partial); it returns (result or error) for all programs in which no parameter is called; it succeeds for all simply typed programs. C21_result_iff, C21_error_iff and C21_diverges_iff say exactly for which expressions the reducer returns a result, returns an error, and runs for ever, by an order of single contractions."
  },
  {
   "property": "C22",
   "status": "proved",
   "theorems": [
    "Chomp.C22_inference_terminates",
    "Chomp.C22_loop_bound"
   ],
   "note": ""
  },
  {
   "property": "C23",
   "status": "proved",
   "theorems": [
    "Chomp.C23_inference_sound",
    "Chomp.C23_inference_sound_open",
    "Chomp.C23_annotations",
    "Chomp.C23_names"
   ],
   "note": ""
  },
  {
   "property": "C24",
   "status": "proved",
   "theorems": [
    "Chomp.C24_failure_is_untypable",
    "Chomp.C24_principal",
    "Chomp.C24_accepts_iff_typable",
    "Chomp.C24_complete_open"
   ],
   "note": ""
  },
  {
   "property": "C25",
   "status": "proved",
   "theorems": [
    "Chomp.C25_types_describe_language",
    "Chomp.C25_language_of_expression",
    "Chomp.C25_types_exact"
   ],
   "note": ""
  },
  {
   "property": "C26",
   "status": "proved",
   "theorems": [
    "Chomp.C26_context_restored"
   ],
   "note": ""
  },
  {
   "property": "C27",
   "status": "proved",
   "theorems": [
    "Chomp.C27_no_left_recursive_fix",
    "Chomp.C27_no_left_chain",
    "Chomp.C27_left_recursion_rejected",
    "Chomp.C27_no_left_recursion",
    "Chomp.C27_fix_not_left_recursive",
    "Chomp.C27_left_recursive_untypable"
   ],
   "note": ""
  },
  {
   "property": "C28",
   "status": "proved",
   "theorems": [
    "Chomp.C28_unambiguous",
    "Chomp.C28_language_of_trees"
   ],
   "note": ""
  },
  {
   "property": "C29",
   "status": "partial",
   "theorems": [
    "Chomp.C29_exact",
    "Chomp.C29_parameters_ignored",
    "Chomp.C29_fix_binds_partial",
    "Chomp.C29_counterexample"
   ],
   "note": "The full statement is false of the code: fold_fix pushes one variable for a lambda with any number of parameters (C29_counterexample). Proved for expressions whose fix points are over unary lambdas. C29_exact says for every accepted expression what it is taken for (every function below a fix point read as a function of one parameter), and C29_parameters_ignored that the number of parameters has no influence at all."
  },
  {
   "property": "C30",
   "status": "proved",
   "theorems": [
    "Chomp.C30_parse_tree",
    "Chomp.C30_accepts_language",
    "Chomp.C30_accepts_meaning"
   ],
   "note": ""
  },
  {
   "property": "C31",
   "status": "proved",
   "theorems": [
    "Chomp.C31_take_display",
    "Chomp.C31_parse_display",
    "Chomp.C31_parse_value"
   ],
   "note": ""
  },
  {
   "property": "C32",
   "status": "proved",
   "theorems": [
    "Chomp.C32_values_are_trees",
    "Chomp.C32_parse_of_display",
    "Chomp.C32_display_injective"
   ],
   "note": ""
  },
  {
   "property": "C33",
   "status": "proved",
   "theorems": [
    "Chomp.C33_parser_can_panic",
    "Chomp.C33_parser_terminates",
    "Chomp.C33_no_panic",
    "Chomp.C33_parse_returns"
   ],
   "note": "Without the condition on literals the parser can panic (C33_parser_can_panic), because of the byte offset bug of C04."
  },
  {
   "property": "C34",
   "status": "proved",
   "theorems": [
    "Chomp.C34_take_prefix",
    "Chomp.C34_take_sound",
    "Chomp.C34_take_word"
   ],
   "note": ""
  },
  {
   "property": "C35",
   "status": "proved",
   "theorems": [
    "Chomp.C35_error_position",
    "Chomp.C35_input_continues"
   ],
   "note": ""
  },
  {
   "property": "C36",
   "status": "partial",
   "theorems": [
    "Chomp.C36_behaviour_exact",
    "Chomp.C36_language_exact",
    "Chomp.C36_exact",
    "Chomp.C36_exact_autonibble",
    "Chomp.C36_faithful_iff",
    "Chomp.C36_readings_agree",
    "Chomp.C36_counterexample_program",
    "Chomp.C36_own_variables",
    "Chomp.C36_own_variables_accepts",
    "Chomp.C36_codegen_faithful_partial",
    "Chomp.C36_codegen_faithful_coherent_partial",
    "Chomp.C36_closed_fixes_no_conflict",
    "Chomp.C36_counterexample",
    "Chomp.C36_counterexample_conflict"
   ],
   "note": "The full statement is false of the code: fix points are looked up by body, ignoring what their free variables refer to (C36_counterexample, C36_counterexample_program: a word of the language is rejected and another string accepted). Proved when equal fix points have equal free variables (decidable by TE.shareSafe), or behave alike. Exact for all programs of both front ends: C36_exact says which strings the emitted parser accepts and how it behaves whatever is shared (every fix point is read as the first one with the same body), so C36_faithful_iff says exactly when the compiler is right. What else holds without the condition is C81."
  },
  {
   "property": "C37",
   "status": "proved",
   "theorems": [
    "Chomp.C37_no_index_panic",
    "Chomp.C37_emission_no_index_panic"
   ],
   "note": ""
  },
  {
   "property": "C38",
   "status": "proved",
   "theorems": [
    "Chomp.C38_emits_reachable",
    "Chomp.C38_emits_everything_once"
   ],
   "note": ""
  },
  {
   "property": "C39",
   "status": "partial",
   "theorems": [
    "Chomp.C39_type_names_distinct_partial",
    "Chomp.C39_default_collision",
    "Chomp.C39_count_collision",
    "Chomp.C39_names",
    "Chomp.C39_clash_iff",
    "Chomp.C39_few"
   ],
   "note": "The full statement is false of the code: a rule called `lit` collides with the first unnamed literal (C39_default_collision), and the eleventh `Foo` with the first `Foo1` (C39_count_collision). Proved when camel-cased names do not end in a digit and are not Lit, Cat, Alt or Fix. C39_names gives the name of every type, C39_clash_iff says exactly which two types clash, and C39_few that none do among up to nine types without the default names."
  },
  {
   "property": "C40",
   "status": "partial",
   "theorems": [
    "Chomp.C40_part_names_distinct_partial",
    "Chomp.C40_collision",
    "Chomp.C40_count_collision",
    "Chomp.C40_names",
    "Chomp.C40_clash_iff",
    "Chomp.C40_distinct_iff",
    "Chomp.C40_few"
   ],
   "note": "The full statement is false of the code (C40_collision: two fields part1; C40_count_collision). Proved when converted names do not end in a digit and differ from the default. C40_names gives the name of every part, C40_clash_iff says exactly which two parts clash, and C40_few that none do among up to nine parts without the default name."
  },
  {
   "property": "C41",
   "status": "partial",
   "theorems": [
    "Chomp.C41_one_type_each_partial",
    "Chomp.C41_generate_again_partial",
    "Chomp.C41_fix_shared",
    "Chomp.C41_epsilon_not_shared",
    "Chomp.C41_again_iff",
    "Chomp.C41_epsilons"
   ],
   "note": "The full statement is false of the code: eps_id is never set, so every epsilon is a new type (C41_epsilon_not_shared). Proved: one type per literal, concatenation, alternation and box; regenerating an epsilon- and fix-free expression adds nothing; fix points with an equal body are shared. C41_again_iff says exactly which expressions share: those without an epsilon outside their fix points. C41_epsilons counts the epsilon types."
  },
  {
   "property": "C42",
   "status": "proved",
   "theorems": [
    "Chomp.C42_to_char",
    "Chomp.C42_only_single",
    "Chomp.C42_which_types"
   ],
   "note": ""
  },
  {
   "property": "C43",
   "status": "proved",
   "theorems": [
    "Chomp.C43_accepts_reduced_program",
    "Chomp.C43_accepts_source_meaning",
    "Chomp.C43_simply_typed_means",
    "Chomp.C43_simply_typed_compiles",
    "Chomp.C43_no_panic",
    "Chomp.C43_panics_counterexample",
    "Chomp.C43_undeclared",
    "Chomp.C43_parsed_errors"
   ],
   "note": ""
  },
  {
   "property": "C44",
   "status": "proved",
   "theorems": [
    "Chomp.C44_language",
    "Chomp.C44_same_outcome",
    "Chomp.C44_tokens",
    "Chomp.C44_parameters",
    "Chomp.C44_same_meaning",
    "Chomp.C44_keyword_parameter"
   ],
   "note": "The generated parser is the one the model of the compiler produces from the grammar in autonibble/src/lib.rs, evaluated in the kernel. Rust tokens are specified by a small lexer (Auto/Lex.lean). C44_keyword_parameter records that the two front ends differ on keyword parameters."
  },
  {
   "property": "C45",
   "status": "partial",
   "theorems": [
    "Chomp.C45_decodes_partial",
    "Chomp.C45_panics_iff",
    "Chomp.C45_counterexample"
   ],
   "note": "The full statement is false of the code: \\u{...} with a surrogate or a number above 10FFFF panics (C45_counterexample); these are exactly the escapes that panic (C45_panics_iff), all others are decoded correctly."
  },
  {
   "property": "C46",
   "status": "proved",
   "theorems": [
    "Chomp.C46_ends",
    "Chomp.C46_value",
    "Chomp.C46_arithmetic_error",
    "Chomp.C46_rejects",
    "Chomp.C46_exact"
   ],
   "note": ""
  },
  {
   "property": "C47",
   "status": "partial",
   "theorems": [
    "Chomp.C47_values_exact",
    "Chomp.C47_panics_exact",
    "Chomp.C47_values_agree",
    "Chomp.C47_syntax_agrees",
    "Chomp.C47_panics_agree",
    "Chomp.C47_wrapping_partial",
    "Chomp.C47_wrapping_counterexample"
   ],
   "note": "The full statement is false of the code: in builds without overflow checks the hand-written parser wraps around on literals where the generated one panics (C47_wrapping_counterexample), and the hand-written one may panic (1/0+) where the generated one reports a syntax error. Proved: same values, same syntax, same panics on well-formed input in builds with overflow checks; and in every build the exact difference on well-formed texts: the generated parser panics, or gives the same value, according to whether some number in the text does not fit in an i64 (C47_values_exact, C47_panics_exact)."
  },
  {
   "property": "C48",
   "status": "proved",
   "theorems": [
    "Chomp.C48_pair",
    "Chomp.C48_panics",
    "Chomp.C48_bijective"
   ],
   "note": ""
  },
  {
   "property": "C49",
   "status": "partial",
   "theorems": [
    "Chomp.C49_counterexample",
    "Chomp.C49_all_nul",
    "Chomp.C49_decode_partial",
    "Chomp.C49_right_iff"
   ],
   "note": "The full statement is false of the code: parse_u16 multiplies instead of adding, so every escape is NUL (C49_counterexample, C49_all_nul). Proved for strings without \\u escapes. C49_right_iff says exactly which strings are read right: those whose \\u escapes are all \\u0000."
  },
  {
   "property": "C50",
   "status": "partial",
   "theorems": [
    "Chomp.C50_string_roundtrip_partial",
    "Chomp.C50_display_panics",
    "Chomp.C50_value_roundtrip_partial",
    "Chomp.C50_display_panics_iff",
    "Chomp.C50_roundtrip_iff"
   ],
   "note": "The full statement is false of the code: displaying a control character other than BS, FF, LF, CR, TAB panics (C50_display_panics). C50_display_panics_iff and C50_roundtrip_iff say exactly for which values displaying works and values are read back, if f64 reads numbers back."
  },
  {
   "property": "C51",
   "status": "partial",
   "theorems": [
    "Chomp.C51_whitespace_partial",
    "Chomp.C51_strip_partial",
    "Chomp.C51_counterexample",
    "Chomp.C51_accepts_iff"
   ],
   "note": "The full statement is false of the code: white space in an empty array or object is rejected (C51_counterexample). Proved for all other white space. C51_accepts_iff: a document is accepted exactly if no empty array or object in it contains white space (if f64 reads all JSON numbers)."
  },
  {
   "property": "C52",
   "status": "proved",
   "theorems": [
    "Chomp.C52_names_from_source",
    "Chomp.C52_label_names",
    "Chomp.C52_let_names",
    "Chomp.C52_goal_names",
    "Chomp.C52_label_survives_reduction"
   ],
   "note": ""
  },
  {
   "property": "C53",
   "status": "proved",
   "theorems": [
    "Chomp.C53_types_finite",
    "Chomp.C53_aliases_end"
   ],
   "note": ""
  },
  {
   "property": "C54",
   "status": "proved",
   "theorems": [
    "Chomp.C54_ends",
    "Chomp.C54_language",
    "Chomp.C54_rejects",
    "Chomp.C54_mode",
    "Chomp.C54_rfc"
   ],
   "note": ""
  },
  {
   "property": "C55",
   "status": "proved",
   "theorems": [
    "Chomp.C55_errors_truthful",
    "Chomp.C55_input_continues",
    "Chomp.C55_needs_matching_parts",
    "Chomp.C55_expected_incomplete"
   ],
   "note": "C55_needs_matching_parts shows that the assumption on fix points is needed; C55_expected_incomplete that the list of expected characters need not be complete."
  },
  {
   "property": "C56",
   "status": "proved",
   "theorems": [
    "Chomp.C56_generated",
    "Chomp.C56_language",
    "Chomp.C56_value",
    "Chomp.C56_ends",
    "Chomp.C56_result",
    "Chomp.C56_panics",
    "Chomp.C56_rejects",
    "Chomp.C56_rfc"
   ],
   "note": "The generated parser is the one the model of the compiler produces from the grammar in chomp-bench/src/json/nibble.rs, evaluated in the kernel; the conversion From<Ast> is modelled arm by arm and the names it uses are compared with those of the model's table."
  },
  {
   "property": "C57",
   "status": "partial",
   "theorems": [
    "Chomp.C57_agree_iff",
    "Chomp.C57_unambiguous",
    "Chomp.C57_both",
    "Chomp.C57_agree_partial",
    "Chomp.C57_same_value_partial",
    "Chomp.C57_counterexample"
   ],
   "note": "The full statement is false of the code (C57_counterexample: non-ASCII strings, white space in empty arrays, non-RFC numbers, \\u escapes). C57_both characterises exactly the texts both accept; proved: same outcome on common documents without \\u, and same value on every text without \\u that both accept. C57_agree_iff says exactly on which texts both give the same value."
  },
  {
   "property": "C58",
   "status": "proved",
   "theorems": [
    "Chomp.C58_errors_truthful",
    "Chomp.C58_accepted_no_conflict",
    "Chomp.C58_accepts_iff",
    "Chomp.C58_form_errors",
    "Chomp.C58_unproductive_counterexample"
   ],
   "note": "The hypothesis that fix points match something is needed: C58_unproductive_counterexample. Spans of operators are part of the statement."
  },
  {
   "property": "C59",
   "status": "proved",
   "theorems": [
    "Chomp.C59_reduces_iff",
    "Chomp.C59_result_of_every_order",
    "Chomp.C59_result_unique",
    "Chomp.C59_accepted_unique",
    "Chomp.C59_error_no_order",
    "Chomp.C59_divergence_no_order",
    "Chomp.C59_error_culprit"
   ],
   "note": "Expressions up to names and spans; contractions are those of the textbook calculus in Ast/Core."
  },
  {
   "property": "C60",
   "status": "proved",
   "theorems": [
    "Chomp.C60_positions_kept",
    "Chomp.C60_reduction_error_at_call",
    "Chomp.C60_type_error_in_expression",
    "Chomp.C60_error_in_program"
   ],
   "note": "A single-element list takes over the span of the construct around it (a labelled alternative, a goal), as in the code."
  },
  {
   "property": "C61",
   "status": "proved",
   "theorems": [
    "Chomp.C61_value",
    "Chomp.C61_agrees_with_generated",
    "Chomp.C61_agrees_with_hand",
    "Chomp.C61_unique"
   ],
   "note": "LALRPOP itself is replaced by its specification: the outcome is that of a derivation of the tokens; C61_unique shows that there is at most one."
  },
  {
   "property": "C62",
   "status": "proved",
   "theorems": [
    "Chomp.C62_unique",
    "Chomp.C62_document",
    "Chomp.C62_value",
    "Chomp.C62_rfc",
    "Chomp.C62_generated",
    "Chomp.C62_hand",
    "Chomp.C62_more_than_rfc"
   ],
   "note": "LALRPOP itself is replaced by its specification. C62_more_than_rfc: two texts that RFC 8259 does not allow are accepted."
  },
  {
   "property": "C63",
   "status": "partial",
   "theorems": [
    "Chomp.C63_compiles_iff",
    "Chomp.C63_compiles_partial",
    "Chomp.C63_type_clash",
    "Chomp.C63_field_clash",
    "Chomp.C63_small"
   ],
   "note": "The full statement is false of the code: clashing names give programs with a type, or a field, defined twice (C63_type_clash, C63_field_clash). C63_compiles_iff: such clashes are the only reason for which an emitted program does not compile. C63_compiles_partial: none if no converted name ends in a digit or is one of the default names. C63_small: small programs compile also if names end in digits."
  },
  {
   "property": "C64",
   "status": "proved",
   "theorems": [
    "Chomp.C64_same_outcome",
    "Chomp.C64_accepts_language",
    "Chomp.C64_parse_display",
    "Chomp.C64_display_parse",
    "Chomp.C64_parse_iff",
    "Chomp.C64_to_char",
    "Chomp.C64_ends",
    "Chomp.C64_end_to_end"
   ],
   "note": "For programs that compile (see C63). The language is that of the grammar under NoSharingConflict, without which the tables themselves are wrong (C36); the other statements hold without."
  },
  {
   "property": "C65",
   "status": "proved",
   "theorems": [
    "Chomp.C65_shown_as_literals",
    "Chomp.C65_shown_as_itself",
    "Chomp.C65_single_line",
    "Chomp.C65_text_unambiguous",
    "Chomp.C65_printed_position"
   ],
   "note": "C65_printed_position is under the condition of C36 (NoSharingConflict), like C35."
  },
  {
   "property": "C66",
   "status": "proved",
   "theorems": [
    "Chomp.C66_wording",
    "Chomp.C66_message_unambiguous",
    "Chomp.C66_call_message_true",
    "Chomp.C66_possible_messages",
    "Chomp.C66_guarded_name_counterexample"
   ],
   "note": "C66_guarded_name_counterexample records that the name in a guarded-variable message can be that of an enclosing let."
  },
  {
   "property": "C67",
   "status": "proved",
   "theorems": [
    "Chomp.C67_success",
    "Chomp.C67_failure",
    "Chomp.C67_error_reported",
    "Chomp.C67_write_error",
    "Chomp.C67_ends",
    "Chomp.C67_macro",
    "Chomp.C67_macro_site",
    "Chomp.C67_autonibble",
    "Chomp.C67_same_code",
    "Chomp.C67_same_parsers"
   ],
   "note": "C67_same_parsers is for emitted programs that compile and under the condition of C36."
  },
  {
   "property": "C68",
   "status": "proved",
   "theorems": [
    "Chomp.C68_sheep",
    "Chomp.C68_regex",
    "Chomp.C68_ratata",
    "Chomp.C68_regex_fix",
    "Chomp.C68_nibble_exp",
    "Chomp.C68_arith",
    "Chomp.C68_json",
    "Chomp.C68_autonibble"
   ],
   "note": "Case conversion of names as in heckCasing (ASCII); the kernel evaluates the compiler on the eight fixed grammars, the theorems quantify over all texts given to the emitted parsers."
  },
  {
   "property": "C69",
   "status": "proved",
   "theorems": [
    "Chomp.C69_same_fate",
    "Chomp.C69_front_ends_equal",
    "Chomp.C69_equal_iff",
    "Chomp.C69_reflexive_symmetric",
    "Chomp.C69_not_transitive",
    "Chomp.C69_transitive"
   ],
   "note": "Transitivity holds among expressions whose binders all have, or all lack, a span (those of one front end); C69_not_transitive shows that it fails across."
  },
  {
   "property": "C70",
   "status": "proved",
   "theorems": [
    "Chomp.C70_laws_preserve",
    "Chomp.C70_laws_commute",
    "Chomp.C70_same_texts"
   ],
   "note": ""
  },
  {
   "property": "C71",
   "status": "proved",
   "theorems": [
    "Chomp.C71_reduces_iff",
    "Chomp.C71_same_result",
    "Chomp.C71_definitions_preserve",
    "Chomp.C71_rewriting_preserves",
    "Chomp.C71_same_texts"
   ],
   "note": ""
  },
  {
   "property": "C72",
   "status": "proved",
   "theorems": [
    "Chomp.C72_types_are_parts",
    "Chomp.C72_parts_have_types",
    "Chomp.C72_emitted_types",
    "Chomp.C72_emitted_parts"
   ],
   "note": ""
  },
  {
   "property": "C73",
   "status": "proved",
   "theorems": [
    "Chomp.C73_alpha_iff",
    "Chomp.C73_converts_iff",
    "Chomp.C73_renaming_preserves",
    "Chomp.C73_same_texts",
    "Chomp.C73_injective_renaming",
    "Chomp.C73_renaming_changes_parser"
   ],
   "note": "C73_renaming_changes_parser: renaming a parameter b to a, consistently, changes what the emitted parser accepts, because names take part in the comparison of fix points."
  },
  {
   "property": "C74",
   "status": "proved",
   "theorems": [
    "Chomp.C74_nibble_deterministic",
    "Chomp.C74_autonibble_deterministic",
    "Chomp.C74_equal_keys_hash_equally",
    "Chomp.C74_mixed_names_differ"
   ],
   "note": ""
  },
  {
   "property": "C75",
   "status": "proved",
   "theorems": [
    "Chomp.C75_program_linear",
    "Chomp.C75_types_at_most_parts",
    "Chomp.C75_accepted_programs"
   ],
   "note": ""
  },
  {
   "property": "C76",
   "status": "proved",
   "theorems": [
    "Chomp.C76_lookahead",
    "Chomp.C76_error_at_once",
    "Chomp.C76_take_longest",
    "Chomp.C76_take_exact",
    "Chomp.C76_take_root",
    "Chomp.C76_needs_matching_parts"
   ],
   "note": ""
  },
  {
   "property": "C77",
   "status": "proved",
   "theorems": [
    "Chomp.C77_any_parser",
    "Chomp.C77_any_parser_parse",
    "Chomp.C77_iterator",
    "Chomp.C77_stream_sound",
    "Chomp.C77_stream_complete",
    "Chomp.C77_stream_error",
    "Chomp.C77_stream_ends",
    "Chomp.C77_take_can_run_forever",
    "Chomp.C77_needs_fused"
   ],
   "note": ""
  },
  {
   "property": "C78",
   "status": "proved",
   "theorems": [
    "Chomp.C78_narrow",
    "Chomp.C78_replace",
    "Chomp.C78_accepted_iff",
    "Chomp.C78_same_texts",
    "Chomp.C78_needs_productive"
   ],
   "note": ""
  },
  {
   "property": "C79",
   "status": "proved",
   "theorems": [
    "Chomp.C79_text_tells",
    "Chomp.C79_same_text_iff",
    "Chomp.C79_text_determines",
    "Chomp.C79_program_text",
    "Chomp.C79_literals_are_not_quoted",
    "Chomp.C79_definitions_hide_names"
   ],
   "note": ""
  },
  {
   "property": "C80",
   "status": "proved",
   "theorems": [
    "Chomp.C80_same_inference",
    "Chomp.C80_cost",
    "Chomp.C80_cost_unique",
    "Chomp.C80_linear",
    "Chomp.C80_exponential"
   ],
   "note": ""
  },
  {
   "property": "C81",
   "status": "proved",
   "theorems": [
    "Chomp.C81_terminates",
    "Chomp.C81_no_panic",
    "Chomp.C81_parse_iff",
    "Chomp.C81_display_injective",
    "Chomp.C81_parse_returns",
    "Chomp.C81_take",
    "Chomp.C81_take_longest",
    "Chomp.C81_error_position",
    "Chomp.C81_input_continues",
    "Chomp.C81_applies_to_conflicts",
    "Chomp.C81_take_exact",
    "Chomp.C81_errors_truthful",
    "Chomp.C81_stream_sound",
    "Chomp.C81_stream_complete",
    "Chomp.C81_stream_error",
    "Chomp.C81_stream_ends",
    "Chomp.C81_every_type_has_value",
    "Chomp.C81_exact_applies"
   ],
   "note": ""
  },
  {
   "property": "C82",
   "status": "proved",
   "theorems": [
    "Chomp.C82_expansion_bound",
    "Chomp.C82_source_bound",
    "Chomp.C82_lets_exponential",
    "Chomp.C82_functions_doubly_exponential"
   ],
   "note": ""
  },
  {
   "property": "C83",
   "status": "proved",
   "theorems": [
    "Chomp.C83_compiles_to_one",
    "Chomp.C83_chomp_prints",
    "Chomp.C83_printed_text_parses",
    "Chomp.C83_hygiene",
    "Chomp.C83_tokens_read",
    "Chomp.C83_every_program_written",
    "Chomp.C83_one_outcome",
    "Chomp.C83_reader_exact",
    "Chomp.C83_docs_irrelevant",
    "Chomp.C83_never_stale",
    "Chomp.C83_tokens_parse",
    "Chomp.C83_delimiters_match",
    "Chomp.C83_example"
   ],
   "note": ""
  },
  {
   "property": "C84",
   "status": "proved",
   "theorems": [
    "Chomp.C84_parser_terminates",
    "Chomp.C84_agrees",
    "Chomp.C84_error_at_first_bad",
    "Chomp.C84_error_place",
    "Chomp.C84_error_at_token",
    "Chomp.C84_first_bad_reported",
    "Chomp.C84_too_short",
    "Chomp.C84_left_over_masked",
    "Chomp.C84_expected_incomplete",
    "Chomp.C84_places",
    "Chomp.C84_compile_errors"
   ],
   "note": ""
  },
  {
   "property": "C85",
   "status": "proved",
   "theorems": [
    "Chomp.C85_camel",
    "Chomp.C85_snake",
    "Chomp.C85_no_panic",
    "Chomp.C85_panics_iff",
    "Chomp.C85_compiles",
    "Chomp.C85_end_to_end",
    "Chomp.C85_identifiers"
   ],
   "note": ""
  },
  {
   "property": "C86",
   "status": "proved",
   "theorems": [
    "Chomp.C86_arith_expected",
    "Chomp.C86_arith_input_continues",
    "Chomp.C86_arith_missing",
    "Chomp.C86_arith_error_place",
    "Chomp.C86_arith_late_error",
    "Chomp.C86_json_error_place",
    "Chomp.C86_json_input_continues",
    "Chomp.C86_json_expected_wrong",
    "Chomp.C86_json_expected_wrong_first",
    "Chomp.C86_json_late_error"
   ],
   "note": ""
  },
  {
   "property": "C87",
   "status": "proved",
   "theorems": [
    "Chomp.C87_arith_any_parser",
    "Chomp.C87_json_any_parser",
    "Chomp.C87_arith_iterator",
    "Chomp.C87_json_iterator",
    "Chomp.C87_skip_while",
    "Chomp.C87_skip_endless",
    "Chomp.C87_take_chars_from",
    "Chomp.C87_json_recursion"
   ],
   "note": ""
  },
  {
   "property": "C88",
   "status": "proved",
   "theorems": [
    "Chomp.C88_rename_identity_call",
    "Chomp.C88_rename_identity_call_back",
    "Chomp.C88_substitute_identity_call",
    "Chomp.C88_substitute_identity_call_hit",
    "Chomp.C88_reduce_identity_call",
    "Chomp.C88_reduce_identity_call_name",
    "Chomp.C88_cat_uses_all",
    "Chomp.C88_alt_uses_all",
    "Chomp.C88_cat_right"
   ],
   "note": ""
  },
  {
   "property": "C89",
   "status": "proved",
   "theorems": [
    "Chomp.C89_first_error_unique",
    "Chomp.C89_check",
    "Chomp.C89_reports_first_error",
    "Chomp.C89_same_language_same_places",
    "Chomp.C89_never_too_early",
    "Chomp.C89_productive_is_earliest",
    "Chomp.C89_needs_productive",
    "Chomp.C89_arith",
    "Chomp.C89_arith_not_later",
    "Chomp.C89_arith_earlier",
    "Chomp.C89_json",
    "Chomp.C89_autonibble_late",
    "Chomp.C89_autonibble"
   ],
   "note": ""
  },
  {
   "property": "C90",
   "status": "proved",
   "theorems": [
    "Chomp.C90_layout",
    "Chomp.C90_as_expressive",
    "Chomp.C90_not_more"
   ],
   "note": ""
  },
  {
   "property": "C91",
   "status": "proved",
   "theorems": [
    "Chomp.C91_layout",
    "Chomp.C91_same_outcome",
    "Chomp.C91_insert",
    "Chomp.C91_insert_text",
    "Chomp.C91_space_needed"
   ],
   "note": ""
  },
  {
   "property": "C92",
   "status": "proved",
   "theorems": [
    "Chomp.C92_lalr",
    "Chomp.C92_only_spaces",
    "Chomp.C92_generated",
    "Chomp.C92_hand",
    "Chomp.C92_between_digits"
   ],
   "note": ""
  },
  {
   "property": "C93",
   "status": "proved",
   "theorems": [
    "Chomp.C93_repeated",
    "Chomp.C93_until_end",
    "Chomp.C93_one_way",
    "Chomp.C93_list",
    "Chomp.C93_list_ends",
    "Chomp.C93_item"
   ],
   "note": ""
  },
  {
   "property": "C94",
   "status": "proved",
   "theorems": [
    "Chomp.C94_written",
    "Chomp.C94_layout_generated",
    "Chomp.C94_layout_lalr",
    "Chomp.C94_compact"
   ],
   "note": ""
  },
  {
   "property": "C95",
   "status": "proved",
   "theorems": [
    "Chomp.C95_accepts_iff_deterministic",
    "Chomp.C95_types_exact",
    "Chomp.C95_words_accepted_iff"
   ],
   "note": ""
  },
  {
   "property": "C96",
   "status": "proved",
   "theorems": [
    "Chomp.C96_finite_sets",
    "Chomp.C96_only_finite_sets",
    "Chomp.C96_empty_set"
   ],
   "note": ""
  },
  {
   "property": "C97",
   "status": "proved",
   "theorems": [
    "Chomp.C97_regular_languages"
   ],
   "note": ""
  },
  {
   "property": "C98",
   "status": "proved",
   "theorems": [
    "Chomp.C98_regular_expressions"
   ],
   "note": ""
  },
  {
   "property": "C99",
   "status": "proved",
   "theorems": [
    "Chomp.C99_program_of_grammar",
    "Chomp.C99_regular_programs",
    "Chomp.C99_grammars_of_programs"
   ],
   "note": ""
  }
 ]
}