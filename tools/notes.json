{
 "C02": {
  "status": "proved",
  "note": "C02_position covers every sequence of calls that consumes at most the whole text. C02_position_past_end records that a next() at end of input still moves the column."
 },
 "C04": {
  "status": "partial",
  "note": "The full statement is false of the code: the number of matched characters is used as a byte offset (C04_consume_str_panics, C04_consume_str_misreports). C04_consume_str_exact says what happens for every string and text, C04_panics_iff when it panics and C04_right_report_iff when the report is right; C04_consume_str_err_partial is the full statement for expected strings whose characters except the last are ASCII."
 },
 "C09": {
  "status": "partial",
  "note": "Transitivity is false of the code (C09_not_transitive). Reflexivity, symmetry and hash compatibility are proved, and C09_content_eq_iff characterises equality exactly."
 },
 "C10": {
  "status": "proved",
  "note": "For syntax trees with an empty concatenation/alternation/call, which the parser never produces, conversion fails with the corresponding Empty error."
 },
 "C21": {
  "status": "partial",
  "note": "The full statement is false of the code: C21_program_can_diverge exhibits an accepted program whose reduction never returns. Proved: reduction yields a result exactly for the programs that are usable as grammars (intersection types, C21_reduces_iff_usable_partial); it returns (result or error) for all programs in which no parameter is called; it succeeds for all simply typed programs. C21_result_iff, C21_error_iff and C21_diverges_iff say exactly for which expressions the reducer returns a result, returns an error, and runs for ever, by an order of single contractions."
 },
 "C29": {
  "status": "partial",
  "note": "The full statement is false of the code: fold_fix pushes one variable for a lambda with any number of parameters (C29_counterexample). Proved for expressions whose fix points are over unary lambdas. C29_exact says for every accepted expression what it is taken for (every function below a fix point read as a function of one parameter), and C29_parameters_ignored that the number of parameters has no influence at all."
 },
 "C33": {
  "status": "proved",
  "note": "Without the condition on literals the parser can panic (C33_parser_can_panic), because of the byte offset bug of C04."
 },
 "C36": {
  "status": "partial",
  "note": "The full statement is false of the code: fix points are looked up by body, ignoring what their free variables refer to (C36_counterexample, C36_counterexample_program: a word of the language is rejected and another string accepted). Proved when equal fix points have equal free variables (decidable by TE.shareSafe), or behave alike. Exact for all programs of both front ends: C36_exact says which strings the emitted parser accepts and how it behaves whatever is shared (every fix point is read as the first one with the same body), so C36_faithful_iff says exactly when the compiler is right. What else holds without the condition is C81."
 },
 "C39": {
  "status": "partial",
  "note": "The full statement is false of the code: a rule called `lit` collides with the first unnamed literal (C39_default_collision), and the eleventh `Foo` with the first `Foo1` (C39_count_collision). Proved when camel-cased names do not end in a digit and are not Lit, Cat, Alt or Fix. C39_names gives the name of every type, C39_clash_iff says exactly which two types clash, and C39_few that none do among up to nine types without the default names."
 },
 "C40": {
  "status": "partial",
  "note": "The full statement is false of the code (C40_collision: two fields part1; C40_count_collision). Proved when converted names do not end in a digit and differ from the default. C40_names gives the name of every part, C40_clash_iff says exactly which two parts clash, and C40_few that none do among up to nine parts without the default name."
 },
 "C41": {
  "status": "partial",
  "note": "The full statement is false of the code: eps_id is never set, so every epsilon is a new type (C41_epsilon_not_shared). Proved: one type per literal, concatenation, alternation and box; regenerating an epsilon- and fix-free expression adds nothing; fix points with an equal body are shared. C41_again_iff says exactly which expressions share: those without an epsilon outside their fix points. C41_epsilons counts the epsilon types."
 },
 "C47": {
  "status": "partial",
  "note": "The full statement is false of the code: in builds without overflow checks the hand-written parser wraps around on literals where the generated one panics (C47_wrapping_counterexample), and the hand-written one may panic (1/0+) where the generated one reports a syntax error. Proved: same values, same syntax, same panics on well-formed input in builds with overflow checks; and in every build the exact difference on well-formed texts: the generated parser panics, or gives the same value, according to whether some number in the text does not fit in an i64 (C47_values_exact, C47_panics_exact)."
 },
 "C49": {
  "status": "partial",
  "note": "The full statement is false of the code: parse_u16 multiplies instead of adding, so every escape is NUL (C49_counterexample, C49_all_nul). Proved for strings without \\u escapes. C49_right_iff says exactly which strings are read right: those whose \\u escapes are all \\u0000."
 },
 "C50": {
  "status": "partial",
  "note": "The full statement is false of the code: displaying a control character other than BS, FF, LF, CR, TAB panics (C50_display_panics). C50_display_panics_iff and C50_roundtrip_iff say exactly for which values displaying works and values are read back, if f64 reads numbers back."
 },
 "C51": {
  "status": "partial",
  "note": "The full statement is false of the code: white space in an empty array or object is rejected (C51_counterexample). Proved for all other white space. C51_accepts_iff: a document is accepted exactly if no empty array or object in it contains white space (if f64 reads all JSON numbers)."
 },
 "C44": {
  "status": "proved",
  "note": "The generated parser is the one the model of the compiler produces from the grammar in autonibble/src/lib.rs, evaluated in the kernel. Rust tokens are specified by a small lexer (Auto/Lex.lean). C44_keyword_parameter records that the two front ends differ on keyword parameters."
 },
 "C45": {
  "status": "partial",
  "note": "The full statement is false of the code: \\u{...} with a surrogate or a number above 10FFFF panics (C45_counterexample); these are exactly the escapes that panic (C45_panics_iff), all others are decoded correctly."
 },
 "C55": {
  "status": "proved",
  "note": "C55_needs_matching_parts shows that the assumption on fix points is needed; C55_expected_incomplete that the list of expected characters need not be complete."
 },
 "C56": {
  "status": "proved",
  "note": "The generated parser is the one the model of the compiler produces from the grammar in chomp-bench/src/json/nibble.rs, evaluated in the kernel; the conversion From<Ast> is modelled arm by arm and the names it uses are compared with those of the model's table."
 },
 "C57": {
  "status": "partial",
  "note": "The full statement is false of the code (C57_counterexample: non-ASCII strings, white space in empty arrays, non-RFC numbers, \\u escapes). C57_both characterises exactly the texts both accept; proved: same outcome on common documents without \\u, and same value on every text without \\u that both accept. C57_agree_iff says exactly on which texts both give the same value."
 },
 "C58": {
  "status": "proved",
  "note": "The hypothesis that fix points match something is needed: C58_unproductive_counterexample. Spans of operators are part of the statement."
 },
 "C59": {
  "status": "proved",
  "note": "Expressions up to names and spans; contractions are those of the textbook calculus in Ast/Core."
 },
 "C60": {
  "status": "proved",
  "note": "A single-element list takes over the span of the construct around it (a labelled alternative, a goal), as in the code."
 },
 "C61": {
  "status": "proved",
  "note": "LALRPOP itself is replaced by its specification: the outcome is that of a derivation of the tokens; C61_unique shows that there is at most one."
 },
 "C62": {
  "status": "proved",
  "note": "LALRPOP itself is replaced by its specification. C62_more_than_rfc: two texts that RFC 8259 does not allow are accepted."
 },
 "C63": {
  "status": "partial",
  "note": "The full statement is false of the code: clashing names give programs with a type, or a field, defined twice (C63_type_clash, C63_field_clash). C63_compiles_iff: such clashes are the only reason for which an emitted program does not compile. C63_compiles_partial: none if no converted name ends in a digit or is one of the default names. C63_small: small programs compile also if names end in digits."
 },
 "C64": {
  "status": "proved",
  "note": "For programs that compile (see C63). The language is that of the grammar under NoSharingConflict, without which the tables themselves are wrong (C36); the other statements hold without."
 },
 "C65": {
  "status": "proved",
  "note": "C65_printed_position is under the condition of C36 (NoSharingConflict), like C35."
 },
 "C66": {
  "status": "proved",
  "note": "C66_guarded_name_counterexample records that the name in a guarded-variable message can be that of an enclosing let."
 },
 "C67": {
  "status": "proved",
  "note": "C67_same_parsers is for emitted programs that compile and under the condition of C36."
 },
 "C68": {
  "status": "proved",
  "note": "Case conversion of names as in heckCasing (ASCII); the kernel evaluates the compiler on the eight fixed grammars, the theorems quantify over all texts given to the emitted parsers."
 },
 "C69": {
  "status": "proved",
  "note": "Transitivity holds among expressions whose binders all have, or all lack, a span (those of one front end); C69_not_transitive shows that it fails across."
 },
 "C73": {
  "status": "proved",
  "note": "C73_renaming_changes_parser: renaming a parameter b to a, consistently, changes what the emitted parser accepts, because names take part in the comparison of fix points."
 }
}