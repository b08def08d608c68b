# Formal model of chomp in Lean 4

Everything is under `lean/Verif/`; `lake build` in `lean/` checks it.  This file is written by `tools/gen_design.py`; the per-property
section at the end combines the plan made before the proofs with what came out.

## Trusted base

* The kernel of Lean 4.33.0.  Nothing else of Lean is trusted: no `native_decide`, no `bv_decide`, no own axioms, no unfinished proofs.
* Axioms: each theorem depends on at most `propext`, `Classical.choice` and `Quot.sound` (checked with `#print axioms` and by `vcheck`).
* `Grammars/Reify.lean` contains a metaprogram.  It only *produces* declarations (intermediate results of evaluating the model of the
  compiler); every declaration it makes is checked by the kernel like any other, so it is not trusted.
* Mathlib is not used: the development needs only Lean's core library.
* That the model is the code.  This is by reading: each definition of the model cites the file and lines it models and says where it
  simplifies.  Two kinds of evidence beyond reading: (1) the Rust code that uses generated parsers (`arith/nibble.rs`, `json/nibble.rs`,
  `autonibble/src/lib.rs`) only compiles if the real backend generates certain names of types, fields and variants; the model, run
  in the kernel on the same grammars, generates exactly these names at the positions used (the `example`s in
  `Bench/ArithNibble.lean`, `Bench/JsonNibble.lean`, `Auto/Model.lean`); (2) the mutation log `seeded/LOG.jsonl`.
* That the specifications say what the English says.  They are small and separate: `Gram/Spec.lean` (languages, trees, typing rules),
  `Gram/Meaning.lean`, `Nibble/Spec.lean` (lexical scoping), `Ast/Core.lean` (textbook substitution and beta/let steps), `Ast/Denote.lean`,
  `Bench/ArithSpec.lean`, `Bench/JsonSpec.lean`, `Auto/Lex.lean` (Rust tokens), and definitions beside the theorems in `Props/`.

## What is modelled, file by file

| file in `/repo` | modelled in | not modelled |
|---|---|---|
| `chewed/src/position.rs`, `parse.rs` | `Chewed/Model.lean`, `Lower/Trait.lean` (any iterator, any `Parser`): all of `IterWrapper`, `Parser::{skip_while, consume_str, take_chars_from, iter_strict}`, `parse` | — |
| `chewed/src/error.rs` | the error values in `Chewed/Model.lean`, their texts in `Chewed/Text.lean` | which characters `{:?}` escapes as `\u{…}` (parameter) |
| `src/chomp/name.rs` | `Ast/Name.lean`; `Display` in `Driver/Text.lean`; case conversions of ASCII names in `Lower/Heck.lean` | `ToTokens` |
| `src/chomp/ast/mod.rs` | `Ast/Model.lean`, `Ast/Display.lean` | `Debug` |
| `src/chomp/ast/substitute.rs`, `visit.rs` | `Ast/Model.lean`: `RenameVars`, `Substitute`, `Reduce`, in the visitors' order, with their state | the visitor traits themselves (dispatch) |
| `src/chomp/ast/error.rs`, `typed/error.rs` | the error values beside the stages; texts in `Driver/Text.lean`, conversion to `syn::Error` in `Driver/Model.lean` | — |
| `src/chomp/set.rs`, `typed/mod.rs`, `typed/context.rs`, `typed/infer.rs`, `typed/lower.rs` | `Typed/CharSet.lean`, `Typed/Model.lean`, `Lower/Model.lean` | — |
| `src/nibble/mod.rs` | `Nibble/Syntax.lean`: `Parse` and `ToTokens` over token lists; `Nibble/Spanned.lean`: `Parse` with places and syntax errors (place, what was expected) | how `syn` joins the places of tokens to that of a construct (a parameter), the wording of syntax errors, `Debug` |
| `src/nibble/convert.rs` | `Nibble/Model.lean`; texts of errors in `Driver/Text.lean` | — |
| `src/lower/mod.rs` | `Lower/Model.lean` (tables, names, sharing, emission order); `Lower/Runtime.lean` (what the emitted `take`, `Display` and `From` code does when run); `Lower/Rust.lean` (the emitted items as data, with their names and the parts of their bodies that depend on the grammar; what they do; what the compiler checks); `Lower/Tokens.lean`, `Lower/TokenBackend.lean` (the `quote!` templates token by token, and the backend working on tokens, as it is written) | spans of tokens, the text of doc comments (parameter), how `rustc` parses tokens beyond the reader in `Lower/TokenRead.lean` |
| `src/main.rs`, `autonibble/src/main.rs`, `chomp-macro/src/lib.rs` | `Driver/Model.lean` (`World`), `compile` in `Props/EndToEnd.lean` | the operating system, `syn`'s messages, the printing of token streams (parameters) |
| `autonibble/src/lib.rs` | grammar: `Grammars/Auto*.lean`; conversions: `Auto/Model.lean` | — |
| `chomp-bench/src/arith/{mod,nibble}.rs` | `Bench/Arith.lean`, `Bench/HandTrait.lean` (any `Parser`), `Bench/ArithNibble.lean`, grammar in `Grammars/Arith*.lean` | — |
| `chomp-bench/src/json/{mod,nibble}.rs` | `Bench/Json.lean`, `Bench/HandTrait.lean` (any `Parser`), `Bench/JsonNibble.lean`, grammar in `Grammars/Json*.lean` | — |
| `chomp-bench/src/arith/lalr.lalrpop`, `chomp-bench/src/json/lalr.lalrpop` | `Bench/Lalr.lean`, `Bench/ArithLalr.lean`, `Bench/JsonLalr.lean`: tokens, derivations and actions | how LALRPOP finds the derivation (LR tables); its error values |
| `tests/full` | the grammars in `Grammars/TestTexts.lean`; `Props/Tests.lean` | the test harness |
| `autonibble/tests/compare` | its assertion, for all texts, in `Props/Equal.lean` | the test harness |
| benches | — | all |

External code that the model replaces by a specification: `syn`'s token lexer and parser combinators (`Nibble/Syntax.lean`, `Auto/Lex.lean`), the
keyword list of `syn::Ident::parse` (`Reserved`), `proc_macro2::Ident::new` (panics on texts that are not identifiers), `heck`'s case conversions
(abstract in the theorems, `Casing`; `heckCasing` for the concrete grammars; `heckAscii` in `Lower/Heck.lean` models `transform` of `heck` 0.3 on ASCII identifiers, from its published source, for C85), `HashMap`, `BTreeSet`, `str::parse::<f64>` and
`f64::fmt` (abstract, `F64`), LALRPOP (its lexer: white space skipped, longest match; its parser: whatever derives the tokens, C61 and C62 show that
at most one derivation does), `uN::from_str_radix`, the standard input and output, the panic handler, `Display` of token streams, `char::escape_debug`'s choice of printable characters (abstract), `i64` arithmetic (checked or wrapping, `Ovf`), UTF-8 lengths.

## Modelling conventions

* Rust `char` = Lean `Char` (both are Unicode scalar values); `String`/`&str` = `List Char`, with byte offsets computed from UTF-8
  lengths where the code uses them.
* `usize` counters = `Nat`; where a subtraction could underflow or an index be out of range the model has an explicit panic outcome
  (C16, C37 show that they do not occur).
* `&mut self` = state passing; `Result`/`Option` = data; `panic!`, `unwrap`, `todo!()` = an explicit outcome, never a default value.
* `BTreeSet<char>`/sorted `Vec<char>` = sorted duplicate-free list; `HashMap` = list of entries with lookup by the modelled `Eq`.  Where a
  map is iterated the theorems do not depend on the order.
* Recursion and loops without an evident bound = fuel; running out of fuel is a separate outcome `oof`.  Claims that something
  happens say "for some fuel, and the outcome is not `oof`"; results do not depend on the fuel (monotonicity theorems); claims that
  something ends are theorems that some fuel suffices.
* Source spans are opaque numbers, `0` = `Span::call_site()`.

## Layers

* `Chewed` → the runtime on which everything that parses runs.
* `Nibble` (syntax, conversion) → `Ast` (substitution, reduction) → `Typed` (inference) → `Lower` (tables, code, execution): the compiler.
* `Gram`: languages and syntax trees of grammars, independent of the code.
* `Lower/First.lean`: what the table does when fix points are shared, described on the source (`stepS`), for C36.
* `Lower/Hash.lean`: code generation with an arbitrary hash map (`Lookup`), for C74; `Auto/Names.lean`: the names that autonibble makes.
* `Lower/Sys.lean`, `SysRun.lean`, `TableTy.lean`, `SysExact.lean`, `TableGen.lean`, `TableWf.lean`: tables of types that fit together, for C81.
* `Lower/Trait.lean`: generated code and `IterWrapper` over any `Parser` or iterator, for C77.
* `Ast/Display.lean`: the texts of expressions, for C79.
* `Ast/Swap.lean`, `Gram/Swap.lean`: replacing parts of programs and grammars, for C78.
* `Lower/Ref.lean`: a reference parser over typed expressions, the bridge between tables and languages.
* `Grammars`: the grammars in the repository, compiled by the model in the kernel.
* `Auto`, `Bench`: the programs in the repository that use generated parsers, and their hand-written counterparts.
* `Props`: the theorems, named after the properties (`C01_…`), with non-vacuity examples beside them.

## Deviations of the code from its properties that the proofs brought up

* `consume_str` slices bytes by a character count: panic or wrong report for non-ASCII literals (C04, C33).
* `next()` at end of input moves the column (C02); `Iter::next` can replace the error of an item by a later one.
* Equality of name contents is not transitive (C09).
* Reduction of accepted programs can diverge (C21).
* Tokens left over in parentheses are only reported if there is no later syntax error (C84; this is how `syn` 1 works).
* `fold_fix` pushes one variable for a lambda of any arity (C29).
* Fix points are shared by body alone, so a grammar can be miscompiled (C36), and a consistent renaming of a parameter can change the
  language of the emitted parser (C73); names of types and fields can collide (C39, C40);
  `eps_id` is never set (C41); names such as `__` make the backend panic (C43).
* The list of expected characters in errors can be incomplete after nullable parts, and wrong if a fix point matches nothing (C55).
* autonibble: `\u{…}` beyond scalar values panics (C45); accepts keywords as parameters, which `syn` does not (C44).
* arith: overflow and division by zero panic or wrap (C46, C47).
* JSON: `\u` escapes are all NUL in the hand-written parser (C49); displaying control characters panics (C50); white space in empty
  containers is rejected (C51); `todo!()` in error paths (C54); the generated parser takes ASCII only and surrogate pairs in either order (C56);
  the LALRPOP parser takes `1.`, `"\u+041"` and any Unicode white space, and panics on control characters in strings (C62).

## Properties: how each is modelled and proved

Suffix `_partial` marks theorems that are weaker than their property; `_counterexample` and similar names mark theorems that refute it.

* **C01** (proved) Character stream fidelity. State machine `IW` (position, look-ahead, rest) over histories of `peek`/`next`; induction on the history.
* **C02** (proved) Reported position is the position of the text consumed so far. Independent line/column specification `specLine`/`specCol` over the text; induction on the history.
  C02_position covers every sequence of calls that consumes at most the whole text. C02_position_past_end records that a next() at end of input still moves the column.
* **C03** (proved) consume_str succeeds exactly on a matching prefix. Induction on the literal.
* **C04** (partial) consume_str failure report. Same, with byte offsets computed from UTF-8 lengths; the general statement is false, two witnesses.
  The full statement is false of the code: the number of matched characters is used as a byte offset (C04_consume_str_panics, C04_consume_str_misreports). C04_consume_str_exact says what happens for every string and text, C04_panics_iff when it panics and C04_right_report_iff when the report is right; C04_consume_str_err_partial is the full statement for expected strings whose characters except the last are ASCII.
* **C05** (proved) skip_while and take_chars_from. Induction on the rest of the stream.
* **C06** (proved) parse accepts only complete inputs. Case analysis of `parse`.
* **C07** (proved) iter_strict reads exactly a separated list. Item parser is an arbitrary function; induction on the list of items.
* **C08** (proved) Name merging picks the leftmost highest-priority name. Algebra; specification "leftmost of highest priority".
* **C09** (partial) Name content equality is an equivalence compatible with hashing. Algebra; transitivity refuted; exact characterisation.
  Transitivity is false of the code (C09_not_transitive). Reflexivity, symmetry and hash compatibility are proved, and C09_content_eq_iff characterises equality exactly.
* **C10** (proved) Conversion succeeds exactly for well-scoped programs. Structural mutual induction over syntax trees against a named, textbook scoping specification (`Nibble/Spec.lean`).
  For syntax trees with an empty concatenation/alternation/call, which the parser never produces, conversion fails with the corresponding Empty error.
* **C11** (proved) Identifiers resolve to the innermost binding. Same; de Bruijn result related to the named program by resolution.
* **C12** (proved) Converted programs are closed. Same.
* **C13** (proved) Scopes are restored. Same; context before = after (lets excepted, as in the code).
* **C14** (proved) Nibble syntax round-trips through tokens. Recursive-descent model of the `syn` parsers over token lists with fuel; printer; induction both ways; fuel bound gives termination.
* **C15** (proved) Substitution is capture-avoiding. Stateful `Substitute` model = textbook parallel de Bruijn substitution; denotational statement for every algebra.
* **C16** (proved) Substitution does not disturb its argument or underflow. State invariant; no underflow.
* **C17** (proved) Reduction only performs beta and let steps. Small-step beta/let relation as specification; induction on fuel.
* **C18** (proved) Reduced expressions contain no pending calls or lets. Induction on fuel.
* **C19** (proved) Reduction preserves closedness. Induction on fuel.
* **C20** (proved) Reduction ignores names and spans. Erasure to `Core` commutes with reduction.
* **C21** (partial) Reduction of every program terminates. False (untyped lambda calculus); Ω as a nibble program diverges for every fuel. Success for simply typed programs by a reducibility (logical relation) proof. First-order programs (`Ast/FirstOrder.lean`) by a logical relation that counts how often an expression may be called. Exact characterisation by intersection types (`Ast/Uses.lean`): soundness by a logical relation, completeness by expansion (anti-substitution). Results, errors and divergence exactly (`Props/Stepwise.lean`): a deterministic small-step order, simulated both ways.
  The full statement is false of the code: C21_program_can_diverge exhibits an accepted program whose reduction never returns. Proved: reduction yields a result exactly for the programs that are usable as grammars (intersection types, C21_reduces_iff_usable_partial); it returns (result or error) for all programs in which no parameter is called; it succeeds for all simply typed programs. C21_result_iff, C21_error_iff and C21_diverges_iff say exactly for which expressions the reducer returns a result, returns an error, and runs for ever, by an order of single contractions.
* **C22** (proved) Type inference terminates. Height of the type lattice over the literals of the expression bounds each loop.
* **C23** (proved) Accepted grammars satisfy the typing rules. Declarative typing `HasTy`; induction.
* **C24** (proved) Rejected grammars have no typing. Same; the loop computes the least type below any derivable one.
* **C25** (proved) Types describe the language. Language semantics (`μ` = least fix point) independent of the code; induction on derivations; exactness by induction on the inference itself.
* **C26** (proved) Inference restores its context. Induction.
* **C27** (proved) Left recursion is rejected. Reachability of a variable before consuming, defined on grammars. Fix points anywhere in the program (`Inside`) in `Props/LeftAll.lean`.
* **C28** (proved) Accepted grammars are unambiguous. Syntax trees; induction on derivation pairs.
* **C29** (partial) Fix points bind exactly the parameters of their lambda. False: witness; proved for unary lambdas; Props/FixExact: what any arity is taken for.
  The full statement is false of the code: fold_fix pushes one variable for a lambda with any number of parameters (C29_counterexample). Proved for expressions whose fix points are over unary lambdas. C29_exact says for every accepted expression what it is taken for (every function below a fix point read as a function of one parameter), and C29_parameters_ignored that the number of parameters has no influence at all.
* **C30** (proved) Generated parsers accept exactly the grammar's language. Execution model of the emitted `take` functions over `IW`; simulation by a reference parser over typed expressions; soundness by fuel, completeness by derivations.
* **C31** (proved) Printing a parsed tree gives back the input. Induction on fuel, for every table.
* **C32** (proved) Parsing a printed tree gives back the tree. Values of the emitted types characterised as syntax trees.
* **C33** (proved) Generated parsers terminate. Guardedness measure; depth and cost linear in the input.
  Without the condition on literals the parser can panic (C33_parser_can_panic), because of the byte offset bug of C04.
* **C34** (proved) take consumes a matching prefix and respects follow context. Same as C30 with a follow condition.
* **C35** (proved) Parse errors are reported where the input goes wrong. Locality of runs: two inputs that agree up to the reported position behave alike.
* **C36** (partial) Code generation is faithful to the typed grammar. Simulation between table and typed expression; false in general, witness; proved under an explicit condition, decidable by `shareSafe`. Exact without the condition (`Lower/First.lean`, `Props/FirstFix.lean`): a specification `SharedLang` on the source in which a fix point stands for the first one in reading order with an equal body; the fix points for which code is generated (`TE.visit`) are shown to be these first ones, by an invariant over the traversal, and the table is bisimilar to the specification.
  The full statement is false of the code: fix points are looked up by body, ignoring what their free variables refer to (C36_counterexample, C36_counterexample_program: a word of the language is rejected and another string accepted). Proved when equal fix points have equal free variables (decidable by TE.shareSafe), or behave alike. Exact for all programs of both front ends: C36_exact says which strings the emitted parser accepts and how it behaves whatever is shared (every fix point is read as the first one with the same body), so C36_faithful_iff says exactly when the compiler is right. What else holds without the condition is C81.
* **C37** (proved) Code generation never indexes out of range. Table invariant.
* **C38** (proved) Emitted code is complete and duplicate-free. Reachability specification of the emission worklist.
* **C39** (partial) Generated type names are distinct. False; witnesses; proved under a naming condition; closed form of every name and exact clashes (`Props/NameExact.lean`).
  The full statement is false of the code: a rule called `lit` collides with the first unnamed literal (C39_default_collision), and the eleventh `Foo` with the first `Foo1` (C39_count_collision). Proved when camel-cased names do not end in a digit and are not Lit, Cat, Alt or Fix. C39_names gives the name of every type, C39_clash_iff says exactly which two types clash, and C39_few that none do among up to nine types without the default names.
* **C40** (partial) Generated field and variant names are distinct. False; witnesses; proved under a naming condition; closed form of every name and exact clashes (`Props/NameExact.lean`).
  The full statement is false of the code (C40_collision: two fields part1; C40_count_collision). Proved when converted names do not end in a digit and differ from the default. C40_names gives the name of every part, C40_clash_iff says exactly which two parts clash, and C40_few that none do among up to nine parts without the default name.
* **C41** (partial) Equal sub-expressions share one generated type. False for epsilon; proved otherwise; exactly which expressions share (`Props/Sharing.lean`), by induction over generation with the keys of the map of fix points.
  The full statement is false of the code: eps_id is never set, so every epsilon is a new type (C41_epsilon_not_shared). Proved: one type per literal, concatenation, alternation and box; regenerating an epsilon- and fix-free expression adds nothing; fix points with an equal body are shared. C41_again_iff says exactly which expressions share: those without an epsilon outside their fix points. C41_epsilons counts the epsilon types.
* **C42** (proved) Conversion to char returns the parsed character. Evaluation of the emitted `From` implementations on values.
* **C43** (proved) End-to-end correctness. Composition `compile`; panics by provenance of names.
* **C44** (proved) autonibble agrees with the built-in front end. autonibble's grammar is compiled by the model inside the kernel (`Grammars/Auto*`); typed syntax trees of the generated types, a Rust lexer specification and the conversion; induction over trees.
  The generated parser is the one the model of the compiler produces from the grammar in autonibble/src/lib.rs, evaluated in the kernel. Rust tokens are specified by a small lexer (Auto/Lex.lean). C44_keyword_parameter records that the two front ends differ on keyword parameters.
* **C45** (partial) autonibble literal escapes. All escapes; false for surrogates and too large values.
  The full statement is false of the code: \u{...} with a surrogate or a number above 10FFFF panics (C45_counterexample); these are exactly the escapes that panic (C45_panics_iff), all others are decoded correctly.
* **C46** (proved) Hand-written arithmetic parser computes the value of the expression. Hand-written parser against an evaluation specification of arithmetic expressions over bounded integers.
* **C47** (partial) The arithmetic benchmark parsers agree. Both parsers against the same specification; in builds without overflow checks, the exact condition (every number of the text fits in an `i64`) under which they give the same value.
  The full statement is false of the code: in builds without overflow checks the hand-written parser wraps around on literals where the generated one panics (C47_wrapping_counterexample), and the hand-written one may panic (1/0+) where the generated one reports a syntax error. Proved: same values, same syntax, same panics on well-formed input in builds with overflow checks; and in every build the exact difference on well-formed texts: the generated parser panics, or gives the same value, according to whether some number in the text does not fit in an i64 (C47_values_exact, C47_panics_exact).
* **C48** (proved) JSON surrogate pairs. All pairs, by arithmetic.
* **C49** (partial) JSON unicode escapes decode to the denoted character. False; witness and exact behaviour.
  The full statement is false of the code: parse_u16 multiplies instead of adding, so every escape is NUL (C49_counterexample, C49_all_nul). Proved for strings without \u escapes. C49_right_iff says exactly which strings are read right: those whose \u escapes are all \u0000.
* **C50** (partial) JSON strings round-trip. Induction; false for control characters.
  The full statement is false of the code: displaying a control character other than BS, FF, LF, CR, TAB panics (C50_display_panics). C50_display_panics_iff and C50_roundtrip_iff say exactly for which values displaying works and values are read back, if f64 reads numbers back.
* **C51** (partial) JSON whitespace is insignificant between tokens. White space insertion/removal relation; false in empty arrays and objects.
  The full statement is false of the code: white space in an empty array or object is rejected (C51_counterexample). Proved for all other white space. C51_accepts_iff: a document is accepted exactly if no empty array or object in it contains white space (if f64 reads all JSON numbers).
* **C52** (proved) Names of converted and reduced expressions. Induction; names tracked through all stages.
* **C53** (proved) Generated types are finite. Rank argument on the table.
* **C54** (proved) Language of the hand-written JSON parser. Document specification `JsonSpec`; induction.
* **C55** (proved) Error messages are truthful. Viable prefix property of the reference parser; induction on fuel.
  C55_needs_matching_parts shows that the assumption on fix points is needed; C55_expected_incomplete that the list of expected characters need not be complete.
* **C56** (proved) Language of the generated JSON parser. The grammar is compiled by the model inside the kernel; the values of the generated types are shown to be exactly the trees of documents (`JsonSpec`), and the conversion of such a tree is shown to be the value of the document; induction over documents and over trees.
  The generated parser is the one the model of the compiler produces from the grammar in chomp-bench/src/json/nibble.rs, evaluated in the kernel; the conversion From<Ast> is modelled arm by arm and the names it uses are compared with those of the model's table.
* **C57** (partial) The two JSON parsers agree. Both parsers against the same documents; a text is the text of at most one document (induction on pairs of documents), which gives an exact characterisation of the texts that both accept.
  The full statement is false of the code (C57_counterexample: non-ASCII strings, white space in empty arrays, non-RFC numbers, \u escapes). C57_both characterises exactly the texts both accept; proved: same outcome on common documents without \u, and same value on every text without \u that both accept. C57_agree_iff says exactly on which texts both give the same value.
* **C58** (proved) Type errors are truthful and raised exactly for conflicts. Conflicts are defined on strings matched by the parts (`Gram/Conflict`). Errors imply conflicts: induction over inference with the invariants that assumed types claim only what happens, that usable variables match a non-empty string, and that guarded variables are reached from their own bodies by left steps. Accepted implies no conflict: every place of a typable expression is typable.
  The hypothesis that fix points match something is needed: C58_unproductive_counterexample. Spans of operators are part of the statement.
* **C59** (proved) The order of evaluation does not matter. Standardisation (`Ast/Standard`, after Kashima): every sequence of contractions can be rearranged into a standard one; a standard sequence to a settled expression starts with what the reducer does. Errors by the same theorem: a stuck active call stays stuck.
  Expressions up to names and spans; contractions are those of the textbook calculus in Ast/Core.
* **C60** (proved) Errors point into the program. `NE.Spans` (every span of the expression satisfies a predicate for its kind) is preserved by renaming, substitution and reduction and established by conversion (`Ast/Spans`); inference only reports spans of what it visits. `Props/Outline`: conversion as a map of outlines.
  A single-element list takes over the span of the construct around it (a labelled alternative, a goal), as in the code.
* **C61** (proved) LALRPOP arithmetic parser. Lexer (longest match, white space skipped) and derivations of the grammar as data; from derivations to expressions of `ArithSpec` and back by mutual induction, with evaluation of the actions.
  LALRPOP itself is replaced by its specification: the outcome is that of a derivation of the tokens; C61_unique shows that there is at most one.
* **C62** (proved) LALRPOP JSON parser. Same method, against the documents of `JsonSpec`; the action that decodes strings against `decodeJson`; unambiguity by induction on pairs of derivations.
  LALRPOP itself is replaced by its specification. C62_more_than_rfc: two texts that RFC 8259 does not allow are accepted.
* **C63** (partial) Emitted code compiles. Emitted items as data (`RItem`), checks of the compiler as `RProg.Compiles`; names of types end in a digit, fields and variants by provenance (`gen_fields`), finiteness and aliases from C53.
  The full statement is false of the code: clashing names give programs with a type, or a field, defined twice (C63_type_clash, C63_field_clash). C63_compiles_iff: such clashes are the only reason for which an emitted program does not compile. C63_compiles_partial: none if no converted name ends in a digit or is one of the default names. C63_small: small programs compile also if names end in digits.
* **C64** (proved) Emitted code does what the grammar says. Interpreter for emitted items that resolves every name in the program; simulation between the program and the table (induction on fuel); values of the emitted types are in bijection with the values of the table.
  For programs that compile (see C63). The language is that of the grammar under NoSharingConflict, without which the tables themselves are wrong (C36); the other statements hold without.
* **C65** (proved) Messages of parse errors. `Display` of the errors as functions to texts (`Chewed/Text.lean`); unique decodability of escapes, quoted strings, numbers and lists by induction; positions by C35; the shown literals against a small grammar of Rust literals (`Props/Quote.lean`).
  C65_printed_position is under the condition of C36 (NoSharingConflict), like C35.
* **C66** (proved) Messages of compile errors. `Display` of the errors of all stages (`Driver/Text.lean`); the texts are decoded case by case; truth by C59 (evaluation order), C10 (scoping) and C29.
  C66_guarded_name_counterexample records that the name in a guarded-variable message can be that of an enclosing let.
* **C67** (proved) Command-line programs and macro. The `main` functions and the macro as functions of what was read (`Driver/Model.lean`), with the operating system, `proc_macro2`, `syn` and printing as parameters (`World`); case analysis with C14, C22, C38, C43; agreement by C20 (reduction and inference ignore names) and C44.
  C67_same_parsers is for emitted programs that compile and under the condition of C36.
* **C68** (proved) The grammars of the repository. The texts of the test grammars (`Grammars/TestTexts.lean`) and the tokens of the others are lexed, parsed, converted, reduced, typed and translated by the model inside the kernel, for the large ones in stages (`Grammars/Reify.lean`, `Grammars/TestTyped.lean`); C63 and C64 give the emitted program; the languages by induction over the least fix points, against inductive definitions (`Exp`, `SeqOf`) that do not mention grammars.
  Case conversion of names as in heckCasing (ASCII); the kernel evaluates the compiler on the eight fixed grammars, the theorems quantify over all texts given to the emitted parsers.
* **C69** (proved) Equality of expressions. `NE.eqv` (`Ast/Model.lean`) against structure (`NE.erase`) and the list of binders; mutual induction. Consequences by C09 and C20; the front ends by C44.
  Transitivity holds among expressions whose binders all have, or all lack, a span (those of one front end); C69_not_transitive shows that it fails across.
* **C70** (proved) Laws of the algebra. The laws and their closure under contexts (`Ast/Refactor.lean`) against the declarative typing rules and the least-fix-point languages (`Gram/Laws.lean`): each law preserves both, and commutes with every evaluation step (simulation). C59 transfers this to the reducer, C24 to inference, C30 to parsers.
* **C71** (proved) Definitions and functions may be expanded. Interconvertibility (`Core.Conv`) is the equivalence generated by expansion steps at any place; parallel steps and complete developments give confluence (`Ast/Confluence.lean`), so that two interconvertible programs have a common expansion; a grammar has no more steps. C59 transfers this to the reducer, C20 to inference, C30 to parsers.
* **C72** (proved) Every generated type is a parser of its part. Parts of a grammar and their languages are specified on grammars only (`Gram.PartOf`, `Gram.partLang`). The bisimulation between table and typed expression of C36 is followed along dependencies and along occurrences; parts of annotated expressions are annotated, so that soundness, completeness and termination of the reference parser apply to each.
* **C73** (proved) Definitions and parameters may be renamed. Alpha-equivalence of named expressions as an inductive relation with the pairs of bindings in scope; equivalence with equality of the nameless expressions by induction in both directions; C71 for the later stages.
  C73_renaming_changes_parser: renaming a parameter b to a, consistently, changes what the emitted parser accepts, because names take part in the comparison of fix points.
* **C74** (proved) Generated code does not depend on the hash map. Code generation with an arbitrary lookup function that only satisfies the contract of `HashMap::get` (finds an equal key if there is one) at every fix point; equality is transitive among names of one front end, and an invariant of the passes (`NE.Spine`, `TE.Inner`: only the unused root name is of the other sort) gives independence by induction.
* **C75** (proved) Size of the emitted program. A weight of the table of types, bounded by induction over code generation; C38 carries the bound over to the emitted program.
* **C76** (proved) take takes the longest match with one character of lookahead. Locality of `run` gives the lookahead statement for any table; longest match forward by running the longer word, backward by an induction over the reference parser with viability (no empty fix points) in place of the follow condition of C34.
* **C77** (proved) Any Parser, any iterator, endless input. The generated code again, over an arbitrary `Parser` (`Lower/Trait.lean`, an instance of which is proved equal to the model on texts); a simulation between a parser that obeys the contract and long enough beginnings of its input; an invariant for `IterWrapper` over any fused iterator; C33, C55 and C76 for the rest.
* **C78** (proved) Parts of a program may be replaced by equivalent ones. Replacing closed evaluated parts commutes with beta/let steps (`Ast/Swap.lean`); typing is monotone in the types of parts and variables, fix points by running the inference loop below the old type (`Gram/Swap.lean`); types of the parts follow their languages by exactness (C25); confluence for parts that still have to be evaluated.
* **C79** (proved) Texts of expressions. The text is that of a tree of words, brackets and separators; unique readability by induction on the tree with what may follow an expression; conversion gives every variable the name of its binder (mutual induction over the syntax).
* **C80** (proved) Cost of type inference. Inference with a counter (`Props/Cost.lean`), proved to be the same inference; bound by induction with the number of rounds of C22; lower bound for a family of accepted expressions.
* **C81** (proved) Emitted parsers are right about their own types, whatever was shared. `gen` keeps an invariant (`Lower/TableTy.lean`, `TableGen.lean`): the entries can be typed consistently, equal fix point bodies get equal first sets (though not equal languages), and what is left-reachable from an open fix point has its first set; hence left calls are well-founded (`TableWf.lean`). Any table that is so typed and ranked parses its own values (`Lower/Sys.lean`, `SysRun.lean`); if all its types have values, first sets are exact, by induction on the ranks, and with them errors and what is taken (`SysExact.lean`).
* **C82** (proved) How large programs get when definitions are expanded. The size of an expansion is the value of the program in an algebra that interprets `let` as application (`sizeAlg`), invariant under contraction; bounded by induction. The families are evaluated with the small-step relation and C59 (every order of contraction gives the result of `Reduce`); `infer` and `gen` on the results by induction. `Props/Expand.lean`.
* **C83** (proved) The emitted tokens are exactly the program. A second, literal model of the backend (`Lower/TokenBackend.lean`) in which a type is its name tokens, its definition tokens and its dependencies, as in the code; simulation with `gen` (`BState.render`, `Lower/TokenSim.lean`). A reader of tokens with its own constants (`Lower/TokenRead.lean`), shown to invert the templates (`Lower/TokenLemmas.lean`) and to accept nothing else (`Lower/TokenExact.lean`). `Props/Tokens.lean`. Hygiene: every identifier of a rendered program is collected by induction on the items and ends in a digit, is `Ast` or is a constant of the templates (`Props/TokenNames.lean`); with the model of the driver (C67) in `Props/TokenDriver.lean`.
* **C84** (proved) Syntax errors. The parsers once more on tokens with places (`Nibble/Spanned.lean`), with errors and `syn`'s record of left-over tokens. Beginnings of programs are defined by the parser of C14 alone (`CanContinue`); a counter automaton that decides them (`Nibble/Scan.lean`) is followed by the parser (`Nibble/ScanSim.lean`; with skipping of left-over tokens `Nibble/SkimSim.lean`). Agreement with C14's parser and termination in `Nibble/SpannedSim.lean`. Places: a grammar of placed trees (`PStmt` in `Props/SynPlaces.lean`), combined with C60.
* **C85** (proved) From the names in a program to the names in the emitted code. `heck`'s `transform` on ASCII identifiers as a function on lists (`Lower/Heck.lean`); what it keeps by induction on its loop, the facts about single letters by a kernel computation over the 128 ASCII characters (the whole domain); then C39, C40, C43, C52 and C63. Nothing is assumed about the conversion of other names (`Casing.LikeHeck`). `Props/Heck.lean`.
* **C86** (proved) Errors of the hand-written benchmark parsers. Locality: the outcome of every function of the parsers depends only on what it read and the next character (`Local`, `JLocal`), proved by combinators and induction on fuel; errors of an item that are replaced by later ones (`afterwards`) keep this. Expected characters of the arithmetic parser by an induction that exhibits a completion for every character of a list (`Unexp`), and C46 for the converse. `Bench/ArithErr.lean`, `Bench/JsonErr.lean`, `Props/ArithErr.lean`, `Props/JsonErr.lean`.
* **C87** (proved) The hand-written benchmark parsers run on any Parser, in linear time. `Bench/HandTrait.lean` models the parsers and the default methods over an arbitrary `Parser` (`PImpl`), with explicit bounds on loops. A simulation (`SimC`) with the model on texts that also carries a potential (calls so far, plus a constant for each character left); contracts: `ReadsText`, and for iterators a relation of states of `IterWrapper`s. Nesting by counting opening brackets (`Bench/JsonDepth.lean`).
* **C88** (proved) What the unit tests of the project check, in general. Direct computation in the model; C16 for the substituted expression; induction on lists of elements. The tests themselves are examples beside the theorems. `Props/UnitTests.lean`.
* **C89** (proved) Errors are reported as early as possible. A computable check for fix points that match nothing (`Gram/Productive.lean`), exact by induction on the grammar; C55 for the places of errors; that parsers agree on texts with a common beginning for the lower bound; the readers of the benchmarks (C47, C56) and of autonibble (C44) for their languages; the late error of autonibble by running the generated parser in the kernel and by inverting the texts of programs. `Props/Earliest.lean`.
* **C90** (proved) What can be said in autonibble. The tokens of a laid out program (C44) read backwards: a layout with a blank between all tokens and every character of a literal as `\u{…}` is constructed by induction on the syntax tree; for the converse the identifiers and literals of the syntax of autonibble are inspected. For expressiveness every name is spelled with letters and every empty literal written as ε; renaming keeps the meaning (C73), and a literal that is replaced by ε keeps the program accepted and its language (C78). `Props/AutoAll.lean`.
* **C91** (proved) The layout of autonibble programs. A layout relation on tokens and characters, separate from the grammar (`Laid`); by induction on the syntax of autonibble every text of the grammar is laid out so, and by induction on the program every such layout is a text of the grammar; C44 for the outcome. The rejected text by running the generated parser in the kernel. `Props/AutoLayout.lean`.
* **C92** (proved) Spaces in arithmetic expressions. On the tokens of LALRPOP's lexer: the tokens of a text split outside of a number are those of the parts, by induction on the length; an invariant of the grammar (no two numbers in a row) excludes spaces between digits. Transferred to the other parsers by C61 and C46.
* **C93** (proved) Several values on one input. C76 (what one call takes), C28 and C34 give an exact description of one call; induction on the list of trees. For lists C07 is instantiated with it.
* **C94** (proved) Writing and reformatting JSON documents. By induction on the value the written text is that of a document with exactly that value under every decoder that is right about plain characters; C54, C56 and C62 describe what the parsers do with documents, unique reading (C57) gives the converse. Layout: `strip` removes the white space of a document.
* **C95** (proved) Acceptance without recursion is determinism of the languages. `Props/Determinism.lean`: `Gram.Det` is stated with languages only (`Lang.Continues`, `Lang.Starts`). By induction on the grammar a type exists iff it is deterministic, and every derivable type is exact (`Ty.Exact.seq`, `Ty.Exact.union`); transferred to the algorithm by C24. For lists of words the condition is computed (`detAlt_words`).
* **C96** (proved) Which languages can be described without recursion. `Props/Finite.lean`: a trie of the words is a deterministic grammar (`gram_of_words`, by induction on the number of characters; `branches`), which by C95 is accepted, and by C37/C30 compiled to a parser of exactly its language; the converse by induction on the grammar (`finite_gram`) and exactness of types.
* **C97** (proved) Every regular language can be described. `Props/Regular.lean`: one fix point per state, nested along the paths of the automaton, variables for the states on the path (`Dfa.gram`). Language: upper bound by the least-fix-point property, lower bound by induction on the number of states off the path and, inside, on the length of the word. Types: with a total transition function every state has the type (accepting?, alphabet, alphabet), independently of the path; C24 gives acceptance. Each body also carries its path, written with parts that match only the empty text (`markOf`), so no two fix points are equal (`Dfa.fixes_nodup`) and code generation identifies none (`Lower/DistinctFix.lean`).
* **C98** (proved) Every regular expression has a parser. `Props/RegExp.lean`: matching is an inductive relation. The partial derivatives of an expression are among finitely many expressions (`Re.univ`), so their sets are the states of an automaton (`Re.dfa`); a word is accepted from a set exactly if some member matches it, by induction on the word; C97.
* **C99** (proved) Every regular expression can be written as a program. `Props/Written.lean`: the grammar is printed as a program with the identifiers `x`, `xx`, … for the fix points (`Gram.term`); the tree is one the parser produces (C14), each lookup finds its own fix point, the conversion erases to the grammar (`Gram.term_conv`), which is settled, so that reduction returns it (C21). A text with these tokens exists by C90. Applied to the automaton of C98. Converse (`Props/WrittenExact.lean`): conversion gives concatenations and alternatives of two parts or more, and substitution and contraction keep that.
