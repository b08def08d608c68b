{"id": "C01", "title": "Character stream fidelity", "statement": "For an IterWrapper over any text, any interleaving of peek() and next() makes the next() calls return exactly the characters of the text in order and then None for ever; every peek() returns what the following next() would return and changes neither the position nor any later result.", "quantifier": "all texts and all finite sequences of peek/next calls", "why_tests_cant": "the interleavings and texts are unbounded", "anchors": ["chewed/src/parse.rs:IterWrapper::next", "chewed/src/parse.rs:IterWrapper::peek", "chewed/src/parse.rs:IterWrapper::new"]}
{"id": "C02", "title": "Reported position is the position of the text consumed so far", "statement": "After consuming a prefix of the text, pos() is the one-indexed line and zero-indexed column of the end of that prefix, where LF, VT, FF, NEL, LS, PS, a lone CR and a CR LF pair each end exactly one line.", "quantifier": "all texts, all prefixes, all interleavings of peek", "why_tests_cant": "line-ending combinations and texts are unbounded", "anchors": ["chewed/src/parse.rs:IterWrapper::next", "chewed/src/position.rs:LineCol"]}
{"id": "C03", "title": "consume_str succeeds exactly on a matching prefix", "statement": "consume_str(s) returns Ok iff the remaining text starts with s, and then exactly the characters of s have been consumed.", "quantifier": "all strings s and all stream states", "why_tests_cant": "unbounded strings and inputs", "anchors": ["chewed/src/parse.rs:Parser::consume_str"]}
{"id": "C04", "title": "consume_str failure report", "statement": "When consume_str(s) fails, exactly the longest common prefix of s and the input has been consumed; the error is EndOfStream at the current position if the input is exhausted and otherwise BadString carrying that position, the matched prefix followed by the offending character, and s. It never panics.", "quantifier": "all strings s and all stream states", "why_tests_cant": "unbounded strings, including multi-byte ones", "anchors": ["chewed/src/parse.rs:Parser::consume_str", "chewed/src/error.rs:TakeError"]}
{"id": "C05", "title": "skip_while and take_chars_from", "statement": "skip_while(f) consumes exactly the longest prefix all of whose characters satisfy f; take_chars_from(set, buf) succeeds iff the next buf.len() characters exist and all lie in set, filling the buffer with them in order; otherwise it fails at the first character not in the set or at the end of the input, with the position after that character or one column behind the end.", "quantifier": "all predicates, sets, buffer lengths and stream states", "why_tests_cant": "unbounded inputs and predicates", "anchors": ["chewed/src/parse.rs:Parser::skip_while", "chewed/src/parse.rs:Parser::take_chars_from"]}
{"id": "C06", "title": "parse accepts only complete inputs", "statement": "parse succeeds with a value iff take succeeds with that value and leaves no input; when take succeeds with input left over, the result is InputContinues at the position of the first unconsumed character; a take error is passed through.", "quantifier": "all Parse implementations and inputs", "why_tests_cant": "unbounded inputs and implementations", "anchors": ["chewed/src/parse.rs:Parse::parse", "chewed/src/error.rs:ParseError"]}
{"id": "C07", "title": "iter_strict reads exactly a separated list", "statement": "Collecting iter_strict(item, sep, stop, ..) succeeds with [x1..xn] only if the input consumed is the item texts joined by single separators, and the iteration stops in front of the stop character (not consumed) or before any item at end of input; a trailing separator is always an error; the first item error is never lost, but reported only if a separator and the beginning of an item or the stop character follow: otherwise the error is about what follows.", "quantifier": "all item parsers, separators, stop characters and inputs", "why_tests_cant": "unbounded lists and item parsers", "anchors": ["chewed/src/parse.rs:Parser::iter_strict", "chewed/src/parse.rs:Iter::next"]}
{"id": "C08", "title": "Name merging picks the leftmost highest-priority name", "statement": "Merging any sequence of optional names yields None iff all are None, and otherwise the earliest name of the highest kind present (label over let over variable); merging is associative with None as unit.", "quantifier": "all sequences of optional names", "why_tests_cant": "unbounded sequences", "anchors": ["src/chomp/name.rs:Name::merge", "src/chomp/name.rs:Name::merge_all", "src/chomp/name.rs:Kind"]}
{"id": "C09", "title": "Name content equality is an equivalence compatible with hashing", "statement": "Equality of name contents (with or without source spans, raw or not) is reflexive, symmetric and transitive, and equal contents hash equally.", "quantifier": "all pairs and triples of name contents", "why_tests_cant": "infinitely many names", "anchors": ["src/chomp/name.rs:Content"]}
{"id": "C10", "title": "Conversion succeeds exactly for well-scoped programs", "statement": "Converting a parsed nibble program succeeds iff every identifier used is declared by an enclosing lambda/let parameter or an earlier let; otherwise it fails with UndeclaredName for the first undeclared identifier in source order.", "quantifier": "all nibble programs", "why_tests_cant": "unbounded program depth and nesting of scopes", "anchors": ["src/nibble/convert.rs:Convert", "src/nibble/convert.rs:Context", "src/nibble/convert.rs:ConvertError"]}
{"id": "C11", "title": "Identifiers resolve to the innermost binding", "statement": "In a converted program every variable's index denotes the innermost enclosing binder with the same name; shadowed outer binders are never selected.", "quantifier": "all programs and all nestings of binders", "why_tests_cant": "unbounded nesting and shadowing", "anchors": ["src/nibble/convert.rs:Context::lookup"]}
{"id": "C12", "title": "Converted programs are closed", "statement": "The expression produced from a complete program has no free variables, and an expression converted under n bindings only refers to those n bindings.", "quantifier": "all nibble programs", "why_tests_cant": "unbounded programs", "anchors": ["src/nibble/convert.rs:Convert"]}
{"id": "C13", "title": "Scopes are restored", "statement": "Converting an expression leaves the binding context exactly as it was, whether conversion succeeds or fails; converting a whole program only adds the let names it passed, in order.", "quantifier": "all contexts and programs including failing ones", "why_tests_cant": "unbounded nesting; failure can occur anywhere", "anchors": ["src/nibble/convert.rs:Context::with_variables", "src/nibble/convert.rs:Context::with_variable", "src/nibble/convert.rs:Context::push_variable"]}
{"id": "C14", "title": "Nibble syntax round-trips through tokens", "statement": "Printing any nibble syntax tree to tokens and parsing the tokens gives back the same tree, with all input consumed.", "quantifier": "all nibble syntax trees the parser can produce", "why_tests_cant": "unbounded trees", "anchors": ["src/nibble/mod.rs:Parse impls", "src/nibble/mod.rs:ToTokens impls"]}
{"id": "C15", "title": "Substitution is capture-avoiding", "statement": "Substituting an expression for the variable with index k replaces exactly the occurrences that denote that binder, adjusts the other indices so that every other variable keeps denoting the same binder, and never captures a free variable of the substituted expression.", "quantifier": "all expressions, indices and substituted expressions", "why_tests_cant": "unbounded nesting of binders", "anchors": ["src/chomp/ast/substitute.rs:Substitute", "src/chomp/ast/substitute.rs:RenameVars"]}
{"id": "C16", "title": "Substitution does not disturb its argument or underflow", "statement": "Folding with a Substitute leaves its index and expression exactly as they were and never underflows an index.", "quantifier": "all expressions and substitutions", "why_tests_cant": "unbounded nesting; the restore is done by inverse renaming", "anchors": ["src/chomp/ast/substitute.rs:Substitute::with_args", "src/chomp/ast/substitute.rs:RenameVars"]}
{"id": "C17", "title": "Reduction only performs beta and let steps", "statement": "If Reduce succeeds, its result is obtained from the input by contracting function calls (simultaneous substitution of all arguments) and let statements only; arguments are passed by position.", "quantifier": "all expressions on which reduction returns", "why_tests_cant": "unbounded higher-order expressions", "anchors": ["src/chomp/ast/substitute.rs:Reduce"]}
{"id": "C18", "title": "Reduced expressions contain no pending calls or lets", "statement": "A successfully reduced expression contains no call and no let anywhere outside the body of a lambda that is not directly under a fix point, and reducing it again changes nothing.", "quantifier": "all expressions on which reduction returns", "why_tests_cant": "unbounded expressions", "anchors": ["src/chomp/ast/substitute.rs:Reduce"]}
{"id": "C19", "title": "Reduction preserves closedness", "statement": "Reducing an expression whose free variables are below n yields an expression whose free variables are below n.", "quantifier": "all expressions", "why_tests_cant": "unbounded expressions", "anchors": ["src/chomp/ast/substitute.rs:Reduce"]}
{"id": "C20", "title": "Reduction ignores names and spans", "statement": "Two expressions that differ only in names and spans reduce to expressions that differ only in names and spans, or fail alike.", "quantifier": "all pairs of expressions equal up to names and spans", "why_tests_cant": "unbounded expressions", "anchors": ["src/chomp/ast/substitute.rs:Reduce", "src/chomp/ast/mod.rs:NamedExpression::eq"]}
{"id": "C21", "title": "Reduction of every program terminates", "statement": "Reduce returns a result or an error on every program the front end accepts.", "quantifier": "all nibble programs", "why_tests_cant": "termination is not observable by testing", "anchors": ["src/chomp/ast/substitute.rs:Reduce::fold_call"]}
{"id": "C22", "title": "Type inference terminates", "statement": "Type inference returns a typed expression or a type error on every expression in every context.", "quantifier": "all expressions and contexts", "why_tests_cant": "the fix-point loop has no static bound", "anchors": ["src/chomp/typed/infer.rs:TypeInfer::fold_fix"]}
{"id": "C23", "title": "Accepted grammars satisfy the typing rules", "statement": "If inference succeeds, the result has the same shape as the input and is derivable in the declarative type system: heads of concatenations are non-nullable, flast/first sets of successive parts are disjoint, alternatives have disjoint first sets and at most one is nullable, fix points have the type of their body, and variables are only used after input has been consumed.", "quantifier": "all expressions on which inference succeeds", "why_tests_cant": "unbounded expressions", "anchors": ["src/chomp/typed/infer.rs:TypeInfer", "src/chomp/typed/context.rs:Context::get_variable_type"]}
{"id": "C24", "title": "Rejected grammars have no typing", "statement": "If inference fails then no assignment of types to fix points makes the expression derivable in the declarative type system; and on success the inferred type is the least one.", "quantifier": "all expressions and all type assignments", "why_tests_cant": "universal over infinitely many type assignments", "anchors": ["src/chomp/typed/infer.rs:TypeInfer::fold_fix"]}
{"id": "C25", "title": "Types describe the language", "statement": "For every accepted grammar: the empty string is matched iff the type is nullable; the first character of every matched string is in the first set; every character that can follow a non-empty matched string inside a longer matched string is in the flast set. If moreover every fix point of the grammar matches something, first and flast contain nothing else.", "quantifier": "all accepted grammars and all strings", "why_tests_cant": "infinite languages", "anchors": ["src/chomp/typed/mod.rs:Type::cat", "src/chomp/typed/mod.rs:Type::alt", "src/chomp/set.rs"]}
{"id": "C26", "title": "Inference restores its context", "statement": "Whether inference succeeds or fails, the variable stack and the guard stack of the context are afterwards exactly as before.", "quantifier": "all contexts and expressions including failing ones", "why_tests_cant": "failure can occur at any depth", "anchors": ["src/chomp/typed/context.rs:Context::with_unguard", "src/chomp/typed/context.rs:Context::with_variable_type"]}
{"id": "C27", "title": "Left recursion is rejected", "statement": "A fix point whose body can reach its own variable before consuming a character is never accepted.", "quantifier": "all expressions", "why_tests_cant": "unbounded nesting between binder and use", "anchors": ["src/chomp/typed/context.rs:Context::get_variable_type", "src/chomp/typed/infer.rs:TypeInfer::fold_cat"]}
{"id": "C28", "title": "Accepted grammars are unambiguous", "statement": "Every string has at most one syntax tree for an accepted grammar.", "quantifier": "all accepted grammars, all strings", "why_tests_cant": "infinite languages; ambiguity is undecidable in general", "anchors": ["src/chomp/typed/infer.rs:TypeInfer"]}
{"id": "C29", "title": "Fix points bind exactly the parameters of their lambda", "statement": "In an accepted fix point over a lambda, every variable is interpreted as the binder it denotes (a fix over a lambda with a parameter count other than one is rejected).", "quantifier": "all expressions", "why_tests_cant": "unbounded nesting", "anchors": ["src/chomp/typed/infer.rs:TypeInfer::fold_fix"]}
{"id": "C30", "title": "Generated parsers accept exactly the grammar's language", "statement": "For every accepted grammar in which fix points with equal bodies also have equal free variables (C36) and every input string, the generated parser's parse succeeds iff the string is in the language of the grammar.", "quantifier": "all accepted grammars without sharing conflict (see C36) and all strings", "why_tests_cant": "infinitely many grammars and strings", "anchors": ["src/lower/mod.rs:RustBackend", "chewed/src/parse.rs:Parse"]}
{"id": "C31", "title": "Printing a parsed tree gives back the input", "statement": "If a generated parser succeeds on an input, displaying the returned syntax tree yields exactly the consumed text.", "quantifier": "all grammars, all inputs", "why_tests_cant": "infinitely many grammars and inputs", "anchors": ["src/lower/mod.rs:RustBackend::gen_cat (Display)", "src/lower/mod.rs:RustBackend::gen_alt (Display)", "src/lower/mod.rs:RustBackend::gen_literal (Display)"]}
{"id": "C32", "title": "Parsing a printed tree gives back the tree", "statement": "Displaying any value of the generated syntax-tree type and parsing the text yields an equal value.", "quantifier": "all accepted grammars without sharing conflict (see C36), all syntax trees", "why_tests_cant": "infinitely many trees", "anchors": ["src/lower/mod.rs:RustBackend"]}
{"id": "C33", "title": "Generated parsers terminate", "statement": "The generated parser of an accepted grammar returns (or reports an error) on every finite input; its recursion depth and number of steps are bounded by a constant depending on the grammar times the input length plus one. It panics on no input if in every literal of the grammar only the last character is outside ASCII.", "quantifier": "all accepted grammars without sharing conflict (see C36), all inputs", "why_tests_cant": "termination on all inputs", "anchors": ["src/lower/mod.rs:RustBackend", "src/chomp/typed/context.rs"]}
{"id": "C34", "title": "take consumes a matching prefix and respects follow context", "statement": "For every accepted grammar without sharing conflict (C36; in general see C81), take on input w ++ rest, where w is in the language and the first character of rest (if any) cannot continue w according to the type, returns the tree of w and leaves exactly rest.", "quantifier": "all accepted grammars without sharing conflict (see C36), words and continuations", "why_tests_cant": "unbounded inputs", "anchors": ["src/lower/mod.rs:RustBackend::gen_alt"]}
{"id": "C35", "title": "Parse errors are reported where the input goes wrong", "statement": "When the generated parser of a grammar without sharing conflict (C36; in general see C81) fails, the characters before the reported position are a prefix of the input and no string of the language starts with those characters followed by the reported offending character (or, at end of input, the input itself is not in the language).", "quantifier": "all accepted grammars without sharing conflict (see C36), all inputs", "why_tests_cant": "unbounded inputs", "anchors": ["src/lower/mod.rs:RustBackend::gen_alt", "chewed/src/parse.rs:Parser::consume_str"]}
{"id": "C36", "title": "Code generation is faithful to the typed grammar", "statement": "The set of generated types, with sharing of equal sub-expressions, behaves on every input exactly like the typed expression it was generated from.", "quantifier": "all accepted grammars, all inputs", "why_tests_cant": "sharing maps depend on the whole generation history", "anchors": ["src/lower/mod.rs:RustBackend::gen_fix", "src/lower/mod.rs:RustBackend::gen_variable", "src/lower/mod.rs:RustBackend::gen_cat", "src/lower/mod.rs:RustBackend::gen_alt"]}
{"id": "C37", "title": "Code generation never indexes out of range", "statement": "Generating code for any accepted closed grammar never indexes outside the context or type table.", "quantifier": "all accepted grammars", "why_tests_cant": "unbounded nesting", "anchors": ["src/lower/mod.rs:RustBackend::gen_variable", "src/lower/mod.rs:RustBackend::emit_code"]}
{"id": "C38", "title": "Emitted code is complete and duplicate-free", "statement": "The emitted program contains the definition of every generated type reachable from the root exactly once, and of nothing else; emission terminates.", "quantifier": "all generated tables and roots", "why_tests_cant": "unbounded dependency graphs", "anchors": ["src/lower/mod.rs:RustBackend::emit_code"]}
{"id": "C39", "title": "Generated type names are distinct", "statement": "No two types defined in the emitted program have the same name.", "quantifier": "all accepted grammars and all user-chosen names", "why_tests_cant": "names are user controlled and unbounded", "anchors": ["src/lower/mod.rs:RustBackend::new_type_name"]}
{"id": "C40", "title": "Generated field and variant names are distinct", "statement": "Within a generated struct or enum no two fields (variants) have the same name.", "quantifier": "all lists of optional part names", "why_tests_cant": "names are user controlled and unbounded", "anchors": ["src/lower/mod.rs:RustBackend::name_parts_snake", "src/lower/mod.rs:RustBackend::name_parts_camel"]}
{"id": "C41", "title": "Equal sub-expressions share one generated type", "statement": "Two occurrences of the same literal, the epsilon, or the same concatenation/alternation of shared parts are generated as one type.", "quantifier": "all grammars", "why_tests_cant": "depends on the whole generation history", "anchors": ["src/lower/mod.rs:RustBackend::gen_epsilon", "src/lower/mod.rs:RustBackend::gen_literal"]}
{"id": "C42", "title": "Conversion to char returns the parsed character", "statement": "Whenever a generated type offers conversion to char, every value of it displays as exactly one character and converts to that character.", "quantifier": "all grammars and all values", "why_tests_cant": "unbounded nesting of alternations", "anchors": ["src/lower/mod.rs:RustBackend::gen_literal", "src/lower/mod.rs:RustBackend::gen_alt"]}
{"id": "C43", "title": "End-to-end correctness", "statement": "If a nibble program is converted, reduced, type checked and compiled without error and has no sharing conflict (C36), the emitted parser accepts exactly the strings of the language the source program means (functions applied to arguments, lexical scoping, ! as least fix point), which is also the language of the reduced program; on simply typed programs the compiler ends. The compiler panics only if a case-converted name is not an identifier, and rejects exactly the programs with an undeclared name with that error.", "quantifier": "all nibble programs without sharing conflict and all strings", "why_tests_cant": "composition of all stages on unbounded inputs", "anchors": ["src/main.rs", "chomp-macro/src/lib.rs"]}
{"id": "C44", "title": "autonibble agrees with the built-in front end", "statement": "For every text that the parser generated from nibble's own grammar accepts and whose Rust tokens the built-in front end accepts, converting the parse tree gives the same expression as the built-in front end (up to spans, and to the default name of the goal, which autonibble does not give), or the same error. The built-in front end accepts the tokens of such a text unless a function parameter is a Rust keyword.", "quantifier": "all texts", "why_tests_cant": "unbounded programs, nested to any depth", "anchors": ["autonibble/src/lib.rs:Convert impls"]}
{"id": "C45", "title": "autonibble literal escapes", "statement": "Every character escape accepted by the autonibble grammar decodes to the character it denotes, without panicking.", "quantifier": "all escapes", "why_tests_cant": "combinatorially many escapes", "anchors": ["autonibble/src/lib.rs:From<Escape1> for char"]}
{"id": "C46", "title": "Hand-written arithmetic parser computes the value of the expression", "statement": "parse_expr returns v on exactly those inputs that are arithmetic expressions with value v under left-associative evaluation with multiplication and division binding tighter.", "quantifier": "all strings", "why_tests_cant": "unbounded expressions", "anchors": ["chomp-bench/src/arith/mod.rs"]}
{"id": "C47", "title": "The arithmetic benchmark parsers agree", "statement": "On every input the hand-written arithmetic parser and the generated parser followed by evaluation accept the same inputs and compute the same value.", "quantifier": "all strings", "why_tests_cant": "unbounded expressions", "anchors": ["chomp-bench/src/arith/mod.rs", "chomp-bench/src/arith/nibble.rs"]}
{"id": "C48", "title": "JSON surrogate pairs", "statement": "decode_pair applied to a high and a low surrogate (in either order) yields the code point they encode, a valid scalar value above U+FFFF, and panics on anything else.", "quantifier": "all pairs of 16-bit values", "why_tests_cant": "2^32 pairs", "anchors": ["chomp-bench/src/json/mod.rs:decode_pair"]}
{"id": "C49", "title": "JSON unicode escapes decode to the denoted character", "statement": "The hand-written JSON parser decodes \\uXXXX to the code unit with hexadecimal value XXXX.", "quantifier": "all escapes", "why_tests_cant": "65536 escapes in any string context", "anchors": ["chomp-bench/src/json/mod.rs:parse_u16"]}
{"id": "C50", "title": "JSON strings round-trip", "statement": "Displaying any string value and parsing it with the hand-written JSON parser gives back the string; displaying never panics.", "quantifier": "all strings", "why_tests_cant": "unbounded strings", "anchors": ["chomp-bench/src/json/mod.rs:write_str", "chomp-bench/src/json/mod.rs:parse_str"]}
{"id": "C51", "title": "JSON whitespace is insignificant between tokens", "statement": "The hand-written JSON parser accepts arbitrary whitespace between any two tokens, in particular inside empty arrays and objects.", "quantifier": "all documents", "why_tests_cant": "unbounded documents", "anchors": ["chomp-bench/src/json/mod.rs:Value::take"]}
{"id": "C52", "title": "Names of converted and reduced expressions", "statement": "A labelled alternative carries its label as name whatever else names it, a let-bound expression carries the let's name, the goal is named Ast unless its expression has a name, and a label survives reduction. Every name in the compiled program is written in the source or is Ast.", "quantifier": "all nibble syntax trees, contexts and expressions", "why_tests_cant": "unbounded nesting of calls and lets between a label and the final expression", "anchors": ["src/nibble/convert.rs:Convert for Labelled", "src/nibble/convert.rs:Convert for LetStatement", "src/nibble/convert.rs:Convert for GoalStatement", "src/chomp/ast/substitute.rs:Reduce::fold_call"]}
{"id": "C53", "title": "Generated types are finite", "statement": "In the program emitted for an accepted grammar every cycle of type references goes through a Box and no type alias expands to itself, so the emitted types have finite size and the Rust compiler can resolve the aliases.", "quantifier": "all accepted grammars", "why_tests_cant": "unbounded nesting and sharing of fix points", "anchors": ["src/lower/mod.rs:RustBackend::gen_fix", "src/lower/mod.rs:RustBackend::gen_variable"]}
{"id": "C54", "title": "Language of the hand-written JSON parser", "statement": "On every text the hand-written JSON parser ends with a value, an error or a panic; it returns a value for exactly the texts of documents (RFC 8259 without white space in empty arrays and objects, and with anything the f64 parser takes for a number that starts like one), and the value is that of the document.", "quantifier": "all texts and all implementations of f64", "why_tests_cant": "unbounded nesting and sizes", "anchors": ["chomp-bench/src/json/mod.rs:Value::take"]}
{"id": "C55", "title": "Error messages are truthful", "statement": "If every fix point of an accepted grammar matches something and it has no sharing conflict (C36), an error of the generated parser points at the first place where the input stops being the beginning of a word: the text before the position is the beginning of a word of the language, with the offending character it is not; every character the error lists as expected can follow there, and an expected string can stand where it was looked for; at the end of input the input is a proper prefix of a word.", "quantifier": "all accepted grammars without sharing conflict whose fix points match something, all texts", "why_tests_cant": "infinitely many texts, unbounded nesting", "anchors": ["src/lower/mod.rs:RustBackend::gen_alt", "chewed/src/parse.rs:Parser::consume_str", "chewed/src/error.rs:TakeError"]}
{"id": "C56", "title": "Language of the generated JSON parser", "statement": "On every text the generated JSON parser followed by the conversion to Value ends with a value, an error or a panic; it accepts exactly the texts of RFC 8259 documents whose strings contain only ASCII characters and escapes, the value is that of the document (surrogate pairs may come in either order), and it panics exactly on accepted documents without a value (unpaired surrogate, or a number that is no f64).", "quantifier": "all texts and all implementations of f64", "why_tests_cant": "unbounded nesting and sizes", "anchors": ["chomp-bench/src/json/nibble.rs:nibble!", "chomp-bench/src/json/nibble.rs:From<Ast> for Value"]}
{"id": "C57", "title": "The two JSON parsers agree", "statement": "The hand-written and the generated JSON parser accept the same texts and give the same values.", "quantifier": "all texts and all implementations of f64", "why_tests_cant": "unbounded nesting and sizes", "anchors": ["chomp-bench/src/json/mod.rs:Value::take", "chomp-bench/src/json/nibble.rs:From<Ast> for Value"]}
{"id": "C58", "title": "Type errors are truthful and raised exactly for conflicts", "statement": "If every fix point of an expression matches something, type inference accepts it exactly when it stands for a grammar and has no conflict, in terms of the strings its parts match: no concatenation starts with a part that matches the empty string, no string matched by the front of a concatenation can be continued by a character with which the next part starts, no two branches of an alternation match the empty string or strings with the same first character, no variable is free, no fix point reaches itself without consuming input. When it is rejected, the error names the place and the kind of an actual conflict.", "quantifier": "all expressions", "why_tests_cant": "unbounded nesting; the errors are raised while the types of fix points are still approximations", "anchors": ["src/chomp/typed/infer.rs:TypeInfer", "src/chomp/typed/error.rs:TypeError", "src/chomp/typed/context.rs:Context::get_variable_type"]}
{"id": "C59", "title": "The order of evaluation does not matter", "statement": "Reduction succeeds exactly when some sequence of contractions of calls and lets, in any order and at any place, leads to an expression without a call or let left to evaluate. For accepted programs every such order leads to the same grammar; if the reducer reports an error or runs for ever, no order succeeds, and the reported call is one that evaluation must arrive at and that can never be contracted.", "quantifier": "all expressions and all orders of evaluation", "why_tests_cant": "infinitely many expressions and evaluation sequences", "anchors": ["src/chomp/ast/substitute.rs:Reduce", "src/chomp/ast/error.rs:ReductionError"]}
{"id": "C60", "title": "Errors point into the program", "statement": "Conversion keeps every span with the part it belongs to, each operator with the element behind it. Every error of the compiler is shown at a span of the program: conversion errors at the construct at fault, reduction errors at a call, conflicts in concatenations at a dot, conflicts between alternatives at a bar, other type errors at a construct; reduction never invents or mixes up spans.", "quantifier": "all programs", "why_tests_cant": "unbounded nesting; substitution moves parts through the program", "anchors": ["src/nibble/convert.rs:Convert", "src/chomp/ast/substitute.rs:Substitute", "src/chomp/ast/error.rs:ReductionError", "src/chomp/typed/error.rs:TypeError::span", "src/chomp/typed/infer.rs:TypeInfer"]}
{"id": "C61", "title": "LALRPOP arithmetic parser", "statement": "The parser that LALRPOP makes from the arithmetic grammar gives, for every text, exactly one outcome; it gives a value for exactly the texts of arithmetic expressions (with any white space between tokens) and the value is that of the expression under the usual precedence and left associativity. On texts whose white space is spaces it agrees with the generated parser and with the hand-written one.", "quantifier": "all texts, and both overflow modes", "why_tests_cant": "unbounded nesting and sizes", "anchors": ["chomp-bench/src/arith/lalr.lalrpop"]}
{"id": "C62", "title": "LALRPOP JSON parser", "statement": "The parser that LALRPOP makes from the JSON grammar returns a value for exactly the texts of JSON documents with that value, where white space is any Unicode white space, decimals may be missing after the point, the first digit of a \\u escape may be a plus sign, and surrogate pairs may come in either order. In particular it accepts all documents of RFC 8259 that have a value, with their value; it agrees with the generated parser wherever that gives a value or panics; and it agrees with the hand-written parser on documents without \\u escapes and without white space in empty arrays and objects.", "quantifier": "all texts and all implementations of f64", "why_tests_cant": "unbounded nesting and sizes", "anchors": ["chomp-bench/src/json/lalr.lalrpop"]}
{"id": "C63", "title": "Emitted code compiles", "statement": "The Rust program emitted for an accepted grammar passes the checks of the compiler that depend on the grammar: every type is defined, once, and of finite size; no alias is circular; no field or variant is declared twice; struct expressions give every field exactly once from bound variables, matches are exhaustive and name existing variants, and every conversion to char that is used exists.", "quantifier": "all accepted grammars and all case conversions of names", "why_tests_cant": "unboundedly many grammars, names and sizes of programs", "anchors": ["src/lower/mod.rs:RustBackend::emit_code", "src/lower/mod.rs:RustBackend::gen_cat", "src/lower/mod.rs:RustBackend::gen_alt", "src/lower/mod.rs:RustBackend::new_type_name"]}
{"id": "C64", "title": "Emitted code does what the grammar says", "statement": "Running the items of an emitted program that compiles, with every type, field, variant and variable found by its name: Ast::parse_str ends on every text and succeeds exactly on the words of the grammar; Display of the result writes the input; every value that can be built of the emitted types is displayed as a text that parses back to the same value; where char::from exists it gives the character that Display writes; errors and panics are those described in C33-C35 and C55.", "quantifier": "all accepted grammars whose program compiles, all texts and all values of the emitted types", "why_tests_cant": "unboundedly many grammars, texts and values", "anchors": ["src/lower/mod.rs:RustBackend::gen_literal", "src/lower/mod.rs:RustBackend::gen_cat", "src/lower/mod.rs:RustBackend::gen_alt", "src/lower/mod.rs:RustBackend::gen_fix", "src/lower/mod.rs:RustBackend::gen_variable", "src/lower/mod.rs:RustBackend::emit_code"]}
{"id": "C65", "title": "Messages of parse errors", "statement": "The printed text of a parse error determines the error: two different errors (kind, position, character or string found, characters or strings expected) never print the same. When a generated parser (of a grammar without sharing conflict, C36) rejects a text, the message starts with the line and column, in decimal, of a place where the text can no longer be continued to a sentence, and says that input ended exactly if the text ends there. Characters and strings are shown as Rust literals of them (quoted, escaped), an ordinary character as itself, and the message is always a single line.", "quantifier": "all parse errors; all accepted grammars and all texts they reject", "why_tests_cant": "infinitely many errors, with strings that may contain quotes, commas and digits", "anchors": ["chewed/src/error.rs:TakeError", "chewed/src/error.rs:ParseError", "chewed/src/position.rs:LineCol"]}
{"id": "C66", "title": "Messages of compile errors", "statement": "The message of a rejected program determines the kind of the error and the name, index or numbers it is about. Numbers of arguments in a message are those of a call at which evaluation can arrive and that cannot be evaluated; an undeclared name is the first one in the program; no message is about an empty construct, an unexpected call or an unexpected let; a variable is called unbound only below a fix point of a function of several parameters.", "quantifier": "all programs and all stages", "why_tests_cant": "unboundedly many programs; the message is computed after names and arguments have been moved by reduction", "anchors": ["src/nibble/convert.rs:ConvertError", "src/chomp/ast/error.rs:ReductionError", "src/chomp/typed/error.rs:TypeError", "src/chomp/typed/error.rs:VariableError", "src/chomp/name.rs:Name"]}
{"id": "C67", "title": "Command-line programs and macro", "statement": "chomp ends with code 0 exactly if its input is a program and all stages succeed, having written the emitted program and nothing else; otherwise it writes nothing to the standard output and exactly the message of the first failing stage to the standard error, with code 1, or panics because of a name whose case conversion is no identifier; it runs for ever exactly if reduction does. The macro expands to the program that chomp prints, or to a compile error with the same message, placed at a span of the program. autonibble does the same with its own parser; where both programs can read a text they end with the same code, and the parsers they print accept the same inputs.", "quantifier": "all inputs, all outcomes of reading and writing", "why_tests_cant": "unboundedly many inputs and outcomes of every stage", "anchors": ["src/main.rs:main", "autonibble/src/main.rs:main", "chomp-macro/src/lib.rs:nibble"]}
{"id": "C68", "title": "The grammars of the repository", "statement": "Each grammar that the repository contains (the test grammars sheep, ratata, regex, regex_fix and nibble_exp, the arithmetic and JSON grammars of the benchmarks and the grammar of autonibble) is accepted by all stages of the compiler, and the emitted program compiles and accepts exactly one language: baa, baaa, ...; non-empty sequences of ra and ta; a's followed by b's; a's separated by dots and spaces; the expressions of nibble described by nibble_exp; arithmetic expressions; JSON in ASCII; nibble programs.", "quantifier": "all input texts of the parsers of the eight grammars", "why_tests_cant": "each parser accepts infinitely many texts and rejects infinitely many; the tests only check that compilation succeeds", "anchors": ["tests/full/main.rs:chomp", "tests/full/nibble/nibble_exp.nb", "tests/full/nibble/sheep.nb", "tests/full/nibble/ratata.nb", "tests/full/nibble/regex.nb", "tests/full/nibble/regex_fix.nb", "chomp-bench/src/arith/nibble.rs", "chomp-bench/src/json/nibble.rs", "autonibble/src/lib.rs"]}
{"id": "C69", "title": "Equality of expressions", "statement": "Two expressions are equal (==) exactly if they have the same structure and the parameters and let names at the same places are equal; names and spans of the expressions themselves are ignored. Equality is reflexive and symmetric, and transitive among expressions of one front end; equal expressions fare alike in reduction and type inference. For every text that both front ends read, chomp and autonibble either produce equal expressions or both report an error (the assertion of the compare tests).", "quantifier": "all pairs and triples of expressions; all texts", "why_tests_cant": "unboundedly many expressions and texts; the tests compare five", "anchors": ["src/chomp/ast/mod.rs:NamedExpression", "src/chomp/ast/mod.rs:Cat", "src/chomp/ast/mod.rs:Alt", "src/chomp/ast/mod.rs:Lambda", "src/chomp/ast/mod.rs:Let", "src/chomp/name.rs:Name", "autonibble/tests/compare/main.rs:chomp", "autonibble/tests/compare/main.rs:autonibble"]}
{"id": "C70", "title": "Laws of the algebra", "statement": "Let a program be accepted, with every fix point over a function of one parameter. Rewriting it anywhere (also inside definitions, functions and arguments) with these laws gives a program that is accepted too, with the same language and an at least as precise type: alternation is commutative and associative and one branch is itself; concatenations may be flattened, grouped from the left, and one part is itself; a literal is the concatenation of its parts; _ is the empty literal and may be inserted in or removed from concatenations after another part; a fix point may be unfolded; concatenation distributes over alternation from the right. The parsers of both programs accept the same texts, if neither has a sharing conflict (C36). The laws left out are not preserved: \"a\" . \"b\" | \"a\" . \"c\", \"a\" . ((\"b\" | _) . \"c\") and _ . \"a\" are rejected.", "quantifier": "all programs, all sequences of rewritings at all places, all texts", "why_tests_cant": "unboundedly many programs and rewritings; each rewriting changes nullability, first and follow sets of all enclosing expressions and is copied by reduction", "anchors": ["src/chomp/typed/infer.rs:TypeInfer", "src/chomp/set.rs", "src/chomp/ast/substitute.rs:Reduce", "src/chomp/typed/mod.rs:Type"]}
{"id": "C71", "title": "Definitions and functions may be expanded", "statement": "Replacing a defined name by its definition, or a call of a function by its body with the arguments put in for the parameters, at any place of a program (also inside definitions and functions that are never used), and the reverse, never changes what the compiler does: evaluation succeeds for both programs or for neither; if one is accepted, so is the other, with the same grammar and types; the generated parsers accept the same texts and return the same trees, if neither program has a sharing conflict (C36). Together with the laws of C70, in any order and number, the language is preserved.", "quantifier": "all programs, all sequences of expansions and abstractions at all places, all texts", "why_tests_cant": "unboundedly many programs and rewritings; the reducer expands in one fixed order only", "anchors": ["src/chomp/ast/substitute.rs:Reduce", "src/chomp/ast/substitute.rs:Substitute", "src/chomp/ast/substitute.rs:RenameVars", "src/chomp/typed/infer.rs:TypeInfer"]}
{"id": "C72", "title": "Every generated type is a parser of its part", "statement": "Parse is implemented for every generated type, not only for the root. In a grammar without sharing conflict (C36; in general see C81) each type is the parser of one part of the grammar (below its fix points, with variables standing for these): parse_str ends on every text, accepts exactly the words of the part, returns its syntax trees, Display writes the parsed text, and every value that can be built of the type is parsed back from what Display writes. The types of the fields of a struct, the variants of an enum, the target of an alias and the content of a box are the parsers of the parts, branches, body and fix point, in order. Every part of the grammar has such a type.", "quantifier": "all accepted grammars (whose fix points with free variables do not clash, see C36), all their types and parts, all texts and values", "why_tests_cant": "unboundedly many grammars and parts; types are shared between parts", "anchors": ["src/lower/mod.rs:RustBackend::gen_literal", "src/lower/mod.rs:RustBackend::gen_cat", "src/lower/mod.rs:RustBackend::gen_alt", "src/lower/mod.rs:RustBackend::gen_fix", "src/lower/mod.rs:RustBackend::gen_variable", "src/lower/mod.rs:RustBackend::emit_code", "chewed/src/parse.rs:Parse"]}
{"id": "C73", "title": "Definitions and parameters may be renamed", "statement": "Two nibble programs convert to expressions of the same structure exactly if they are equal up to consistent renaming of let names and parameters (and labels, spans and parentheses), where shadowing counts: each identifier must refer to the same binding in both. Renaming consistently never changes whether a program converts (the same name is reported as undeclared), whether it is accepted, its grammar and types, or, if neither program has a sharing conflict (C36), what the generated parser accepts and returns. With a sharing conflict renaming one parameter can change what the parser accepts.", "quantifier": "all pairs of programs", "why_tests_cant": "unboundedly many programs and renamings, with shadowing and parameters of several functions", "anchors": ["src/nibble/convert.rs:Context", "src/nibble/convert.rs:Convert", "src/chomp/name.rs:Content"]}
{"id": "C74", "title": "Generated code does not depend on the hash map", "statement": "Types of fix points are looked up in a hash map whose keys' equality is not transitive in general (C09) and whose order depends on a random seed. For every program read by nibble's own parser or by autonibble, every possible behaviour of the map's lookups gives the same table of types, the same emitted code or the same error; equal keys have equal hashes. Only expressions that mix names of both parsers, which neither makes, would depend on the map.", "quantifier": "all programs of both front ends, all valid behaviours of the lookups at every step", "why_tests_cant": "the seed is random and a test sees one behaviour of the map; keys are arbitrarily large expressions", "anchors": ["src/lower/mod.rs:RustBackend::gen_fix", "src/chomp/typed/mod.rs:TypedExpression", "src/chomp/name.rs:Content"]}
{"id": "C75", "title": "Size of the emitted program", "statement": "The emitted program has at most as many types as the evaluated grammar has parts, and counting types with their fields and variants and the characters of literals (but not the character sets of match arms) it is at most twice as large as the evaluated grammar, plus one alias.", "quantifier": "all grammars for which code is generated", "why_tests_cant": "unboundedly many grammars; types are found again or added by three different tables", "anchors": ["src/lower/mod.rs:RustBackend", "src/lower/mod.rs:RustBackend::emit_code", "src/lower/mod.rs:GenerateCode"]}
{"id": "C76", "title": "take takes the longest match with one character of lookahead", "statement": "take of a generated type decides everything from the text it consumes and at most one further character: on every other input with the same beginning it does the same. If it succeeds, and the grammar has no sharing conflict (C36; in general see C81), it has taken a word of its part of the grammar such that no word of the part begins with it and the next character (so no longer match is missed), and if every fix point of the grammar matches some string it takes every such word; this holds for every generated type, not only the root.", "quantifier": "all compiled grammars, all generated types, all inputs and positions", "why_tests_cant": "quantifies over all grammars, inputs and continuations of inputs", "anchors": ["chewed/src/parse.rs:Parse", "chewed/src/parse.rs:IterWrapper", "src/lower/mod.rs:GenerateCode"]}
{"id": "C77", "title": "Any Parser, any iterator, endless input", "statement": "Generated types work with every implementation of Parser whose peek and next obey the obvious contract: they return the same tree, error or panic after the same characters as on the text, and the same positions if the implementation counts lines and columns. IterWrapper over any fused iterator is such an implementation, so parse then returns what parse_str returns for the collected text. On endless input take (of grammars without sharing conflict, C36) still returns exactly the longest match described in C76, errors are reported at the first character that cannot continue a word, and take runs forever exactly if the input never ends and every beginning of it is the beginning of a word. Iterators that are not fused break this.", "quantifier": "all implementations of the trait, all iterators, finite and infinite inputs, all compiled grammars", "why_tests_cant": "infinite inputs and arbitrary user implementations cannot be enumerated", "anchors": ["chewed/src/parse.rs:Parser", "chewed/src/parse.rs:IterWrapper", "chewed/src/parse.rs:Parse"]}
{"id": "C78", "title": "Parts of a program may be replaced by equivalent ones", "statement": "A part of a program that is accepted on its own may be replaced, anywhere in the program and also inside functions, arguments and definitions, by another accepted grammar with the same words: the program stays accepted (and unaccepted programs stay unaccepted), describes the same words with the same type, and the generated parsers accept the same texts if there is no sharing conflict (C36). If the new part only describes some of the words of the old part, the program stays accepted and describes only words it described before. The fix points of the replacement have to match something.", "quantifier": "all programs, all sets of parts of them, all replacements", "why_tests_cant": "quantifies over all programs and all pairs of equivalent grammars", "anchors": ["src/chomp/ast/reduce.rs", "src/chomp/typed/infer.rs:TypeInfer", "src/chomp/typed/mod.rs:Type"]}
{"id": "C79", "title": "Texts of expressions", "statement": "Two expressions whose names and literals are plain words, no literal being a name, have the same Display text exactly if they have the same structure, literals and names (spans, kinds of names and the indices of variables that carry names are not shown). If names mean what they say, the text determines the grammar; this is so for every converted program in which no label and no definition stands on a name alone. Without these conditions the text is ambiguous: literals are not quoted, and a variable that is given another name is shown as that name.", "quantifier": "all expressions, all programs", "why_tests_cant": "unique readability of texts of unboundedly nested expressions", "anchors": ["src/chomp/ast/mod.rs:Display for NamedExpression", "src/chomp/ast/mod.rs:Display for Expression", "src/chomp/name.rs:Display for Name", "src/nibble/convert.rs"]}
{"id": "C80", "title": "Cost of type inference", "statement": "Inferring the type of an expression visits at most size * (2L+2)^d expressions, where L is the number of its literals and d is how deep its fix points are nested; without fix points every subexpression is visited at most once. The cost is exponential in the nesting: d nested fix points around one literal take 2^(d+1)-1 visits.", "quantifier": "all expressions, in particular all depths of nesting", "why_tests_cant": "worst-case cost over expressions of unbounded size", "anchors": ["src/chomp/typed/infer.rs:fold_fix", "src/chomp/typed/infer.rs:TypeInfer"]}
{"id": "C81", "title": "Emitted parsers are right about their own types, whatever was shared", "statement": "Even for the grammars that code generation gets wrong (C36): parse_str of every type of the emitted program returns a value exactly if the input is the display of a value of that type, and that value; different values have different displays; take matches the longest possible display; errors are reported at the first character with which no value can continue; every parse ends, with recursion depth at most the number of types times the length of the input plus one and in linear time, and does not panic unless a literal has a multi-byte character before its last. If every emitted type has a value, take takes exactly the values that the next character cannot continue, errors list only characters and strings that are possible at the place of the error, and take runs forever only on endless inputs all of whose beginnings begin a value; all this on any implementation of Parser, not only IterWrapper.", "quantifier": "all accepted grammars, without any condition on sharing, all emitted types, all inputs, finite or endless", "why_tests_cant": "sharing makes cyclic tables that follow no grammar; absence of left recursion in all of them needs an invariant of code generation", "anchors": ["src/lower/mod.rs:gen_fix", "src/lower/mod.rs:gen_variable", "src/lower/mod.rs:RustBackend", "chewed/src/parse.rs:Parse"]}
{"id": "C82", "title": "How large programs get when definitions are expanded", "statement": "Expanding the definitions of a program without functions yields less than 2^(size) nodes, so less than 2^(2*tokens), and this is attained up to the factor in the exponent: `let x = \"a\"; let x = x . x; ... match x;` with n doublings has 7n+8 tokens and expands to 2^(n+1)-1 nodes, although the emitted program has only n+1 types. With functions the expansion can be doubly exponential and the emitted program exponential: `let f x = x . x; let f x = f (f x); ... match f \"a\";` has 9n+12 tokens, 2^(2^n+1)-1 nodes and 2^n+1 types. All of these programs are accepted.", "quantifier": "all programs without functions; for the lower bounds all n", "why_tests_cant": "asymptotic statement about programs of unbounded size", "anchors": ["src/chomp/ast/substitute.rs:Reduce", "src/chomp/ast/substitute.rs:Substitute", "src/nibble/convert.rs", "src/lower/mod.rs:RustBackend"]}
{"id": "C83", "title": "The emitted tokens are exactly the program", "statement": "For every accepted program code generation either panics because a name cannot be an identifier or writes exactly one sequence of tokens. Read as Rust these tokens are the items that C63 and C64 speak of, in the same order, with nothing added or missing; every program of C63 and C64 is written; the reader accepts nothing but such tokens up to the texts of doc comments, which do not matter. Names that are copied into definitions when they are written never become stale. The delimiters match. Hence the compiled tokens parse exactly the displays of their values, and, without a sharing conflict (C36), exactly the words of the grammar. Whatever the rules of the grammar are called, no name made from them is a keyword or hides something that the templates refer to. The program chomp succeeds with an output exactly if the input compiles to tokens of which the output is the text.", "quantifier": "all accepted programs, all case conversions of names, all doc comments", "why_tests_cant": "quantifies over all grammars; a test compares a few emitted programs", "anchors": ["src/lower/mod.rs:gen_literal", "src/lower/mod.rs:gen_cat", "src/lower/mod.rs:gen_alt", "src/lower/mod.rs:gen_fix", "src/lower/mod.rs:gen_variable", "src/lower/mod.rs:emit_code"]}
{"id": "C84", "title": "Syntax errors", "statement": "Parsing a program text always ends, with a program or a syntax error. The error is at a token of the text or at its end: leaving out tokens that are left over in parentheses (from a token that cannot follow the ones before it, where the parentheses could have been closed, up to the closing one), it is at the first token with which no program can continue, or at the end if the tokens begin a program but end too early; if only left-over tokens are wrong, it is at the first of them. All kinds of tokens that the error says were expected could have been there. So an error is at the first bad token, unless that token is left over in parentheses and there is a later error. Every construct of a parsed program has the place of exactly its own tokens; errors of conversion, reduction and type inference are at places of tokens of the program, about a concatenation at a dot and about alternatives at a bar.", "quantifier": "all sequences of tokens, all ways of placing them", "why_tests_cant": "needs the set of all programs that could continue a text", "anchors": ["src/nibble/mod.rs:Parse for Term", "src/nibble/mod.rs:Parse for Call", "src/nibble/mod.rs:Parse for Lambda", "src/nibble/mod.rs:Parse for LetStatement", "src/nibble/mod.rs:Parse for Statement", "src/main.rs"]}
{"id": "C85", "title": "From the names in a program to the names in the emitted code", "statement": "For a program whose names are ASCII identifiers: the names of the emitted types, fields and variants are identifiers and no keywords; the case conversions keep the letters and digits of a name in order, changing only their case and the underscores. If every name begins with a letter, underscores apart, the compiler does not panic; the label of `match \"a\" . \"b\" : n;` makes it panic exactly if it does not. If no name ends with a digit, underscores apart, and none is lit, cat, alt, fix, branch or part in any case and with any underscores, then whenever the compiler succeeds the emitted program compiles (and, without a sharing conflict, C36, accepts exactly the language of the source).", "quantifier": "all programs with ASCII names", "why_tests_cant": "quantifies over all names and programs; clashes and panics depend on the combination of names", "anchors": ["src/chomp/name.rs:CamelCase for Content", "src/chomp/name.rs:SnakeCase for Content", "src/lower/mod.rs:new_type_name", "src/lower/mod.rs:name_parts_snake", "src/lower/mod.rs:name_parts_camel"]}
{"id": "C86", "title": "Errors of the hand-written benchmark parsers", "statement": "Every error of the hand-written arithmetic parser is reported at a place such that no expression continues the text before it with the character after it (or with nothing, at the end). If it is about an unexpected character, the listed characters and the space are exactly those with which an expression can continue there; a missing parenthesis is reported with the character in its place. That the input continues is reported exactly behind a whole expression that the next character does not continue. Errors of the hand-written JSON parser are reported with the line and column of such a place and the character there, which is not among the expected ones, except that at the end of the input inside a string the column may be one too large and that for hexadecimal digits the position is behind the offending character; everything behind that character is irrelevant; that the input continues is reported behind a whole document. Neither parser need report the first error: `((1+)*)` is reported at the star and `[nul,]` at the bracket; and the characters that the JSON parser says were expected need not be possible: `[nul 1]` is said to lack a comma or bracket, and so is `[x`, although a document can begin with `[` and not with `[,`.", "quantifier": "all texts, both overflow modes, all implementations of f64", "why_tests_cant": "speaks about all possible continuations of a text; tests compare a few messages", "anchors": ["chomp-bench/src/arith/mod.rs:take_expr", "chomp-bench/src/arith/mod.rs:take_term", "chomp-bench/src/json/mod.rs:Parse for Value", "chewed/src/parse.rs:Iter", "chewed/src/parse.rs:take_chars_from", "chewed/src/parse.rs:consume_str"]}
{"id": "C87", "title": "The hand-written benchmark parsers run on any Parser, in linear time", "statement": "parse_expr and the hand-written JSON parser, run on any implementation of Parser that obeys its contract for a text, end as they do on the text itself: with the same value, the same error up to its position, or a panic; on an IterWrapper over any fused iterator that yields the characters of the text also the position is the same. If they end without a panic they have called next and peek at most 8k+7 and 9k+5 times for a text of k characters. Calls of take for JSON values are nested at most as deep as there are opening brackets and braces, plus one, and on k opening brackets they are nested k deep. On any Parser, also with endless input, skip_while consumes exactly the longest run of characters that satisfy the predicate and ends unless that run is endless, and take_chars_from returns the next characters or reports the first one that is not in the set, or the end.", "quantifier": "all implementations of Parser and iterators that obey the contract, all texts, all predicates and sets", "why_tests_cant": "quantifies over all implementations of a trait and bounds the cost for texts of unbounded size", "anchors": ["chewed/src/parse.rs:Parser", "chewed/src/parse.rs:Iter", "chomp-bench/src/arith/mod.rs:parse_expr", "chomp-bench/src/json/mod.rs:Parse for Value"]}
{"id": "C88", "title": "What the unit tests of the project check, in general", "statement": "The statements that the unit tests of the project check on single instances hold for all instances: renaming and substituting in the identity function applied to a variable touch the argument only, and exactly as they should, for all variables, depths and expressions substituted; reducing it yields the argument at the place of the call, with the name of the parameter if nothing else is named; inference turns a concatenation (an alternation) of n elements into one of n elements, in any context; a type that does not contain the empty text keeps what it can start with when anything is concatenated, and does not change at all when the empty text is.", "quantifier": "all variables, depths, names and spans; all concatenations, alternations and contexts; all types", "why_tests_cant": "the existing tests check one instance of each statement", "anchors": ["src/chomp/ast/substitute.rs:tests", "src/chomp/typed/infer.rs:tests", "src/chomp/typed/mod.rs:tests"]}
{"id": "C89", "title": "Errors are reported as early as possible", "statement": "The first error of a text that is not a word is the longest beginning of it that is also the beginning of a word; there is exactly one place for it. No generated parser reports an error before it. If every fix point of the grammar matches something, which is computed, the parser reports exactly the first error, so two grammars of one language, however they are written, report errors at the same places, and never later than a grammar of that language that does not meet the condition (there are such grammars: `\"b\" | !(/x/ \"a\" . x)`). The grammars of the arithmetic and JSON benchmarks meet it; the hand-written arithmetic parser reports errors at the same place or later. The grammar of autonibble does not: on `match \"\\u{111111aaaab` its parser reads past the seventh digit and complains that the b is not an a.", "quantifier": "all accepted grammars, all pairs of grammars of a language, all texts", "why_tests_cant": "quantifies over all texts and over all words that could continue them", "anchors": ["src/lower/mod.rs:RustBackend", "chewed/src/parse.rs:Parse", "autonibble/src/lib.rs:nibble!", "chomp-bench/src/arith/mod.rs:parse_expr", "chomp-bench/src/json/mod.rs"]}
{"id": "C90", "title": "What can be said in autonibble", "statement": "A program, as a list of tokens that chomp parses, can be written as a text that autonibble accepts exactly if its identifiers consist of ASCII letters, digits and underscores, a letter first, and its literals are not empty; raw identifiers, a leading underscore, other letters and the empty literal cannot be written. Nevertheless autonibble is as expressive as chomp: for every program that chomp accepts there is a text that autonibble accepts and that describes the same language. And it is not more expressive, although it accepts keywords as parameters: for every text that autonibble accepts and that describes a language there is a program that chomp accepts and that describes the same language.", "quantifier": "all programs and all texts", "why_tests_cant": "quantifies over all programs, and over all texts a program could be written as", "anchors": ["autonibble/src/lib.rs:nibble!", "autonibble/src/lib.rs:convert", "src/nibble/mod.rs:Statement", "src/nibble/convert.rs:Convert"]}
{"id": "C91", "title": "The layout of autonibble programs", "statement": "Autonibble accepts a text with the tokens of a given program exactly if the program can be said in autonibble and the text consists of the tokens in their order, characters of literals written as themselves or with one of the escapes, with white space anywhere around them, at least one white-space character between two adjacent terms or names (also where Rust needs none: `match \"a\"(_);` is rejected, `match \"a\" (_) ;` is accepted), and between match and a slash, and no comments. White space can be inserted at any place between two tokens. Two accepted texts with the same tokens have the same outcome: the same expression or the same error.", "quantifier": "all programs, all texts", "why_tests_cant": "quantifies over all texts with the tokens of a program and all places where white space could be", "anchors": ["autonibble/src/lib.rs:nibble!", "autonibble/src/lib.rs:convert", "src/nibble/mod.rs:Statement"]}
{"id": "C92", "title": "Spaces in arithmetic expressions", "statement": "Spaces can be inserted into and removed from an arithmetic expression at every place that is not between two digits, and none of the three parsers of the benchmark (generated by chomp, hand-written, LALRPOP) notices: both texts are accepted or neither, with the same value or the same panic (for the hand-written parser: the same value in builds that check for overflow). With a space between two digits no parser accepts. The generated and the hand-written parser accept no white space but spaces.", "quantifier": "all texts, all places in them, all numbers of spaces", "why_tests_cant": "quantifies over all texts and all places where spaces could be", "anchors": ["chomp-bench/src/arith/mod.rs:parse_expr", "chomp-bench/src/arith/nibble.rs", "chomp-bench/src/arith/lalr.lalrpop"]}
{"id": "C93", "title": "Several values on one input", "statement": "For a grammar whose fix points all match something: calling take of a generated type again and again on one input returns a list of trees exactly if the input is the texts of the trees one after the other, each of them as long as one character of lookahead shows it can be; if no word of the language is empty or goes on with the beginning of another, exactly if the input is a sequence of words, which is so in one way only. iter_strict with take as its item parser returns a list exactly if the input is the items with single separators between them and the stop character behind, leaves the stop character, always ends, and otherwise returns an error.", "quantifier": "all compiled grammars of that kind, all inputs, all separators and stop characters", "why_tests_cant": "quantifies over all grammars, all inputs and all numbers of values", "anchors": ["chewed/src/parse.rs:Parser::iter_strict", "chewed/src/parse.rs:Iter::next", "chewed/src/parse.rs:Take", "src/lower/mod.rs"]}
{"id": "C94", "title": "Writing and reformatting JSON documents", "statement": "A JSON value whose numbers are displayed as JSON numbers and whose strings can be displayed is written as a text that the hand-written and the LALRPOP parser read back as the same value; the generated parser reads it back exactly if its strings have only characters up to ~, and rejects it otherwise. Documents that are the same without white space are parsed to the same value, or panic together, by the generated parser and by LALRPOP's; in particular white space can be removed.", "quantifier": "all values, all documents, all layouts", "why_tests_cant": "quantifies over all values and all pairs of documents", "anchors": ["chomp-bench/src/json/mod.rs:Value", "chomp-bench/src/json/nibble.rs", "chomp-bench/src/json/lalr.lalrpop"]}
{"id": "C95", "title": "Acceptance without recursion is determinism of the languages", "statement": "A grammar without fix points is accepted exactly if one character of lookahead always suffices, stated about the matched strings only: the first part of every concatenation does not match the empty string, after a non-empty match of the earlier parts no character can both continue such a match and begin the next part, at most one branch of an alternation matches the empty string, and no two branches match strings with the same first character. The inferred type is then exact (nullable, first and flast are precisely the semantic sets). In particular a list of words is accepted exactly if no two words start alike: the user must factor common prefixes of keywords, and never has to restructure anything else.", "quantifier": "all expressions without fix points; all lists of words", "why_tests_cant": "Both directions range over all grammars and, in the notion of determinism, over all strings of (in general exponentially large) languages.", "anchors": ["src/chomp/typed/infer.rs:22-127", "src/chomp/typed/mod.rs:35-74"]}
{"id": "C96", "title": "Which languages can be described without recursion", "statement": "Every finite non-empty set of words has a parser: whatever the words (common prefixes, one a prefix of another, the empty word among them), there is an expression without fix points that is accepted and compiled, and the generated parser accepts exactly these words. Conversely the parser generated for any accepted expression without fix points accepts exactly the words of some finite non-empty set, so fix points are needed for everything else; with one there is also a parser that accepts nothing.", "quantifier": "all finite sets of words; all compiled expressions without fix points; all input texts", "why_tests_cant": "An existence claim over all sets of words, and a claim about every text for all expressions.", "anchors": ["src/chomp/typed/infer.rs:22-127", "src/chomp/typed/mod.rs:35-74", "src/lower/mod.rs:221-405"]}
{"id": "C97", "title": "Every regular language can be described", "statement": "For every deterministic finite automaton over a non-empty alphabet there is an expression that type inference accepts, that is compiled, and whose generated parser accepts exactly the words the automaton accepts: the restrictions on grammars (no left recursion, one character of lookahead) cost nothing for regular languages.", "quantifier": "all finite automata, all words", "why_tests_cant": "An existence claim over all automata, and an equality of two infinite sets for each.", "anchors": ["src/chomp/typed/infer.rs:22-147", "src/chomp/typed/mod.rs:35-74", "src/lower/mod.rs:380-405"]}
{"id": "C98", "title": "Every regular expression has a parser", "statement": "For every regular expression with alternatives, sequences and stars, however ambiguous (for example a star whose repetitions can also be continued by what follows it), there is an expression that type inference accepts, that is compiled, and whose generated parser accepts exactly the words the regular expression matches.", "quantifier": "all regular expressions, all input texts", "why_tests_cant": "An existence claim over all regular expressions, and an equality of two infinite sets for each.", "anchors": ["src/chomp/typed/infer.rs:22-147", "src/chomp/typed/mod.rs:35-74", "src/lower/mod.rs:221-405"]}
{"id": "C99", "title": "Every regular expression can be written as a program", "statement": "For every regular expression there is a text, which autonibble accepts too, whose tokens chomp parses as a program, that is converted and reduced without an error, and whose result is accepted by type inference and turned by code generation into a parser that accepts exactly the words the regular expression matches. More generally, every grammar without free variables whose concatenations and alternatives have at least two parts is, exactly as it is, the grammar of a program: no name is captured and nothing is rewritten on the way; if no literal is empty, it has a text that autonibble accepts. Conversely the grammar of every program that passes type inference is of this kind, so the grammars of accepted programs are exactly the typable closed ones whose concatenations and alternatives have at least two parts.", "quantifier": "all regular expressions and all input texts; all closed grammars", "why_tests_cant": "An existence claim over all regular expressions or grammars, through parsing, conversion, reduction, inference and code generation.", "anchors": ["src/nibble/mod.rs:22-313", "src/nibble/convert.rs:13-374", "src/chomp/ast/substitute.rs:271-402", "src/chomp/typed/infer.rs:22-147", "src/lower/mod.rs:221-405"]}
