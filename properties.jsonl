{"id": "C01", "title": "Regex to NFA preserves the language", "statement": "For every regex the compiler supports, `NFA::from_regex(&hir).simulate(s)` returns true exactly when the whole of `s` matches the regex.", "quantifier": "every supported regex HIR (any nesting of literal, class, ?, +, *, group, concatenation, alternation) and every string", "why_tests_cant": "Tests try a handful of regexes and strings; the regex and string spaces are both infinite and recursive.", "anchors": ["src/lex/nfa.rs: NFA::from_regex, NFA::compile, NFA::simulate"]}
{"id": "C02", "title": "Regex compilation fails exactly on unsupported constructs", "statement": "`NFA::from_regex` panics exactly when the regex contains an anchor, a word boundary, a counted repetition, or an empty sub-expression directly under a repetition, concatenation or alternation; on every other regex it returns an NFA.", "quantifier": "every regex HIR", "why_tests_cant": "Needs both directions for all HIR shapes.", "anchors": ["src/lex/nfa.rs: NFA::compile (todo!() arms, OptionUsize::unwrap)"]}
{"id": "C03", "title": "NFA adjacency is complete and in bounds", "statement": "In every NFA built from a regex, and in the combined lexer NFA, every stored state index is in bounds and walking a state's edge list (`edge_iter`) yields all the edges leaving that state, none missed and none foreign, so no index panic can happen while simulating.", "quantifier": "every supported regex / every list of token regexes, every state", "why_tests_cant": "The `first_edge` + contiguous block encoding silently loses edges if any construction step interleaves edges of two states.", "anchors": ["src/lex/nfa.rs: push_edge, edge_iter, shift_state_and_edges, lex_nfa_template", "src/lex/lex.rs: Lex::from_tokens"]}
{"id": "C04", "title": "Epsilon closure is exact, terminating and order independent", "statement": "`NFA::epsilon_closure(set)` terminates on every NFA, including ones with epsilon cycles, returns exactly the states reachable by epsilon edges, and the result does not depend on the hash-iteration order of the input set.", "quantifier": "every NFA with in-bounds indices, every input set and every iteration order of it", "why_tests_cant": "HashSet iteration order is randomised per process, and cycles make termination a global argument.", "anchors": ["src/lex/nfa.rs: NFA::epsilon_closure", "src/lex/dfa.rs: DFABuilder::epsilon_closure"]}
{"id": "C05", "title": "remove_overlap terminates, never trips its assertions and preserves coverage", "statement": "`remove_overlap(ranges)` terminates without an assertion failure for every set of ranges; the ranges it returns are non-empty and cover exactly the code points covered by the input.", "quantifier": "every finite set of ranges, including empty, nested, crossing and adjacent ones", "why_tests_cant": "The recursion mutates the vector it is scanning; termination and coverage are not visible from examples.", "anchors": ["src/lex/dfa.rs: remove_overlap, add_range"]}
{"id": "C06", "title": "remove_overlap splits ranges into atoms", "statement": "The ranges returned by `remove_overlap` are pairwise disjoint, and each is contained in or disjoint from every input range. (False for the code as it stands; holds for at most three ranges, and when ranges that overlap without being nested neither contain a third nor lie in one.)", "quantifier": "every finite set of ranges", "why_tests_cant": "A counterexample needs four ranges in a particular crossing pattern, which the test-suite never builds.", "anchors": ["src/lex/dfa.rs: remove_overlap, add_range"]}
{"id": "C07", "title": "Subset construction terminates and is exact", "statement": "`DFA::from_nfa` terminates on every NFA; its states are pairwise distinct sets of NFA states, state 0 is the closure of the NFA start state, and every edge leads from a set to the closure of the move of that set on the edge label.", "quantifier": "every NFA built by this crate, every alphabet", "why_tests_cant": "The number of DFA states is exponential in the worst case.", "anchors": ["src/lex/dfa.rs: DFABuilder::build, move_set, epsilon_closure"]}
{"id": "C08", "title": "DFA walk computes the NFA's reachable set", "statement": "Following edges of the DFA from state 0 over a string ends in a state whose NFA set is exactly the set of NFA states reachable over that string, and gets stuck exactly when no NFA state is reachable. (Needs the alphabet ranges to be atoms, see C06.)", "quantifier": "every list of supported token regexes and every non-empty string", "why_tests_cant": "Quantifies over all strings and all automata.", "anchors": ["src/lex/dfa.rs: DFA::from_nfa, DFA::edge_iter, dfa_to_nfa"]}
{"id": "C09", "title": "DFA::test decides the regex", "statement": "`DFA::from_nfa(NFA::from_regex(r)).test(s)` is true exactly when `s` matches `r`. (False for the code: it returns true for every non-empty ASCII prefix of a match, false for the empty string and for strings with non-ASCII characters.)", "quantifier": "every supported regex and every string", "why_tests_cant": "The shipped tests only use negative strings that leave the automaton.", "anchors": ["src/lex/dfa.rs: DFA::test, DFA::simulate"]}
{"id": "C10", "title": "Lexing is maximal munch", "statement": "Each token `Lex::lex` emits is the longest non-empty prefix of the remaining input matched by any token regex; the tokens are emitted left to right and separated only by skipped whitespace.", "quantifier": "every list of supported token definitions and every input string", "why_tests_cant": "Longest match is a statement about all prefixes and all regexes at once.", "anchors": ["src/lex/lex.rs: Lex::lex"]}
{"id": "C11", "title": "Ties go to the first declared token", "statement": "When several token regexes match the same longest prefix, the emitted token is the one declared first in the list given to `Lex::from_tokens` (for grammars: string literals before regexes).", "quantifier": "every list of token definitions, every input", "why_tests_cant": "Depends on NFA state numbering surviving offsetting, subset construction and map lookups.", "anchors": ["src/lex/lex.rs: Lex::from_tokens, Lex::lex", "src/lex/dfa.rs: DFA::accepting_states"]}
{"id": "C12", "title": "Token values are the matched text", "statement": "A token defined with a value carries exactly the text it matched. (Holds for ASCII input; false otherwise, where character indices are used as byte indices and the lexer returns the wrong text or panics.)", "quantifier": "every token list, every input string", "why_tests_cant": "The test-suite only lexes ASCII.", "anchors": ["src/lex/lex.rs: Lex::make_tok"]}
{"id": "C13", "title": "Lexing terminates, never loops and never emits an empty token", "statement": "`Lex::lex` terminates on every input, emits at most one token per input character, and never emits a token for the empty string even if a token regex matches it.", "quantifier": "every token list (including nullable regexes) and every input", "why_tests_cant": "`forward` moves backwards on every emitted token, so termination needs a global measure.", "anchors": ["src/lex/lex.rs: Lex::lex"]}
{"id": "C14", "title": "Whitespace is skipped only between tokens and only when no token can start with it", "statement": "A space or newline is dropped exactly when it stands at a token boundary and no token regex has a match starting with that character; no other character is ever dropped before a token.", "quantifier": "every token list and every input", "why_tests_cant": "Interaction between user regexes that match spaces and the built-in skipping.", "anchors": ["src/lex/lex.rs: Lex::lex, Lex::is_whitespace"]}
{"id": "C15", "title": "The lexer accounts for the whole input", "statement": "If `Lex::lex` returns, every non-skipped character of the input belongs to some returned token. (False for the code: an unmatchable character silently truncates the token stream, and a failed longer match at end of input silently drops the tail even when the tail is itself lexable. The exact rule for what is dropped is proved.)", "quantifier": "every token list and every input", "why_tests_cant": "Silent truncation returns a plausible prefix, no error is observable.", "anchors": ["src/lex/lex.rs: Lex::lex (break arm, trailing token arm)"]}
{"id": "C16", "title": "Combining token automata keeps tokens apart", "statement": "In the combined lexer automaton the accepting state registered for token i is reachable over a string exactly when the i-th regex matches that string, for every i; no token can be reported for another token's text.", "quantifier": "every list of supported token regexes, every index, every string", "why_tests_cant": "Offset arithmetic over a list of arbitrary length.", "anchors": ["src/lex/lex.rs: Lex::from_tokens", "src/lex/nfa.rs: lex_nfa_template, shift_state_and_edges"]}
{"id": "C17", "title": "Grammar numbering is faithful", "statement": "For every AST with a start production, `grammar_from_ast_productions` puts the augmented start rule at index 0, then every body of every production in source order; the token list starts with Eof at index 0 and contains each symbol used in some body; `get_token_idx` and `get_token` are inverse; `production_iter(A)` lists exactly the productions named A in order; without a start production it panics.", "quantifier": "every list of AST productions", "why_tests_cant": "Indices computed here are baked into every table.", "anchors": ["src/parser/mod.rs: Grammar::grammar_from_ast_productions, get_token, get_token_idx, production_iter"]}
{"id": "C18", "title": "FIRST sets are exact", "statement": "`first(grammar, symbols)` returns exactly the terminals that can begin a string derived from the symbol sequence.", "quantifier": "every grammar expressible in the grammar language, every non-empty symbol sequence on which it returns", "why_tests_cant": "FIRST quantifies over all derivations.", "anchors": ["src/lalr/first.rs: first, first_of_symbol"]}
{"id": "C19", "title": "FIRST terminates exactly when no left recursion is reachable", "statement": "`first(grammar, X...)` returns iff no left-recursive cycle is reachable through leftmost symbols of X; on left-recursive symbols it recurses forever (stack overflow), for every stack size.", "quantifier": "every epsilon-free grammar, every symbol", "why_tests_cant": "Non-termination cannot be observed by a terminating test.", "anchors": ["src/lalr/first.rs: first_of_symbol", "todo.md"]}
{"id": "C20", "title": "LR(1) closure is the least closed set", "statement": "Closing an item set yields exactly the least set containing it and closed under the LR(1) closure rule, and the loop terminates.", "quantifier": "every grammar, every item set", "why_tests_cant": "Fixpoint over mutable maps.", "anchors": ["src/lalr/item.rs: ItemSet::closure"]}
{"id": "C21", "title": "GOTO is exact", "statement": "`item_set.goto(X, grammar)` contains exactly the closure of the items of the set with X after the dot, dot advanced, with unchanged lookaheads.", "quantifier": "every grammar, item set, symbol", "why_tests_cant": "Needs all item sets.", "anchors": ["src/lalr/item.rs: ItemSet::goto"]}
{"id": "C22", "title": "Canonical collection is exact and duplicate free", "statement": "`ItemSet::items(grammar)` terminates and returns, without duplicates and with the initial closure first, exactly the non-empty item sets reachable from the initial closure by GOTO over grammar symbols. It succeeds exactly when every nonterminal reachable from the start has a production and no nonterminal that follows another in a reachable body is, or reaches leftmost, a left-recursive one.", "quantifier": "every grammar", "why_tests_cant": "The worst case number of states is exponential.", "anchors": ["src/lalr/item.rs: ItemSet::items"]}
{"id": "C23", "title": "Core merging is exact", "statement": "`merge_cores` returns one state per distinct LR(0) core, in order of first appearance; each has as lookaheads for an item the union of the lookaheads of that item over all LR(1) states with that core, and the index map sends each LR(1) state to the state with its core.", "quantifier": "every collection of LR(1) sets; assumes the 64-bit core hash is collision free on the collection", "why_tests_cant": "Needs arbitrary collections; uses unsafe ManuallyDrop reads guarded by a bit vector.", "anchors": ["src/lalr/table.rs: merge_cores, merge_sets_with_same_core", "src/lalr/item.rs: ItemSet::union, core_hash"]}
{"id": "C24", "title": "Action table entries are exactly justified and never overwritten", "statement": "When table construction succeeds, ACTION[i,a]=Shift(j) iff state i has exactly one item with terminal a after the dot and its GOTO lookup is j, Reduce(p) iff state i has a completed item of p with lookahead a, Accept iff it has the completed augmented item with lookahead Eof; construction panics with Conflict exactly when two of these claim one cell. Stated on the grammar alone: the panic occurs exactly when two items of one merged LR(1) state claim one terminal, counting a shift only if its transition is kept.", "quantifier": "every grammar", "why_tests_cant": "Exactness over all grammars and cells.", "anchors": ["src/lalr/table.rs: make_lalr_tables"]}
{"id": "C25", "title": "Every LALR(1) grammar is accepted", "statement": "`Lalr::new` succeeds for every conflict-free LALR(1) grammar. (False: it panics with Conflict whenever one state has two items with the same terminal after the dot, e.g. bodies sharing a first terminal, although there is no conflict.)", "quantifier": "every LALR(1) grammar", "why_tests_cant": "The test grammars never share a leading terminal within a state.", "anchors": ["src/lalr/table.rs: make_lalr_tables (Entry::Occupied arm for shift)"]}
{"id": "C26", "title": "Every GOTO needed by the parser is in the tables", "statement": "For each state and each symbol after a dot in it, the constructed tables have a transition. (False: transitions out of merged states whose successor is a proper sub-union of a merged class are dropped silently; holds when every core is shared by at most two LR(1) states.)", "quantifier": "every grammar for which construction succeeds", "why_tests_cant": "The lookup failure is silent and needs three LR(1) contexts with one core.", "anchors": ["src/lalr/table.rs: compute_goto, make_lalr_tables"]}
{"id": "C27", "title": "The parser only accepts sentences of the grammar", "statement": "If `parse_impl` accepts a token sequence then the sequence is derivable from the start symbol, and the reductions it performed are a derivation of it.", "quantifier": "every grammar for which construction succeeds, every token sequence of any length", "why_tests_cant": "Quantifies over all grammars and all inputs.", "anchors": ["src/lalr.rs: Lalr::parse_impl", "src/lalr/table.rs"]}
{"id": "C28", "title": "The parser accepts every sentence of the grammar", "statement": "If the token sequence is derivable from the start symbol then `parse_impl` accepts it. (False in general because of C26; proved whenever the tables have every transition.)", "quantifier": "every grammar for which construction succeeds, every sentence", "why_tests_cant": "All sentences of all grammars.", "anchors": ["src/lalr.rs: Lalr::parse_impl", "src/lalr/table.rs: make_lalr_tables"]}
{"id": "C29", "title": "Ambiguous grammars are refused", "statement": "If construction succeeds then every sentence has exactly one parse tree. (False in general because dropped transitions hide conflicts; proved whenever the tables have every transition.)", "quantifier": "every grammar", "why_tests_cant": "Ambiguity is undecidable in general; only a proof relates the conflict check to it.", "anchors": ["src/lalr/table.rs: make_lalr_tables"]}
{"id": "C30", "title": "Parsing terminates", "statement": "`parse_impl` terminates on every token sequence. (False: a cyclic grammar whose conflicts are hidden by C26 makes it loop forever; proved for every grammar without unit-production cycles that can be reached from the start, with an explicit step bound; for all others, it either stops within that bound or comes back to an earlier configuration and never stops.)", "quantifier": "every grammar for which construction succeeds, every input", "why_tests_cant": "Non-termination on some grammar/input pair cannot be ruled out by testing.", "anchors": ["src/lalr.rs: Lalr::parse_impl"]}
{"id": "C31", "title": "The parser can only fail by rejecting a token or by a missing goto", "statement": "While parsing, the state stack is never empty and never underflows, and every production index in the table is defined: the only possible failures are 'Invalid token' and 'Goto is empty', and the latter cannot happen when the tables have every transition.", "quantifier": "every grammar for which construction succeeds, every input", "why_tests_cant": "Invariant over unbounded runs.", "anchors": ["src/lalr.rs: Lalr::parse_impl (expect/panic sites)"]}
{"id": "C32", "title": "Token conversion keeps token identity", "statement": "`convert_tokens` maps each lexed token to the grammar index of the terminal that produced it and appends exactly one EOF with index 0. (False when a string literal and a regex are spelled the same; proved when terminal spellings are distinct.)", "quantifier": "every grammar, every token list", "why_tests_cant": "Needs all grammars; collision is silent.", "anchors": ["src/lex/lex.rs: convert_tokens, token_with_idx"]}
{"id": "C33", "title": "End to end: accepted text is a sentence", "statement": "If `Lalr::parse(input)` returns, then the maximal munch tokens of the input (up to the point the lexer stops, C15) form a sentence of the grammar.", "quantifier": "every grammar with distinct terminal spellings, every input string", "why_tests_cant": "Composes lexer, conversion and parser for all grammars and inputs.", "anchors": ["src/lalr.rs: Lalr::parse", "src/lex/lex.rs", "src/lalr/table.rs"]}
{"id": "C34", "title": "Errors are detected before a wrong token is shifted", "statement": "Every token the parser shifts extends a prefix of some sentence of the grammar (viable prefix property), for grammars all of whose nonterminals derive some token string.", "quantifier": "every grammar for which construction succeeds, every input, every point of the run", "why_tests_cant": "Quantifies over all inputs and all continuations.", "anchors": ["src/lalr.rs: Lalr::parse_impl"]}
{"id": "C35", "title": "Generated lexer tables describe the DFA", "statement": "The States, DFAtoNFA and Tokens tables emitted by `lex_gen::generate` let a consumer recover, for each DFA state, its labelled edges in order, whether it accepts, and the same token definition the Rust lexer would report.", "quantifier": "every token list, every DFA state", "why_tests_cant": "Table sizes are unbounded.", "anchors": ["src/codegen/lex_gen.rs: Ctx::new, State::from_lex_state", "ts/lex.ts: GetTokenDef"]}
{"id": "C36", "title": "The generated TypeScript lexer agrees with the Rust lexer", "statement": "On inputs made of supported characters that contain no unlexable character, `Lex<input>` yields the Rust lexer's tokens followed by EOF, with values equal to the matched text; where the Rust lexer silently stops, `Lex` reports an invalid symbol at that index.", "quantifier": "every token list and every input shorter than the arithmetic table", "why_tests_cant": "Type-level code cannot be unit tested at scale.", "anchors": ["ts/lex.ts: LexImpl, Lex", "src/codegen/lex_gen.rs", "src/lex/lex.rs"]}
{"id": "C37", "title": "The generated TypeScript parser agrees with the Rust parser within its depth bound", "statement": "`Parse<tokens>` accepts exactly when the Rust parser accepts in fewer than 50 steps, and reports 'exceeded max recursion depth' when the Rust parser needs more.", "quantifier": "every grammar for which construction succeeds, every token sequence", "why_tests_cant": "Needs all runs.", "anchors": ["ts/parse.ts: ParseImpl, ParseImplShift, ParseImplReduce, Parse", "src/lalr.rs"]}
{"id": "C38", "title": "The TypeScript parser returns the syntax tree's value", "statement": "When `Parse` accepts, its result is a single symbol of the start kind whose value is the bottom-up evaluation of the mapping code over the parse tree of the input, each named parameter bound to the value of its own child.", "quantifier": "every grammar, every accepted token sequence, every interpretation of the mapping code", "why_tests_cant": "Quantifies over all parse trees.", "anchors": ["ts/parse.ts", "ts/util.ts: PopNStackWithValue", "src/codegen/parse_gen.rs: Action::write, popped_values, validate_params"]}
{"id": "C39", "title": "Type-level arithmetic is correct within its table", "statement": "Succ, Pred, Eq, Gt, Gte, Lt, Lte, Add, Sub, Substring, Reverse, PopNStack and PopNStackWithValue compute the functions their names say for all numbers covered by the generated tables.", "quantifier": "all numbers up to the table bound, all lists and strings", "why_tests_cant": "Recursion over two numbers at once with table lookups.", "anchors": ["ts/util.ts", "src/codegen/lex_gen.rs: gen_arithmetic"]}
{"id": "C40", "title": "OptionUsize behaves like Option except at the sentinel", "statement": "For every value other than usize::MAX, `OptionUsize::some(v)` behaves as `Some(v)` under is_some, is_none, unwrap, unwrap_or and map, and `none()` as `None`; `some(usize::MAX)` is indistinguishable from none.", "quantifier": "all 64-bit values", "why_tests_cant": "2^64 values.", "anchors": ["src/option_usize.rs"]}
{"id": "C41", "title": "Match ranges: matching, intersection and ordering agree with sets of characters", "statement": "`matches` is membership, `intersects` is non-emptiness of the intersection of the two ranges, `is_disjoint` its negation, and `cmp` is a total order consistent with equality.", "quantifier": "all pairs and triples of ranges", "why_tests_cant": "Quantifies over all u32 pairs.", "anchors": ["src/lex/nfa.rs: Match"]}
{"id": "C42", "title": "Quoted text in the grammar file denotes itself", "statement": "The text stored for a quoted literal, a regex or a parenthesised code block is exactly the source text between its delimiters, and a string literal token matches exactly that text. (So escapes such as \\\" are not decoded: the token matches the backslash too.)", "quantifier": "every literal in every grammar file", "why_tests_cant": "All strings.", "anchors": ["src/parser/support.rs", "src/parser/mod.rs: Symbol::to_token_def_with_regex"]}
{"id": "C43", "title": "Generated names survive quoting", "statement": "For token names without quotes, backslashes or line breaks, the key emitted in TokenKindToIdx and the kind emitted in TokenDef decode to the same string. (False for names with an apostrophe: the emitted TypeScript is malformed.)", "quantifier": "every token name", "why_tests_cant": "All strings.", "anchors": ["src/codegen/parse_gen.rs: generate_tokenkind_to_idx", "src/codegen/lex_gen.rs: to_string"]}
{"id": "C44", "title": "Generated parameter checks are well formed and report the right position", "statement": "The conditional emitted for an action checks each named parameter once and, when a check fails, its error names that parameter's position. (False: the failure messages are emitted in the wrong order for two or more named parameters, and a named regex parameter emits `extendsstring`, which is not valid TypeScript.)", "quantifier": "every production body", "why_tests_cant": "All parameter lists.", "anchors": ["src/codegen/parse_gen.rs: validate_params, popped_values"]}
{"id": "C45", "title": "Table construction is deterministic", "statement": "Tables and lexer are a function of the grammar: hash-set iteration order cannot change state numbering, actions or tokens.", "quantifier": "every grammar and every hash iteration order", "why_tests_cant": "Hash seeds are random per process.", "anchors": ["src/lex/dfa.rs: DFABuilder::build (hashset_to_btreeset)", "src/lex/nfa.rs: epsilon_closure"]}
{"id": "C46", "title": "The generated character table", "statement": "The character table generated for the type-level lexer contains exactly the code points up to U+00FF other than the invisible ones (9, 11, 12, 13, 127, 160, 173), each mapped to its own code; an input with any other character makes `Lex` return an `unreachable` string.", "quantifier": "every character", "why_tests_cant": "The table is built by wrapping every code point to a byte; which characters survive is not visible from samples.", "anchors": ["src/codegen/lex_gen.rs: gen_chars", "ts/chars.ts", "ts/lex.ts: StringToCharList"]}
{"id": "C47", "title": "The type-level pipeline agrees with the Rust parser end to end", "statement": "For input of supported characters within the arithmetic tables, either `Lex` reports the character at which the Rust lexer stops, or, unless the Rust lexer panics while slicing non-ASCII text, `Parse<Lex<input>>` accepts exactly when `Lalr::parse` accepts the input within 50 iterations and reports `exceeded` exactly when `Lalr::parse` is still running then; an accepted input yields the value obtained by evaluating the mapping code over the parse tree given by the reductions of the Rust parser, with the pieces of the input as token texts.", "quantifier": "every grammar without clashes of names, every interpretation of well typed mapping code, every input", "why_tests_cant": "Two implementations, in two languages, on all grammars and inputs.", "anchors": ["ts/parse.ts: lines 182-183", "ts/lex.ts", "src/lalr.rs: Lalr::parse"]}
{"id": "C48", "title": "The generated TypeScript files read back as the tables they were generated from", "statement": "If no terminal contains a quote, backslash or line break and no two terminals are spelled alike, then reading the text generated for the lexer state file, the characters file and module type_defs of the parser state file as TypeScript type declarations yields, with nothing missing, added or renumbered: the lexer's states, labels, accepting flags, token definitions and DFAtoNFA map; the character table and its inverse; and the parser's symbols, tokens, productions, ACTION and GOTO entries and token-kind indices.  A literal containing an apostrophe yields text that is not a sequence of declarations, and two terminals spelled alike yield a type with a duplicate member.", "quantifier": "for all token lists, grammars and generated tables", "why_tests_cant": "The existing tests print the generated text or compare it with one snapshot; separators, quoting and numbering over unboundedly many rows, names and states cannot be exhausted by examples, and the cases that break (apostrophes, equal spellings) are in none of them.", "anchors": ["src/codegen/lex_gen.rs:82-176", "src/codegen/lex_gen.rs:291-321", "src/codegen/parse_gen.rs:147-296", "ts/lex_state.gen.ts", "ts/parse_state2.gen.ts"]}
{"id": "C49", "title": "parse_grammar reads exactly the language of grammar files", "statement": "`parse_grammar(text)` returns the productions `ps` exactly when the text, with white space skipped and cut into the longest matches of the terminals of grammar.lalrpop (literals before regexes on equal length), is derivable by the rules of grammar.lalrpop with the value `ps`; on every other text it panics with a syntax error and nothing else. Each text has at most one cutting and one reading. A code block extends to the last closing parenthesis of its line, so a production written on one line with a body is refused, and so is a file with a comment.", "quantifier": "for all texts and all lists of productions", "why_tests_cant": "The tests read one grammar; acceptance and refusal of all other texts, and uniqueness of the reading, cannot be enumerated.", "anchors": ["src/lib.rs:10-17", "src/parser/grammar.lalrpop:1-63", "src/parser/support.rs:14-49", "README.md: comment in the example grammar"]}
{"id": "C50", "title": "Which grammars can be written", "statement": "A list of productions is the result of reading some grammar file exactly when it is not empty, every name of a production, parameter or nonterminal is an identifier other than export, start and r, every body has a symbol, every literal and regex is quotable text, and no code contains a line break.", "quantifier": "for all lists of productions", "why_tests_cant": "A statement about the existence of a text for each of infinitely many grammars, and its absence for all others.", "anchors": ["src/parser/grammar.lalrpop:1-63", "src/parser/ast.rs:8-36", "src/lib.rs:10-17"]}
{"id": "C51", "title": "End to end from the grammar file", "statement": "Every grammar read from a file satisfies the conditions on grammars under which the table and parser properties hold (non-empty bodies, only literals, regexes and nonterminals, names without apostrophe, parameters named and not nested). So if a file is read, has a start production and its tables are built, then every text the generated parser accepts is, up to skipped blanks and the dropped rest, a sequence of strings of the file's terminals that the rules written in the file derive; and the generated files read back as their tables unless a terminal has a backslash, an apostrophe or a line break.", "quantifier": "for all grammar files, all inputs, all hash functions without collisions on the collection, all iteration orders", "why_tests_cant": "Composition over all grammar files and all inputs.", "anchors": ["src/lib.rs:10-17", "src/parser/mod.rs", "src/lalr.rs: Lalr::new, Lalr::parse", "src/codegen/parse_gen.rs"]}
{"id": "C52", "title": "The parser decides the language", "statement": "For every list of tokens before the end marker, `parse_impl` stops after at most (2n+1)(P+1) iterations (n tokens, P productions); it returns the postorder of a parse tree if the tokens are a sentence of the source grammar and fails with `Invalid token` if they are not. (False as it stands, by C28 and C30; proved for all tables with every transition.)", "quantifier": "for all grammars whose tables are built with every transition, all lists of tokens", "why_tests_cant": "Infinitely many inputs per grammar, and infinitely many grammars, with and without unit cycles.", "anchors": ["src/lalr.rs: Lalr::parse_impl"]}
{"id": "C53", "title": "Errors are reported at the first wrong token", "statement": "When `parse_impl` fails with `Invalid token`, the tokens shifted so far begin a sentence, and no sentence begins with them followed by the current token; if the current token is the end marker, the tokens shifted are not a sentence. (False as it stands, by C28; proved for all tables with every transition and grammars whose nonterminals derive something.)", "quantifier": "for all grammars whose tables are built with every transition, all lists of tokens", "why_tests_cant": "That no continuation is a sentence is a statement about infinitely many sentences.", "anchors": ["src/lalr.rs: Lalr::parse_impl", "src/lalr.rs: invalid token error"]}
{"id": "C54", "title": "The type-level pipeline computes the value of the text", "statement": "The text is cut by maximal munch in exactly one way. If the cut fails at a character, `Lex` reports it; otherwise `Parse<Lex<text>>` is the start symbol with value `v` exactly if the pieces have a parse tree of fewer than 50 leaves and nodes whose mapping code evaluates to `v`, and reports an invalid token or exceeded depth in all other cases. (False as it stands, by C33 and C28; proved when the pieces of the alphabet fit the ranges possible at the same place, with the trees along which no transition is dropped; the type is then also `not good`.)", "quantifier": "every grammar without clashes of names, every interpretation of well typed mapping code, every text of supported characters within the arithmetic tables, non-ASCII ones included", "why_tests_cant": "The specification quantifies over all parse trees and all cuts of the text.", "anchors": ["ts/parse.ts", "ts/lex.ts", "src/codegen/parse_gen.rs", "src/codegen/lex_gen.rs"]}
{"id": "C55", "title": "FIRST sets in the presence of epsilon", "statement": "For grammars containing the symbol Epsilon, `first(grammar, symbols)` returns exactly the terminals that can begin a string derived from the sequence, with Epsilon in the set exactly if the sequence derives the empty string. (False as it stands: `first_of_symbol` reports epsilon as soon as the first symbol of a body is nullable.)", "quantifier": "every grammar without empty bodies, Epsilon allowed, every symbol sequence, empty ones included, on which it returns", "why_tests_cant": "FIRST quantifies over all derivations; the repository has no test with Epsilon.", "anchors": ["src/lalr/first.rs: first, first_of_symbol"]}
{"id": "C56", "title": "The utility types as written compute arithmetic and list operations", "statement": "Evaluated by the rules for conditional types, `infer`, tuples, indexed access and template literals, the declarations of ts/util.ts denote what their names say: `Succ`, `Pred`, `Eq`, `Gt`, `Gte`, `Lt`, `Lte`, `Sub`, `Add` on numbers within the generated tables, `Reverse`, `Substring`, `PopNStack`, `PopNStackWithValue` on lists and strings of any length; and an expression denotes one type only. The declarations evaluated are those that a parser reads from the three files.", "quantifier": "for all sizes of the tables, all numbers within them, all lists and strings", "why_tests_cant": "A test instantiates finitely many types; the recursion is over lists of any length and the tables have a parameter.", "anchors": ["ts/util.ts", "ts/lex.ts", "ts/parse.ts"]}
{"id": "C57", "title": "The lexer type as written cuts by maximal munch", "statement": "Evaluated by the rules of TypeScript, the declarations of ts/lex.ts with the generated tables denote for `Lex<text>` the tuple of the tokens of the only cut by maximal munch followed by the end marker, or the message naming the first character at which there is no cut and its index; a character outside the table gives the message of line 218. (False as it stands, by C33 and C36; proved when the pieces of the alphabet fit the ranges possible at the same place, within the arithmetic tables.)", "quantifier": "every set of tokens whose ranges contain or miss every piece of the alphabet, every text of supported characters; for the message, every text", "why_tests_cant": "Quantifies over all cuts of all texts and all token sets.", "anchors": ["ts/lex.ts", "src/codegen/lex_gen.rs"]}
{"id": "C58", "title": "The type-level pipeline as written computes the value of the text", "statement": "Evaluated by the rules of TypeScript, `Parse<L.Lex<\"text\">>` of ts/parse.ts with the generated tables and actions is `[{ kind: start, value: v }]` exactly if the only cut of the text by maximal munch has a parse tree with fewer than 50 leaves and nodes whose mapping code evaluates to `v`; in all other cases it is the message about recursion depth or the tuple beginning with `error: invalid token`. (False as it stands, by C33 and C28; proved when the pieces of the alphabet fit the ranges possible at the same place, for names that do not clash with those of the generated file, with the trees along which no transition is dropped.)", "quantifier": "every such grammar, every interpretation of the user's types in which mapping code is well typed, every text of supported characters", "why_tests_cant": "The specification quantifies over all parse trees and all cuts of the text.", "anchors": ["ts/parse.ts", "ts/lex.ts", "ts/util.ts", "src/codegen/parse_gen.rs", "src/codegen/lex_gen.rs"]}
{"id": "C59", "title": "The project's own grammar, from its text to the type of an input", "statement": "From the text of basic_lisp.tlalr the program generates one parser, whatever the hash order; with its files and ts/*.ts as written, `Parse<L.Lex<\"text\">>` is `[{ kind: \"SExpr\", value: v }]` exactly if the text is a parenthesised list of numbers, `add`s and lists written with any blanks (possibly followed by `a` or `ad`, which is dropped), `v` is the object type of this list as basic_lisp.tlalr declares it, and three times the atoms plus five times the inner lists is below 47; else it is one of the two messages. The mapping code and the declared types of the grammar are read and evaluated, not assumed.", "quantifier": "every text shorter than the arithmetic tables, every size of the tables from 255 on, every list, every hash iteration order, every collision-free hash of cores", "why_tests_cant": "Infinitely many texts and lists; a test checks single inputs and cannot show that no other text is accepted.", "anchors": ["basic_lisp.tlalr", "ts/parse.ts", "ts/lex.ts", "ts/util.ts", "ts/parse_state2.gen.ts", "ts/lex_state.gen.ts"]}
{"id": "C60", "title": "The TypeScript files of the repository, read from their text, parse the project's grammar", "statement": "Take the six files under ts/ as text, read their imports, alias declarations and modules, and evaluate `Parse<L.Lex<\"text\">>` as written in ts/parse.ts against nothing but these declarations (with ./arith_table.gen, which is not in the repository, holding the successors and predecessors up to any number from 255 on): the value is that of C59 for every text, and the type `ast` at the end of ts/parse.ts is the tree of `(add 34 35)`. More generally, for every grammar whose mapping code is data over its parameters, the project in which the code stands inside the generated conditional types and the declared types are declarations gives every expression the meaning that C56 to C58 give it.", "quantifier": "every text shorter than the arithmetic tables, every size of the tables from 255 on, every grammar meeting the conditions, every expression, every type", "why_tests_cant": "Infinitely many texts, grammars and expressions; running tsc on ts/parse.ts shows one value of one alias.", "anchors": ["ts/parse.ts", "ts/lex.ts", "ts/util.ts", "ts/chars.ts", "ts/lex_state.gen.ts", "ts/parse_state2.gen.ts", "src/codegen/parse_gen.rs"]}
{"id": "C61", "title": "The files written for a grammar are TypeScript that computes the value of a text", "statement": "Every file that the program writes for a grammar (parse_state2.gen.ts, lex_state.gen.ts, chars.ts, arith_table.gen.ts) is, character for character, a text of TypeScript that declares exactly the tables, the declared types and one conditional type per body with the mapping code inside, and it can be read in no other way. Together with ts/util.ts, ts/lex.ts and ts/parse.ts as they stand in the repository, these texts alone make `Parse<L.Lex<\"text\">>` the start symbol with value `v` exactly if the cut of the text by maximal munch has a parse tree of value `v` with fewer than 50 leaves and nodes.", "quantifier": "every grammar whose identifiers are words that TypeScript does not reserve, whose terminals have no quotes, backslashes or line breaks, whose regexes are unnamed and whose mapping code is data that does not end in a line comment; every size of the tables; every hash iteration order; every text and value", "why_tests_cant": "Infinitely many grammars, hence infinitely many generated files; a test compares the output for one grammar with one stored file.", "anchors": ["src/codegen/parse_gen.rs", "src/codegen/lex_gen.rs", "ts/parse.ts", "ts/lex.ts", "ts/util.ts"]}
{"id": "C62", "title": "Colliding hashes of cores", "statement": "`merge_cores` groups LR(1) item sets by a 64-bit hash of their cores without comparing the cores.  Whatever the hash function, building the parser either panics or gives the one parser that a hash without collisions gives.  (Independently of that, whatever the hash function, everything a built parser accepts is a sentence.)", "quantifier": "every hash function on cores, every grammar, every iteration order of hash sets, debug and release builds", "why_tests_cant": "A collision of SipHash cannot be produced by a test, and a test cannot range over hash functions.", "anchors": ["src/lalr/table.rs:211-279", "src/lalr/item.rs:155-174"]}
{"id": "C63", "title": "The parser in the generator decides the language of the project's grammar", "statement": "The parser that the generator builds from the text of basic_lisp.tlalr answers every text: it accepts, reducing by the rules that derive a list, exactly if the text is that list, written with any blanks, followed by anything that no word and no blank begins (that rest is ignored); on every other text it panics with the message about an invalid token. It panics in no other way, never runs on, and there is no limit on the length or the depth of lists. Where the type-level parser has a value, this parser accepts the same text, with the rules of a list of that value.", "quantifier": "every text (any length, any characters), every iteration order of hash sets, every hash of cores without collisions", "why_tests_cant": "Infinitely many texts; nesting of any depth; a test cannot range over hash functions and iteration orders.", "anchors": ["basic_lisp.tlalr", "src/lalr.rs:44-153", "src/lex/lex.rs", "src/lalr/table.rs"]}
{"id": "C64", "title": "When files are written, and why the program stops otherwise", "statement": "From the text of a grammar to the generated files: files are written exactly for the texts that are a grammar with a start production, all of whose regexes can be parsed and contain only what is implemented, whose reachable nonterminals all have rules, in which no left recursion is reached through first symbols from a nonterminal that follows another, and in which no two items of an LALR(1) state claim one entry of the tables. On every other text the program panics with one of eight panics, and what the panic says is the case: no grammar, no start, a regex that cannot be parsed, a construct that is not implemented, an empty operand, a nonterminal without rules, a left recursion, a conflict. There is no other panic and no infinite loop. Reasons of an earlier step are noticed before those of a later one.", "quantifier": "every text, every iteration order of hash sets, every hash of cores without collisions on the sets of the grammar", "why_tests_cant": "Infinitely many grammars; the absence of further panics and of non-termination cannot be tested.", "anchors": ["src/lib.rs:9-18", "src/codegen/parse_gen.rs:603-611, 634-642, 731-739", "src/parser/mod.rs:57-113, 199-222", "src/lalr.rs:30-42", "src/lex/nfa.rs:103-234"]}
{"id": "C65", "title": "From the text of a grammar to the value of a type", "statement": "For the text of a grammar that can be built (C64), the two files that the program writes, the tables of characters and numbers, and the three files of the repository together are read as TypeScript in exactly one way, and in this reading the type Parse<L.Lex<\"input\">> is the start symbol with value v exactly if the cut of the input by maximal munch has a parse tree of value v with fewer than 50 leaves and nodes; if the cut meets an invalid character or there is no such tree, it is an error message. The conditions under which this is so are conditions on the names, the terminals and the code of the grammar only: no property of the generated lexer or tables is assumed.", "quantifier": "every text of a grammar meeting the conditions, every input of supported characters shorter than the tables for arithmetic, every iteration order of hash sets, every hash of cores without collisions", "why_tests_cant": "Infinitely many grammars and inputs; a test runs one grammar through one version of TypeScript.", "anchors": ["src/lib.rs:9-18", "src/codegen/parse_gen.rs:603-611", "src/codegen/lex_gen.rs", "ts/util.ts", "ts/lex.ts", "ts/parse.ts"]}
{"id": "C66", "title": "The parser accepts exactly the inputs that have a parse tree none of whose transitions is dropped", "statement": "Let a transition of an LALR(1) state be kept if its GOTO set is a canonical LR(1) set or an LALR(1) state (C26). For every grammar whose tables are built: the parser answers with the postorder of a given parse tree just when every transition along the tree is kept; it accepts the tokens before the end marker just when they have such a tree; a sentence has at most one such tree; if every nonterminal derives a string, all parse trees of all sentences are found just when the tables have every transition; and when it fails, no parse tree that goes on as the tokens do, the one reported included, has all transitions kept.", "quantifier": "every grammar for which construction succeeds with a hash that keeps the cores apart, every list of tokens, every parse tree", "why_tests_cant": "An exact description of the accepted language, over all grammars and all inputs.", "anchors": ["src/lalr.rs: Lalr::parse_impl", "src/lalr/table.rs: make_lalr_tables", "src/lalr/table.rs: compute_goto"]}
{"id": "C67", "title": "Sizes of the automata and tables", "statement": "The NFA of a regex has at most 2k+2 states and 4k edges, where k is the number of operators, literals and ranges of the regex, and the combined NFA of the tokens is linear in their total size. The DFA has at most one state per set of NFA states, and at most one edge per state and piece of the alphabet. The alphabet has at most as many pieces as the ranges have code points, and fewer than two per range if they can be split right (C06). There are at most 2^(d*t) LR(1) sets and at most 2^d LALR(1) states, never more than LR(1) sets, where d counts the dots in all productions and t the tokens.", "quantifier": "all regexes, lists of token regexes, alphabets, iteration orders of the hash sets, grammars and collision-free hashes", "why_tests_cant": "a bound over all inputs; a test only measures the sizes of the automata it builds", "anchors": ["src/lex/nfa.rs:103-234", "src/lex/lex.rs:70-114", "src/lex/dfa.rs:163-236", "src/lalr/item.rs:186-219", "src/lalr/table.rs:211-242"]}
{"id": "C68", "title": "The tokens listed as valid in the error message are those that can follow", "statement": "When the parser reports an invalid token, the list of valid tokens it prints is the set of tokens with which what has been shifted so far can go on towards a sentence (the end marker, if what has been shifted is a sentence).", "quantifier": "every grammar whose tables are built, every list of tokens on which the parser stops with an invalid token", "why_tests_cant": "over all grammars, inputs and continuations; the list is printed, never compared by a test", "anchors": ["src/lalr.rs: Lalr::parse_impl (the panic at 147-153)", "src/lalr/table.rs: Table::valid"]}
{"id": "C69", "title": "The comparisons of symbols written by hand are total orders", "statement": "InputSymbol::compare (the Ord of the symbols of a grammar file) and Symbol::compare satisfy what Rust asks of Ord: two symbols compare as equal exactly if they are equal, swapping the arguments reverses the result, and the order is transitive.", "quantifier": "all symbols, including named symbols nested to any depth", "why_tests_cant": "a law over all pairs and triples of symbols; no test compares symbols", "anchors": ["src/parser/ast.rs: InputSymbol::compare (118-136), Ord (152-162)", "src/parser/mod.rs: Symbol::compare (248-258)"]}
{"id": "C70", "title": "A symbol of a grammar file and its lowered form agree", "statement": "For every symbol of a grammar file, as_non_terminal, is_terminal and to_token_def_with_regex of InputSymbol give what the methods of the same name of Symbol give for the lowered symbol, and to_token_def gives the name and number of to_token_def_with_regex.", "quantifier": "all symbols, including named symbols nested to any depth; all regex parsers; all token numbers", "why_tests_cant": "a comparison of two implementations over all symbols; no test calls these methods", "anchors": ["src/parser/ast.rs: InputSymbol::to_token_def_with_regex, as_non_terminal, is_terminal", "src/parser/mod.rs: Symbol::to_token_def, to_token_def_with_regex, as_non_terminal, is_terminal"]}
{"id": "C71", "title": "The hash of cores keeps different cores apart", "statement": "core_hash gives different hashes for different cores: the bytes that it hashes determine the core, for cores of every grammar; and with the hasher it uses, the cores of the LR(1) sets of the grammar of the project all have different hashes, so that the program builds the right parser for it in debug and release builds and for every iteration order.", "quantifier": "all cores and grammars with numbers of 32 bits (first part); all iteration orders and all texts (second part)", "why_tests_cant": "the first part is about all cores; a collision changes the tables without a message in a release build", "anchors": ["src/lalr/item.rs: core_hash, core_hash_with_hasher, default_hash, Hash for ItemSet", "src/lalr/table.rs: merge_cores"]}
{"id": "C72", "title": "A table is a map from pairs", "statement": "After any sequence of writes a Table finds in a cell the last value written there and nothing elsewhere; insert answers with the value that was there before; entry tells whether the cell was written and changes no cell; valid and iteration give the written columns and rows, each once and in ascending order.", "quantifier": "all sequences of writes, all rows, columns and values, all lawfully ordered column types", "why_tests_cant": "it speaks of all histories of a table; the tests only look at tables that make_tables has filled", "anchors": ["src/lalr/table.rs: Table::empty, try_index, valid, entry, insert, iter"]}
{"id": "C73", "title": "The lexer is a maximal munch lexer over pieces of the alphabet", "statement": "Let the pieces be the ranges that remove_overlap cuts from the ranges of the token regexes; a character is read as the first piece that contains it and lies inside a range possible at that place, and a piece matches the ranges that contain all of it. Then, whatever the regexes: a walk of the DFA over a text exists exactly if the text can be read, and ends in the state standing for the NFA states reachable over the pieces; DFA::test holds exactly for the non-empty ASCII texts that can be read; Lex::lex cuts every text by maximal munch in this sense, the first declared token winning, in the only possible way, and returns the tokens at the positions of the cut taken as bytes, or panics exactly if one of these positions is inside a character; the text dropped is empty, begins where nothing is a token, or could still have become a longer last token. What is read as a token always matches its regex in the ordinary sense.", "quantifier": "all lists of tokens for which the lexer is built, all iteration orders of the hash sets, all texts (non-ASCII included)", "why_tests_cant": "it speaks of all regexes and all texts, also of those where the alphabet is cut badly and the result differs from the ordinary meaning of the regexes", "anchors": ["src/lex/dfa.rs: DFA::from_nfa, DFA::test, remove_overlap", "src/lex/lex.rs: Lex::from_tokens, Lex::lex, make_tok"]}
{"id": "C74", "title": "The generated types cut, check and evaluate every supported text as the pieces of the alphabet say", "statement": "With pieces as in C73: for every text of supported characters, `Lex<text>` is the list of tokens of the only maximal munch cut of the text read piece by piece, with the matched texts as values and EOF at the end, or the message about the first character after which nothing can be read and its index; and `Parse<Lex<text>>` is the start symbol with value `v` exactly if the cut has a parse tree of fewer than 50 leaves and nodes, along which transitions are kept (C66), whose mapping code evaluates to `v`, and one of the two error results otherwise. This holds of the functional reading of ts/lex.ts and ts/parse.ts, of their declarations evaluated by the rules of TypeScript, and of the text of the files written, together with the three files of the repository.", "quantifier": "all grammars from which the files are generated whose terminals have distinct spellings and whose names do not clash, with well typed mapping code; all texts shorter than the arithmetic tables whose characters are in the table, with labels that begin within the tables; no condition on the ranges", "why_tests_cant": "it speaks of all grammars, all texts and all mapping code; the type checker can only run examples", "anchors": ["ts/lex.ts", "ts/parse.ts", "ts/util.ts", "src/codegen/parse_gen.rs", "src/codegen/lex_gen.rs"]}
{"id": "C75", "title": "The parsing loop ends within a bound or runs in a circle", "statement": "With the end marker at position n and P productions, parse_impl ends within (2n + 1)(P + 1) iterations or never. It never ends exactly if it comes back to the same stack, position and token, and then some nonterminal derives itself by unit productions.", "quantifier": "all grammars and tables that the construction returns, all hashes, all lists of tokens with an end marker", "why_tests_cant": "non-termination cannot be observed, and the bound is for all inputs", "anchors": ["src/lalr.rs: Lalr::parse_impl", "src/lalr/table.rs"]}
{"id": "C76", "title": "Which transitions the tables have", "statement": "The tables have a transition for every state and every symbol after a dot in it exactly if the GOTO of every LALR(1) state is a canonical LR(1) set or an LALR(1) state; if every nonterminal derives a string, this is also exactly the condition for all parse trees of all sentences to be found.", "quantifier": "all grammars for which construction succeeds, all hashes that keep the cores of their sets apart", "why_tests_cant": "all grammars; a dropped transition is silent", "anchors": ["src/lalr/table.rs: compute_goto, make_lalr_tables"]}
{"id": "C77", "title": "What token conversion does", "statement": "convert_tokens gives each token the number of the last definition with its name, in order, followed by one end marker with number 0; it panics exactly if some token has a name without a definition or whose last definition has no number.", "quantifier": "all lexers, all lists of tokens (also those the lexer does not make)", "why_tests_cant": "all lists of definitions, names used twice included", "anchors": ["src/lex/lex.rs: convert_tokens, token_with_idx"]}
{"id": "C78", "title": "What first returns, and when, in the presence of epsilon", "statement": "When first returns, it returns exactly the terminals that begin a string derived from the sequence in the grammar in which every body may also be cut off after its first symbol, and Epsilon exactly if the sequence is nullable there. It returns exactly if every nonterminal looked at, nullable symbols being skipped, is defined and none leads back to itself; otherwise the stack overflows or an undefined nonterminal is looked at.", "quantifier": "all grammars that the lowering returns, all sequences of symbols", "why_tests_cant": "all grammars; a stack overflow aborts the test run", "anchors": ["src/lalr/first.rs: first, first_of_symbol"]}
{"id": "C79", "title": "How productions, items and sets of items are printed", "statement": "A production is printed as its name, an arrow and the texts of its symbols with single spaces in between; an item in the same way with one dot, before the symbol that comes next or after the last one; a set of items as one block of lines for each item, with its lookaheads, indented by four spaces for each level.", "quantifier": "all grammars, all items, all sets of items (for the lines: without line breaks in names and literals)", "why_tests_cant": "the test compares one text, in which no dot is at the end or in the middle and no set of lookaheads is empty", "anchors": ["src/lalr/item.rs: debug_grammar, display, ItemLookaheadDebug, TokenSetDebug", "src/parser/mod.rs: Display for Symbol, ProductionDebug"]}
{"id": "C80", "title": "Items can be told apart in what is printed", "statement": "Two different items of a grammar are printed differently.", "quantifier": "all grammars, all pairs of items", "why_tests_cant": "all pairs of items of all grammars; the one text compared has no literal that looks like a nonterminal", "anchors": ["src/lalr/item.rs: Item::debug_grammar", "src/parser/mod.rs: Display for Symbol"]}
{"id": "C81", "title": "The type-level code is all tail calls", "statement": "With tail calls, a fixed number of pending instantiations is enough to evaluate every type written with the declarations of the three TypeScript files and the generated files, whatever the grammar, its tables and the length of the text, and the result is the same as without; without tail calls no fixed number is enough for Lex.", "quantifier": "all generated programs, all types of a user, all type expressions, all texts", "why_tests_cant": "the number must not depend on the grammar, the tables or the length of the text", "anchors": ["README.md:77-78", "ts/util.ts", "ts/lex.ts", "ts/parse.ts", "src/codegen/parse_gen.rs: Action::write"]}
{"id": "C82", "title": "The chain of tail calls of Lex grows with the text", "statement": "Lex of a text of n characters of the table has no result within fewer than 2n+3 instantiations in one chain of tail calls, however many may be pending; so a limit on the chain is a limit on the text.", "quantifier": "all generated programs, all texts, all limits", "why_tests_cant": "all limits and all texts; and a compiler that gives up does not say why", "anchors": ["README.md:77-81", "ts/lex.ts: StringToCharList, Lex", "ts/util.ts: Reverse, ReverseImpl"]}
{"id": "C83", "title": "Parse does not loop", "statement": "Whatever the generated tables of the parser and whatever type Parse is given, there are never 102 tail calls in the chain that starts with Parse: the depth that ParseImpl carries falls with every Shift and Reduce, or is never. So the chain of Parse is no infinite loop, and no longer for a longer text.", "quantifier": "all generated programs, all types of a user, all arguments, all limits on the instantiations inside", "why_tests_cant": "the tables are arbitrary, also ones that no grammar gives, and the README says the author could not find out by running it", "anchors": ["README.md:79-81", "ts/parse.ts:60-180", "ts/util.ts: Pred"]}
{"id": "C84", "title": "LexImpl does not loop, and its chain may grow with the square of the text", "statement": "Whatever the generated tables of the lexer, LexImpl of a list of n elements makes at most n(n+1)/2 tail calls, since it goes back to the last accepting state only beyond the start of the token. The bound is reached: with the tokens a and a+b, Lex of n-1 letters a and a blank has no result within a chain of n(n+1)/2 instantiations.", "quantifier": "all generated programs, all types of a user, all lists, all limits on the instantiations inside; for the second part all lengths below the size of the arithmetic tables", "why_tests_cant": "all tables and all texts; and a compiler that gives up does not say why", "anchors": ["README.md:77-81", "ts/lex.ts:98-176"]}
{"id": "C85", "title": "The text of a range shows what it matches", "statement": "Match::range_to_string of a range is the characters that the range matches, in order, cut with a remark after 256 of them; the Debug text of a Match tells its range.", "quantifier": "all ranges", "why_tests_cant": "all pairs of character codes; the truncation to a byte shows only beyond 255", "anchors": ["src/lex/nfa.rs:477-484", "src/lex/nfa.rs:529-540"]}
{"id": "C86", "title": "chars.ts lists the visible characters of the class", "statement": "The text that the test `lol` writes to chars.ts declares a tuple of strings that holds each visible character of the given class once, in increasing order, properly escaped; and chars.ts in the repository is that text for `.`.", "quantifier": "all classes, all characters", "why_tests_cant": "the test has no assertion and only one class", "anchors": ["src/lex/nfa.rs:662-760", "chars.ts:1-248"]}
{"id": "C87", "title": "Neither the names of the nonterminals nor the order of the rules matter", "statement": "If two grammar files have the same rules up to a one-to-one renaming of the nonterminals and the order and grouping of the rules, then the parser construction succeeds for both or for none, reports a conflict for both or for none, and the two parsers accept the same texts with the same trees up to the numbering of the productions.", "quantifier": "all pairs of grammars that differ by a renaming and a reordering, all texts, all hash functions without collisions and all orders of the hash sets", "why_tests_cant": "the names and the order decide the numbers of all productions, tokens and states; a test compares only a few such pairs", "anchors": ["src/parser/mod.rs: Grammar::from_ast, src/lalr.rs: Lalr::new, Lalr::parse", "src/lalr/table.rs: make_lalr_tables", "src/lalr/item.rs", "src/lex/lex.rs"]}
{"id": "C88", "title": "Rules that nothing leads to do not matter", "statement": "Adding rules for nonterminals that no other rule mentions, with terminals that the grammar already has, changes neither whether the construction succeeds, reports a conflict or a bad regex, nor which texts the parser accepts and with which trees (up to the numbers of the productions), even if the added rules are ambiguous, left recursive or use undefined names.", "quantifier": "all grammars, all added rules for unmentioned names, all texts, all hash functions without collisions and all orders of the hash sets", "why_tests_cant": "added rules change the numbers of productions, tokens and states and the fixpoints over all productions; infinitely many additions", "anchors": ["src/parser/mod.rs: Grammar::from_ast", "src/lalr.rs: Lalr::new, Lalr::parse", "src/lalr/table.rs: make_lalr_tables", "src/lalr/item.rs"]}
{"id": "C89", "title": "A rule written twice is refused", "statement": "If one nonterminal that the start symbol leads to has the same sequence of symbols as two of its alternatives, whatever their parameter names and code, then no parser is built, and the outcome is a conflict when nothing else stops the construction. (For nonterminals nothing leads to, a repeated rule does no harm.)", "quantifier": "all grammars with such a repetition, all hash functions without collisions and all orders of the hash sets", "why_tests_cant": "the two copies meet in a state that may be arbitrarily far from the start state", "anchors": ["src/lalr.rs: Lalr::new", "src/lalr/table.rs: make_lalr_tables", "src/lalr/item.rs: ItemSet::closure"]}
{"id": "C90", "title": "One step of the lexer", "statement": "In the state reached after reading w, `Lex::matches` answers for a character c: the state after w c exactly if w c can still be read; an error exactly if it cannot, something else could follow w, and c is not blank; and no state otherwise (so in a state nothing can follow, even a character that is not blank is no error).", "quantifier": "all token lists, all texts w that can be read, all characters, all orders of the hash sets", "why_tests_cant": "infinitely many token lists, texts and characters; nothing in the repository calls the function", "anchors": ["src/lex/lex.rs: Lex::matches", "src/lex/dfa.rs: DFA::edge_iter"]}
{"id": "C91", "title": "The generated parser accepts what the parser in the generator accepts", "statement": "The type-level Parse generated for a grammar accepts exactly the lists of tokens that Lalr::parse accepts for the same tables.", "quantifier": "all grammars whose files are generated, all lists of tokens", "why_tests_cant": "the difference depends on the sum of the length of a list and the number of its reductions, for every grammar", "anchors": ["ts/parse.ts: Parse, ParseImpl", "src/lalr.rs: Lalr::parse", "src/codegen/parse_gen.rs"]}
{"id": "C92", "title": "Blanks at the ends of a text do not change its tokens", "statement": "Writing blanks or line breaks that belong to no token before or after a text changes neither its tokens nor what the parser answers.", "quantifier": "all token lists from which a lexer is made, all texts, all numbers of blanks", "why_tests_cant": "it depends on where the run of the automaton is when the text ends, for every set of tokens and every text", "anchors": ["src/lex.rs: Lex::lex", "src/lex.rs: Lex::matches", "src/lalr.rs: Lalr::parse"]}
{"id": "C93", "title": "What the parser prints is a derivation of the text", "statement": "When the parser accepts, the rules it prints as reduced are, read backwards, a rightmost derivation of the tokens; a shift is printed for every token, the stacks printed are those of the run, and the loop count at the end is the number of tokens and reductions and one more. Every iteration prints its stack, the current token and its place, then what it does, and after a reduction the stack that results. When it refuses a token, the message is about the token after those printed as shifted and lists the tokens with an entry in the row of the state on top of the stack. The tokens shifted begin a sentence, and no tree whose transitions are all kept goes on with the token of the message.", "quantifier": "all grammars whose tables are built, all lists of tokens with an end marker", "why_tests_cant": "it relates the whole output to the derivation, for every grammar and every text", "anchors": ["src/lalr.rs: Lalr::parse_impl", "src/parser/mod.rs: ProductionDebug", "src/lalr/table.rs: Table::valid"]}
{"id": "C94", "title": "What the lexer prints", "statement": "The lexer prints, in order, where each token it cuts off begins and where its last character is, counted in characters; if it panics, up to the token whose value it cannot take out of the text.", "quantifier": "all token lists from which a lexer is made, all texts", "why_tests_cant": "it relates the output to maximal munch for every set of tokens and every text", "anchors": ["src/lex/lex.rs: Lex::lex"]}
{"id": "C95", "title": "Words written apart are read as they are", "statement": "Words, each of which is a token, written one after the other with blanks that are in no range of a token between them, are lexed as exactly these tokens, by the Rust lexer and by the generated one. So a text and the words it is cut into, written apart in any way, have the same tokens and the same outcome of the parser.", "quantifier": "all lists of token definitions, all lists of words of any length, all ways to put blanks between them", "why_tests_cant": "infinitely many lists of words and ways to write them", "anchors": ["src/lex/lex.rs: Lex::lex", "ts/lex.ts"]}
{"id": "C96", "title": "Every sentence can be written", "statement": "For every sentence of the grammar there is a text that the generated parser accepts and cuts into the terminals of the sentence.", "quantifier": "all grammars the generator accepts, all sentences of any length", "why_tests_cant": "infinitely many sentences, and a sentence that cannot be written has no text to test with", "anchors": ["src/parser/mod.rs: Grammar::lexer", "src/lex/lex.rs: Lex::lex", "src/lalr/lalr.rs: Lalr::parse"]}
{"id": "C97", "title": "The type of a sentence that is written down is its value", "statement": "If the mapping code is well typed, every parse tree has exactly one value, for any words in place of its regexes. Let files be written for a grammar that meets the conditions of C65. If words spell the leaves of a parse tree with fewer than 50 leaves and nodes whose transitions are in the tables, and they are written apart, with blanks in no range of a token between them, in a text of supported characters shorter than the tables, then the type `Parse<Lex<text>>` is the start symbol with the value of the tree, and no other type.", "quantifier": "all grammar texts that meet the conditions, all such trees, all words for their leaves, all ways to write them apart", "why_tests_cant": "infinitely many grammars, trees, words and ways to write them", "anchors": ["ts/parse.ts", "ts/lex.ts", "src/codegen/parse_gen.rs", "src/codegen/lex_gen.rs"]}
{"id": "C98", "title": "A blank in no range splits a text", "statement": "Let a text have a blank that is in no range of a token. If nothing is dropped of the part up to the blank, the pieces of the text are those of that part and then those of the rest; otherwise the rest is dropped. So the tokens of several lines are the tokens of each line. The generated lexer gives the tokens of both parts, or the error of the first part, or the error of the rest at its place in the whole text.", "quantifier": "all lists of token definitions, all texts with such a blank, any number of lines", "why_tests_cant": "infinitely many token lists and texts", "anchors": ["src/lex/lex.rs: Lex::lex", "ts/lex.ts"]}
{"id": "C99", "title": "Adding rules loses no text", "statement": "Let a grammar have more rules than another, with the same start and no new terminals, and let a parser be built for both. Whatever text the parser of the smaller one accepts, that of the larger one accepts, with the same tree up to the numbers of the productions; and a text that the larger one answers with a tree without added rules is answered by the smaller one with that tree.", "quantifier": "all grammars, all added rules with known terminals, all texts, all hash functions without collisions and all orders of the hash sets", "why_tests_cant": "infinitely many grammars, additions and texts; added rules change all item sets, numbers and tables", "anchors": ["src/parser/mod.rs: Grammar::from_ast", "src/lalr.rs: Lalr::new, Lalr::parse", "src/lalr/table.rs: make_lalr_tables"]}
{"id": "C100", "title": "Uniform grammars get a complete parser", "statement": "Call a grammar uniform if whatever can follow a nonterminal can follow it at each of its places, and only the end of input follows the start. Grammars whose nonterminals stand at the end of bodies only are uniform, and so are grammars in which no nonterminal stands at two places. In a uniform grammar no two LR(1) sets share a core and lookaheads are what can follow the left side; tables are built just when no LR(1) set has a conflict or two items with one terminal after the dot; they have every transition; and the parser stops on every token string, accepts just the sentences, and answers with the only tree.", "quantifier": "all uniform grammars, all token strings, all hash functions without collisions", "why_tests_cant": "infinitely many grammars and token strings", "anchors": ["src/lalr/item.rs: closure, goto, items", "src/lalr/table.rs: make_lalr_tables", "src/lalr.rs: Lalr::parse"]}
{"id": "C101", "title": "Simple grammars always get a parser", "statement": "Call a grammar simple if every body begins with a terminal and no two bodies of one nonterminal begin with the same. For a simple grammar a parser is built just when its regexes are supported and every nonterminal that can be reached has a rule: there is never a conflict. Its parser always stops. If the grammar is also uniform (C100), it accepts just the sentences, each with its only tree; otherwise it may refuse sentences.", "quantifier": "all simple grammars, all token strings, all hash functions without collisions and all orders of the hash sets", "why_tests_cant": "infinitely many grammars and token strings", "anchors": ["src/lalr/item.rs: closure, goto, items", "src/lalr/table.rs: make_lalr_tables", "src/lalr.rs: Lalr::new, Lalr::parse"]}
{"id": "C102", "title": "LL(1) grammars always get a parser", "statement": "Call a grammar LL(1) if no terminal can begin two bodies of one nonterminal that can be reached from the start, and suppose that every such nonterminal can begin with some terminal. Nothing is asked of the other rules. Then no nonterminal that can be reached is left recursive, and a parser is built just when the regexes are supported: there is never a conflict. Its parser always stops. No text has two trees, and what the parser reduces by is the one tree of the text. If the grammar is also uniform (C100), it accepts just the sentences. Every simple grammar (C101) is LL(1).", "quantifier": "all such grammars, all token strings, all hash functions without collisions and all orders of the hash sets", "why_tests_cant": "infinitely many grammars and token strings", "anchors": ["src/lalr/item.rs: closure, goto, items", "src/lalr/table.rs: make_lalr_tables", "src/lalr.rs: Lalr::new, Lalr::parse"]}
{"id": "C103", "title": "The tables of an LL(1) grammar are linear in its size", "statement": "For an LL(1) grammar as in C102 the tables have exactly two states more than there are symbols in the bodies of the nonterminals that can be reached from the start. (For all grammars C67 gives an exponential bound.)", "quantifier": "all such grammars and all hash functions without collisions", "why_tests_cant": "infinitely many grammars", "anchors": ["src/lalr/item.rs: closure, goto, items", "src/lalr/table.rs: make_lalr_tables"]}
