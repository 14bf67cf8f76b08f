{
 "claims": [
  {
   "property": "C01",
   "status": "proved",
   "theorems": [
    "Verif.Props.C01_simulate_iff_matches"
   ],
   "note": "All supported regexes, all strings, all HashSet iteration orders."
  },
  {
   "property": "C02",
   "status": "proved",
   "theorems": [
    "Verif.Props.C02_fails_iff",
    "Verif.Props.C02_ok_iff"
   ],
   "note": ""
  },
  {
   "property": "C03",
   "status": "proved",
   "theorems": [
    "Verif.Props.C03_regex",
    "Verif.Props.C03_combined"
   ],
   "note": ""
  },
  {
   "property": "C04",
   "status": "proved",
   "theorems": [
    "Verif.Props.C04_epsClosure",
    "Verif.Props.C04_epsClosure_regex",
    "Verif.Props.C04_order_independent"
   ],
   "note": "Termination is the absence of outOfFuel with fuel = input size + number of edges."
  },
  {
   "property": "C05",
   "status": "proved",
   "theorems": [
    "Verif.Props.C05_removeOverlap",
    "Verif.Props.C05_refines"
   ],
   "note": ""
  },
  {
   "property": "C06",
   "status": "partial",
   "theorems": [
    "Verif.Props.C06_atoms_partial",
    "Verif.Props.C06_false"
   ],
   "note": "False for the code: C06_false is the counterexample. C06_atoms_partial proves the property for at most three ranges, and when ranges that overlap without being nested neither contain a third nor lie in one (so for nested or disjoint ranges, and for ranges none of which lies in another)."
  },
  {
   "property": "C16",
   "status": "proved",
   "theorems": [
    "Verif.Props.C16_combine"
   ],
   "note": ""
  },
  {
   "property": "C40",
   "status": "proved",
   "theorems": [
    "Verif.Props.C40_some",
    "Verif.Props.C40_none",
    "Verif.Props.C40_sentinel"
   ],
   "note": ""
  },
  {
   "property": "C41",
   "status": "proved",
   "theorems": [
    "Verif.Props.C41_matches",
    "Verif.Props.C41_contains",
    "Verif.Props.C41_char",
    "Verif.Props.C41_intersects",
    "Verif.Props.C41_isDisjoint",
    "Verif.Props.C41_compare"
   ],
   "note": ""
  },
  {
   "property": "C07",
   "status": "proved",
   "theorems": [
    "Verif.Props.C07_subset_construction"
   ],
   "note": ""
  },
  {
   "property": "C08",
   "status": "partial",
   "theorems": [
    "Verif.Props.C08_walk_partial",
    "Verif.Props.C08_sound",
    "Verif.Props.C08_exact",
    "Verif.Props.C08_false"
   ],
   "note": "C08_exact: for every list of tokens, where a walk ends and when there is one, in terms of the pieces of the alphabet a text is read as. Exact when the pieces of the alphabet fit (AtomsOk: at every place the piece used for a character lies inside all ranges possible there that contain it; in particular when no piece lies partly inside a range, or when the ranges possible at each place are disjoint); soundness needs no condition; C08_false is the counterexample otherwise."
  },
  {
   "property": "C09",
   "status": "partial",
   "theorems": [
    "Verif.Props.C09_test_partial",
    "Verif.Props.C09_exact",
    "Verif.Props.C09_false"
   ],
   "note": "False for the code: C09_false. C09_test_partial gives the exact meaning of DFA::test when the pieces of the alphabet fit, C09_exact in all cases."
  },
  {
   "property": "C10",
   "status": "partial",
   "theorems": [
    "Verif.Props.C10_maximal_munch_partial",
    "Verif.Props.C10_cut_partial",
    "Verif.Props.C10_exact",
    "Verif.Props.C10_false"
   ],
   "note": "C10_exact: for every list of tokens and every text the cut is maximal munch read piece by piece, it is unique, and values and panics are exact. Exact specification of the cut when the pieces of the alphabet fit (AtomsOk); C10_false is the counterexample otherwise."
  },
  {
   "property": "C11",
   "status": "partial",
   "theorems": [
    "Verif.Props.C11_first_declared_partial",
    "Verif.Props.C11_exact",
    "Verif.Props.C11_false"
   ],
   "note": "C11_exact: what reading piece by piece finds always matches, and it is the first match when the pieces fit. Holds when the pieces of the alphabet fit (AtomsOk); C11_false is the counterexample otherwise."
  },
  {
   "property": "C12",
   "status": "partial",
   "theorems": [
    "Verif.Props.C12_values_partial",
    "Verif.Props.C12_exact_partial",
    "Verif.Props.C12_prefix_partial",
    "Verif.Props.C12_false"
   ],
   "note": "False of the code on non-ASCII input (C12_false: a wrong value and a panic). C12_values_partial: true on ASCII input, every token list. C12_exact_partial: for every input, exactly which text a value is and when the lexer panics. C12_prefix_partial: right for each token ending before the first non-ASCII character."
  },
  {
   "property": "C13",
   "status": "proved",
   "theorems": [
    "Verif.Props.C13_terminates"
   ],
   "note": ""
  },
  {
   "property": "C14",
   "status": "partial",
   "theorems": [
    "Verif.Props.C14_exact_partial",
    "Verif.Props.C14_blanks_partial",
    "Verif.Props.C14_only_blanks",
    "Verif.Props.C14_false"
   ],
   "note": "C14_exact_partial: the whole claim for every input and every token list whose regexes have no part that matches nothing; with such a part it is false (C14_false). C14_blanks_partial adds the tokens themselves, when the pieces of the alphabet fit (AtomsOk), on ASCII input; C14_only_blanks (only blanks are dropped before a token) needs nothing."
  },
  {
   "property": "C15",
   "status": "partial",
   "theorems": [
    "Verif.Props.C15_dropped_partial",
    "Verif.Props.C15_exact",
    "Verif.Props.C15_false"
   ],
   "note": "C15_exact: the rule for every list of tokens and every text. False for the code (C15_false); C15_dropped_partial is the exact rule for dropped text."
  },
  {
   "property": "C45",
   "status": "proved",
   "theorems": [
    "Verif.Props.C45_lexer",
    "Verif.Props.C45_simulate",
    "Verif.Props.C45_tables",
    "Verif.Props.C45_new"
   ],
   "note": ""
  },
  {
   "property": "C17",
   "status": "proved",
   "theorems": [
    "Verif.Props.C17_numbering",
    "Verif.Props.C17_no_start",
    "Verif.Props.C17_token_index"
   ],
   "note": ""
  },
  {
   "property": "C18",
   "status": "proved",
   "theorems": [
    "Verif.Props.C18_first_exact"
   ],
   "note": ""
  },
  {
   "property": "C19",
   "status": "proved",
   "theorems": [
    "Verif.Props.C19_first_terminates_iff",
    "Verif.Props.C19_overflow"
   ],
   "note": ""
  },
  {
   "property": "C20",
   "status": "proved",
   "theorems": [
    "Verif.Props.C20_closure_least",
    "Verif.Props.C20_closure_terminates"
   ],
   "note": ""
  },
  {
   "property": "C21",
   "status": "proved",
   "theorems": [
    "Verif.Props.C21_goto_exact"
   ],
   "note": ""
  },
  {
   "property": "C22",
   "status": "proved",
   "theorems": [
    "Verif.Props.C22_items_exact",
    "Verif.Props.C22_items_terminates"
   ],
   "note": "C22_items_terminates: construction never loops, and succeeds exactly when every nonterminal reachable from the start has a production and no left-recursive nonterminal is asked for its FIRST (Buildable)."
  },
  {
   "property": "C23",
   "status": "proved",
   "theorems": [
    "Verif.Props.C23_merge_exact"
   ],
   "note": "Assumes the core hash has no collision on the collection."
  },
  {
   "property": "C24",
   "status": "proved",
   "theorems": [
    "Verif.Props.C24_tables_exact",
    "Verif.Props.C24_conflict_iff",
    "Verif.Props.C24_clash"
   ],
   "note": "C24_clash states the conflicts on the canonical LR(1) sets of the grammar alone, without the model of the tables. Assumes the core hash has no collision on the collection."
  },
  {
   "property": "C25",
   "status": "partial",
   "theorems": [
    "Verif.Props.C25_lalr1_accepted_partial",
    "Verif.Props.C25_exact_partial",
    "Verif.Props.C24_clash",
    "Verif.Props.C25_false"
   ],
   "note": "False for the code (C25_false: S -> \"a\" \"b\" | \"a\" \"c\" panics with Conflict). C25_lalr1_accepted_partial: accepted when no state has two items with one terminal after the dot and the grammar is Buildable. C25_exact_partial: when no three LR(1) sets share a core, the tables exist just when the grammar is LALR(1) and no state has two items with one terminal after the dot."
  },
  {
   "property": "C26",
   "status": "partial",
   "theorems": [
    "Verif.Props.C26_exact",
    "Verif.Props.C26_transitions_partial",
    "Verif.Props.C26_false"
   ],
   "note": "False for the code (C26_false). C26_exact: holds just when the GOTO of every LALR(1) state is a canonical set or an LALR(1) state. C26_transitions_partial: holds when no three LR(1) states share a core."
  },
  {
   "property": "C27",
   "status": "proved",
   "theorems": [
    "Verif.Props.C27_sound"
   ],
   "note": "For every hash of cores, with or without collisions."
  },
  {
   "property": "C28",
   "status": "partial",
   "theorems": [
    "Verif.Props.C28_complete_partial",
    "Verif.Props.C66_language",
    "Verif.Props.C66_every_tree",
    "Verif.Props.C28_false"
   ],
   "note": "False for the code (C28_false: a sentence is rejected). C28_complete_partial: every sentence is accepted when the tables have every transition. C66: exactly which trees are found by any tables."
  },
  {
   "property": "C29",
   "status": "partial",
   "theorems": [
    "Verif.Props.C29_unambiguous_partial",
    "Verif.Props.C66_unique",
    "Verif.Props.C29_false"
   ],
   "note": "False for the code (C29_false: an ambiguous grammar is accepted). C29_unambiguous_partial: one tree per sentence when the tables have every transition."
  },
  {
   "property": "C30",
   "status": "partial",
   "theorems": [
    "Verif.Props.C30_terminates_partial",
    "Verif.Props.C30_reachable_partial",
    "Verif.Props.C30_complete_partial",
    "Verif.Props.C30_exact",
    "Verif.Props.C30_false"
   ],
   "note": "False for the code (C30_false: the parser runs for ever). C30_terminates_partial: explicit bound for grammars without unit cycles; C30_reachable_partial: it is enough that none can be reached from the start, whatever the hash. C30_complete_partial: the same bound for every grammar whose tables have every transition. C30_exact: for all grammars and tables, the loop ends within the bound or never; it never ends just when it comes back to the same stack, position and token, and then the grammar has a unit cycle."
  },
  {
   "property": "C31",
   "status": "proved",
   "theorems": [
    "Verif.Props.C31_failures",
    "Verif.Props.C31_stack",
    "Verif.Props.C31_goto_empty"
   ],
   "note": "outOfFuel is the cut-off of the model and only means that the loop has not ended yet."
  },
  {
   "property": "C34",
   "status": "proved",
   "theorems": [
    "Verif.Props.C34_viable_prefix"
   ],
   "note": ""
  },
  {
   "property": "C32",
   "status": "partial",
   "theorems": [
    "Verif.Props.C32_exact",
    "Verif.Props.C32_panics",
    "Verif.Props.C32_convert_partial",
    "Verif.Props.C32_lexed_partial",
    "Verif.Props.C32_false"
   ],
   "note": "False for the code when a literal and a regex are spelled the same (C32_false); the partial theorems cover distinct spellings."
  },
  {
   "property": "C33",
   "status": "partial",
   "theorems": [
    "Verif.Props.C33_sentence",
    "Verif.Props.C33_maximal_munch_partial",
    "Verif.Props.C33_accepts_partial",
    "Verif.Props.C33_decides_partial",
    "Verif.Props.C33_kept_partial",
    "Verif.Props.C33_exact",
    "Verif.Props.C33_false"
   ],
   "note": "C33_exact: every grammar with distinct spellings whatever the ranges, cut read piece by piece. C33_sentence: all grammars with distinct spellings, pieces matched by terminals. That the pieces are maximal munch is false when a piece of the alphabet does not fit (C33_false); proved otherwise, with the converse on ASCII text, and a decision within a stated number of steps, when the tables have every transition; when slicing panics is stated exactly. C33_kept_partial: for all tables, the text is accepted just when its cut has a tree along which transitions are kept."
  },
  {
   "property": "C39",
   "status": "proved",
   "theorems": [
    "Verif.Props.C39_arithmetic",
    "Verif.Props.C39_edge",
    "Verif.Props.C39_lists"
   ],
   "note": ""
  },
  {
   "property": "C35",
   "status": "proved",
   "theorems": [
    "Verif.Props.C35_tables",
    "Verif.Props.C35_accepting"
   ],
   "note": ""
  },
  {
   "property": "C36",
   "status": "partial",
   "theorems": [
    "Verif.Props.C36_agrees_partial",
    "Verif.Props.C36_pieces_partial",
    "Verif.Props.C36_text_partial",
    "Verif.Props.C36_exact",
    "Verif.Props.C36_unsupported",
    "Verif.Props.C36_false",
    "Verif.Props.C36_false_value"
   ],
   "note": "False for labels that start beyond the arithmetic tables (C36_false) and, because of the Rust slicing, for values of non-ASCII text (C36_false_value). C36_agrees_partial: agreement on ASCII input within the tables for every token list; C36_pieces_partial: every supported text, same pieces, values of the Rust lexer as in C12; C36_text_partial: all supported characters, against the specification; C36_exact: the same for every list of tokens, reading the text piece by piece (no condition on the ranges)."
  },
  {
   "property": "C46",
   "status": "proved",
   "theorems": [
    "Verif.Props.C46_char_table",
    "Verif.Props.C36_unsupported"
   ],
   "note": ""
  },
  {
   "property": "C37",
   "status": "partial",
   "theorems": [
    "Verif.Props.C37_generates",
    "Verif.Props.C37_agrees_partial",
    "Verif.Props.C37_sound_partial",
    "Verif.Props.C37_empty",
    "Verif.Props.C37_false",
    "Verif.Props.C37_false_hidden",
    "Verif.Props.C37_false_eof"
   ],
   "note": "False for a parameter called newStack (C37_false), for a parameter with the name of a nonterminal of its body (C37_false_hidden) and for a terminal spelled EOF (C37_false_eof). Proved for all token lists of the grammar when terminals have distinct spellings (none EOF), parameter names do not clash, and (for the converse) the mapping code is well typed."
  },
  {
   "property": "C38",
   "status": "partial",
   "theorems": [
    "Verif.Props.C38_value_partial",
    "Verif.Props.C38_unique",
    "Verif.Props.C38_false"
   ],
   "note": "Every interpretation of mapping code and every accepted token list. False for a parameter called newStack (C38_false). Missing: a name used twice in a body."
  },
  {
   "property": "C47",
   "status": "proved",
   "theorems": [
    "Verif.Props.C47_pipeline"
   ],
   "note": "Also for characters above U+007F, where the Rust lexer may panic instead. Clashes of names are NamesOk, NoHiding, DistinctKinds; for every hash of cores."
  },
  {
   "property": "C42",
   "status": "proved",
   "theorems": [
    "Verif.Props.C42_literal",
    "Verif.Props.C42_literal_all",
    "Verif.Props.C42_regex",
    "Verif.Props.C42_code",
    "Verif.Props.C42_any",
    "Verif.Props.C42_token",
    "Verif.Props.C42_no_quote",
    "Verif.Props.C42_no_escape"
   ],
   "note": "The text between the quotes of a literal, a regex or the parentheses of a code block survives as it stands; the boundary (no quote can be denoted, only \\\\ and \\\" are escapes) is proved too."
  },
  {
   "property": "C43",
   "status": "proved",
   "theorems": [
    "Verif.Props.C43_names",
    "Verif.Props.C43_same",
    "Verif.Props.C43_false",
    "Verif.Props.C43_false_value"
   ],
   "note": "Names without quotes, backslashes and line breaks are one string token in both files; the witnesses show what the other names do."
  },
  {
   "property": "C48",
   "status": "proved",
   "theorems": [
    "Verif.Props.C48_lexer",
    "Verif.Props.C48_parser",
    "Verif.Props.C48_chars",
    "Verif.Props.C48_identifiers",
    "Verif.Props.C48_false_quote",
    "Verif.Props.C48_false_twice"
   ],
   "note": "Module type_defs and the lexer and character files; the mapping code of the actions module is user text and is not read back."
  },
  {
   "property": "C44",
   "status": "partial",
   "theorems": [
    "Verif.Props.C44_checks",
    "Verif.Props.C44_mirror",
    "Verif.Props.C44_position_partial",
    "Verif.Props.C44_wrong",
    "Verif.Props.C44_false",
    "Verif.Props.C44_text",
    "Verif.Props.C44_false_regex"
   ],
   "note": "Checks and bindings proved in full; the named position is right with one named input only and wrong whenever the first of several fails (C44_wrong); the text of a named regex is malformed (C44_false_regex)."
  },
  {
   "property": "C49",
   "status": "proved",
   "theorems": [
    "Verif.Props.C49_reads",
    "Verif.Props.C49_refuses",
    "Verif.Props.C49_unique",
    "Verif.Props.C49_greedy",
    "Verif.Props.C49_one_line",
    "Verif.Props.C49_comment"
   ],
   "note": "lalrpop is modelled by its documented semantics: longest match, literals before regexes, white space skipped, one function per nonterminal."
  },
  {
   "property": "C50",
   "status": "proved",
   "theorems": [
    "Verif.Props.C50_writable",
    "Verif.Props.C50_keyword"
   ],
   "note": ""
  },
  {
   "property": "C51",
   "status": "proved",
   "theorems": [
    "Verif.Props.C51_expressible",
    "Verif.Props.C51_sentence",
    "Verif.Props.C51_plain"
   ],
   "note": "Distinct spellings (C32) are assumed by C51_sentence."
  },
  {
   "property": "C52",
   "status": "partial",
   "theorems": [
    "Verif.Props.C52_decides_partial",
    "Verif.Props.C52_kept_partial",
    "Verif.Props.C28_false",
    "Verif.Props.C30_false"
   ],
   "note": "False for the code (C28_false, C30_false). C52_decides_partial: proved for tables with every transition. C52_kept_partial: for all tables, the same three outcomes with the sentences that have a kept tree; the third, never stopping, needs a unit cycle."
  },
  {
   "property": "C53",
   "status": "partial",
   "theorems": [
    "Verif.Props.C53_first_error_partial",
    "Verif.Props.C53_printed_partial",
    "Verif.Props.C66_error",
    "Verif.Props.C93_wrong",
    "Verif.Props.C28_false"
   ],
   "note": "False for the code: tables with dropped transitions refuse sentences (C28_false). C53_first_error_partial: proved for tables with every transition; C66_error: for all tables, of the trees along which transitions are kept; C53_printed_partial and C93_wrong: the same of the message that is printed."
  },
  {
   "property": "C54",
   "status": "partial",
   "theorems": [
    "Verif.Props.C54_value_partial",
    "Verif.Props.C54_exact",
    "Verif.Props.C33_false",
    "Verif.Props.C28_false"
   ],
   "note": "False for the code with pieces of the alphabet that do not fit (C33_false). C54_value_partial: proved otherwise, both directions, with the other outcomes; C54_exact: for every list of tokens, reading the text piece by piece; where transitions are dropped (C28_false), for the trees along which they are kept."
  },
  {
   "property": "C55",
   "status": "partial",
   "theorems": [
    "Verif.Props.C55_covers_partial",
    "Verif.Props.C55_exact_partial",
    "Verif.Props.C55_exact",
    "Verif.Props.C55_returns",
    "Verif.Props.C55_false"
   ],
   "note": "False for the code (C55_false). The superset direction is proved for all grammars without empty bodies; exactness when a body that begins with a nullable symbol is nullable as a whole. For all grammars: C55_exact says which set is returned (FIRST of the grammar in which bodies may be cut after their first symbol), C55_returns when one is."
  },
  {
   "property": "C56",
   "status": "proved",
   "theorems": [
    "Verif.Props.C56_unique",
    "Verif.Props.C56_text",
    "Verif.Props.C56_arithmetic",
    "Verif.Props.C56_lists"
   ],
   "note": "The rules of TypeScript are those of Model/MiniTs (DESIGN 2)."
  },
  {
   "property": "C57",
   "status": "partial",
   "theorems": [
    "Verif.Props.C57_lex_partial",
    "Verif.Props.C57_exact",
    "Verif.Props.C57_unsupported",
    "Verif.Props.C33_false",
    "Verif.Props.C36_false"
   ],
   "note": "False for the code with pieces of the alphabet that do not fit (C33_false) or labels beyond the arithmetic tables (C36_false). C57_lex_partial: proved otherwise; C57_exact: for every list of tokens, reading the text piece by piece."
  },
  {
   "property": "C59",
   "status": "proved",
   "theorems": [
    "Verif.Props.C59_value",
    "Verif.Props.C59_written",
    "Verif.Props.C59_generated"
   ],
   "note": ""
  },
  {
   "property": "C58",
   "status": "partial",
   "theorems": [
    "Verif.Props.C58_value_partial",
    "Verif.Props.C58_exact",
    "Verif.Props.C58_unsupported",
    "Verif.Props.C33_false",
    "Verif.Props.C28_false"
   ],
   "note": "False for the code with pieces of the alphabet that do not fit (C33_false). C58_value_partial: proved otherwise, both directions, given names that do not clash (TsNames); C58_exact: for every list of tokens, reading the text piece by piece; where transitions are dropped (C28_false), for the trees along which they are kept."
  },
  {
   "property": "C60",
   "status": "proved",
   "theorems": [
    "Verif.Props.C60_meaning",
    "Verif.Props.C60_files",
    "Verif.Props.C60_repository",
    "Verif.Props.C60_ast",
    "Verif.Props.C60_false_written"
   ],
   "note": "C60_false_written: the file in the repository is not the one this commit writes."
  },
  {
   "property": "C61",
   "status": "partial",
   "theorems": [
    "Verif.Props.C61_written",
    "Verif.Props.C61_unique",
    "Verif.Props.C61_project",
    "Verif.Props.C61_meaning",
    "Verif.Props.C61_value_partial",
    "Verif.Props.C61_exact",
    "Verif.Props.C61_false_comment"
   ],
   "note": "The first part (texts read in exactly one way, meaning of expressions) is proved in full; C61_value_partial speaks of trees whose transitions are kept (C26) and has the conditions of C58 (no pieces of the alphabet that do not fit); C61_exact has no condition on the pieces. C61_false_comment, C60_false_written: why the quantifier excludes line comments at the end of mapping code and named regexes."
  },
  {
   "property": "C62",
   "status": "partial",
   "theorems": [
    "Verif.Props.C62_debug",
    "Verif.Props.C62_unique",
    "Verif.Props.C62_silent",
    "Verif.Props.C62_release_partial",
    "Verif.Props.C62_lisp",
    "Verif.Props.C62_false"
   ],
   "note": "True of debug builds (C62_debug, C62_unique). False of release builds (C62_false); proved there when no core is a proper part of another (C62_release_partial), as in the grammar of the project (C62_lisp). Soundness for every hash is C27_sound, C33_sentence, C34_viable_prefix, C31_failures, C47_pipeline."
  },
  {
   "property": "C63",
   "status": "proved",
   "theorems": [
    "Verif.Props.C63_parse",
    "Verif.Props.C63_written",
    "Verif.Props.C63_agree"
   ],
   "note": ""
  },
  {
   "property": "C64",
   "status": "proved",
   "theorems": [
    "Verif.Props.C64_writes",
    "Verif.Props.C64_stops",
    "Verif.Props.C64_must_stop",
    "Verif.Props.C64_any_hash",
    "Verif.Props.C64_must_stop_any",
    "Verif.Props.C64_todo"
   ],
   "note": "C64_writes and which conflicts there are assume that the core hash has no collision on the sets of the grammar (C62 says what happens otherwise); all other reasons to stop, for every hash: C64_any_hash; RegexParser::parse and lalrpop are represented by their results."
  },
  {
   "property": "C65",
   "status": "partial",
   "theorems": [
    "Verif.Props.C65_project",
    "Verif.Props.C65_value_partial",
    "Verif.Props.C65_kept",
    "Verif.Props.C65_text_partial",
    "Verif.Props.C65_exact",
    "Verif.Props.C65_text_exact"
   ],
   "note": "False without the conditions in Spec/Usable.lean: pieces of the alphabet that do not fit (C33_false), ranges beyond the tables (C36_false), hidden names (C37_false_hidden), named regexes (C60_false_written), line comments (C61_false_comment). Conditions on the generated lexer and tables are all derived. C65_exact, C65_text_exact: no condition on the ranges, the input read piece by piece."
  },
  {
   "property": "C66",
   "status": "proved",
   "theorems": [
    "Verif.Props.C66_tree",
    "Verif.Props.C66_language",
    "Verif.Props.C66_every_tree",
    "Verif.Props.C66_all",
    "Verif.Props.C66_unique",
    "Verif.Props.C66_error"
   ],
   "note": "For every grammar whose tables are built and every hash without collisions on its cores."
  },
  {
   "property": "C67",
   "status": "proved",
   "theorems": [
    "Verif.Props.C67_regex",
    "Verif.Props.C67_combined",
    "Verif.Props.C67_dfa",
    "Verif.Props.C67_alphabet",
    "Verif.Props.C67_items",
    "Verif.Props.C67_states"
   ],
   "note": "For the alphabet the bound in the number of ranges is under the conditions of C06_atoms_partial; without them it is in the number of code points."
  },
  {
   "property": "C68",
   "status": "partial",
   "theorems": [
    "Verif.Props.C68_keys",
    "Verif.Props.C68_shift",
    "Verif.Props.C68_after_shift_partial",
    "Verif.Props.C68_false"
   ],
   "note": "The list is neither complete nor sound for the tokens that can follow (C68_false). Proved: what is in it, that listed tokens that would be shifted can follow, and that before the last reductions it is complete for the trees whose transitions are kept."
  },
  {
   "property": "C69",
   "status": "partial",
   "theorems": [
    "Verif.Props.C69_symbol_partial",
    "Verif.Props.C69_symbol_false",
    "Verif.Props.C69_input_partial",
    "Verif.Props.C69_input_tied",
    "Verif.Props.C69_input_nameless",
    "Verif.Props.C69_parsed",
    "Verif.Props.C69_input_false",
    "Verif.Props.C69_parsed_false"
   ],
   "note": "False: epsilon is below itself in both comparisons, and different nonterminals are equal for Ord of InputSymbol. Proved: a total order otherwise, up to the names of nonterminals."
  },
  {
   "property": "C70",
   "status": "partial",
   "theorems": [
    "Verif.Props.C70_kind",
    "Verif.Props.C70_def",
    "Verif.Props.C70_token_partial",
    "Verif.Props.C70_literal",
    "Verif.Props.C70_false"
   ],
   "note": "False for every literal: the method of InputSymbol takes the text for a regex and gives the token no value. Proved: kinds, names and numbers agree, and the whole definition for everything but literals."
  },
  {
   "property": "C71",
   "status": "partial",
   "theorems": [
    "Verif.Props.C71_bytes",
    "Verif.Props.C71_siphash",
    "Verif.Props.C71_grammar",
    "Verif.Props.C71_false",
    "Verif.Props.C71_sets_false",
    "Verif.Props.C71_lisp",
    "Verif.Props.C71_program",
    "Verif.Props.C71_parse"
   ],
   "note": "False for all cores, the hash having 64 bits (C71_false). Proved: the bytes hashed determine the core, so a collision can only come from the hasher; and with the hasher of the standard library written out (C71_siphash: it is SipHash-1-3 with zero keys), no cores of the grammar of the project collide, so what C59 and C63 say of it needs nothing about the hash. Missing: which grammars have colliding cores."
  },
  {
   "property": "C72",
   "status": "proved",
   "theorems": [
    "Verif.Props.C72_lookup",
    "Verif.Props.C72_answer",
    "Verif.Props.C72_entry",
    "Verif.Props.C72_valid",
    "Verif.Props.C72_insert",
    "Verif.Props.C72_iter",
    "Verif.Props.C72_empty_row"
   ],
   "note": "Every history of writes. C72_empty_row: entry alone leaves an empty row behind, which valid shows."
  },
  {
   "property": "C73",
   "status": "proved",
   "theorems": [
    "Verif.Props.C08_exact",
    "Verif.Props.C09_exact",
    "Verif.Props.C10_exact",
    "Verif.Props.C11_exact",
    "Verif.Props.C15_exact"
   ],
   "note": "What C08 to C11 and C15 become without conditions. The pieces are those of remove_overlap (C05, C06)."
  },
  {
   "property": "C74",
   "status": "proved",
   "theorems": [
    "Verif.Props.C36_exact",
    "Verif.Props.C54_exact",
    "Verif.Props.C57_exact",
    "Verif.Props.C58_exact",
    "Verif.Props.C61_exact",
    "Verif.Props.C65_exact",
    "Verif.Props.C65_text_exact"
   ],
   "note": "What C36, C54, C57, C58, C61 and C65 become without conditions on the ranges; C36_false and the other counterexamples say why the conditions that remain are needed."
  },
  {
   "property": "C75",
   "status": "proved",
   "theorems": [
    "Verif.Props.C30_exact"
   ],
   "note": "What C30 becomes for all grammars."
  },
  {
   "property": "C76",
   "status": "proved",
   "theorems": [
    "Verif.Props.C26_exact",
    "Verif.Props.C66_every_tree"
   ],
   "note": "What C26 becomes for all grammars."
  },
  {
   "property": "C77",
   "status": "proved",
   "theorems": [
    "Verif.Props.C32_exact",
    "Verif.Props.C32_panics"
   ],
   "note": "What C32 becomes for all lexers."
  },
  {
   "property": "C78",
   "status": "proved",
   "theorems": [
    "Verif.Props.C55_exact",
    "Verif.Props.C55_returns"
   ],
   "note": "What C55 becomes for all grammars."
  },
  {
   "property": "C79",
   "status": "proved",
   "theorems": [
    "Verif.Props.C79_production",
    "Verif.Props.C79_item",
    "Verif.Props.C79_beyond",
    "Verif.Props.C79_token",
    "Verif.Props.C79_missing",
    "Verif.Props.C79_set"
   ],
   "note": "Escapes inside quoted texts are simplified in the model; C79_token is about texts that need none."
  },
  {
   "property": "C80",
   "status": "partial",
   "theorems": [
    "Verif.Props.C80_dot_partial",
    "Verif.Props.C80_exact",
    "Verif.Props.C80_across_partial",
    "Verif.Props.C80_tokens",
    "Verif.Props.C80_false"
   ],
   "note": "False of the code: a literal C and a nonterminal C are printed alike, and so are two dots beside an empty literal or one that is a dot. Proved: exactly when two items of one production are printed alike (C80_exact), and when items of two productions are, for symbols without blanks and dots; tokens are always told apart."
  },
  {
   "property": "C81",
   "status": "proved",
   "theorems": [
    "Verif.Props.C81_tail",
    "Verif.Props.C81_lex",
    "Verif.Props.C81_parse",
    "Verif.Props.C81_needed"
   ],
   "note": "Pending instantiations are counted as in Spec/Tail: an alias in tail position replaces the one that chose it. How the compiler itself counts is not modelled."
  },
  {
   "property": "C82",
   "status": "proved",
   "theorems": [
    "Verif.Props.C82_length",
    "Verif.Props.C82_limit"
   ],
   "note": "The limit of the compiler is a number in the statement; its value is not modelled."
  },
  {
   "property": "C83",
   "status": "proved",
   "theorems": [
    "Verif.Props.C83_noLoop",
    "Verif.Props.C83_chain"
   ],
   "note": "About the chain that starts with Parse. The instantiations inside it, such as TokenIndices, have chains of their own; how many may be pending is C81."
  },
  {
   "property": "C84",
   "status": "proved",
   "theorems": [
    "Verif.Props.C84_noLoop",
    "Verif.Props.C84_chain",
    "Verif.Props.C84_reached"
   ],
   "note": "About the chain that starts with LexImpl; the instantiations inside it have chains of their own. The limit of the compiler is not modelled."
  },
  {
   "property": "C85",
   "status": "partial",
   "theorems": [
    "Verif.Props.C85_exact",
    "Verif.Props.C85_latin_partial",
    "Verif.Props.C85_apart",
    "Verif.Props.C85_false"
   ],
   "note": "False of the code: char_code as u8 keeps only the remainder by 256, so a range beyond 255 is printed as other characters (C85_false). C85_exact describes the text for every range; C85_apart: the Debug text still tells the range, because it has the numbers."
  },
  {
   "property": "C86",
   "status": "partial",
   "theorems": [
    "Verif.Props.C86_lists",
    "Verif.Props.C86_class_partial",
    "Verif.Props.C86_reads",
    "Verif.Props.C86_repo",
    "Verif.Props.C86_false"
   ],
   "note": "False of the code: only remainders by 256 are listed (C86_false). C86_lists says for every class what is listed; C86_repo: the file in the repository is what the code writes for the class of `.` as regex-syntax documents it."
  },
  {
   "property": "C87",
   "status": "proved",
   "theorems": [
    "Verif.Props.C87_builds",
    "Verif.Props.C87_tokens",
    "Verif.Props.C87_text"
   ],
   "note": "For hashes without collisions on the grammar; at the level of texts also for grammars in which no two terminals have the same spelling. Which of several panics comes first is not compared."
  },
  {
   "property": "C88",
   "status": "proved",
   "theorems": [
    "Verif.Props.C88_builds",
    "Verif.Props.C88_tokens",
    "Verif.Props.C88_text",
    "Verif.Props.C88_terminals"
   ],
   "note": "For hashes without collisions on the two grammars; at the level of texts also for distinct spellings of terminals. C88_terminals: why added rules may not bring new terminals (C88_tokens allows them)."
  },
  {
   "property": "C89",
   "status": "proved",
   "theorems": [
    "Verif.Props.C89_refused",
    "Verif.Props.C89_conflict",
    "Verif.Props.C89_unused"
   ],
   "note": "For hashes without collisions on the grammar. C89_unused: repeated rules of unreachable names are accepted."
  },
  {
   "property": "C90",
   "status": "proved",
   "theorems": [
    "Verif.Props.C90_exact"
   ],
   "note": "Stated with reading piece by piece, as C10_exact; C11_exact says when this is matching. The OptionUsize of the result is an Option in the model."
  },
  {
   "property": "C91",
   "status": "partial",
   "theorems": [
    "Verif.Props.C91_exact_partial",
    "Verif.Props.C91_few",
    "Verif.Props.C91_false"
   ],
   "note": "False of the code: Parse gives up after 50 moves (C91_false). C91_exact_partial: of the lists the Rust parser accepts, Parse accepts just those with fewer than 50 tokens and reductions together and reports its depth for the others; names as in C37. C91_few: for any mapping code, what Parse accepts the Rust parser accepts."
  },
  {
   "property": "C92",
   "status": "partial",
   "theorems": [
    "Verif.Props.C92_front",
    "Verif.Props.C92_back_partial",
    "Verif.Props.C92_exact",
    "Verif.Props.C92_grows",
    "Verif.Props.C92_parse_partial",
    "Verif.Props.C92_false"
   ],
   "note": "False of the code at the back: a line break after the text can bring out tokens that were dropped (C92_false). C92_front is the whole claim for the front; C92_back_partial and C92_parse_partial leave out texts whose end is dropped; C92_exact: for ASCII texts, exactly which tokens a blank at the end brings out; C92_grows: it takes no token away."
  },
  {
   "property": "C93",
   "status": "proved",
   "theorems": [
    "Verif.Props.C93_accepted",
    "Verif.Props.C93_stacks",
    "Verif.Props.C93_lines",
    "Verif.Props.C93_refused",
    "Verif.Props.C93_wrong",
    "Verif.Props.C93_token"
   ],
   "note": "What is printed before the loop is not modelled; quoted texts escape as in C79. A text is what one println! prints; a name with a line break in it would go over several lines."
  },
  {
   "property": "C94",
   "status": "proved",
   "theorems": [
    "Verif.Props.C94_places"
   ],
   "note": "Pieces as in C10_exact."
  },
  {
   "property": "C95",
   "status": "proved",
   "theorems": [
    "Verif.Props.C95_words",
    "Verif.Props.C95_apart",
    "Verif.Props.C95_again",
    "Verif.Props.C95_ts",
    "Verif.Props.C95_needs"
   ],
   "note": "For words in ASCII (the values of other texts are wrong in the Rust lexer, C12_false), and any supported characters in the generated lexer. C95_words, C95_again and C95_ts: every list of tokens, words read piece by piece; C95_apart: in terms of the regexes, when the pieces of the alphabet fit. C95_needs: why the blanks must be in no range."
  },
  {
   "property": "C96",
   "status": "partial",
   "theorems": [
    "Verif.Props.C96_false",
    "Verif.Props.C96_exact",
    "Verif.Props.C96_accepts",
    "Verif.Props.C96_leaves",
    "Verif.Props.C96_literal",
    "Verif.Props.C96_sentences_partial",
    "Verif.Props.C96_literals_partial"
   ],
   "note": "False of the code: a regex all of whose words are words of literals or of regexes with a smaller number is never read (C96_false). C96_exact: given that a blank is in no range and that the pieces of the alphabet fit, a parse tree whose transitions are kept has an ASCII text just when each leaf is spelled by an ASCII word; C96_literal: literals always are."
  },
  {
   "property": "C97",
   "status": "proved",
   "theorems": [
    "Verif.Props.C97_tree",
    "Verif.Props.C97_pieces",
    "Verif.Props.C97_value"
   ],
   "note": "The conditions on the grammar are those of C65 (Usable, GoodRanges), which the theorems named there show to be needed; words as in C95 and C96. C97_pieces: whatever the ranges, words read piece by piece."
  },
  {
   "property": "C98",
   "status": "proved",
   "theorems": [
    "Verif.Props.C98_pieces",
    "Verif.Props.C98_tokens",
    "Verif.Props.C98_lines",
    "Verif.Props.C98_ts"
   ],
   "note": "Pieces as in C10_exact, for every text; the tokens of the Rust lexer for ASCII (C12_false otherwise), of the generated lexer for supported characters."
  },
  {
   "property": "C99",
   "status": "partial",
   "theorems": [
    "Verif.Props.C99_exact",
    "Verif.Props.C99_text_partial",
    "Verif.Props.C99_tokens_partial",
    "Verif.Props.C99_back_partial",
    "Verif.Props.C99_false"
   ],
   "note": "False of the code: a rule that is added can make transitions be dropped (C99_false). Given every transition, proved; C99_exact says when a tree survives. The terminals of the added rules are there already (C88_terminals otherwise)."
  },
  {
   "property": "C100",
   "status": "proved",
   "theorems": [
    "Verif.Props.C100_sets",
    "Verif.Props.C100_lookaheads",
    "Verif.Props.C100_transitions",
    "Verif.Props.C100_builds",
    "Verif.Props.C100_decides",
    "Verif.Props.C100_right_linear",
    "Verif.Props.C100_once"
   ],
   "note": "A condition on the rules alone, which makes C26, C28, C29, C52 true. Assumes the core hash has no collision on the collection, except C100_sets and C100_lookaheads, which are about the canonical sets."
  },
  {
   "property": "C101",
   "status": "proved",
   "theorems": [
    "Verif.Props.C101_builds",
    "Verif.Props.C101_tables",
    "Verif.Props.C101_terminates",
    "Verif.Props.C101_decides",
    "Verif.Props.C101_incomplete"
   ],
   "note": "Conditions on the rules alone. Simple is not enough for completeness (C101_incomplete); simple and uniform is (C101_decides). C101_terminates holds for every hash, the others assume that the core hash has no collision on the collection."
  },
  {
   "property": "C102",
   "status": "proved",
   "theorems": [
    "Verif.Props.C102_builds",
    "Verif.Props.C102_tables",
    "Verif.Props.C102_no_left_recursion",
    "Verif.Props.C102_terminates",
    "Verif.Props.C102_decides",
    "Verif.Props.C102_unambiguous",
    "Verif.Props.C102_output",
    "Verif.Props.C102_simple"
   ],
   "note": "Conditions on the rules alone: LL1, and Begins, that every nonterminal that can be reached can begin with some terminal; both ask nothing of rules that cannot be reached. LL(1) is not enough for completeness (C101_incomplete); with uniform it is (C102_decides). C102_unambiguous and C102_output need LL1 only. C102_terminates, C102_output and C102_no_left_recursion hold for every hash, the others assume that the core hash has no collision on the collection."
  },
  {
   "property": "C103",
   "status": "proved",
   "theorems": [
    "Verif.Props.C103_exact",
    "Verif.Props.C103_states"
   ],
   "note": "For the grammars of C102. C103_states is the bound by all bodies. The reason is that LR(1) sets can have any number of items but only one of them in the kernel. Assumes that the core hash has no collision on the collection."
  }
 ]
}
