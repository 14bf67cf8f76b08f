import Verif.Props.Apart
import Verif.Props.AstSymbol
import Verif.Props.Bar
import Verif.Props.Basic
import Verif.Props.CharsFile
import Verif.Props.Checks
import Verif.Props.Collisions
import Verif.Props.Combine
import Verif.Props.Compare
import Verif.Props.Convert
import Verif.Props.Determinism
import Verif.Props.Dfa
import Verif.Props.EndToEnd
import Verif.Props.Ends
import Verif.Props.Expected
import Verif.Props.Fifty
import Verif.Props.FirstEps
import Verif.Props.FrontEnd
import Verif.Props.Generated
import Verif.Props.Grammar
import Verif.Props.Hash
import Verif.Props.Idle
import Verif.Props.Items
import Verif.Props.LL1
import Verif.Props.LL1Size
import Verif.Props.LexChain
import Verif.Props.LexExact
import Verif.Props.LexStep
import Verif.Props.LexTrace
import Verif.Props.Lexer
import Verif.Props.Lisp
import Verif.Props.LispRust
import Verif.Props.MoreRules
import Verif.Props.Parse
import Verif.Props.ParseExact
import Verif.Props.Program
import Verif.Props.Project
import Verif.Props.Quoting
import Verif.Props.Ranges
import Verif.Props.Regex
import Verif.Props.Rename
import Verif.Props.Samples
import Verif.Props.Show
import Verif.Props.Simple
import Verif.Props.Sizes
import Verif.Props.Source
import Verif.Props.TableMap
import Verif.Props.Tables
import Verif.Props.TailCalls
import Verif.Props.Trace
import Verif.Props.TsExact
import Verif.Props.TsFiles
import Verif.Props.TsLex
import Verif.Props.TsParse
import Verif.Props.TsPipeline
import Verif.Props.TsUtil
import Verif.Props.Twice
import Verif.Props.Uniform
import Verif.Props.Usable
import Verif.Props.Used
import Verif.Props.Writable
import Verif.Props.Written
import Verif.Props.WrittenValue

/-! Axioms used by each theorem listed in MANIFEST.json (generated list). -/

#print axioms Verif.Props.C01_simulate_iff_matches
#print axioms Verif.Props.C02_fails_iff
#print axioms Verif.Props.C02_ok_iff
#print axioms Verif.Props.C03_regex
#print axioms Verif.Props.C03_combined
#print axioms Verif.Props.C04_epsClosure
#print axioms Verif.Props.C04_epsClosure_regex
#print axioms Verif.Props.C04_order_independent
#print axioms Verif.Props.C05_removeOverlap
#print axioms Verif.Props.C05_refines
#print axioms Verif.Props.C06_atoms_partial
#print axioms Verif.Props.C06_false
#print axioms Verif.Props.C16_combine
#print axioms Verif.Props.C40_some
#print axioms Verif.Props.C40_none
#print axioms Verif.Props.C40_sentinel
#print axioms Verif.Props.C41_matches
#print axioms Verif.Props.C41_contains
#print axioms Verif.Props.C41_char
#print axioms Verif.Props.C41_intersects
#print axioms Verif.Props.C41_isDisjoint
#print axioms Verif.Props.C41_compare
#print axioms Verif.Props.C07_subset_construction
#print axioms Verif.Props.C08_walk_partial
#print axioms Verif.Props.C08_sound
#print axioms Verif.Props.C08_exact
#print axioms Verif.Props.C08_false
#print axioms Verif.Props.C09_test_partial
#print axioms Verif.Props.C09_exact
#print axioms Verif.Props.C09_false
#print axioms Verif.Props.C10_maximal_munch_partial
#print axioms Verif.Props.C10_cut_partial
#print axioms Verif.Props.C10_exact
#print axioms Verif.Props.C10_false
#print axioms Verif.Props.C11_first_declared_partial
#print axioms Verif.Props.C11_exact
#print axioms Verif.Props.C11_false
#print axioms Verif.Props.C12_values_partial
#print axioms Verif.Props.C12_exact_partial
#print axioms Verif.Props.C12_prefix_partial
#print axioms Verif.Props.C12_false
#print axioms Verif.Props.C13_terminates
#print axioms Verif.Props.C14_exact_partial
#print axioms Verif.Props.C14_blanks_partial
#print axioms Verif.Props.C14_only_blanks
#print axioms Verif.Props.C14_false
#print axioms Verif.Props.C15_dropped_partial
#print axioms Verif.Props.C15_exact
#print axioms Verif.Props.C15_false
#print axioms Verif.Props.C45_lexer
#print axioms Verif.Props.C45_simulate
#print axioms Verif.Props.C45_tables
#print axioms Verif.Props.C45_new
#print axioms Verif.Props.C17_numbering
#print axioms Verif.Props.C17_no_start
#print axioms Verif.Props.C17_token_index
#print axioms Verif.Props.C18_first_exact
#print axioms Verif.Props.C19_first_terminates_iff
#print axioms Verif.Props.C19_overflow
#print axioms Verif.Props.C20_closure_least
#print axioms Verif.Props.C20_closure_terminates
#print axioms Verif.Props.C21_goto_exact
#print axioms Verif.Props.C22_items_exact
#print axioms Verif.Props.C22_items_terminates
#print axioms Verif.Props.C23_merge_exact
#print axioms Verif.Props.C24_tables_exact
#print axioms Verif.Props.C24_conflict_iff
#print axioms Verif.Props.C24_clash
#print axioms Verif.Props.C25_lalr1_accepted_partial
#print axioms Verif.Props.C25_exact_partial
#print axioms Verif.Props.C25_false
#print axioms Verif.Props.C26_exact
#print axioms Verif.Props.C26_transitions_partial
#print axioms Verif.Props.C26_false
#print axioms Verif.Props.C27_sound
#print axioms Verif.Props.C28_complete_partial
#print axioms Verif.Props.C66_language
#print axioms Verif.Props.C66_every_tree
#print axioms Verif.Props.C28_false
#print axioms Verif.Props.C29_unambiguous_partial
#print axioms Verif.Props.C66_unique
#print axioms Verif.Props.C29_false
#print axioms Verif.Props.C30_terminates_partial
#print axioms Verif.Props.C30_reachable_partial
#print axioms Verif.Props.C30_complete_partial
#print axioms Verif.Props.C30_exact
#print axioms Verif.Props.C30_false
#print axioms Verif.Props.C31_failures
#print axioms Verif.Props.C31_stack
#print axioms Verif.Props.C31_goto_empty
#print axioms Verif.Props.C34_viable_prefix
#print axioms Verif.Props.C32_exact
#print axioms Verif.Props.C32_panics
#print axioms Verif.Props.C32_convert_partial
#print axioms Verif.Props.C32_lexed_partial
#print axioms Verif.Props.C32_false
#print axioms Verif.Props.C33_sentence
#print axioms Verif.Props.C33_maximal_munch_partial
#print axioms Verif.Props.C33_accepts_partial
#print axioms Verif.Props.C33_decides_partial
#print axioms Verif.Props.C33_kept_partial
#print axioms Verif.Props.C33_exact
#print axioms Verif.Props.C33_false
#print axioms Verif.Props.C39_arithmetic
#print axioms Verif.Props.C39_edge
#print axioms Verif.Props.C39_lists
#print axioms Verif.Props.C35_tables
#print axioms Verif.Props.C35_accepting
#print axioms Verif.Props.C36_agrees_partial
#print axioms Verif.Props.C36_pieces_partial
#print axioms Verif.Props.C36_text_partial
#print axioms Verif.Props.C36_exact
#print axioms Verif.Props.C36_unsupported
#print axioms Verif.Props.C36_false
#print axioms Verif.Props.C36_false_value
#print axioms Verif.Props.C46_char_table
#print axioms Verif.Props.C37_generates
#print axioms Verif.Props.C37_agrees_partial
#print axioms Verif.Props.C37_sound_partial
#print axioms Verif.Props.C37_empty
#print axioms Verif.Props.C37_false
#print axioms Verif.Props.C37_false_hidden
#print axioms Verif.Props.C37_false_eof
#print axioms Verif.Props.C38_value_partial
#print axioms Verif.Props.C38_unique
#print axioms Verif.Props.C38_false
#print axioms Verif.Props.C47_pipeline
#print axioms Verif.Props.C42_literal
#print axioms Verif.Props.C42_literal_all
#print axioms Verif.Props.C42_regex
#print axioms Verif.Props.C42_code
#print axioms Verif.Props.C42_any
#print axioms Verif.Props.C42_token
#print axioms Verif.Props.C42_no_quote
#print axioms Verif.Props.C42_no_escape
#print axioms Verif.Props.C43_names
#print axioms Verif.Props.C43_same
#print axioms Verif.Props.C43_false
#print axioms Verif.Props.C43_false_value
#print axioms Verif.Props.C48_lexer
#print axioms Verif.Props.C48_parser
#print axioms Verif.Props.C48_chars
#print axioms Verif.Props.C48_identifiers
#print axioms Verif.Props.C48_false_quote
#print axioms Verif.Props.C48_false_twice
#print axioms Verif.Props.C44_checks
#print axioms Verif.Props.C44_mirror
#print axioms Verif.Props.C44_position_partial
#print axioms Verif.Props.C44_wrong
#print axioms Verif.Props.C44_false
#print axioms Verif.Props.C44_text
#print axioms Verif.Props.C44_false_regex
#print axioms Verif.Props.C49_reads
#print axioms Verif.Props.C49_refuses
#print axioms Verif.Props.C49_unique
#print axioms Verif.Props.C49_greedy
#print axioms Verif.Props.C49_one_line
#print axioms Verif.Props.C49_comment
#print axioms Verif.Props.C50_writable
#print axioms Verif.Props.C50_keyword
#print axioms Verif.Props.C51_expressible
#print axioms Verif.Props.C51_sentence
#print axioms Verif.Props.C51_plain
#print axioms Verif.Props.C52_decides_partial
#print axioms Verif.Props.C52_kept_partial
#print axioms Verif.Props.C53_first_error_partial
#print axioms Verif.Props.C53_printed_partial
#print axioms Verif.Props.C66_error
#print axioms Verif.Props.C93_wrong
#print axioms Verif.Props.C54_value_partial
#print axioms Verif.Props.C54_exact
#print axioms Verif.Props.C55_covers_partial
#print axioms Verif.Props.C55_exact_partial
#print axioms Verif.Props.C55_exact
#print axioms Verif.Props.C55_returns
#print axioms Verif.Props.C55_false
#print axioms Verif.Props.C56_unique
#print axioms Verif.Props.C56_text
#print axioms Verif.Props.C56_arithmetic
#print axioms Verif.Props.C56_lists
#print axioms Verif.Props.C57_lex_partial
#print axioms Verif.Props.C57_exact
#print axioms Verif.Props.C57_unsupported
#print axioms Verif.Props.C59_value
#print axioms Verif.Props.C59_written
#print axioms Verif.Props.C59_generated
#print axioms Verif.Props.C58_value_partial
#print axioms Verif.Props.C58_exact
#print axioms Verif.Props.C58_unsupported
#print axioms Verif.Props.C60_meaning
#print axioms Verif.Props.C60_files
#print axioms Verif.Props.C60_repository
#print axioms Verif.Props.C60_ast
#print axioms Verif.Props.C60_false_written
#print axioms Verif.Props.C61_written
#print axioms Verif.Props.C61_unique
#print axioms Verif.Props.C61_project
#print axioms Verif.Props.C61_meaning
#print axioms Verif.Props.C61_value_partial
#print axioms Verif.Props.C61_exact
#print axioms Verif.Props.C61_false_comment
#print axioms Verif.Props.C62_debug
#print axioms Verif.Props.C62_unique
#print axioms Verif.Props.C62_silent
#print axioms Verif.Props.C62_release_partial
#print axioms Verif.Props.C62_lisp
#print axioms Verif.Props.C62_false
#print axioms Verif.Props.C63_parse
#print axioms Verif.Props.C63_written
#print axioms Verif.Props.C63_agree
#print axioms Verif.Props.C64_writes
#print axioms Verif.Props.C64_stops
#print axioms Verif.Props.C64_must_stop
#print axioms Verif.Props.C64_any_hash
#print axioms Verif.Props.C64_must_stop_any
#print axioms Verif.Props.C64_todo
#print axioms Verif.Props.C65_project
#print axioms Verif.Props.C65_value_partial
#print axioms Verif.Props.C65_kept
#print axioms Verif.Props.C65_text_partial
#print axioms Verif.Props.C65_exact
#print axioms Verif.Props.C65_text_exact
#print axioms Verif.Props.C66_tree
#print axioms Verif.Props.C66_all
#print axioms Verif.Props.C67_regex
#print axioms Verif.Props.C67_combined
#print axioms Verif.Props.C67_dfa
#print axioms Verif.Props.C67_alphabet
#print axioms Verif.Props.C67_items
#print axioms Verif.Props.C67_states
#print axioms Verif.Props.C68_keys
#print axioms Verif.Props.C68_shift
#print axioms Verif.Props.C68_after_shift_partial
#print axioms Verif.Props.C68_false
#print axioms Verif.Props.C69_symbol_partial
#print axioms Verif.Props.C69_symbol_false
#print axioms Verif.Props.C69_input_partial
#print axioms Verif.Props.C69_input_tied
#print axioms Verif.Props.C69_input_nameless
#print axioms Verif.Props.C69_parsed
#print axioms Verif.Props.C69_input_false
#print axioms Verif.Props.C69_parsed_false
#print axioms Verif.Props.C70_kind
#print axioms Verif.Props.C70_def
#print axioms Verif.Props.C70_token_partial
#print axioms Verif.Props.C70_literal
#print axioms Verif.Props.C70_false
#print axioms Verif.Props.C71_bytes
#print axioms Verif.Props.C71_siphash
#print axioms Verif.Props.C71_grammar
#print axioms Verif.Props.C71_false
#print axioms Verif.Props.C71_sets_false
#print axioms Verif.Props.C71_lisp
#print axioms Verif.Props.C71_program
#print axioms Verif.Props.C71_parse
#print axioms Verif.Props.C72_lookup
#print axioms Verif.Props.C72_answer
#print axioms Verif.Props.C72_entry
#print axioms Verif.Props.C72_valid
#print axioms Verif.Props.C72_insert
#print axioms Verif.Props.C72_iter
#print axioms Verif.Props.C72_empty_row
#print axioms Verif.Props.C79_production
#print axioms Verif.Props.C79_item
#print axioms Verif.Props.C79_beyond
#print axioms Verif.Props.C79_token
#print axioms Verif.Props.C79_missing
#print axioms Verif.Props.C79_set
#print axioms Verif.Props.C80_dot_partial
#print axioms Verif.Props.C80_exact
#print axioms Verif.Props.C80_across_partial
#print axioms Verif.Props.C80_tokens
#print axioms Verif.Props.C80_false
#print axioms Verif.Props.C81_tail
#print axioms Verif.Props.C81_lex
#print axioms Verif.Props.C81_parse
#print axioms Verif.Props.C81_needed
#print axioms Verif.Props.C82_length
#print axioms Verif.Props.C82_limit
#print axioms Verif.Props.C83_noLoop
#print axioms Verif.Props.C83_chain
#print axioms Verif.Props.C84_noLoop
#print axioms Verif.Props.C84_chain
#print axioms Verif.Props.C84_reached
#print axioms Verif.Props.C85_exact
#print axioms Verif.Props.C85_latin_partial
#print axioms Verif.Props.C85_apart
#print axioms Verif.Props.C85_false
#print axioms Verif.Props.C86_lists
#print axioms Verif.Props.C86_class_partial
#print axioms Verif.Props.C86_reads
#print axioms Verif.Props.C86_repo
#print axioms Verif.Props.C86_false
#print axioms Verif.Props.C87_builds
#print axioms Verif.Props.C87_tokens
#print axioms Verif.Props.C87_text
#print axioms Verif.Props.C88_builds
#print axioms Verif.Props.C88_tokens
#print axioms Verif.Props.C88_text
#print axioms Verif.Props.C88_terminals
#print axioms Verif.Props.C89_refused
#print axioms Verif.Props.C89_conflict
#print axioms Verif.Props.C89_unused
#print axioms Verif.Props.C90_exact
#print axioms Verif.Props.C91_exact_partial
#print axioms Verif.Props.C91_few
#print axioms Verif.Props.C91_false
#print axioms Verif.Props.C92_front
#print axioms Verif.Props.C92_back_partial
#print axioms Verif.Props.C92_exact
#print axioms Verif.Props.C92_grows
#print axioms Verif.Props.C92_parse_partial
#print axioms Verif.Props.C92_false
#print axioms Verif.Props.C93_accepted
#print axioms Verif.Props.C93_stacks
#print axioms Verif.Props.C93_lines
#print axioms Verif.Props.C93_refused
#print axioms Verif.Props.C93_token
#print axioms Verif.Props.C94_places
#print axioms Verif.Props.C95_words
#print axioms Verif.Props.C95_apart
#print axioms Verif.Props.C95_again
#print axioms Verif.Props.C95_ts
#print axioms Verif.Props.C95_needs
#print axioms Verif.Props.C96_false
#print axioms Verif.Props.C96_exact
#print axioms Verif.Props.C96_accepts
#print axioms Verif.Props.C96_leaves
#print axioms Verif.Props.C96_literal
#print axioms Verif.Props.C96_sentences_partial
#print axioms Verif.Props.C96_literals_partial
#print axioms Verif.Props.C97_tree
#print axioms Verif.Props.C97_pieces
#print axioms Verif.Props.C97_value
#print axioms Verif.Props.C98_pieces
#print axioms Verif.Props.C98_tokens
#print axioms Verif.Props.C98_lines
#print axioms Verif.Props.C98_ts
#print axioms Verif.Props.C99_exact
#print axioms Verif.Props.C99_text_partial
#print axioms Verif.Props.C99_tokens_partial
#print axioms Verif.Props.C99_back_partial
#print axioms Verif.Props.C99_false
#print axioms Verif.Props.C100_sets
#print axioms Verif.Props.C100_lookaheads
#print axioms Verif.Props.C100_transitions
#print axioms Verif.Props.C100_builds
#print axioms Verif.Props.C100_decides
#print axioms Verif.Props.C100_right_linear
#print axioms Verif.Props.C100_once
#print axioms Verif.Props.C101_builds
#print axioms Verif.Props.C101_tables
#print axioms Verif.Props.C101_terminates
#print axioms Verif.Props.C101_decides
#print axioms Verif.Props.C101_incomplete
#print axioms Verif.Props.C102_builds
#print axioms Verif.Props.C102_tables
#print axioms Verif.Props.C102_no_left_recursion
#print axioms Verif.Props.C102_terminates
#print axioms Verif.Props.C102_decides
#print axioms Verif.Props.C102_unambiguous
#print axioms Verif.Props.C102_output
#print axioms Verif.Props.C102_simple
#print axioms Verif.Props.C103_exact
#print axioms Verif.Props.C103_states
