# typelalr: formal model and proofs

This document is the plan and the statement of the trusted base.  It is kept
up to date as the model grows; the last section records disagreements between
the code and the properties.

## 1. Trusted base

* Lean 4.33.0 kernel.  Axioms: at most `propext`, `Classical.choice`,
  `Quot.sound` (the file `Verif/Axioms.lean` prints them).  No axioms of our
  own, no `sorry`, no `native_decide`, no `bv_decide`.
* The correspondence between /repo and `Verif/Model/*` is by reading.  Each
  model definition cites the file and lines it models and says what is
  simplified.  Where the repository contains generated output
  (`ts/lex_state.gen.ts`, `ts/parse_state2.gen.ts`) the model is checked
  against it by evaluation (`Verif/Tests/Lisp`), and the assertions of the
  repository's own unit tests are evaluated on the model (`Verif/Tests/Unit`);
  those checks are tests, not proofs, and no claim rests on them.
* Common simplifications
  - `usize`, `u32`, `TokenIdx`, `StateIdx`, ... are `Nat`; no overflow.
    `OptionUsize` is `Option Nat` in the automata, and is modelled separately
    with its sentinel (C40).
  - Strings are `List Char`; byte offsets are computed from UTF-8 lengths
    where the code slices by bytes (C12).
  - `BTreeSet`/`BTreeMap` are sorted lists under an explicit order;
    `HashSet` is a list together with an arbitrary iteration order
    (an oracle permutation, quantified over in the theorems);
    `IndexSet`/`IndexMap` are lists in insertion order.
  - `panic!`, `todo!`, `unwrap`, `expect`, `assert!` are error values
    (`Err`).  Non-terminating loops take fuel; running out of fuel is a
    separate error value, and a theorem states that the fuel given suffices
    (or, for genuine divergence, that no fuel suffices).
  - The crate `regex-syntax` (regex text to `Hir`) is a parameter: a function
    `Str -> Option Hir`.  For string literals the parameter is fixed to the
    concatenation of literal characters, which is what parsing
    `regex::escape(s)` yields.
  - `core_hash` (64-bit SipHash) is a parameter.  What the parsers accept and
    compute is proved for every hash; completeness (C28 and what builds on it)
    and the exact content of the tables assume that it keeps the cores of the
    LR(1) sets apart (`NoCollisions`), which is what C62 is about.  `Model/Hash`
    writes the real hash out; that `DefaultHasher` is SipHash-1-3 with zero keys
    is a fact about the standard library that is taken on trust, in C71 only.
  - The release build is modelled: `debug_assert_eq!` (src/lalr/item.rs:169) is
    absent, except in `Model/Debug`, which C62 compares with it.
  - The bump allocator, lifetimes, `unsafe` `ManuallyDrop` moves and
    timing are not modelled.  Of the debug printing, only that of symbols,
    productions, items and item sets (`Model/Show`), of ranges
    (`Model/CharsFile`), of the loop of the parser (`Model/Trace`) and of the
    lexer (`Model/LexTrace`) is.

## 2. What is modelled

| file | modelled | not modelled |
|---|---|---|
| src/option_usize.rs | all | - |
| src/lex/nfa.rs | Match, Edge, State, push_*, edge_iter, compile, from_regex, epsilon_closure, move_set, simulate, labels, accepting states, shifting, template, printing of ranges, the test that writes chars.ts (`CharsFile`) | other printing |
| src/lex/dfa.rs | remove_overlap/add_range, DFABuilder, DFA::test | printing |
| src/lex/lex.rs | from_tokens, lex, make_tok, convert_tokens, the private `matches`, which nothing calls (`Lex.step`) | printing |
| src/parser/mod.rs, ast.rs | grammar_from_ast_productions, token list, lookups, token definitions, the comparisons written by hand (`Compare`), the methods of `InputSymbol` (`AstSymbol`), printing of symbols and productions (`Show`) | derived `Debug` of the rest |
| src/lib.rs, src/parser/grammar.lalrpop, src/parser/support.rs | `parse_grammar` (`FrontEnd`): the terminals, longest match, the rules, stripping of delimiters | the code `lalrpop` generates (its LR(1) automaton and its regex engine); the model follows the documented semantics |
| src/lalr/first.rs, item.rs, table.rs, lalr.rs | all of it, printing of items and item sets included (`Show`; escapes inside quoted texts simplified) | printing of tables |
| the steps from a grammar to the files | `compile` (`Program`): the sequence used by the tests of src/codegen/parse_gen.rs; src/main.rs is empty | writing to disk |
| src/codegen/lex_gen.rs, parse_gen.rs | table contents (`LexGen`, `ParseGen`) and the text of the files (`LexText`, `ParseText`), parameter checks, the panics of `from_input_symbols` and `call_impl_args` (whose output the code drops) | writing to disk; `nice_case` and `ActionImplParam::write`, which nothing calls |
| ts/lex.ts, ts/parse.ts, ts/util.ts | as functional programs (`TsLex`, `TsParse`, `TsUtil`); as the declarations that they are (`TsFiles`), with an evaluator for the fragment of TypeScript they use (`MiniTs`) | the TypeScript type checker itself |
| generated files, seen from TypeScript | `TsProg`: tables as types, actions as expressions; C61 proves that the text the generator prints is read as these | files for grammars with named regexes, which are malformed (C44, `C60_false_written`); C60 reads the file of the repository instead |

What the functional model of TypeScript leaves out: the compiler's limits on
instantiation depth and count; unions (a parameter name used twice infers a
union, the model takes the first); parameters named like a keyword, or `__x`
next to `x`; the evaluation of the user's own types, which is a parameter
(`Sem`).  `never` is represented where ts/util.ts can produce it (arithmetic
outside the tables) and lumped into one outcome in ts/lex.ts and ts/parse.ts.

C56 to C58 do not rest on the functional model.  `MiniTs` evaluates type
expressions: alias declarations, conditional types with `infer`, tuples with
spread, object types, indexed access, `keyof`, template literals; a result is
the limit over the number of nested instantiations.  `TsFiles` holds the
declarations of the three files, and `Tests/TsFiles` checks in the kernel that
they are what `Spec/TsSyntax` reads from the text of the files.  Rules taken
from the handbook: an `infer` variable is in scope in the true branch only; a
conditional type on a naked type parameter is `never` for `never`; a tuple has
`undefined` beyond its end (`strict`); `infer x extends C` fails if the
inferred type does not extend `C`.  Outside the fragment, where the evaluator
has no answer: unions as the checked type of a conditional type, spreads of
something other than a tuple, `never` matched against a tuple pattern.  Not
represented: the compiler's limits on depth and count, constraints of type
parameters (a violation is reported and does not change the result), strings
as UTF-16 code units.  The user's types are a parameter (`User`), and mapping
code sees only the parameters of its body.  C81 to C84 count instantiations of
aliases in this evaluator (`Spec/Tail`), nested and in chains of tail calls; the
compiler counts instantiations of every kind of type, and its limits are not modelled.

C59 takes the parameter away for basic_lisp.tlalr: `Spec/TsUser` reads the
declared types and the mapping code of a grammar with the reader of
`Spec/TsSyntax` and evaluates them with `MiniTs`; a declared type is an object,
tuple, array, union or literal type or the name of a nonterminal, and a type
belongs to it by structure, excess members allowed.  Code outside this fragment
has no value.

C60 starts from the text of all six files under ts/.  `Spec/TsProject` reads
imports, aliases and `export declare module` blocks and resolves names; it
knows nothing of parsers.  `Spec/TsGenFile` says what the generated files
should declare, the mapping code inside the conditional types.  Decisions: a
name means its first declaration in scope, own names before imported ones,
those of a module before those of its file; `export` is not checked; an alias
without parameters in the module `actions` is kept as a name when it is
evaluated (such types may be recursive) and unfolded when something is compared
with it.

C61 closes the gap between C60 and the generator: `Spec/TsWritten` says when a
text is a file (the reader of `Spec/TsSyntax` and `Spec/TsProject` reads it
with enough fuel), and the four texts that the generator prints are shown to be
the files of `Spec/TsGenFile` for every grammar that meets `TsWritable`.  The
conditions are about the grammar only.  A word may start with a letter, `_` or
`$`; the reserved names are those the reader gives a meaning of its own.

The specification of the generated text (`Spec/TsText`, `Spec/TsDecl`, `Spec/TsTables`) is a
scanner and a reader for the fragment of TypeScript type declarations that
occurs in the files: names, numbers, single and double quoted strings with
escapes, tuples, object types, unions.  It is not a TypeScript parser.

## 3. Specification side (`Verif/Spec/*`)

* `Matches : Hir -> List Char -> Prop`, textbook regex denotation.
* `MaxMunch`-style relation for lexing, phrased with `Matches` only.
* `Reads`, `PToken`, `Munch` (`Spec/Pieces`): the same when a text is read as
  pieces of the alphabet.  The pieces are those `remove_overlap` cuts, which is
  itself a function of the model (C05, C06 describe it); a piece matches a range
  that contains all of it.  With this C08 to C11, C15 and C33 are described for
  every list of tokens (`C08_exact` and so on), and so are the generated types
  (`MunchErr`; `C36_exact`, `C54_exact`, `C57_exact`, `C58_exact`, `C61_exact`, `C65_exact`).
  `C11_exact` says that it is the ordinary meaning when the pieces fit.
* Texts of symbols with spaces and a dot, lines of a printed set (`Spec/Show`).
* Instantiation in which an alias in tail position replaces the one at hand, with a bound on
  the pending instantiations and one on the length of a chain (`Spec/Tail`).
* Invisible characters and the text of a tuple of strings (`Spec/CharsFile`).
* The rules of a grammar as a list, and a grammar with the same rules under other names and in another order (`Spec/Rename`).
* A grammar with more rules, for names that the others do not mention (`Spec/Idle`).
* What can follow a nonterminal, and grammars where that does not depend on the place (`Spec/Uniform`).
* Grammars whose bodies begin with terminals that tell them apart (`Spec/Simple`).
* LL(1) grammars, by the terminals with which the bodies of the nonterminals that can be reached can begin (`Spec/LL1`).
* When nothing can follow a text, read piece by piece (`Spec/LexStep`).
* Rightmost derivations, and reading lines by what they begin with (`Spec/Trace`).
* Words written apart, blanks in no range; the word a terminal is read from (`Spec/Apart`).
* SipHash on 64-bit words, as in its paper (`Spec/SipHash`).
* Context-free grammars: `Yields` (parse trees over rules read off the AST).
* FIRST by leftmost derivation; `Headed`, `Skipped` (`Spec/Cfg`), the rules with
  bodies cut after the first symbol and the suffixes left when nullable symbols
  are skipped, say what `first` returns, and when, in the presence of ε; LR(1) closure as an inductive predicate,
  reachability of item sets.

## 4. Plan per property

| id | plan |
|---|---|
| C01 | Thompson fragment lemma by induction on HIR, then set simulation = reachability |
| C02 | structural induction on HIR, both directions |
| C03 | invariant over `push_state`/`push_edge` sequences: edges of a state contiguous, indices in bounds |
| C04 | worklist invariant with a decreasing measure; order oracle quantified |
| C05 | induction on fuel with a size measure; coverage invariant |
| C06 | negation by a computed witness; positive theorem for three ranges, and when ranges that cross are neither inside nor around others: a sorted list decomposes into blocks that are laminar or chains |
| C07 | worklist invariant; fuel bound by number of subsets |
| C08 | simulation over the string from C06/C07; for all token lists, over the word of pieces read |
| C09 | negation by witness; exact characterisation as prefix test |
| C10-C15 | lex loop refines the maximal munch relation; corollaries; witnesses for the false parts |
| C16 | reachability in the disjoint union of shifted automata |
| C17 | direct proofs about list functions |
| C18,C19 | induction on fuel / derivations; divergence: no fuel suffices on a cycle |
| C20,C21,C22 | worklist invariants against inductive predicates, termination measures; `Buildable` (Spec/Cfg.lean) is exactly the domain of `items` (Proofs/BuildOk.lean) |
| C23 | grouping invariant |
| C24 | loop invariant over items; conflict characterisation, also on the canonical LR(1) sets alone (`Clash`, `Kept` in Spec/Lr.lean) |
| C25,C26 | computed witnesses; positive theorem for cores shared at most twice |
| C27,C31,C34 | stack invariant: the states on the stack spell a viable prefix |
| C28,C29 | determinism of the tables along the rightmost derivation of a tree, given complete transitions |
| C30 | lexicographic measure with the rank of unit reductions; the rules reduced by can be reached (induction over the canonical sets); with every transition present, a unit cycle in a state would be a conflict; a run past the bound repeats a unit reduction at the same height, hence comes back to the same configuration; witness for divergence |
| C32,C33 | composition |
| C35-C39 | functional model of the TypeScript types, refinement to the Rust model |
| C40,C41 | direct |
| C42-C44 | functions on strings/lists; witnesses for the false parts |
| C45 | corollary: oracle-quantified equality |
| C46-C48 | table contents; a scanner and reader for the text, inverse to the printers |
| C66 | a tree is followed along the transitions of the tables and a run builds a tree along them; every item of a canonical set lies on a parse tree |
| C52, C53 | C27, C28, C30 together; a run looks only at the tokens up to where it has got |
| C54 | C36, C66, C37, C38 together |
| C56, C57, C58 | each declaration evaluated equals the function of the functional model (induction along the recursion of the declaration), then C39, C36, C54 |
| C59 | C58 on the artefacts of basic_lisp.tlalr; its lexer cuts exactly the spaced texts, its trees are the lists (induction), its code is evaluated |
| C60 | two programs whose declarations are related have the same limits (induction on the instantiations); code is data, so evaluating it in place or apart is the same; the texts are read in the kernel |
| C61 | scanning is a fold, so each piece of text adds its words (induction on the tables); readers compose under "more fuel and more words change nothing"; then C60 and C58 |
| C63 | C33 and C29 on the artefacts of basic_lisp.tlalr; what its lexer cuts, which part it drops; its trees are the lists (induction) |
| C64 | composition of C49, C17, C02, C22, C24 for the sequence of steps in Model/Program.lean; which panic each step can raise (Proofs/ProgramOk.lean); reasons in Spec/Program.lean; the hash of cores is used after the last step that can fail for another reason than a conflict (`C64_any_hash`); todo.md:11-26 is such a text (`C64_todo`) |
| C65 | composition of C64 and C61; the conditions of C61 on the lexer and the tables derived from conditions on the grammar (Spec/Usable.lean): ends of the atoms are ends of ranges, disjoint atoms are counted by their lower ends (Proofs/UsableOk.lean), dropped transitions by C66 (`KeptTree`), words and quotes from C50, C51 |
| C67 | compilation adds at most 2 states and 4 edges per operator (mutual induction); states of the DFA and of the tables are distinct sublists of fixed lists |
| C68 | keys of a row are its entries; the invariant of the loop (C27) with the token replaced by a listed one; up to the last shift a run does not see what follows |
| C69 | `TotalOn` (Spec/Order.lean) by induction on the symbol; exactly which pairs are below each other (`Tied`); the text order is lawful (`LawfulBOrd Str`) |
| C70 | induction on the symbol |
| C71 | four bytes determine a number below 2^32; the hash on numbers against SipHash on words, word by word; pigeonhole for the collision; evaluation of the hash on the finitely many cores of one grammar |
| C72 | induction over the writes from the last one; sorted association lists are determined by their lookups |
| C62 | invariant of the merge that holds for every hash: the first core of a group is part of the others; equal lengths make it equal to them |
| C55 | derivations with ε erased; what each call adds to the set, under a condition for the converse; `C55_exact`, `C55_returns` without conditions: the set is FIRST for the rules `Headed`, the calls made are those along `Skipped` |
| C73-C78 | the exact statements behind C08-C11 and C15, C36-C61, C30, C26, C32, C55: what is true without conditions |
| C79, C80 | the printing loops against texts joined with spaces; length of the text before the dot, and which text lies between two places of it; quoted texts are a prefix code; indentation line by line (Proofs/ShowOk.lean) |
| C81, C82 | a rank of the declarations that falls outside tail position and does not rise in it (Proofs/TailOk.lean, Proofs/TailRank.lean); one tail call for each character of the text and each element of the list (Proofs/TailLen.lean) |
| C83 | induction on the depth that `ParseImpl` carries; what a tail call is given, below patterns that do not bind the name of the depth (Proofs/TailParse.lean) |
| C84 | a number that falls with every tail call, from what `LexImpl` knows of its positions (Proofs/TailLex.lean); two nested inductions along a text of letters (Proofs/TailQuad.lean) |
| C85, C86 | the printed characters by number; the sorted set by membership; the file of the repository is compared with the text (Tests/RepoChars.lean has it) |
| C87 | a bijection of the names gives a bijection of productions and of item sets; kernels, lookaheads, conflicts and the kept transitions are carried over; the lexers have the same tokens in the same order, because terminals are not renamed and nonterminals are no tokens |
| C88 | the items of the smaller grammar are closed under closure and GOTO in the larger one; every canonical set of the larger is the image of one of the smaller; trees and lexer as for C87 |
| C89 | induction over the uses: a nonterminal that is used has a reachable set asking for it; then both copies walk together to their ends with the same lookahead |
| C90 | the walk over pieces of C08_exact, one step further; a state has edges exactly if some piece lies in a range that may follow |
| C91 | C37, and counting: every move reads a token or reduces |
| C92 | C10_exact, and induction on the munch: shifted by the blanks before it; the longest token of a text is that of the text with a blank after it |
| C93 | induction on the run: every iteration prints a stack and either a shift or a rule; the postorder of a tree, backwards, is a rightmost derivation; C27, C66, C68, C79; line by line (`C93_lines`) by cases of one iteration |
| C94 | the invariant of the lexer's loop (C10), with the numbers printed instead of the tokens |
| C95 | a character in no range ends every walk, so the longest token before it is the word; induction on the words |
| C96 | choose a word for each leaf and write the words apart (C95); conversely each piece of an accepted text is a word for its leaf (C33_exact, C11_exact); literals come before regexes in the numbering (C17) |
| C97 | induction on the tree for the value; C65_exact on the cut that C95 gives; results of the evaluator do not change with more instantiations |
| C98 | induction on the cut of the first part: no token goes beyond the blank, so every choice is the same with any rest |
| C99 | a permutation of the places of the rules carries trees over; both lexers read a text as the same string of terminals (`same_words`); then the exact language of C66 |
| C100 | invariant of the canonical sets: every item has all lookaheads that can follow its left side and no other; so a core determines its set, and C26, C25, C52 apply |
| C101 | invariant of the canonical sets: one item, and the productions of the nonterminal behind its dot; so no two items claim one entry (`Clash`), and C24, C64, C30, C100 apply |
| C102 | as C101, with the productions reached by first symbols from the nonterminal behind the dot: those that can begin with one terminal form a chain, and a repeated first symbol on it would be left recursion, which induction on how a terminal begins excludes; trees are compared from the left, the first leaf telling the production |
| C103 | the invariant of C102: a canonical set is the closure of one item, which fixes the core and, apart from the start, has the dot behind a symbol; the other way round, induction on `Uses` and on the dot |
| C49-C51 | each pattern finds the longest match of its regex; parser functions sound and complete for the rules; a text with one token per line |

## 5. Disagreements found

Each is a theorem with a concrete witness, and each has a positive theorem next
to it saying when the property does hold.

| id | what the code does | witness |
|---|---|---|
| C06 | `add_range` puts the lower piece back without comparing it with later ranges, so pieces can overlap | `C06_false`: `c`, `[a-d]`, `[b-j]`, `[c-t]` |
| C08, C10, C11, C33 | with pieces that lie only partly inside a range possible at the same place (`AtomsOk` excludes them; pieces that occur twice, or lie partly inside ranges that are never possible together, do no harm) the DFA misses NFA states; the lexer then misses longer or earlier tokens, and a text whose maximal munch is no sentence is accepted | `C08_false`, `C10_false`, `C11_false`, `C33_false` |
| C09 | `DFA::test` asks whether the walk ended in a recorded state, not an accepting one, and compares a character count with a byte count | `C09_false`: `ab` on "a" |
| C12, C36 | character indices are used to slice bytes: wrong values or a panic on non-ASCII input | `C12_false`, `C36_false_value`: `éa`, `aé` |
| C14 | a blank is not skipped if a token starts with it and goes on with a part that matches nothing | `C14_false`: ` [^\s\S]` (if the regex crate lets the empty class through) |
| C15 | the lexer stops without an error at an unmatchable character, and drops the tail after a failed longer match at the end | `C15_false`: `a?b`, `ab` |
| C59 | the type-level lexer drops an unfinished word at the end of the text: `(add)ad` parses as `(add)` | `C59_value` and its second example |
| C63 | `Lalr::parse` ignores what comes after a sentence if no token or blank begins it: `(add)?!` is accepted | `C63_written` and the example |
| C60 | ts/parse_state2.gen.ts is not what the program writes for basic_lisp.tlalr; what it writes is no TypeScript (`extendsstring`) | `C60_false_written` |
| C61 | mapping code is pasted in front of the rest of a line: a line comment at its end swallows it | `C61_false_comment` |
| C62 | sets are merged by the hash of their cores, which are never compared; in a release build a collision between a core and a part of it goes unnoticed, and sentences are rejected | `C62_false` |
| C19 | FIRST recurses for ever on left recursion | `C19_overflow` |
| C55 | `first_of_symbol` reports ε as soon as the first symbol of a body is nullable (ε cannot be written in the grammar language) | `C55_false` |
| C25 | two items with one terminal after the dot are reported as a conflict | `C25_false`: `S -> "a" "b" \| "a" "c"` |
| C26, C28, C29, C30 | the successor of a merged state is looked up as a set, and a proper sub-union of a merged class is not found: the transition is dropped; sentences are rejected, ambiguity goes unnoticed, the parser can loop | `C26_false`, `C28_false`, `C29_false`, `C30_false` |
| C68 | the tokens listed as valid belong to the state reached after reductions the wrong token has caused: the list lacks tokens that could follow, and has ones that cannot | `C68_false` |
| C69 | `Symbol::compare` and `InputSymbol::compare` put epsilon below itself; for `Ord` of `InputSymbol` all nonterminals are equal (`Eq` tells them apart), and a named symbol without a name is below itself. No code sorts by these comparisons | `C69_symbol_false`, `C69_input_false`, `C69_parsed_false` |
| C70 | `InputSymbol::to_token_def_with_regex` takes a literal for a regex and drops its value; `Symbol::to_token_def_with_regex` quotes it and keeps the value. Only the second is called | `C70_literal`, `C70_false` |
| C71 | `ItemSet::hash` feeds an item and its lookaheads without marking where the next item begins: different sets feed the same bytes (harmless where it is used, in index sets) | `C71_sets_false` |
| C32 | tokens are converted by name, so a literal and a regex spelled alike are confused | `C32_false`: `S -> "a" /a/` |
| C36 | a label beyond the arithmetic tables matches every character in `Lex` | `C36_false` |
| C37, C38 | a parameter called `newStack` hides the stack in the generated action: the parser never accepts, or returns a symbol taken from the parameter's value | `C37_false`, `C38_false` |
| C37 | a parameter with the name of a nonterminal of its body hides the type it is checked against | `C37_false_hidden` |
| C37 | a terminal spelled `EOF` is taken for the end of the text by `Parse` | `C37_false_eof` |
| C42 | escapes in literals and regexes are not decoded: a quote cannot be denoted, `\d` cannot be written | `C42_no_quote`, `C42_no_escape` |
| C43, C48 | names are quoted without escaping: an apostrophe makes the file malformed, `\\` denotes one backslash | `C43_false`, `C43_false_value`, `C48_false_quote` |
| C48 | terminals spelled alike give a type with a duplicate member | `C48_false_twice` |
| C49 | a code block ends at the last `)` of its line, so a production with a body cannot stand on one line; the comment in the README's grammar is refused | `C49_greedy`, `C49_one_line`, `C49_comment` |
| C50 | `r`, `start` and `export` are keywords: `<r: A>` is refused | `C50_keyword` |
| C44 | the messages of failing checks are printed in the wrong order; the condition of a named regex reads `extendsstring` | `C44_wrong`, `C44_false`, `C44_false_regex` |
| C80 | a literal and a nonterminal of the same name are printed alike, and so are the places of the dot beside an empty literal or beside a literal that is a dot | `C80_false` |
| C82, C84 | the README expects tail calls to keep long inputs within the recursion limit; the chain grows with the text, and with its square where tokens are read ahead in vain | `C82_limit`, `C84_reached`: tokens `a` and `a+b` on letters `a` |
| C85, C86 | printed ranges, and the list in chars.ts, keep only the remainder by 256 of a character | `C85_false`, `C86_false`: λ is shown as » |
| C91 | `Parse` counts down from 50 and gives up: lists with 50 or more tokens and reductions are refused though the Rust parser accepts them | `C91_false` |
| C90 | in a state nothing can follow, `Lex::matches` answers `Ok` for every character; elsewhere a wrong character that is not blank is an error | `C90_exact`, the example after it |
| C92 | a line break at the end of a text can bring out tokens that were dropped without it: of the tokens `a`, `abc`, `b`, `ab` is `a`, and `ab` with a line break is `a`, `b` | `C92_false` |
| C96 | a regex all of whose words are also words of terminals with smaller numbers is accepted without a warning, and sentences with it cannot be written | `C96_false`: `S → "a" /[a]/` accepts no text |
| C99 | a rule that is added, with a parser built before and after, can make a text be refused that was accepted | `C99_false`: `S → "x" B "p" \| "b" C "r"`, `B → "b" C`, `C → "c"` accepts `x b c p`; with `S → "r" B "x"` it does not |

## 6. Testing the theorems against wrong programs

`seeded/LOG.jsonl` has one line per wrong program tried.  A wrong program is one
edit to a model definition in a copy of the project; the copy is rebuilt, the
declarations with errors are collected, and the claims whose proofs use one of
them (through the dependency graph of the unedited build) are listed.  A claim
that should have failed and did not is tightened.
