{"id": "C01", "title": "Regex scanning terminates and its spans tile the pattern", "statement": "Splitting a pattern into regex tokens terminates; the reported spans tile the pattern: the first starts at character 0, each further one starts where the previous one ended, every span is non-empty and the last one ends at the length of the pattern.", "quantifier": "every pattern string, of any length, valid or not", "why_tests_cant": "the patterns are unbounded strings and the interesting ones (truncated constructs at the end) are a thin slice of them", "anchors": ["pango-lexer/src/regex/tokenizer.rs: Tokenizer::next, get_token_end_cursor_pos", "pango-lexer/src/iter/peekable.rs: CachedPeekable::current"]}
{"id": "C02", "title": "Hexadecimal escapes denote one character and end where the syntax says", "statement": "In a pattern, `\\xHH` denotes the character with code HH and `\\uHHHH` the one with code HHHH, whatever text follows the escape.", "quantifier": "every pair/quadruple of hex digits and every following text", "why_tests_cant": "the following text is arbitrary and unbounded", "anchors": ["pango-lexer/src/regex/tokenizer.rs: handle_unicode_escape_sequence, take_next_hexadecimals_and_convert_to_u32"]}
{"id": "C03", "title": "Counted repetition bounds are decoded exactly or rejected", "statement": "`{n}`, `{n,}` and `{n,m}` with decimal numerals are read as exactly these bounds when they fit in 32 bits, and as an invalid token otherwise; reading them never crashes.", "quantifier": "every pair of decimal numerals of any length, leading zeros included, both build profiles", "why_tests_cant": "numerals are unbounded; the wrong cases are four final digits at one prefix", "anchors": ["pango-lexer/src/regex/tokenizer.rs: handle_quantifier, take_next_decimals_and_convert_to_u32"]}
{"id": "C04", "title": "Patterns round-trip", "statement": "Writing any regular-expression tree in the documented syntax (escaping special characters) and parsing the text gives back the same tree.", "quantifier": "every tree of the documented grammar, of any depth, over all Unicode characters", "why_tests_cant": "the project's own property test samples trees and only checks that parsing succeeds, not what it returns", "anchors": ["pango-lexer/src/regex/parser.rs: Parser::parse", "pango-lexer/src/regex/tokenizer.rs: Tokenizer::next", "pango-lexer/src/regex/tests/proptest.rs: ToString for ExprKind, all_valid_regex"]}
{"id": "C05", "title": "The pattern parser is total", "statement": "Parsing any pattern string terminates without crashing and returns either a tree or exactly one error.", "quantifier": "every pattern string, both build profiles", "why_tests_cant": "termination of a recursive-descent parser over every string cannot be sampled", "anchors": ["pango-lexer/src/regex/parser.rs: Parser::parse, expression, sub_expression, group, match_item, character_group, character_group_item"]}
{"id": "C06", "title": "The pattern parser accepts only the documented grammar and reads the whole pattern", "statement": "If a pattern is accepted, the whole pattern is a sentence of the documented EBNF and the returned tree is the tree of that sentence.", "quantifier": "every pattern string", "why_tests_cant": "ranges over all strings, including those with stray closing parentheses and empty alternatives", "anchors": ["pango-lexer/src/regex/parser.rs: Parser::parse, sub_expression", "pango-lexer/src/regex/ast.rs: module grammar comment"]}
{"id": "C07", "title": "Every accepted pattern compiles", "statement": "If a token's pattern is accepted by the builder (no parse error), adding it to the lexer does not crash.", "quantifier": "every pattern string", "why_tests_cant": "ranges over all strings accepted by the parser", "anchors": ["pango-lexer/src/fsm/nfa/compiler.rs: Compiler::expr", "pango-lexer/src/lexer/mod.rs: LexerGenerator::add_token"]}
{"id": "C08", "title": "Character sets mean what they say", "statement": "A literal matches exactly itself, `a-b` in brackets matches exactly the characters between a and b inclusive, a bracket group matches the union of its items, `[^...]` matches exactly the characters `[...]` does not, and \\W, \\D, \\S are the complements of \\w, \\d, \\s.", "quantifier": "every set expression and every Unicode character", "why_tests_cant": "1.1 million characters times unboundedly many groups", "anchors": ["pango-lexer/src/regex/ast.rs: LiteralKind::contains, GroupedLiteralKind::contains", "pango-lexer/src/regex/tokenizer.rs: ClassKind::contains"]}
{"id": "C09", "title": "Compiled automata are well formed", "statement": "Compiling any sequence of pattern trees yields an automaton in which every transition leads to an existing state, state ids are unique, and the consistency checks of the builder never fire; the final states are exactly the ones created for the patterns.", "quantifier": "every list of pattern trees without empty sequences", "why_tests_cant": "trees are unbounded and recursion allocates ids", "anchors": ["pango-lexer/src/fsm/nfa/model.rs: NfaBuilder::build, add_state, add_transition, add_quantified_state", "pango-lexer/src/fsm/nfa/compiler.rs: Compiler::expr, insert_quantifier_state"]}
{"id": "C10", "title": "Matching implements regular-expression semantics", "statement": "A compiled pattern accepts a string exactly if the string belongs to the regular language the pattern denotes, where X{n}, X{n,}, X{n,m}, X*, X+, X? mean n-fold, at least n-fold, n- to m-fold, ... repetition of X.", "quantifier": "every pattern tree and every input string", "why_tests_cant": "both patterns and strings are unbounded; counting bugs show only for particular nestings", "anchors": ["pango-lexer/src/fsm/nfa/compiler.rs: Compiler::expr", "pango-lexer/src/fsm/nfa/sim.rs: NfaSimulator, Run::take_transition, eps_closure, feed, is_accepting", "pango-lexer/src/fsm/nfa/model.rs: Nfa::eps_closure"]}
{"id": "C11", "title": "Matching terminates", "statement": "Feeding any string to the automaton of any pattern terminates.", "quantifier": "every pattern tree and every input string", "why_tests_cant": "non-termination cannot be observed by a test, and depends on nesting of nullable repetitions", "anchors": ["pango-lexer/src/fsm/nfa/sim.rs: NfaSimulator::eps_closure, feed"]}
{"id": "C12", "title": "Look-ahead test and feeding agree", "statement": "`can_feed(c)` is true exactly if some run survives feeding c; once no run survives, nothing can be fed and nothing is accepted any more; feeding a string gives the same answer as feeding its characters one by one, and on the empty string the answer of `is_accepting`.", "quantifier": "every automaton, every simulator state and every string", "why_tests_cant": "states are reachable by unboundedly many histories", "anchors": ["pango-lexer/src/fsm/nfa/sim.rs: can_feed, feed, is_accepting", "pango-lexer/src/fsm/traits.rs: Simulate::feed_str"]}
{"id": "C13", "title": "Maximal munch", "statement": "When the lexer returns a token, its source is the longest prefix of the not yet tokenized input that any of the token patterns matches.", "quantifier": "every set of token patterns, every input, every point of the token stream", "why_tests_cant": "ranges over all inputs and pattern sets", "anchors": ["pango-lexer/src/lexer/mod.rs: Lexer::next", "pango-lexer/src/lexer/input.rs: InputIter"]}
{"id": "C14", "title": "Earlier token definitions win", "statement": "Among the token patterns that match the returned source, the token kind is the one of the pattern added first.", "quantifier": "every list of token patterns and every input", "why_tests_cant": "ranges over all inputs and pattern lists", "anchors": ["pango-lexer/src/lexer/mod.rs: Lexer::next, LexerGenerator::add_token", "pango-lexer/src/fsm/nfa/sim.rs: get_current_final_states"]}
{"id": "C15", "title": "The lexer finds a token whenever one is there", "statement": "If some non-empty prefix of the not yet tokenized input matches a token pattern, `next` returns a token.", "quantifier": "every set of token patterns and every input", "why_tests_cant": "the failing case needs a dead-end continuation right at the end of input", "anchors": ["pango-lexer/src/lexer/mod.rs: Lexer::next"]}
{"id": "C16", "title": "Tokens are non-empty and lexing is finite", "statement": "Every returned token has a non-empty source, and a lexer over an input of n characters returns at most n tokens before it first returns None.", "quantifier": "every lexer, every input, every number of calls", "why_tests_cant": "ranges over all inputs and call histories, patterns matching the empty string included", "anchors": ["pango-lexer/src/lexer/mod.rs: Lexer::next", "pango-lexer/src/lexer/input.rs: consume_token, accept_suffix"]}
{"id": "C17", "title": "Token positions are contiguous", "statement": "The first token starts at 0, each further token starts at the end of the previous one, and every token's end is greater than its start.", "quantifier": "every lexer, input and call history", "why_tests_cant": "ranges over all histories", "anchors": ["pango-lexer/src/lexer/input.rs: consume_token, accept_suffix", "pango-lexer/src/lexer/mod.rs: Lexer::next"]}
{"id": "C18", "title": "No input is lost", "statement": "The source of every returned token is exactly the part of the input at the token's position, so the sources of the returned tokens concatenate to a prefix of the input.", "quantifier": "every lexer, input and call history", "why_tests_cant": "losing characters needs a second backtrack inside a pushed-back region", "anchors": ["pango-lexer/src/lexer/input.rs: consume_token, next", "pango-lexer/src/lexer/mod.rs: Lexer::next"]}
{"id": "C19", "title": "The token stream stays ended", "statement": "After `next` has returned None once it returns None for ever.", "quantifier": "every lexer, every input, every later call", "why_tests_cant": "ranges over all call histories after the end", "anchors": ["pango-lexer/src/lexer/mod.rs: Lexer::next", "pango-lexer/src/lexer/input.rs: InputIter::next"]}
{"id": "C20", "title": "The token kind is computed from exactly the token's source", "statement": "The kind of a token added with a mapping function is that function applied to exactly the source of the returned token, not to a shorter or longer candidate.", "quantifier": "every mapping function, every lexer and input", "why_tests_cant": "the mapping function is arbitrary and is called for every intermediate candidate", "anchors": ["pango-lexer/src/lexer/mod.rs: Lexer::next, TokenKindGenerator"]}
{"id": "C21", "title": "A built lexer never crashes while lexing", "statement": "The lookup of the token kind for the reached final state never fails, for any lexer made by the builder.", "quantifier": "every list of accepted token patterns, every input and history", "why_tests_cant": "ranges over all lexers the builder can make", "anchors": ["pango-lexer/src/lexer/mod.rs: Lexer::next (expect calls), LexerGenerator::add_token", "pango-lexer/src/fsm/nfa/compiler.rs: Compiler::new, new_final"]}
{"id": "C22", "title": "Lexing does not depend on hash iteration order", "statement": "The tokens returned are the same for every iteration order of the hash maps and hash sets used internally.", "quantifier": "every iteration order at every step, every automaton and input", "why_tests_cant": "hash order is randomised per process; a test sees a few orders", "anchors": ["pango-lexer/src/fsm/nfa/sim.rs: feed, eps_closure", "pango-lexer/src/fsm/nfa/model.rs: Transitions"]}
{"id": "C23", "title": "Whole-input tokenization", "statement": "The token stream up to its end is the unique maximal-munch tokenization of the input, cut at the first position where no token pattern matches.", "quantifier": "every set of token patterns and every input", "why_tests_cant": "ranges over whole streams", "anchors": ["pango-lexer/src/lexer/mod.rs: Lexer::next", "pango-lexer/src/lexer/input.rs: InputIter"]}
{"id": "C24", "title": "Peeking iterator behaves like a list with a cursor", "statement": "For any interleaving of next, peek, next_if and current on the caching peekable iterator, the items come out in order, peek never consumes, and current is the item most recently returned by next/next_if (None before the first, and None after the end was returned).", "quantifier": "every underlying sequence and every operation history", "why_tests_cant": "operation histories are unbounded", "anchors": ["pango-lexer/src/iter/peekable.rs: CachedPeekable"]}
{"id": "C25", "title": "Cautious take/map-while do not over-consume", "statement": "The cautious adapters return exactly the longest prefix of items on which the predicate holds and leave the first other item in the underlying iterator.", "quantifier": "every predicate and every underlying sequence", "why_tests_cant": "predicate and sequence are arbitrary", "anchors": ["pango-lexer/src/iter/cautious/take_while.rs: CautiousTakeWhile::next", "pango-lexer/src/iter/cautious/map_while.rs: CautiousMapWhile::next"]}
{"id": "C26", "title": "Grammar construction checks exactly the documented conditions", "statement": "Building a grammar crashes exactly if no start variable was set, or the start variable or a variable used in some body has no rule; otherwise the grammar holds exactly the rules added.", "quantifier": "every sequence of builder calls", "why_tests_cant": "call sequences are unbounded", "anchors": ["pango-parser/src/grammar.rs: GrammarBuilder::build, add_rule, add_rules, set_start_variable"]}
{"id": "C27", "title": "Rule sets are sets", "statement": "Adding rules in any order and any number of times gives the same grammar; an empty body is the epsilon rule; the last start variable set counts.", "quantifier": "every sequence of builder calls and every permutation/duplication of it", "why_tests_cant": "permutations of unbounded sequences", "anchors": ["pango-parser/src/grammar.rs: add_rule"]}
{"id": "C28", "title": "FIRST sets are exact", "statement": "The first set computed for a symbol string contains exactly the terminals that can begin a string derived from it, and epsilon exactly if the empty string can be derived; the computation terminates.", "quantifier": "every grammar, every symbol string, every hash iteration order", "why_tests_cant": "a work-list fixpoint over arbitrary recursive grammars", "anchors": ["pango-parser/src/grammar.rs: first_bodies, first_body, first, extend_for_variable"]}
{"id": "C29", "title": "FOLLOW sets are exact", "statement": "The follow set computed for a variable contains exactly the terminals that can stand directly behind it in some string derived from some variable of the grammar; the computation terminates.", "quantifier": "every grammar and every hash iteration order", "why_tests_cant": "a fixpoint over arbitrary recursive grammars", "anchors": ["pango-parser/src/grammar.rs: follow_set"]}
{"id": "C30", "title": "Item closure is exact", "statement": "The completed item set contains exactly the given items and the initial items of every variable that can be reached in front of a cursor from them; the computation terminates.", "quantifier": "every grammar, every start item set, every iteration order", "why_tests_cant": "a fixpoint over arbitrary grammars", "anchors": ["pango-parser/src/cfsm/item.rs: ItemSet::from_incomplete_map"]}
{"id": "C31", "title": "Cursors skip epsilons", "statement": "A fresh or advanced item never has its cursor on an epsilon; advancing passes exactly the symbol read and the epsilons behind it; the cursor never leaves the body, and the crash branches guarding this are never reached.", "quantifier": "every body and cursor reachable by advancing", "why_tests_cant": "bodies are unbounded", "anchors": ["pango-parser/src/cfsm/item.rs: ItemBody::from, advance, get_cursor_symbol, get_cursor_variable", "pango-parser/src/parser/table.rs: new_slr (unreachable! branch)"]}
{"id": "C32", "title": "Automaton construction terminates and is consistent", "statement": "Constructing the canonical finite-state machine of any built grammar terminates; its consistency assertions never fire; its states are numbered 0..n without gaps and 0 is the start state.", "quantifier": "every grammar, every hash iteration order", "why_tests_cant": "termination of an exploration that re-creates pending states", "anchors": ["pango-parser/src/cfsm/mod.rs: Cfsm::from_grammar, CfsmBuilder::build", "pango-parser/src/cfsm/state.rs: StateIdGenerator"]}
{"id": "C33", "title": "States hold exactly the viable-prefix items", "statement": "The state reached from the start state along any symbol string holds exactly the items obtained from the start rules by reading that string and expanding variables; there is a transition exactly where some item reads the symbol.", "quantifier": "every grammar, every symbol string, every iteration order", "why_tests_cant": "paths are unbounded", "anchors": ["pango-parser/src/cfsm/mod.rs: Cfsm::from_grammar", "pango-parser/src/cfsm/item.rs: iter_by_cursor_symbol, advance"]}
{"id": "C34", "title": "No duplicate automaton states", "statement": "Different states of the constructed machine hold different item sets.", "quantifier": "every grammar and iteration order", "why_tests_cant": "ranges over all grammars", "anchors": ["pango-parser/src/cfsm/mod.rs: Cfsm::from_grammar (state lookup)"]}
{"id": "C35", "title": "The SLR table exists exactly for SLR(1) grammars", "statement": "Parser construction succeeds exactly if no state has two different actions (shift, or reduce of one rule) on the same look-ahead terminal.", "quantifier": "every grammar, every iteration order", "why_tests_cant": "ranges over all grammars", "anchors": ["pango-parser/src/parser/table.rs: new_slr, insert_action", "pango-parser/src/parser/slr.rs: Slr::new"]}
{"id": "C36", "title": "Accepted input is a sentence and the tree is its parse tree", "statement": "If parse returns a tree, it is a parse tree of the grammar with the start variable at the root whose leaves are exactly the tokens of the whole input.", "quantifier": "every grammar with a table, every token sequence", "why_tests_cant": "ranges over all inputs and grammars", "anchors": ["pango-parser/src/parser/slr.rs: Slr::parse, handle_token", "pango-parser/src/parser/table.rs: new_slr"]}
{"id": "C37", "title": "Every sentence is accepted", "statement": "If the token sequence is a sentence of an SLR(1) grammar, parse returns its tree.", "quantifier": "every grammar with a table, every sentence", "why_tests_cant": "sentences are unbounded", "anchors": ["pango-parser/src/parser/slr.rs: Slr::parse, handle_token", "pango-parser/src/parser/table.rs: new_slr", "pango-parser/src/grammar.rs: follow_set"]}
{"id": "C38", "title": "Epsilon rules work", "statement": "Grammars with empty rules are parsed like any other grammar; reducing by an empty rule consumes nothing.", "quantifier": "every grammar with empty rules", "why_tests_cant": "ranges over all grammars with epsilon rules", "anchors": ["pango-parser/src/parser/table.rs: new_slr (amount)", "pango-parser/src/parser/slr.rs: handle_token (Reduce)"]}
{"id": "C39", "title": "Grammars with a non-recursive start variable can be parsed", "statement": "A grammar whose start variable occurs in no rule body (the usual augmented form) accepts its sentences.", "quantifier": "every such grammar and every input", "why_tests_cant": "a universal negative about all inputs", "anchors": ["pango-parser/src/parser/table.rs: new_slr (follow_set.get(&head) else continue)"]}
{"id": "C40", "title": "Parsing terminates", "statement": "Parsing any finite token sequence terminates.", "quantifier": "every grammar with a table, every token sequence", "why_tests_cant": "non-termination cannot be tested", "anchors": ["pango-parser/src/parser/slr.rs: Slr::parse"]}
{"id": "C41", "title": "Parsing never crashes", "statement": "Parsing any token sequence returns a tree or an error; it never panics.", "quantifier": "every grammar with a table, every token sequence, every hash iteration order", "why_tests_cant": "depends on state numbering, which is randomised", "anchors": ["pango-parser/src/parser/slr.rs: handle_token (expect calls)", "pango-parser/src/parser/table.rs: insert_action, insert_goto"]}
{"id": "C42", "title": "Parser results do not depend on hash iteration order", "statement": "Whether a parser can be constructed, and the tree returned for an input, are the same for every iteration order of the hash maps used while building the tables.", "quantifier": "every pair of iteration orders, every grammar and input", "why_tests_cant": "hash order is randomised per process", "anchors": ["pango-parser/src/cfsm/mod.rs: Cfsm::from_grammar", "pango-parser/src/parser/table.rs: new_slr", "pango-parser/src/parser/slr.rs: parse"]}
{"id": "C43", "title": "Only the terminal kind matters for parsing", "statement": "Replacing tokens by others of the same terminal kind (terminal_eq) changes nothing but the leaves of the result.", "quantifier": "every grammar, every pair of kind-equal token sequences", "why_tests_cant": "token payloads are unbounded", "anchors": ["pango-parser/src/parser/traits.rs: TerminalEq", "pango-parser/src/parser/table.rs: PartialEq for Terminal", "pango-parser/src/parser/slr.rs: handle_token"]}
{"id": "C44", "title": "Lexical errors are not mistaken for the end of input", "statement": "parse returns a tree only if the lexer tokenized its whole input.", "quantifier": "every grammar, lexer and input text", "why_tests_cant": "ranges over all inputs", "anchors": ["pango-parser/src/parser/slr.rs: Slr::parse", "pango-lexer/src/lexer/mod.rs: Lexer::next"]}
{"id": "C45", "title": "Leaves are the tokens, once each, in order", "statement": "Reading the leaves of the returned tree from right to left gives the parsed tokens, with their own payloads, in input order, each exactly once.", "quantifier": "every grammar with a table and every accepted input", "why_tests_cant": "ranges over all inputs", "anchors": ["pango-parser/src/parser/slr.rs: handle_token (drain ... rev)"]}
{"id": "C46", "title": "A grammar with a table is unambiguous", "statement": "If parser construction succeeds, no token sequence has two different parse trees.", "quantifier": "every grammar, every sentence, every pair of trees", "why_tests_cant": "ambiguity is undecidable to test", "anchors": ["pango-parser/src/parser/table.rs: insert_action", "pango-parser/src/parser/slr.rs: Slr::new"]}
{"id": "C47", "title": "Item rendering shows the cursor exactly once", "statement": "Rendering an item prints the symbols of its body in order with exactly one bullet, placed at the cursor.", "quantifier": "every body and every cursor within it", "why_tests_cant": "bodies are unbounded", "anchors": ["pango-parser/src/cfsm/dot.rs: Display for ItemBody"]}
{"id": "C48", "title": "Lexer and parser together accept exactly the sentences", "statement": "Parsing a text returns a tree if and only if the tokenization of the text by maximal munch is a sentence of the grammar, and the tree is a parse tree of these tokens.", "quantifier": "every grammar with a parser, every lexer, every text", "why_tests_cant": "grammars, patterns and texts are unbounded", "anchors": ["pango-parser/src/parser/slr.rs: Slr::parse", "pango-lexer/src/lexer/mod.rs: Lexer::next"]}
{"id": "C49", "title": "Parsing text always returns", "statement": "Parsing any text with any lexer ends with a tree or an error; it neither panics nor runs forever.", "quantifier": "every grammar with a parser, every lexer, every text", "why_tests_cant": "grammars, patterns and texts are unbounded", "anchors": ["pango-parser/src/parser/slr.rs: Slr::parse", "pango-lexer/src/lexer/mod.rs: Lexer::next"]}
{"id": "C50", "title": "Escapes in patterns", "statement": "A backslash and one of `w W d D s S` is the class of that name; with one of `f n r t v 0` it is the control character of that name, with a special character it is that character, `\\c` and a letter is the control character of that letter; a backslash with anything else (except the hexadecimal escapes) is one invalid token. What follows the escape does not matter.", "quantifier": "every character behind the backslash, every text behind the escape", "why_tests_cant": "over a million characters may follow a backslash, and the text behind is unbounded", "anchors": ["pango-lexer/src/regex/tokenizer.rs: Tokenizer::handle_class_or_escape_sequence", "pango-lexer/src/regex/tokenizer.rs: Tokenizer::handle_escape_sequence"]}
{"id": "C51", "title": "Hexadecimal escapes in braces", "statement": "`\\u{H…H}` with at least four hexadecimal digits is the character with that code, and an invalid token if there is no such character.", "quantifier": "every number of digits, every text behind the escape", "why_tests_cant": "the number of digits is unbounded", "anchors": ["pango-lexer/src/regex/tokenizer.rs: Tokenizer::handle_unicode_escape_sequence", "pango-lexer/src/regex/tokenizer.rs: Tokenizer::take_next_hexadecimals_and_convert_to_u32"]}
{"id": "C52", "title": "Errors in patterns are reported where they are", "statement": "If a pattern is rejected, the position of the error is the first token that does not continue any sentence of the syntax, or the last character if the pattern ends too early.", "quantifier": "every rejected pattern", "why_tests_cant": "patterns are unbounded", "anchors": ["pango-lexer/src/regex/parser.rs: Parser::get_current_token_position", "pango-lexer/src/regex/parser.rs: Parser::parse"]}
{"id": "C53", "title": "The example program", "statement": "The program examples/expr.rs, given any text, ends without a panic. It returns the tree of the expression (digits with + and * between them, grouped from the left) in front of the first character that is neither a digit nor an operator, with the values of the digits at the leaves; it returns an error if what is in front of that character is not an expression. Build profile and hash orders make no difference.", "quantifier": "every text, every build profile, every iteration order of the hash containers", "why_tests_cant": "texts and iteration orders are unbounded; the program itself tries one text", "anchors": ["pango-parser/examples/expr.rs: main", "pango-parser/src/parser/slr.rs: Slr::parse", "pango-lexer/src/lexer/mod.rs: Lexer::next"]}
{"id": "C54", "title": "Tokens of patterns and their texts", "statement": "The part of a pattern in the span of a token that is not invalid is a text of that token in the documented syntax (a sign, a plain character, an escape, counted bounds); and a text of the syntax is read as its token.", "quantifier": "every pattern, every token", "why_tests_cant": "patterns are unbounded, and near misses of escapes and bounds are a thin slice of them", "anchors": ["pango-lexer/src/regex/tokenizer.rs: Tokenizer::next", "pango-lexer/src/regex/tokenizer.rs: Tokenizer::handle_unicode_escape_sequence", "pango-lexer/src/regex/tokenizer.rs: Tokenizer::handle_quantifier"]}
{"id": "C55", "title": "Building a lexer reports the first bad pattern", "statement": "Building a lexer from rules succeeds if every pattern parses; otherwise it returns the errors of the first pattern that does not parse, whatever the rules behind it are.", "quantifier": "every list of rules", "why_tests_cant": "ranges over all lists of patterns; the builder carries one automaton from rule to rule", "anchors": ["pango-lexer/src/lexer/mod.rs: LexerGenerator::add_token, with_token, with_token_unit, with_token_map, tokenize"]}
{"id": "C56", "title": "The printed automaton is the automaton", "statement": "The text that Cfsm::to_dot returns is in the DOT language, and the graph it describes has one node for each state, labelled with its items line by line, and one edge for each transition, labelled with its symbol.", "quantifier": "every grammar, every Debug output of its symbols, every hash iteration order", "why_tests_cant": "ranges over all grammars and all names of symbols; the text is only checked by a reader of the DOT language", "anchors": ["pango-parser/src/cfsm/dot.rs: Cfsm::to_dot, node_labels_dot, transitions_dot, Display for ItemBody"]}
{"id": "C57", "title": "Error messages name what could stand there", "statement": "A rejected pattern has one error. Its text is a line with the span and a message, and the message names exactly the tokens that could stand at the place where the pattern goes wrong.", "quantifier": "every pattern, both build profiles", "why_tests_cant": "ranges over all rejected patterns; what could stand at a place is a statement about all sentences of the syntax", "anchors": ["pango-lexer/src/regex/parser.rs: Display for ParseErrorKind, Display for ParseError, Display for W<Vec<ParseError>>, Parser::parse"]}
{"id": "C58", "title": "Matching needs little memory", "statement": "For every pattern the number of runs that the simulator holds after it has read a string is bounded by a polynomial in the length of the string.", "quantifier": "every pattern that can be compiled, every string", "why_tests_cant": "a growth rate is a statement about strings of all lengths", "anchors": ["pango-lexer/src/fsm/nfa/sim.rs: NfaSimulator::feed (updated_runs), eps_closure, Run::take_transition"]}
{"id": "C59", "title": "Rules that cannot be reached do not matter", "statement": "A parser depends only on the rules that can be reached from the start variable, and not on the order in which they were added: two grammars with the same reachable rules both have a parser or both have none, and their parsers return the same for every input.", "quantifier": "all pairs of grammars with the same reachable rules, all inputs, all iteration orders", "why_tests_cant": "relates all pairs of grammars and all inputs", "anchors": ["pango-parser/src/parser/slr.rs: Slr::new", "pango-parser/src/grammar.rs: Grammar::follow_set", "pango-parser/src/cfsm/mod.rs: Cfsm::from_grammar"]}
{"id": "C60", "title": "The order of rules matters only where they overlap", "statement": "If rules whose patterns match the same text make the same kind, then a lexer built from the same rules in another order is built as well and answers every sequence of calls of `next` on every input in the same way.", "quantifier": "all lists of rules, all reorderings and repetitions of them, all inputs, all numbers of calls", "why_tests_cant": "relates all pairs of lexers with the same rules on all inputs", "anchors": ["pango-lexer/src/lexer/mod.rs: Lexer::next, LexerGenerator::add_token", "pango-lexer/src/fsm/nfa/sim.rs: get_current_final_states"]}
{"id": "C61", "title": "A repeated pattern has no effect", "statement": "Adding a rule whose pattern is the same as that of an earlier rule, anywhere behind it and whatever kind it makes, does not change the answers of the lexer on any input.", "quantifier": "all lists of rules, all positions of the added rule, all inputs, all numbers of calls", "why_tests_cant": "relates all pairs of lexers that differ in a repeated rule, on all inputs", "anchors": ["pango-lexer/src/lexer/mod.rs: Lexer::next, LexerGenerator::add_token", "pango-lexer/src/fsm/nfa/sim.rs: get_current_final_states"]}
{"id": "C62", "title": "The parser is the SLR(1) machine of the grammar", "statement": "For every grammar that has a parser and every input, the parser returns a tree, returns an error, or does not end exactly if the shift-reduce machine given by the items behind the stack and the FOLLOW sets does, and the tree is that of the machine.", "quantifier": "every grammar with a parser, including grammars with epsilon, every token sequence, every iteration order", "why_tests_cant": "refinement between the tables and an abstract machine, over all grammars and inputs", "anchors": ["pango-parser/src/parser/slr.rs: Slr::parse, handle_token", "pango-parser/src/parser/table.rs: new_slr", "pango-parser/src/cfsm/mod.rs: Cfsm::from_grammar"]}
{"id": "C63", "title": "Errors are found at the first token that cannot be right", "statement": "If no sentence of the grammar begins with the tokens read so far, the parser returns an error without asking for another token; whatever follows is not looked at.", "quantifier": "every grammar with a parser, every token sequence, everything that may follow it, including a lexer that does not return", "why_tests_cant": "quantifies over all continuations of the input and over all grammars", "anchors": ["pango-parser/src/parser/slr.rs: Slr::parse, handle_token", "pango-parser/src/parser/table.rs: new_slr", "pango-lexer/src/lexer/mod.rs: Lexer::next"]}
{"id": "C64", "title": "Names do not matter", "statement": "If the variables and terminals of a grammar are given other names, different ones for different symbols, with terminals of the same kind staying of the same kind, then the builder builds the renamed grammar, it has a parser exactly if the first has, and on the renamed tokens the parser returns the renamed tree or the same error.", "quantifier": "every grammar, every injective renaming into any other types, every token sequence, every iteration order", "why_tests_cant": "equivariance under all renamings between all types", "anchors": ["pango-parser/src/grammar.rs: GrammarBuilder", "pango-parser/src/cfsm/mod.rs: Cfsm::from_grammar", "pango-parser/src/parser/table.rs: new_slr", "pango-parser/src/parser/slr.rs: Slr::parse"]}
{"id": "C65", "title": "Tokens do not depend on what comes much later", "statement": "If the first tokens of a text all end before the end of a part u at its front, then every text that begins with u has the same first tokens.", "quantifier": "every lexer, every text, everything that may follow u", "why_tests_cant": "quantifies over all continuations of the text and over all patterns", "anchors": ["pango-lexer/src/lexer/mod.rs: Lexer::next", "pango-lexer/src/lexer/input.rs: InputIter"]}
{"id": "C66", "title": "Lexing can be resumed behind a token", "statement": "The tokens behind a token are the tokens of the text that begins behind it, with positions counted from there; and the first tokens of a text together with the tokens of the rest are the tokens of the whole.", "quantifier": "every lexer, every text, every place between two tokens", "why_tests_cant": "relates two runs of the lexer on texts of any length, for all patterns", "anchors": ["pango-lexer/src/lexer/mod.rs: Lexer::next", "pango-lexer/src/lexer/input.rs: InputIter"]}
{"id": "C67", "title": "A character of no pattern ends the tokens", "statement": "If a character is in no pattern and in no class of a pattern, then the tokens of a text up to the first None do not depend on what comes behind this character.", "quantifier": "every lexer, every text with such a character, everything that may follow it", "why_tests_cant": "quantifies over all continuations of the text and over all patterns", "anchors": ["pango-lexer/src/lexer/mod.rs: Lexer::next", "pango-lexer/src/lexer/input.rs: InputIter"]}
{"id": "C68", "title": "The example program of the lexer", "statement": "The program examples/ab.rs, given any text, ends without a panic and prints, from left to right, a token A for every aaaa, B for every run of four or more b, D with the length for every run of d, and A for a comment, which begins with '/* ' and goes on to the end of the text; it stops at the first place where none of these begins. The rules for C and E are never used.", "quantifier": "every text, every build profile", "why_tests_cant": "texts are unbounded; the program itself tries one text", "anchors": ["pango-lexer/examples/ab.rs: main", "pango-lexer/src/lexer/mod.rs: Lexer::next", "pango-lexer/src/lexer/mod.rs: LexerGenerator"]}
{"id": "C69", "title": "The function of a rule is called once per token", "statement": "The function given to with_token or with_token_map is called once for each token of its rule, with the source of the token, in the order of the tokens, and not otherwise; if no function panics, lexing does not.", "quantifier": "all sets of patterns that can be built, all functions (FnMut: with state, effects or panics), all inputs, all numbers of calls of next", "why_tests_cant": "Whether a function is called more often shows only in its effects; tests use functions without effects, and which prefixes of a token are matched by some rule depends on all patterns together", "anchors": ["pango-lexer/src/lexer/mod.rs:32-37", "pango-lexer/src/lexer/mod.rs:68-120", "pango-lexer/src/lexer/mod.rs:151-200"]}
{"id": "C70", "title": "Any text can be quoted as a pattern", "statement": "A text in which a backslash is put in front of each of . [ ] ( ) ^ | - * + ? { and \\ is an accepted pattern; it compiles, and the matcher always answers, with yes for this text and for no other. A text without these characters, and only such a text, means the same without backslashes. Rules with any texts, quoted, make a lexer.", "quantifier": "all texts (all characters, all lengths), all compared strings, both overflow modes", "why_tests_cant": "The claim is about every text, including control characters, characters next to each other that would form an escape or a count, and long texts", "anchors": ["pango-lexer/src/regex/tokenizer.rs", "pango-lexer/src/regex/parser.rs"]}
{"id": "C71", "title": "Lexers of words", "statement": "If every rule is a word (a non-empty text, quoted) then lexing always returns, and the tokens are those of maximal munch, with the kind given by the first rule with this word.", "quantifier": "all finite lists of non-empty words, all kind functions, all inputs", "why_tests_cant": "Which lists of words work depends on how the words overlap; the failures need a word that begins with another one and an input that stops or turns aside between the two", "anchors": ["pango-lexer/src/lexer/mod.rs:68-120", "pango-lexer/src/lexer/mod.rs:151-200"]}
{"id": "C72", "title": "Words are read back", "statement": "A text put together from words of the rules is taken apart into these words again, in order, each with the kind of its rule.", "quantifier": "all finite lists of non-empty words, all sequences of them", "why_tests_cant": "There are infinitely many sequences of words, and whether one is read back depends on what follows each word", "anchors": ["pango-lexer/src/lexer/mod.rs:68-120", "pango-lexer/src/lexer/mod.rs:151-200"]}
{"id": "C73", "title": "Patterns that accept the same words are interchangeable", "statement": "If the patterns of a lexer are replaced, one by one, by patterns that by themselves accept the same words, the lexer returns the same tokens on every text.", "quantifier": "every two lists of rules with the same functions, every text", "why_tests_cant": "it is about all pairs of equivalent patterns and all texts", "anchors": ["pango-lexer/src/lexer/mod.rs: Lexer::next", "pango-lexer/src/fsm/nfa/sim.rs: NfaSimulator::can_feed, feed"]}
{"id": "C74", "title": "A rule that makes no token of a text can be removed", "statement": "If a rule of a lexer makes none of the tokens of a text (where its pattern accepts the source of one of them, so does the pattern of an earlier rule), then the lexer without this rule can be built and returns the same tokens for this text.", "quantifier": "every list of rules, every rule in it, every text", "why_tests_cant": "a rule that never makes a token can still influence how far the lexer reads; ruling that out is about all texts", "anchors": ["pango-lexer/src/lexer/mod.rs: LexerGenerator::with_token, build, Lexer::next"]}
{"id": "C75", "title": "The raw pointers of the automaton and the table stay valid", "statement": "Items, the symbols of transitions and the keys of the action table are raw pointers into the bodies of the grammar. While the grammar is in memory at the same place, building the automaton and the table and every parse dereference only pointers to the grammar (or the token at hand), and come to the same results as if values were compared.", "quantifier": "every grammar made with the builder, every memory that holds it, every iteration order of hash maps (also between equal values behind different pointers), every input", "why_tests_cant": "reading a dangling pointer is undefined behaviour that may go unnoticed in any number of runs; which pointers are stored depends on the iteration order", "anchors": ["pango-parser/src/cfsm/item.rs: Item::body", "pango-parser/src/cfsm/state.rs: WSymbol", "pango-parser/src/cfsm/mod.rs: Cfsm::from_grammar", "pango-parser/src/parser/table.rs: Terminal, ParseTable::new_slr", "pango-parser/src/parser/slr.rs: Slr::parse"]}
{"id": "C76", "title": "The printed automaton of a lexer is a graph that describes it", "statement": "The text that Display makes of the NFA of a lexer is a graph of the DOT language with the states of the automaton as nodes, double circles for exactly the final ones, and one edge for each transition, labelled with the Debug output of its input. It determines the automaton.", "quantifier": "every lexer that can be built, every iteration order of the hash containers", "why_tests_cant": "the text depends on the iteration order and on all characters in the patterns", "anchors": ["pango-lexer/src/fsm/nfa/dot.rs: Nfa::to_dot, transition_dot, State::transition_tuples"]}
{"id": "C77", "title": "The automaton is not much larger than necessary", "statement": "The number of states of the constructed machine is bounded by a polynomial in the number of different item sets.", "quantifier": "every grammar and iteration order", "why_tests_cant": "a bound on the growth over all grammars; small grammars show only a few duplicate states", "anchors": ["pango-parser/src/cfsm/mod.rs: Cfsm::from_grammar (state lookup among finished states only)"]}
{"id": "C78", "title": "The automaton of a lexer is as small as its patterns", "statement": "The automaton of a lexer has at most as many states as the patterns have characters, plus two, and at most three transitions for every two characters (an empty pattern counts as one character); the numbers in bounds such as {1000} do not matter.", "quantifier": "every list of patterns that can be built, both build profiles", "why_tests_cant": "a bound for patterns of all lengths", "anchors": ["pango-lexer/src/fsm/nfa/compiler.rs: Compiler::expr, insert_quantifier_state", "pango-lexer/src/lexer/mod.rs: LexerBuilder::add_token"]}
{"id": "C79", "title": "The functions of the user are called at most once per character", "statement": "However often `next` is called on a lexer, the functions given with its rules are called at most as often as the input has characters in total.", "quantifier": "every list of patterns that can be built, every input, every number of calls, both build profiles", "why_tests_cant": "a bound for inputs of all lengths and any number of calls", "anchors": ["pango-lexer/src/lexer/mod.rs: Lexer::next"]}
{"id": "C80", "title": "A lexer reads every character a bounded number of times", "statement": "For every lexer there is a number k such that, however often `next` is called, it reads at most k times as many characters as the input has, counting characters again that were put back.", "quantifier": "every list of patterns that can be built, every input, every number of calls, both build profiles", "why_tests_cant": "the bound is about inputs of all lengths and any number of calls", "anchors": ["pango-lexer/src/lexer/mod.rs: Lexer::next", "pango-lexer/src/lexer/input.rs: InputIter::next, consume_token"]}
{"id": "C81", "title": "The sets of a grammar are computed in polynomial time", "statement": "While the FOLLOW sets are computed for a parser, the number of rule bodies that are looked at is at most polynomial in the size of the grammar (number of rules and of symbols in them).", "quantifier": "every grammar that can be built, every iteration order of the hash maps", "why_tests_cant": "the bound is about grammars of all sizes and all hash orders", "anchors": ["pango-parser/src/grammar.rs: Grammar::follow_set, Grammar::first_bodies, extend_for_variable"]}
{"id": "C82", "title": "The parser needs memory that is linear in the number of tokens", "statement": "For every parser there is a factor such that, on every input and at every moment, the trees on the stack of Slr::parse have at most factor * (number of tokens + 1) nodes in all, and the stack is no higher than the number of tokens plus one.", "quantifier": "every grammar that has a parser, every input, every iteration of the loops", "why_tests_cant": "the bound is about inputs of all lengths and about every moment of a run, also of runs that do not end", "anchors": ["pango-parser/src/parser/slr.rs: Slr::parse, Slr::handle_token"]}
{"id": "C83", "title": "The parser asks for no token too many", "statement": "Slr::parse calls Lexer::next once per token, in order, and only while its result still depends on what comes next. The functions the user gave with the rules can have effects (write to a file, panic, not return): what they do in these calls is all that happens, and none of them is called for a token behind the one that settles the result. For a useful grammar that is the first token that cannot continue a sentence.", "quantifier": "every table, every lexer, all functions with effects on any state, every input text", "why_tests_cant": "it is about all functions a user can write and all moments at which a run can stop", "anchors": ["pango-parser/src/parser/slr.rs: Slr::parse", "pango-lexer/src/lexer/mod.rs: Lexer::next, TokenKindGenerator"]}
{"id": "C84", "title": "The peeking iterators are cursors, over any iterator", "statement": "For any iterator, also one that goes on after it returned None, and any interleaving of next, peek, peek_mut, next_if, next_if_eq and calls on the cautious adapters, the caching peekable iterator and std::iter::Peekable answer as a cursor on the sequence of all that the iterator would return: what is peeked at stays, what is written with peek_mut comes back, a call that takes nothing moves nothing, current is the item taken most recently, and the iterator is called at most once for something not yet taken.", "quantifier": "every underlying iterator, every history of calls, all predicates and functions", "why_tests_cant": "the iterator, the functions and the histories are arbitrary", "anchors": ["pango-lexer/src/iter/peekable.rs: Peekableable, CachedPeekable", "pango-lexer/src/iter/cautious/take_while.rs: CautiousTakeWhile::next", "pango-lexer/src/iter/cautious/map_while.rs: CautiousMapWhile::next"]}
{"id": "C85", "title": "Other ways to write a pattern are equivalent", "statement": "Rewriting patterns of a lexer, anywhere inside them, by these laws changes nothing in what any sequence of calls of next returns, nor in whether the calls return, and nothing in what matching a pattern by itself answers: a|b is b|a, (a|b)|c is a|(b|c), a|a is a, (e) is e, (ab)c is abc, x(a|b)y is xay|xby, quantifiers that allow the same numbers (e? and e{0,1}, e* and e{0,}, e+ and e{1,}), literals for the same characters ([0-9] and \\d), [ab] is a|b, a+ is (a)+.", "quantifier": "all patterns, all rewritings by the laws at any depth, all lists of rules, all inputs and numbers of calls", "why_tests_cant": "patterns, contexts and inputs are unbounded, and other identities of regular expressions (aa* and a+) do not hold", "anchors": ["pango-lexer/src/lexer/mod.rs: Lexer::next", "pango-lexer/src/fsm/nfa/sim.rs: NfaSimulator::can_feed, feed", "pango-lexer/src/fsm/nfa/compiler.rs: Compiler::expr", "pango-lexer/src/fsm/nfa/sim.rs: NfaSimulator, Run::take_transition, eps_closure, feed, is_accepting", "pango-lexer/src/fsm/nfa/model.rs: Nfa::eps_closure"]}
{"id": "C86", "title": "Reading a language with an end marker", "statement": "The parser does not read ordinary grammars as the textbook does (C37), but two more rules make it do so. Take a grammar without epsilon whose variables can all be reached and have a FIRST set, a new start variable Z, an end marker $ and a kind # that never occurs, and add Z -> S $ and Z -> Z #. Then a parser exists exactly if the textbook's SLR(1) table of the original grammar has no conflict and no two items of a state shift the same terminal; on every input without # it returns, after a number of steps that is linear in the input; it returns a tree exactly if the input is a sentence followed by the marker, the tree being Z over the marker and the tree of the sentence; otherwise it returns an error, as soon as no sentence begins with what was read. The same for texts. If there is a parser, the original grammar is unambiguous.", "quantifier": "all grammars without epsilon, all inputs and texts, all iteration orders", "why_tests_cant": "grammars and inputs are unbounded; the claim compares with the textbook's parser table for every grammar", "anchors": ["pango-parser/src/parser/slr.rs: SlrParser::new, Parser::parse", "pango-parser/src/cfsm/mod.rs", "pango-parser/src/grammar.rs: GrammarBuilder"]}
{"id": "C87", "title": "How deep the code recurses", "statement": "Parsing a pattern recurses no deeper than its groups are nested, up to a constant factor, so that a long pattern that is not deeply nested does not overflow the stack. The same for building its automaton and for freeing its tree. Freeing a parse tree recurses no deeper than linear in the number of tokens.", "quantifier": "all patterns, accepted or not, both build profiles; all grammars and inputs", "why_tests_cant": "the depth is to be bounded for patterns and inputs of all lengths; a test overflows the stack at one length on one machine", "anchors": ["pango-lexer/src/regex/parser.rs:113-221", "pango-lexer/src/fsm/nfa/compiler.rs:89-145", "pango-lexer/src/regex/ast.rs:23-34", "pango-parser/src/cst.rs:11-16"]}
{"id": "C88", "title": "A lexer that is used again after a panic", "statement": "If a function given to with_token or with_token_map panics and the panic is caught around next, the lexer can be used again: the panic costs the token at which it happened and nothing else, so that every other call returns what it would have returned without the panic.", "quantifier": "all rule lists, all functions that read and write a world and return or panic, all inputs, all numbers of calls and panics", "why_tests_cant": "where a function panics, and what the lexer has read until then, differs for every input and every function; the state left behind by a panic is not visible until later calls", "anchors": ["pango-lexer/src/lexer/mod.rs:68-120", "pango-lexer/src/lexer/input.rs:76-110"]}
{"id": "C89", "title": "The automaton of several patterns", "statement": "The automaton made of a list of patterns is built unless one of the patterns cannot be compiled. Matching a string with it ends if and only if matching the string with each pattern by itself ends, and it accepts exactly the strings that one of the patterns accepts. With no patterns it is the default automaton, which accepts nothing.", "quantifier": "all lists of syntax trees, all strings", "why_tests_cant": "the patterns share the start state and the final state, and the runs of one could disturb the counters of another; lists, trees and strings are unbounded", "anchors": ["pango-lexer/src/fsm/nfa/compiler.rs: From<Vec<Ast>> for Nfa", "pango-lexer/src/fsm/nfa/model.rs: Default for Nfa", "pango-lexer/src/fsm/nfa/sim.rs: Nfa::simulate"]}
{"id": "C90", "title": "Reading a whole text, with a last pattern for everything else", "statement": "If `.` is the last rule of a lexer, the tokens of every text on which lexing ends cover the whole text if and only if whatever of two or more characters can still be read is matched by one of the other rules. If so, if no pattern repeats something empty, and if `.` has a kind that the grammar does not use, the parser of the grammar with an end marker (C86) returns on every text, always the same: a tree exactly if the other rules divide the whole text, by maximal munch, into the tokens of a sentence and the marker, and an error otherwise. Adding `.` never makes the lexer fail to build.", "quantifier": "all grammars built by the builder with neither epsilon nor useless variables, all such patterns, all texts", "why_tests_cant": "the parser sees only tokens, so a text whose rest is dropped looks like a shorter text; which texts are cut off depends on all patterns together, and grammars, patterns and texts are unbounded", "anchors": ["pango-lexer/src/lexer/mod.rs: Iterator for Lexer::next", "pango-lexer/src/lexer/input.rs: InputIter", "pango-parser/src/parser/slr.rs: SlrParser::parse"]}
{"id": "C91", "title": "Values inside the terminals of the rules do not matter", "statement": "Terminals can carry values (such as the number in `Val(0)`), and tokens are compared with the terminals of the rules by kind only. If two grammars differ only in the values of the terminals in their rules, then there is a parser for one if there is one for the other, and both return the same on every input.", "quantifier": "all pairs of grammars built by the builder that differ only in values, all inputs, all iteration orders", "why_tests_cant": "the FIRST and FOLLOW sets and the automaton compare terminals with their values, the tables without; whether two values of one kind meet in one state depends on the whole grammar, and grammars and inputs are unbounded", "anchors": ["pango-parser/src/parser/table.rs: ParseTable::insert_action, PartialEq for Terminal", "pango-parser/src/parser/traits.rs: TerminalEq", "pango-parser/src/grammar.rs: Grammar::follow_set"]}
{"id": "C92", "title": "Patterns can be put together as texts", "statement": "If the texts `a` and `b` are accepted as patterns, then `a|b`, `(a)(b)` and `(a)` with a quantifier behind it are accepted too, and mean the union, the concatenation and the repetition of what `a` and `b` mean.", "quantifier": "all texts, all quantifiers with 32-bit bounds, both build profiles", "why_tests_cant": "the scanner and the parser read one text from front to back without knowing where `a` ends, and there are infinitely many texts to be put together", "anchors": ["pango-lexer/src/regex/parser.rs: Parser::parse, expression, sub_expression, group", "pango-lexer/src/regex/tokenizer.rs: Tokenizer::next"]}
{"id": "C93", "title": "A pattern with a bar is two rules", "statement": "A lexer with a rule for the pattern `a|b` returns the same, call by call, as one that has, in its place, a rule for `a` and a rule for `b` with the same function; if the one can be built then so can the other.", "quantifier": "all lists of rules around it, all texts `a` and `b`, all functions, all inputs, all numbers of calls", "why_tests_cant": "the two automata have different states and different final states, the simulation runs over sets of states, and the inputs and rules are unbounded", "anchors": ["pango-lexer/src/lexer/mod.rs: LexerGenerator::add_token", "pango-lexer/src/lexer/mod.rs: Lexer::next", "pango-lexer/src/fsm/nfa/compiler.rs: Compiler"]}
{"id": "C94", "title": "More rules lose no sentence", "statement": "Where a parser of a grammar returns a tree, a parser of the same grammar with more rules returns the same tree, after as many steps; and if a parser can be generated for the grammar with more rules, then one can for the grammar with fewer.", "quantifier": "all pairs of grammars that the builder accepts, of which one has all rules of the other and the same start variable, all iteration orders, all inputs, all numbers of steps", "why_tests_cant": "the tables of the two grammars have different states and different lookaheads, and there are infinitely many grammars, rules to add, and inputs", "anchors": ["pango-parser/src/parser/slr.rs: Slr::new, Slr::parse", "pango-parser/src/parser/table.rs: new_slr", "pango-parser/src/grammar.rs: GrammarBuilder::add_rule"]}
{"id": "C95", "title": "The functions of the rules decide the kinds of tokens only", "statement": "Two lexers with the same patterns and different functions, of different types even, are built or not built alike, with the same errors, and return tokens of the same sources at the same places, call by call; the kinds are what the functions of the same rule make of the source.", "quantifier": "all lists of patterns, all functions without effects, all inputs, all numbers of calls, both build profiles", "why_tests_cant": "a function is arbitrary code of the user, called while the longest match is being looked for; no finite set of functions shows that its results are never looked at", "anchors": ["pango-lexer/src/lexer/mod.rs: Lexer::next", "pango-lexer/src/lexer/mod.rs: LexerGenerator::add_token, tokenize"]}
{"id": "C96", "title": "A token that no rule mentions is an error", "statement": "If a token is of a kind that no terminal in a rule is of, then no input with this token is accepted; the result is settled when the token is read, does not depend on what comes behind it, and is the same for all such tokens.", "quantifier": "all grammars for which there is a parser (with epsilon or without), all iteration orders, all tokens before and behind it, all ways in which the lexer may end", "why_tests_cant": "the parser may make any number of reductions with the token in sight, and the table has unboundedly many states", "anchors": ["pango-parser/src/parser/slr.rs: Slr::parse, handle_token", "pango-parser/src/parser/table.rs: new_slr"]}
{"id": "C97", "title": "The parser sees nothing but the kinds of the tokens", "statement": "If two lexers, on two texts, return tokens of just the same kinds up to the first call that returns None, then parsing the texts has the same result with every parser: the same tree, an error or a panic, or none in both cases. The texts, the sources, the places, the patterns and whatever later calls would return do not matter. If the kinds are only equal to the parser (same discriminant), the trees differ at most in the tokens at their leaves.", "quantifier": "all pairs of lexers and texts, all parse tables, all numbers of calls, also lexers that never come to an end", "why_tests_cant": "the lexer runs inside of the loop of the parser, which decides when the next token is asked for; the claim is about all pairs of runs", "anchors": ["pango-parser/src/parser/slr.rs: Slr::parse, handle_token", "pango-lexer/src/lexer/mod.rs: Lexer::next"]}
{"id": "C98", "title": "No number overflows", "statement": "The counters of the simulator and the positions of the lexer are machine words, which panic on overflow in debug builds and wrap around in release builds. On every text that a string can hold, the calls of next return what they would return if the numbers had no end, and do not panic.", "quantifier": "all lists of rules, all texts shorter by two than the number of machine words, all sizes of machine words, both build profiles, all numbers of calls", "why_tests_cant": "an overflow takes 2^64 steps; whether a counter is bounded by the length of the text depends on all ways around the loops of the automaton", "anchors": ["pango-lexer/src/fsm/nfa/sim.rs: Run::take_transition, NfaSimulator::eps_closure", "pango-lexer/src/lexer/input.rs: InputIter::next, accept_suffix"]}
{"id": "C99", "title": "The printed tree is the tree", "statement": "The fields of a tree are private, so printing is the only way to look at one. If the variables and terminals of a grammar can be told apart by what they print, then two results of parse that are printed alike, with {:?} or with {:#?}, are alike.", "quantifier": "all grammars with a parser, all inputs, all Debug implementations of the variables and terminals, both ways to print", "why_tests_cant": "whether two trees of any size and shape print the same text depends on all trees and on every implementation of Debug", "anchors": ["pango-parser/src/cst.rs: Debug of Cst and Node", "pango-parser/src/lib.rs: Debug of Symbol", "pango-parser/examples/expr.rs:78"]}
{"id": "C100", "title": "The printed grammar is the grammar", "statement": "If the variables and terminals can be told apart by what they print, then two grammars that are printed alike, with {:?} or with {:#?} and in whatever order their hash containers are iterated, have the same start variable and the same rules.", "quantifier": "all grammars built by the builder, all Debug implementations of the variables and terminals, both ways to print, all iteration orders", "why_tests_cant": "it is about all pairs of grammars and every implementation of Debug; the order of the text is not under the control of a test", "anchors": ["pango-parser/src/grammar.rs: Debug of Grammar", "pango-parser/src/lib.rs: Debug of Symbol", "pango-parser/examples/expr.rs:66"]}
{"id": "C101", "title": "The printed parser tells what the parser does", "statement": "The printed parser leaves out the grammar and the automaton. Still, if the variables and terminals can be told apart by what they print, then two parsers that are printed alike, in whatever order their hash containers are iterated, do the same on every input.", "quantifier": "all grammars with a parser, all inputs, all Debug implementations of the variables and terminals, both ways to print, all iteration orders", "why_tests_cant": "it is about all pairs of parsers and all inputs; that the fields which are not printed do not matter is a fact about all runs", "anchors": ["pango-parser/src/parser/table.rs: Debug of ParseTable, Terminal and ActionKind", "pango-parser/src/parser/slr.rs: Debug of Slr, Slr::parse"]}
{"id": "C102", "title": "Patterns describe exactly the regular languages", "statement": "For every regular expression there is a pattern for which matching always ends and accepts just the words of the expression; and for every pattern that can be compiled there is a regular expression whose words are those that matching accepts.", "quantifier": "all regular expressions over all characters, all patterns, all strings, both profiles", "why_tests_cant": "it is about all regular expressions and all strings; for some, such as (a?)*, the obvious pattern is matched wrongly or without an end, so that another one has to be found", "anchors": ["pango-lexer/src/regex/parser.rs: parse", "pango-lexer/src/fsm/nfa/compiler.rs: compile", "pango-lexer/src/fsm/nfa/sim.rs: simulate"]}
{"id": "C103", "title": "Grammars describe exactly the context-free languages", "statement": "The grammars that the builder accepts have exactly the context-free languages. FIRST and FOLLOW are those of the context-free grammar with the same rules; the tree that the parser of a grammar without epsilon returns has a word of its language at its leaves; and with an end marker (C86) a parser accepts just the words of the language.", "quantifier": "all context-free grammars, all grammars that can be built, all inputs", "why_tests_cant": "it compares all grammars and all inputs with an independent definition of context-free languages", "anchors": ["pango-parser/src/grammar.rs: GrammarBuilder, Grammar::first, Grammar::follow_set", "pango-parser/src/parser/slr.rs: Parser::parse"]}
{"id": "C104", "title": "Every regular language of tokens can be parsed", "statement": "For every regular language over finitely many tokens that has a word other than the empty one, there is a grammar for which a parser can be made, and on every sequence of these tokens with an end marker behind it the parser returns after a linear number of iterations: a tree exactly if the sequence is a word of the language, other than the empty one.", "quantifier": "all regular languages over finite alphabets, all sequences of tokens", "why_tests_cant": "it is about all regular languages; the parser refuses many grammars for them (two rules that begin with the same token are enough), so that one has to be found that works for all", "anchors": ["pango-parser/src/parser/slr.rs: SlrParser::new, Parser::parse", "pango-parser/src/parser/table.rs: ParseTable::new_slr"]}
{"id": "C105", "title": "Every simple grammar has a parser", "statement": "If a grammar has no epsilon, every body begins with a terminal, the bodies of a variable begin with terminals of different kinds and there is one terminal of each kind, then a parser can be made for the grammar with an end marker, whatever the iteration order of the hash maps. If all its variables can be reached, the parser returns on every input after a linear number of iterations: the tree of the sentence in front of the marker, or an error if there is none. A sentence has only one tree and is not the beginning of another.", "quantifier": "all simple grammars, all inputs, all iteration orders", "why_tests_cant": "it is about all grammars of a class that a user can recognise without building the automaton; the number of states is not bounded", "anchors": ["pango-parser/src/parser/slr.rs: SlrParser::new, Parser::parse", "pango-parser/src/parser/table.rs: ParseTable::new_slr"]}
{"id": "C106", "title": "Operators are grouped as their table says", "statement": "Take a table of operators: any number of levels from the loosest to the tightest, each with any number of operators that are infix and grouped to the left, infix and grouped to the right, prefix, or postfix, no operator in two levels. The grammar that the textbooks give for it, with parentheses and values, can be built, and has a parser (with an end marker) whatever the iteration order. The parser returns on every input after a linear number of iterations: for a text of an expression a tree that stands for that expression, and an error for everything else. Every expression written with parentheses only where they are needed is read back.", "quantifier": "all tables of operators, all expressions, all inputs, all iteration orders", "why_tests_cant": "the table has any number of levels and operators, and expressions are nested to any depth", "anchors": ["pango-parser/src/parser/slr.rs: SlrParser::new, Parser::parse", "pango-parser/src/parser/table.rs: ParseTable::new_slr", "pango-parser/examples/expr.rs"]}
{"id": "C107", "title": "A grammar can be used inside of another one", "statement": "Take two grammars without epsilon that have parsers (with end markers), with one terminal of each kind in each and no kind in common, and a terminal of the outer grammar, the hole, that never stands directly behind itself. The grammar with the rules of both, in which the start variable of the inner grammar replaces the hole, can be built, and has a parser whatever the iteration order. Its sentences are those of the outer grammar with any sentence of the inner grammar in place of each hole, and the parser returns on every input after a linear number of iterations: a tree for exactly those sentences, and an error for everything else.", "quantifier": "all pairs of grammars that fit, all inputs, all iteration orders", "why_tests_cant": "two grammars that work do not in general work together (the hole must not stand behind itself): that these do holds for all pairs, and no pair tried says anything about the next one", "anchors": ["pango-parser/src/parser/slr.rs: SlrParser::new, Parser::parse", "pango-parser/src/parser/table.rs: ParseTable::new_slr"]}
{"id": "C108", "title": "Every LL(1) grammar without epsilon has a parser", "statement": "Take a grammar without epsilon in which no two bodies of a variable can begin with terminals of the same kind, where every variable can begin with some terminal and there is one terminal of each kind (the grammars for which a parser is written by hand, by recursive descent). With an end marker it has a parser, whatever the iteration order; if all variables can be reached the parser returns on every input after a linear number of iterations, the tree of the sentence or an error; and a sentence has one tree and is not the beginning of another one.", "quantifier": "all LL(1) grammars without epsilon, all inputs, all iteration orders", "why_tests_cant": "for each grammar the table is made anew; that it never has a conflict follows from the condition only by induction on what was read", "anchors": ["pango-parser/src/parser/slr.rs: SlrParser::new, Parser::parse", "pango-parser/src/parser/table.rs: ParseTable::new_slr"]}
{"id": "C109", "title": "With a variable for every terminal every SLR(1) grammar has a parser", "statement": "The construction of the table fails for some grammars that are SLR(1) in the sense of the textbook, since it lets no two items shift the same terminal. Take a grammar without epsilon, with one terminal of each kind, and replace every terminal in its rules by a variable of its own, with one rule. The new grammar can be built; with an end marker it has a parser, whatever the iteration order, exactly if the old grammar is SLR(1); and no grammar is lost, since one that has a parser is SLR(1). The trees of the new grammar are those of the old one with one node more above each leaf, and the parser returns on every input after a linear number of iterations: such a tree of a sentence, or an error.", "quantifier": "all grammars without epsilon, all inputs, all iteration orders", "why_tests_cant": "an equivalence for all grammars: that no SLR(1) grammar is refused, and none is accepted that is not SLR(1), can not be seen from examples", "anchors": ["pango-parser/src/parser/table.rs: ParseTable::new_slr, insert_action", "pango-parser/src/parser/slr.rs: SlrParser::new, Parser::parse"]}
{"id": "C110", "title": "What is printed is read back", "statement": "Write the tokens of a sentence one behind the other, each as a word of which the lexer makes this token when it stands alone. If no pattern can be read on from a word with the first character of the next one, the lexer takes the text apart into exactly these words and tokens, and the parser of a grammar with an end marker returns the tree of the sentence. For a table of operators: every expression, printed with parentheses only where they are needed, is read back as this expression, if the operators end before the values and parentheses, and the values before the operators. For a lexer with `\\d+` and one character for each operator this holds for all expressions, with numbers of any size.", "quantifier": "all lexers, all grammars without epsilon, all tables of operators, all texts of this form", "why_tests_cant": "a round trip for all sentences and all expressions, through the lexer and the parser; a test can only print and read some of them", "anchors": ["pango-lexer/src/lexer/mod.rs: Lexer::next", "pango-parser/src/parser/slr.rs: Parser::parse", "pango-parser/examples/expr.rs"]}
{"id": "C111", "title": "What a lexer writes to the standard error", "statement": "A build without debug assertions writes nothing while it lexes. A build with debug assertions writes one record for each character that a call reads up to the place where it stops, in this order, and nothing else: the character, the runs, and whether some pattern matches what the call has read up to there. What the calls return is the same in both builds, with the same panics and endless loops. The number of records is the number of characters that are read, counting those that are read again, without those at which calls stop; it is at most n(n+1)/2 for a text of n characters.", "quantifier": "all lexers, all texts, any number of calls", "why_tests_cant": "tests look at the tokens and not at the standard error, and run in one profile; that the two profiles agree on all texts is not tested", "anchors": ["pango-lexer/src/fsm/nfa/sim.rs: NfaSimulator::feed", "pango-lexer/src/lexer/mod.rs: Lexer::next"]}
{"id": "C112", "title": "Names and keywords", "statement": "A lexer is built from keywords, a pattern for names behind them (a character of one set and then any number of characters of another one, or one or more characters of one set), and other patterns that cannot be read where a name begins and for which one character of lookahead is enough. Then on every text lexing ends, the tokens are a beginning of the text, and what is left does not begin like a name. Every token that begins like a name is a name that goes on as far as possible in the text. Its kind is that of the first keyword that is equal to it, and that of a name if it is no keyword; in particular a name that begins with a keyword is not split. If the keywords come behind the pattern for names then no token is a keyword. The keywords do not prevent the lexer from being built.", "quantifier": "all lists of keywords that are names, all sets of characters, all such other patterns, all texts", "why_tests_cant": "tests fix some keywords and some texts; that no keyword, name or text of any length is an exception needs maximal munch for all of them", "anchors": ["pango-lexer/src/lexer/mod.rs: Lexer::next", "pango-lexer/src/lexer/mod.rs: LexerGenerator::with_token"]}
{"id": "C113", "title": "Only the patterns that can begin with the next character matter", "statement": "Rules whose patterns cannot be read from a text that begins with the next character have no effect on a call of next: the lexer built without them returns the same token or the same None, stops at the same place with the same characters put back, and ends on the same inputs. This holds in every state of the lexer, also after None. The lexer without them can be built. In particular, if the rules are of two kinds that begin with different characters then the longest match is taken on all texts if and only if it is for the lexers of either kind.", "quantifier": "all lists of rules, all choices of the rules that are left out, all states of the lexer, all texts", "why_tests_cant": "tests show that some rules do not disturb each other on some texts; that no rule has an effect outside of its own first characters needs the simulation of both machines for all states and texts", "anchors": ["pango-lexer/src/lexer/mod.rs: Lexer::next", "pango-lexer/src/fsm/nfa/sim.rs: NfaSimulator"]}
{"id": "C114", "title": "Texts in quotes", "statement": "A lexer has a rule for texts in quotes, with or without escapes, like \"[^\"]*\" or \"([^\"\\\\]|\\\\.)*\", where the characters inside do not include the closing character and the escape character; and other rules that cannot begin with the opening character and for which one character of lookahead is enough. Then on every text lexing ends, the tokens are a beginning of the text, and what is left does not begin with a text in quotes. Every token that begins with the opening character is a text in quotes, up to the first closing character that is not escaped, and has the kind of that rule, whatever is inside. A text in quotes at the front is one token, and then come the tokens of the text behind it: what is inside does not matter. The same holds for every pattern whose matches cannot be read further.", "quantifier": "all opening, closing and escape characters, all sets of characters inside, all such other rules before and after this one, all texts", "why_tests_cant": "tests contain some texts in quotes; that nothing inside of them, however long, is read as another token and that no closing character is overlooked needs an argument about all texts", "anchors": ["pango-lexer/src/lexer/mod.rs: Lexer::next", "pango-lexer/src/fsm/nfa/compiler.rs: NfaCompiler", "pango-lexer/src/regex/parser.rs: Parser::parse"]}
{"id": "C115", "title": "Blanks between tokens", "statement": "The parser takes a lexer and sees all of its tokens, so blanks have to be part of the tokens. If every pattern a of a lexer is replaced by (a)(b), where b is a pattern like \\s* for blanks, and no a can read a blank or matches the empty text, and one character of lookahead is enough for them, then the new lexer can be built, lexing ends on every text, and its tokens are the longest matches of the old patterns, with all blanks behind them, with the kind of the first old pattern that matches. Words with blanks between them are read as these words, whichever they are. A parser gives the same result however many blanks there are, and the same as for a text without blanks that has these words.", "quantifier": "all lists of such patterns, all sets of blanks, all texts, all lists of words, all tables", "why_tests_cant": "tests put some blanks between some words; that no number of blanks at no place changes the words, the kinds or the result of the parser is a statement about all of them", "anchors": ["pango-lexer/src/lexer/mod.rs: Lexer::next", "pango-lexer/src/regex/parser.rs: Parser::parse", "pango-parser/src/parser/slr.rs: Slr::parse"]}
{"id": "C116", "title": "Numbers with a decimal point", "statement": "Behind a number there may be a point that is a token of its own, as in 1..2, so two characters are read too many. If two characters of lookahead are enough for the patterns of a lexer (when a pattern matches a word and two more characters can be read, there is a match with the first of them or with both), then on every text whose last character is read only at the end of a match, such as a line feed, the tokens are exactly those of maximal munch. For example with the patterns \\d+|\\d+\\.\\d+ and \\. and a line feed. With \\d+(\\.\\d+)? in place of the first pattern this is false: in 1.2.3.4 the .4 is lost.", "quantifier": "all lexers with such patterns, all texts", "why_tests_cant": "tests see some texts with points; that nothing is lost however numbers and points follow each other is a statement about all texts", "anchors": ["pango-lexer/src/lexer/mod.rs: Lexer::next", "pango-lexer/src/lexer/input.rs: InputIter::consume_token"]}
{"id": "C117", "title": "A lexer stops reading where nothing can match any more", "statement": "A call of next takes a character from the input only if what it has read before is the beginning of a match of some pattern. So a lexer that reads from a source of characters does not wait for characters that cannot matter.", "quantifier": "all lexers, all texts, all calls", "why_tests_cant": "tests look at the tokens, not at how far a call has read; that no call on no text reads too far is a statement about all of them", "anchors": ["pango-lexer/src/lexer/mod.rs: Lexer::next", "pango-lexer/src/fsm/nfa/sim.rs: NfaSimulator::can_feed", "pango-lexer/src/regex/tokenizer.rs: QuantifierKind::is_satisfied"]}
{"id": "C118", "title": "Lists in brackets of anything that can be parsed", "statement": "If there is a parser for a grammar without epsilon, with an end marker, then there is one for lists of its sentences in brackets with a separator between the elements, which may themselves be such lists and may be empty, whatever the iteration order. The rules are data → S | [ rest, rest → ] | items ], items → data | items , data. It returns on every input, accepts exactly the texts of such lists, and the tree is made of the trees of the elements. With the rules data → [ ] and data → [ items ] there is no parser.", "quantifier": "all grammars of elements, all brackets and separators, all inputs, all iteration orders", "why_tests_cant": "tests parse lists of one kind of element; that the construction works for every grammar of elements and every depth of nesting is a statement about all tables", "anchors": ["pango-parser/src/parser/slr.rs: parse", "pango-parser/src/parser/table.rs: insert_action", "pango-parser/src/cfsm/mod.rs"]}
{"id": "C119", "title": "Lists of strings are written and read back", "statement": "There are a lexer and a grammar for lists of lists of ... of strings such that every such list, of any depth and with any characters in the strings, written with quotes, backslashes, brackets and commas and nothing between them, is read back: the lexer and the parser return exactly the tree of the list, with the characters of each string in its token. Lists that are written in the same way are equal. More generally, lists of anything that can be parsed are read back if every token can be written and ends before the next one.", "quantifier": "all lists, all strings, all parsers for the grammar", "why_tests_cant": "tests read some texts; that writing and reading are inverse for all data is a statement about all of them, and needs the regex engine, the lexer and the parser together", "anchors": ["pango-lexer/src/lexer/mod.rs: next", "pango-lexer/src/regex/parser.rs: parse", "pango-parser/src/parser/slr.rs: parse", "pango-parser/src/parser/table.rs: insert_action"]}
{"id": "C120", "title": "A reader for data in the style of JSON", "statement": "There are a lexer and a grammar with an end marker for data in the style of JSON (null, booleans, whole numbers, strings with backslashes, arrays and objects of any depth, with blanks between the words and a semicolon at the end). The lexer and the parser can be built. On every text the reader returns; it returns a tree exactly if the text is a document with possibly something behind it that begins with no word and no blank, and the tree is that of the data. Different data have different trees, a text is written for at most one document, and every document that is printed is read back.", "quantifier": "all texts, all data, all lexers and parsers that are built for the rules", "why_tests_cant": "tests read some documents; that exactly the documents are read, with the right tree, for all texts, needs the regex parser, the lexer, the construction of the table and the parser together", "anchors": ["pango-lexer/src/lexer/mod.rs: Lexer::next", "pango-lexer/src/regex/parser.rs", "pango-parser/src/parser/slr.rs: parse", "pango-parser/src/parser/table.rs: insert_action", "pango-parser/src/grammar.rs"]}
{"id": "C121", "title": "Lexing takes time linear in the input", "statement": "For every lexer there is a constant k such that any number of calls of next on any input reads characters and makes runs of the simulator, together at most k times the length of the input plus the number of calls. Reading characters again and making runs is what the running time consists of.", "quantifier": "all lexers, inputs and numbers of calls", "why_tests_cant": "A test times some inputs; that no input of any length is slower, or that the work grows exponentially for a family of inputs, is a statement about all lengths.", "anchors": ["pango-lexer/src/lexer/mod.rs: Lexer::next", "pango-lexer/src/fsm/nfa/sim.rs: NfaSimulator::feed, eps_closure", "pango-lexer/src/lexer/input.rs: InputIter"]}
{"id": "C122", "title": "Parsing a text takes time linear in its length", "statement": "For every lexer and every parser there is a constant k such that, whenever the parser returns on a text, the work is at most k times the length of the text plus one. The work is the number of characters read and of runs made by the lexer, of calls of handle_token, and of nodes taken from the stack.", "quantifier": "all lexers, grammars, parsers and texts", "why_tests_cant": "A test times some texts; that no text of any length is slower, for any grammar, is a statement about all of them, and needs an amortized argument for the stack.", "anchors": ["pango-parser/src/parser/slr.rs: Slr::parse, handle_token", "pango-lexer/src/lexer/mod.rs: Lexer::next"]}
{"id": "C123", "title": "An else belongs to the nearest if", "statement": "A grammar with the rules stmt -> if stmt and stmt -> if stmt else stmt, whatever symbols stand for the `if` and the `else`, has no parser, and neither has one in which two rules of a variable begin with terminals of the same kind, as in the textbook's grammar of matched and unmatched statements. With variables for `if` and `else` that grammar can be built and has a parser, whatever the iteration order. It returns on every input: the tree of the statement in which every `else` belongs to the nearest `if`, or an error if the input is no text of a statement. However the `else`s of a statement are meant, exactly one statement with the same text is of that kind.", "quantifier": "all grammars with such rules, all statements of any depth, all inputs, all iteration orders", "why_tests_cant": "tests show some statements; that each text of any nesting is read with the nearest `if`, and that no grammar with the two rules has a table, whatever else is in it, are statements about all of them", "anchors": ["pango-parser/src/parser/table.rs: ParseTable::new_slr, insert_action", "pango-parser/src/parser/slr.rs: SlrParser::new, Parser::parse"]}
{"id": "C124", "title": "No grammar makes palindromes parsable", "statement": "Suppose that a sentence of a grammar can begin with every word of some letters, and that the grammar with an end marker has a parser. Then there are two of these words, of different lengths and as long as one likes, that the grammar does not tell apart: whatever word of the letters makes a sentence behind one makes a sentence behind the other. So if the sentences among the words of two letters are the palindromes, the grammar has no parser, whatever its rules are: rewriting the grammar cannot help.", "quantifier": "all epsilon-free grammars, all letters, all lengths, all iteration orders", "why_tests_cant": "tests try some grammars for a language; that none of the infinitely many grammars for it has a table is a statement about all of them", "anchors": ["pango-parser/src/parser/table.rs: ParseTable::new_slr, insert_action", "pango-parser/src/parser/slr.rs: SlrParser::new, handle_token"]}
{"id": "C125", "title": "A variable that repeats itself on both sides cannot be parsed", "statement": "If a variable that can be reached has a rule that ends with the variable and a rule that begins with it (E -> - E and E -> E !, or the one rule E -> E op E, whatever symbols stand for the operator, even none), then the grammar has no parser, whatever its other rules are.", "quantifier": "all epsilon-free grammars in which every variable has a sentence, all operators, all iteration orders", "why_tests_cant": "tests try some grammars with such rules; that no other rules can help is a statement about all of them", "anchors": ["pango-parser/src/parser/table.rs: ParseTable::new_slr, insert_action", "pango-parser/src/parser/slr.rs: SlrParser::new"]}
{"id": "C126", "title": "A grammar has few item sets", "statement": "If a grammar has a parser, the number of its different item sets, and with it the number of rows of the table, is at most polynomial in the size of the grammar (its rules and the symbols of their bodies).", "quantifier": "all grammars that have a parser, all iteration orders", "why_tests_cant": "a bound on the growth over all grammars; the grammars of tests have a few rules and nothing is seen of how the table grows", "anchors": ["pango-parser/src/cfsm/mod.rs: Cfsm::from_grammar", "pango-parser/src/cfsm/item.rs: ItemSet", "pango-parser/src/parser/table.rs: ParseTable::new_slr"]}
{"id": "C127", "title": "What can be made of patterns", "statement": "A language is decided by a pattern exactly if a finite automaton accepts it. So there is a pattern for the texts that a given pattern does not match, for those that two patterns both match, for those that a pattern matches when they are read backwards, and for those in which nothing is found that a pattern matches.", "quantifier": "all patterns that always give an answer, all languages, both profiles", "why_tests_cant": "the existence of patterns for all languages of all automata", "anchors": ["pango-lexer/src/regex/parser.rs: parse", "pango-lexer/src/fsm/nfa/compiler.rs: compile", "pango-lexer/src/fsm/nfa/sim.rs: simulate"]}
{"id": "C128", "title": "Comments inside of comments", "statement": "No lexer makes one token of exactly the texts in brackets that may have further brackets inside, nested as deep as one likes: one that makes a token of each ((...)) makes one of texts with too many brackets as well. For every depth there is a pattern for the comments that are nested at most this deep, and a lexer with this pattern as its only rule makes one token of exactly these.", "quantifier": "all lexers that always return, all brackets, all depths", "why_tests_cant": "that no pattern works, and that there is one for every depth", "anchors": ["pango-lexer/src/lexer/mod.rs: Lexer::next", "pango-lexer/src/regex/parser.rs: parse", "pango-lexer/src/fsm/nfa/sim.rs: NfaSimulator"]}
{"id": "C129", "title": "A choice between grammars", "statement": "Any number of grammars without common variables can be made the alternatives of one more variable. With an end marker there is a parser for the resulting grammar exactly if there is one for each of the grammars and no tokens of one kind begin sentences of two of them. Its parser accepts the sentences of all the grammars, with the tree of the grammar below one more node; which grammar it is, is known from the first token.", "quantifier": "all grammars without epsilon that can be built, all inputs", "why_tests_cant": "all grammars, and all of the parsers there could be for them", "anchors": ["pango-parser/src/parser/slr.rs: SlrParser::new, parse", "pango-parser/src/grammar.rs: GrammarBuilder", "pango-parser/src/cfsm/mod.rs: from_grammar"]}
{"id": "C130", "title": "Some choices cannot be parsed, however they are written", "statement": "Let p and q be numbers with 0 < p < q. The sentences `a ... a b ... b` with p times as many b as a have a grammar with a parser, and so do those with q times as many. No grammar whose sentences are those of either has a parser, however it is written, although there are such grammars: that two languages can be parsed does not mean that their union can.", "quantifier": "all p and q, all grammars without epsilon that can be built, with an end marker", "why_tests_cant": "all of the infinitely many grammars for the sentences, and all of the parsers there could be for them", "anchors": ["pango-parser/src/parser/slr.rs: SlrParser::new, parse", "pango-parser/src/parser/table.rs: TableBuilder", "pango-parser/src/grammar.rs: GrammarBuilder", "pango-parser/src/cfsm/mod.rs: from_grammar"]}
{"id": "C131", "title": "What two parsers both accept need not have a grammar", "statement": "No grammar that can be written with this crate, with or without epsilon, has the sentences `a ... a b ... b c ... c` with as many of each and no others made of a, b and c. There are two grammars with parsers, for as many b as a and for as many c as b, whose common sentences are these: that two languages can be parsed does not even mean that what they have in common has a grammar.", "quantifier": "all grammars, all variables and terminals, all inputs", "why_tests_cant": "all of the infinitely many grammars there are", "anchors": ["pango-parser/src/grammar.rs: Grammar, GrammarBuilder", "pango-parser/src/parser/slr.rs: SlrParser::new, parse"]}
{"id": "C132", "title": "A name that has to be repeated", "statement": "Names of two or more letters, read letter by letter, cannot be required to be the same before and behind a separator: no grammar, with or without epsilon, has these sentences and no others. If the name is to be repeated backwards there is a grammar with a parser, for any letters; so there is for finitely many names each of which is a token of its own.", "quantifier": "all grammars, all letters, all names, all inputs", "why_tests_cant": "all of the infinitely many grammars there are", "anchors": ["pango-parser/src/grammar.rs: Grammar, GrammarBuilder", "pango-parser/src/parser/slr.rs: SlrParser::new, parse"]}
{"id": "C133", "title": "Words with a choice of characters in each place", "statement": "For any sequence of places, each with the characters that may stand there or with those that may not, the pattern that has `[...]` or `[^...]` for each place, with a backslash in front of special characters, is accepted and compiled, can be a rule of a lexer, and matches exactly the words with an allowed character in every place; the brackets may be empty. With both ways to write each letter it matches a word without distinguishing small and large letters (of ASCII), although patterns have no such option.", "quantifier": "all sequences of places, all characters, all words, both build profiles", "why_tests_cant": "all of the infinitely many patterns, and all words", "anchors": ["pango-lexer/src/regex/parser.rs: character_group", "pango-lexer/src/regex/tokenizer.rs: Tokenizer", "pango-lexer/src/fsm/nfa/compiler.rs: Compiler", "pango-lexer/src/fsm/nfa/sim.rs: Simulator"]}
{"id": "C134", "title": "A choice announced in front can be parsed, one announced behind cannot", "statement": "Let p and q be numbers with 0 < p < q. There is a grammar with a parser whose sentences are `c` and `n` times `a` and `p*n` times `b`, or `d` and `n` times `a` and `q*n` times `b`, for all n from 1. If the `c` or the `d` comes last instead of first, there is a grammar too, but no grammar without the empty string in its bodies that has these sentences has a parser, whatever its rules are. So whether a language has a parser depends on the direction in which it is written.", "quantifier": "all numbers p and q, all tokens, all grammars with these sentences, all iteration orders", "why_tests_cant": "no finite number of grammars shows that none has a parser", "anchors": ["pango-parser/src/parser/slr.rs: Slr::new", "pango-parser/src/parser/table.rs: Builder", "pango-parser/src/grammar.rs: Grammar"]}
{"id": "C135", "title": "Merging tokens or putting inputs behind each other can lose the parser", "statement": "There is a grammar with a parser so that, if two of the kinds of its tokens are made one kind, no grammar (without the empty string in its bodies) for the sentences that result has a parser, whatever its rules are. And there are two grammars with parsers so that no grammar for a sentence of the one with a sentence of the other behind it has a parser. And there is a grammar with a parser so that no grammar for one or more of its sentences behind each other has a parser. In all of these cases there are grammars for these sentences.", "quantifier": "all grammars for the resulting sentences, all names of the marker, all iteration orders; for any two counts p < q (for the last, 1 and 2)", "why_tests_cant": "no finite number of grammars shows that none has a parser", "anchors": ["pango-parser/src/parser/slr.rs: Slr::new", "pango-parser/src/parser/table.rs: Builder", "pango-parser/src/parser/traits.rs: TerminalEq"]}
{"id": "C136", "title": "Every grammar can be cleaned, and its parser with it", "statement": "Of every grammar with a sentence some rules make a grammar with the same parse trees in which every variable can be reached and stands for some tokens. If the grammar (with an end marker, and without the empty string in its bodies) has a parser, this one has a parser too: it accepts the same inputs with the same trees, returns on all inputs after a number of iterations that is linear in their lengths, and returns an error as soon as no sentence begins with what has been read. The converse is false: rules that are in no tree can be what keeps a grammar from having a parser.", "quantifier": "all grammars with a sentence, all iteration orders, all inputs", "why_tests_cant": "a claim about all grammars, all their parse trees and all inputs", "anchors": ["pango-parser/src/grammar.rs: GrammarBuilder::build", "pango-parser/src/parser/slr.rs: Slr::new, Slr::parse", "pango-parser/src/parser/table.rs: Builder"]}
{"id": "C137", "title": "Left recursion keeps the stack low", "statement": "If the grammar is recursive at the front of the bodies only (no variable that can be reached is inside of itself with something in front of it), the stack of its parser is never higher than a number that does not depend on the input. If a variable is inside of itself behind something else, there are, for every height, sentences on which the stack gets higher (in grammars without the empty string in their bodies, in which every variable stands for some tokens). So lists should be written with left recursion.", "quantifier": "all grammars with a parser, all inputs of any length, all iteration orders", "why_tests_cant": "a bound for inputs of every length, and inputs for every height", "anchors": ["pango-parser/src/parser/slr.rs: Slr::parse, Slr::handle_token", "pango-parser/src/cfsm/mod.rs: Cfsm"]}
{"id": "C138", "title": "A stack of bounded height is enough for the regular languages, and for no others", "statement": "If the stack of the parser of a grammar never gets higher than some number, whatever the input, the sentences of the grammar are a regular language. Conversely every regular language (with some word, and without the empty word) has a grammar and a parser whose stack never gets higher than some number. So a language with brackets inside of brackets, or anything else no expression of the scanner can describe, needs stacks of any height.", "quantifier": "all grammars without the empty string in their bodies and with a parser behind an end marker, all regular languages, all inputs of any length, all iteration orders", "why_tests_cant": "a bound on every input on the one side, the existence of an automaton on the other", "anchors": ["pango-parser/src/parser/slr.rs: Slr::parse, Slr::handle_token", "pango-parser/src/parser/slr.rs: Slr::new"]}
{"id": "C139", "title": "A parser accepts inputs of any length if and only if its grammar is recursive", "statement": "If no variable that can be reached is inside of itself (in a body of its own, or in a body of a variable in there and so on), no sentence is longer than a number that depends on the grammar only. If one is, the parser accepts inputs that are as long as one likes (in grammars without the empty string in their bodies, in which every variable stands for some tokens): no recursion is in vain, since a variable that derives itself without any more tokens has no parser.", "quantifier": "all grammars with a parser behind an end marker, all inputs of any length, all iteration orders", "why_tests_cant": "a bound for every sentence, and accepted inputs of every length", "anchors": ["pango-parser/src/parser/slr.rs: Slr::parse", "pango-parser/src/grammar.rs: Grammar"]}
{"id": "C140", "title": "A variable that begins and ends with itself cannot be parsed, through other variables either", "statement": "If a variable that can be reached has a rule that begins with the variable itself, or with another one that has a rule that begins with it and so on, and in the same way ends with itself, then the grammar has no parser, whatever its other rules are. So a variable that is replaced by itself alone, through any number of others, never has one.", "quantifier": "all epsilon-free grammars in which every variable has a sentence, chains of any length, all iteration orders", "why_tests_cant": "chains of any length, and that no other rules can help", "anchors": ["pango-parser/src/parser/table.rs: ParseTable::new_slr, insert_action", "pango-parser/src/parser/slr.rs: Slr::new"]}
