{
 "claims": [
  {
   "property": "C01",
   "status": "partial",
   "theorems": [
    "Pango.Props.c01_false",
    "Pango.Props.c01_spans_tile_partial"
   ],
   "note": "Refuted as stated: an invalid last token cut off by the end of the pattern is reported to end at 1, and scanning can panic on a counted bound. Proved: tiling for all patterns apart from those two cases, and what happens in them."
  },
  {
   "property": "C02",
   "status": "partial",
   "theorems": [
    "Pango.Props.c02_two_digits_false",
    "Pango.Props.c02_four_digits_false",
    "Pango.Props.c02_two_digits_partial",
    "Pango.Props.c02_four_digits_partial",
    "Pango.Props.c02_x_run_partial",
    "Pango.Props.c02_u_run_partial"
   ],
   "note": "Refuted as stated: an escape takes more hexadecimal digits than two or four. Proved: the denoted character, when no further digit follows; and for any number of digits: \\x is invalid unless there are exactly two, \\u denotes the number modulo 2^32."
  },
  {
   "property": "C03",
   "status": "partial",
   "theorems": [
    "Pango.Props.c03_false",
    "Pango.Props.c03_bounds_partial",
    "Pango.Props.c03_panics_partial",
    "Pango.Props.c03_wraps_partial",
    "Pango.Props.wrapTo_exists"
   ],
   "note": "Refuted as stated: bounds at the top of the 32-bit range overflow. Proved: all bounds outside that window; inside it, that a build with overflow checks panics exactly there, and what a build without reads instead."
  },
  {
   "property": "C04",
   "status": "proved",
   "theorems": [
    "Pango.Props.c04_round_trip"
   ],
   "note": "All trees of the documented syntax (bracket groups may be empty) with 32-bit bounds; the writer is the one of the repository's property tests."
  },
  {
   "property": "C05",
   "status": "partial",
   "theorems": [
    "Pango.Props.c05_false",
    "Pango.Props.c05_total_partial",
    "Pango.Props.c05_exact_partial"
   ],
   "note": "Refuted as stated: a bound from 2^32 to 2^32+3 crashes a build with overflow checks. Proved: total with exactly one error for all other patterns, and always without overflow checks. c05_exact_partial: exactly on which patterns the parser crashes."
  },
  {
   "property": "C06",
   "status": "partial",
   "theorems": [
    "Pango.Props.c06_false",
    "Pango.Props.c06_accepts_partial",
    "Pango.Props.c06_exact_partial"
   ],
   "note": "Refuted as stated: a surplus right parenthesis ends the pattern silently; empty sequences and bracket groups are accepted. Proved: what is accepted, exactly up to these. c06_exact_partial: exactly which patterns are accepted, and with which tree."
  },
  {
   "property": "C07",
   "status": "partial",
   "theorems": [
    "Pango.Props.c07_false",
    "Pango.Props.c07_compiles_partial"
   ],
   "note": "Refuted as stated: `()` parses and crashes the compiler. Proved: adding an accepted pattern crashes exactly if its tree has an empty sequence."
  },
  {
   "property": "C08",
   "status": "proved",
   "theorems": [
    "Pango.Props.c08_literal_sets",
    "Pango.Props.c08_complements"
   ],
   "note": "Literals, ranges, bracket groups and classes against a set-theoretic specification, for every choice of the Unicode predicates."
  },
  {
   "property": "C09",
   "status": "proved",
   "theorems": [
    "Pango.Props.c09_well_formed",
    "Pango.Props.c09_single_well_formed",
    "Pango.Props.c09_lexer_well_formed",
    "Pango.Props.c09_builder_no_empty_targets",
    "Pango.Props.c09_build_checks"
   ],
   "note": "For the compiler, for Nfa::from and for every lexer the builder makes."
  },
  {
   "property": "C10",
   "status": "partial",
   "theorems": [
    "Pango.Props.c10_false",
    "Pango.Props.c10_matches_partial",
    "Pango.Props.c10_exact_partial",
    "Pango.Props.c10_accepts_partial",
    "Pango.Props.c10_rejects_partial"
   ],
   "note": "False as stated: (a?b)+ rejects b and (a?b)? accepts bb, because the closure at the start of matching does not count. c10_exact_partial gives the language that the code implements, for all pattern trees that compile and all strings: the regular language, except that the first round of a group at the very start may not be counted. c10_matches_partial: it is the regular language if no repeated group matches the empty string and counted groups that can be entered before the first character begin with a literal. c10_accepts_partial / c10_rejects_partial: no wrong match if the counted groups at the start have no upper bound, no missed match if they have no lower bound."
  },
  {
   "property": "C100",
   "status": "partial",
   "theorems": [
    "Pango.Props.c100_false",
    "Pango.Props.c100_neat_partial",
    "Pango.Props.c100_pretty_partial"
   ],
   "note": "Refuted, even for {:#?}: the name of a variable can look like a rule and a name (c100_false). Proved: for outputs with balanced brackets and with colons and commas only inside of brackets, apart from quotations (c100_neat_partial); with {:#?} this is needed for the variables only (c100_pretty_partial). Missing: false otherwise."
  },
  {
   "property": "C101",
   "status": "partial",
   "theorems": [
    "Pango.Props.c101_false",
    "Pango.Props.c101_neat_partial",
    "Pango.Props.c101_pretty_partial"
   ],
   "note": "Refuted for {:?}: two names that look like two entries of the table each (c101_false). Proved: for neat outputs as in C100 (c101_neat_partial), with {:#?} for all outputs of terminals (c101_pretty_partial). Missing: variables with other outputs and {:#?}."
  },
  {
   "property": "C102",
   "status": "proved",
   "theorems": [
    "Pango.Props.c102_every",
    "Pango.Props.c102_only",
    "Pango.Props.c102_regular"
   ],
   "note": "Regular expressions and their languages are those of Mathlib. Patterns that make the compiler panic (C07) have no language; where matching does not end (C11) there is no answer to compare."
  },
  {
   "property": "C103",
   "status": "proved",
   "theorems": [
    "Pango.Props.c103_every",
    "Pango.Props.c103_context_free",
    "Pango.Props.c103_sentences",
    "Pango.Props.c103_first",
    "Pango.Props.c103_follow",
    "Pango.Props.c103_suffix",
    "Pango.Props.c103_language",
    "Pango.Props.c103_reads"
   ],
   "note": "Context-free grammars, derivations and languages are those of Mathlib; c103_suffix and c103_language have the hypotheses under which C36 and C37 hold. Which of the languages have a parser is C86."
  },
  {
   "property": "C104",
   "status": "proved",
   "theorems": [
    "Pango.Props.c104_parse"
   ],
   "note": "Regular languages are those of Mathlib. The grammar is left-linear: a variable stands for the words that lead to a state of the automaton. The empty word can not be a sentence of a grammar without epsilon, and with epsilon it is never accepted (C38)."
  },
  {
   "property": "C105",
   "status": "proved",
   "theorems": [
    "Pango.Props.c105_parser",
    "Pango.Props.c105_reads",
    "Pango.Props.c105_unique"
   ],
   "note": "With the end marker of C86. Behind every string of symbols at most one item has its cursor not at the front. That the bodies begin with different terminals is needed: S -> a b | a c is refused (C35)."
  },
  {
   "property": "C106",
   "status": "proved",
   "theorems": [
    "Pango.Props.c106_grammar",
    "Pango.Props.c106_parser",
    "Pango.Props.c106_reads",
    "Pango.Props.c106_unique",
    "Pango.Props.c106_written",
    "Pango.Props.c106_groups"
   ],
   "note": "With the end marker of C86. The specification is IsText (which tokens are a text of which expression), Stands (what a tree stands for) and opText (the text with the fewest parentheses). An operator in two levels makes the table ambiguous."
  },
  {
   "property": "C107",
   "status": "proved",
   "theorems": [
    "Pango.Props.c107_grammar",
    "Pango.Props.c107_parser",
    "Pango.Props.c107_sentences",
    "Pango.Props.c107_reads"
   ],
   "note": "With the end marker of C86. c107_reads is for grammars in which every variable can be reached and has a FIRST set. An example shows that there may be no parser if the hole can stand behind the hole."
  },
  {
   "property": "C108",
   "status": "proved",
   "theorems": [
    "Pango.Props.c108_parser",
    "Pango.Props.c108_reads",
    "Pango.Props.c108_unique",
    "Pango.Props.c108_simple"
   ],
   "note": "With the end marker of C86. The simple grammars of C105 are a special case (c108_simple). No left-recursive grammar is among them."
  },
  {
   "property": "C109",
   "status": "proved",
   "theorems": [
    "Pango.Props.c109_grammar",
    "Pango.Props.c109_parser",
    "Pango.Props.c109_more",
    "Pango.Props.c109_trees",
    "Pango.Props.c109_reads"
   ],
   "note": "With the end marker of C86. SlrGrammar is the textbook's definition, by actions; OneEntryEach of C86 is what the code checks, by items. c109_reads is for grammars in which every variable can be reached and has a FIRST set."
  },
  {
   "property": "C11",
   "status": "partial",
   "theorems": [
    "Pango.Props.c11_false",
    "Pango.Props.c11_terminates_partial",
    "Pango.Props.c11_exact_partial",
    "Pango.Props.c11_answers_partial",
    "Pango.Props.c11_stuck_partial"
   ],
   "note": "False as stated: (a*)* does not terminate on a. c11_terminates_partial: all strings, all pattern trees in which no repeated group matches the empty string, with a bound on the closures that depends on the pattern only. c11_exact_partial: for all pattern trees that compile, matching ends on exactly those strings no beginning of which leads to a repeated group that matches the empty string; c11_answers_partial adds the answer (see C10)."
  },
  {
   "property": "C110",
   "status": "proved",
   "theorems": [
    "Pango.Props.c110_tokens",
    "Pango.Props.c110_reads",
    "Pango.Props.c110_operators",
    "Pango.Props.c110_calculator"
   ],
   "note": "For patterns that repeat nothing empty, so that the matcher does not get stuck (C11). The lexer has no rule that drops a word, so blanks between the words would be tokens."
  },
  {
   "property": "C111",
   "status": "proved",
   "theorems": [
    "Pango.Props.c111_same",
    "Pango.Props.c111_release",
    "Pango.Props.c111_debug",
    "Pango.Props.c111_calls",
    "Pango.Props.c111_count",
    "Pango.Props.c111_square"
   ],
   "note": "The records are values; how dbg! makes a text of them is not modelled, and not what a call has written that does not return."
  },
  {
   "property": "C112",
   "status": "proved",
   "theorems": [
    "Pango.Props.c112_names",
    "Pango.Props.c112_hidden",
    "Pango.Props.c112_builds",
    "Pango.Props.c112_example"
   ],
   "note": "c112_names: keywords in front; c112_hidden: keywords behind the names; c112_builds: the lexer can be built; c112_example: the rules if, else, [a-z][a-z0-9]* and a blank."
  },
  {
   "property": "C113",
   "status": "proved",
   "theorems": [
    "Pango.Props.c113_call",
    "Pango.Props.c113_builds",
    "Pango.Props.c113_munch"
   ],
   "note": "c113_call: one call in any state; c113_builds: the smaller lexer can be built; c113_munch: two kinds of rules with different first characters."
  },
  {
   "property": "C114",
   "status": "proved",
   "theorems": [
    "Pango.Props.c114_delimited",
    "Pango.Props.c114_next",
    "Pango.Props.c114_quotes",
    "Pango.Props.c114_escapes",
    "Pango.Props.c114_behind_quotes",
    "Pango.Props.c114_behind_escapes",
    "Pango.Props.c114_example"
   ],
   "note": "c114_delimited, c114_next: every pattern whose matches cannot be read further; c114_quotes, c114_escapes: texts in quotes are found in all texts; c114_behind_quotes, c114_behind_escapes: what follows does not depend on the inside; c114_example: the rules of a blank and of strings with escapes."
  },
  {
   "property": "C115",
   "status": "proved",
   "theorems": [
    "Pango.Props.c115_builds",
    "Pango.Props.c115_tokens",
    "Pango.Props.c115_separated",
    "Pango.Props.c115_parse",
    "Pango.Props.c115_same",
    "Pango.Props.c115_example"
   ],
   "note": "c115_builds: the lexer can be built; c115_tokens: its tokens on all texts; c115_separated: words with blanks between them; c115_parse: the number of blanks does not matter for a parser; c115_same: nor whether there are any, compared to the lexer without blanks; c115_example: the rules a+, = and ==."
  },
  {
   "property": "C116",
   "status": "proved",
   "theorems": [
    "Pango.Props.c116_tokens",
    "Pango.Props.c116_every",
    "Pango.Props.c116_first",
    "Pango.Props.c116_numbers",
    "Pango.Props.c116_optional"
   ],
   "note": "c116_tokens: as stated; c116_every: for all patterns, regular or not; c116_first: without the last character, for all lexers that lose nothing: the tokens are the first ones of maximal munch, and some are missing only if all of the rest can be read; c116_numbers: the patterns for numbers; c116_optional: why two characters are needed."
  },
  {
   "property": "C117",
   "status": "partial",
   "theorems": [
    "Pango.Props.c117_false",
    "Pango.Props.c117_open_partial",
    "Pango.Props.c117_exact_partial",
    "Pango.Props.c117_reads_partial"
   ],
   "note": "Refuted: with the rule ab? all of abbbb is read. c117_open_partial: as stated for patterns whose quantifiers have no upper bounds. c117_exact_partial: for every lexer, the claim for all texts (with the words that the matcher takes) holds if and only if every word that can be read can be completed. c117_reads_partial: for every lexer, what is read. Missing: other patterns, for which it is false in general."
  },
  {
   "property": "C118",
   "status": "proved",
   "theorems": [
    "Pango.Props.c118_grammar",
    "Pango.Props.c118_parser",
    "Pango.Props.c118_sentences",
    "Pango.Props.c118_reads",
    "Pango.Props.c118_tree",
    "Pango.Props.c118_direct"
   ],
   "note": "The brackets and the separator are of kinds that are not in the grammar of the elements, which has one terminal of each kind. c118_reads and c118_tree need that every variable of the grammar of the elements can be reached and has a FIRST set."
  },
  {
   "property": "C119",
   "status": "proved",
   "theorems": [
    "Pango.Props.c119_text",
    "Pango.Props.c119_strings",
    "Pango.Props.c119_trees",
    "Pango.Props.c119_texts"
   ],
   "note": "The lexer is one that is built in debug mode from the pattern \"([^\"\\\\]|\\\\.)*\" and one-character patterns."
  },
  {
   "property": "C12",
   "status": "proved",
   "theorems": [
    "Pango.Props.c12_can_feed_iff_survivor",
    "Pango.Props.c12_dead_stays_dead",
    "Pango.Props.c12_feed_str",
    "Pango.Props.c12_feed_answer"
   ],
   "note": "For every automaton without empty destination sets, every set of runs and every string."
  },
  {
   "property": "C120",
   "status": "proved",
   "theorems": [
    "Pango.Props.c120_builds",
    "Pango.Props.c120_reads",
    "Pango.Props.c120_tree",
    "Pango.Props.c120_unique",
    "Pango.Props.c120_print",
    "Pango.Props.c120_printed"
   ],
   "note": "Blanks are part of the words in front of them (C115), since a lexer drops nothing; a text may not begin with blanks. The end marker is that of C86. Numbers have no fraction and no exponent, and a backslash in a string stands for the next character."
  },
  {
   "property": "C121",
   "status": "partial",
   "theorems": [
    "Pango.Props.c121_erased",
    "Pango.Props.c121_linear_partial",
    "Pango.Props.c121_polynomial_partial",
    "Pango.Props.c121_json",
    "Pango.Props.c121_square",
    "Pango.Props.c121_exponential",
    "Pango.Props.c121_no_polynomial",
    "Pango.Props.c121_ambiguous_partial",
    "Pango.Props.c121_ambiguous_no_polynomial",
    "Pango.Props.c121_false",
    "Pango.Props.c121_unambiguous_partial",
    "Pango.Props.c121_exact_partial"
   ],
   "note": "False in general: with the rule (a|[a])* one call on n times a makes at least 2^n runs (c121_exponential), and with the rules a and a*b the work on a^k c is quadratic (c121_square). Proved: linear if every rule is read in one way only, no repeated group matches the empty string, and a bounded number of characters is put back; this covers the lexer of C120 (c121_json). Polynomial if every repeated group is read in one way only. If the rounds of some group of some rule can match some text in two ways, as for (\\d+,?)+, then n such rounds at the front of a text take 2^n steps in one call, whatever the other rules and the rest of the text are (c121_ambiguous_partial, c121_ambiguous_no_polynomial). If there is no such group, the work is polynomial (c121_unambiguous_partial), and exactly then (c121_exact_partial). Missing: repeated groups that match the empty string, or that have a choice of two parts that both match it, and rules with parts that never match."
  },
  {
   "property": "C122",
   "status": "partial",
   "theorems": [
    "Pango.Props.c122_erased",
    "Pango.Props.c122_parser",
    "Pango.Props.c122_linear_partial",
    "Pango.Props.c122_polynomial_partial",
    "Pango.Props.c122_json",
    "Pango.Props.c122_exponential",
    "Pango.Props.c122_ambiguous_partial",
    "Pango.Props.c122_ambiguous_no_polynomial",
    "Pango.Props.c122_false",
    "Pango.Props.c122_unambiguous_partial"
   ],
   "note": "False in general, because of the lexer only: with the rule (a|[a])* a text of n times a is at least 2^n work (c122_exponential). For every lexer and every grammar the share of the parser is linear in the length of the text and the number of rules, and it calls the lexer once per token and once more at most; if it returns a tree, its share is at least two for each node but the root (c122_parser). So the whole is linear or polynomial with the lexers of C121; the reader of C120 returns on every text within linear work (c122_json). With the lexers of c121_ambiguous_partial it is exponential, whatever the grammar is and whatever is returned (c122_ambiguous_partial, c122_ambiguous_no_polynomial). With the lexers of c121_unambiguous_partial it is polynomial (c122_unambiguous_partial). Missing: as for C121."
  },
  {
   "property": "C13",
   "status": "partial",
   "theorems": [
    "Pango.Props.c13_false",
    "Pango.Props.c13_longest_partial",
    "Pango.Props.c13_lookahead_partial",
    "Pango.Props.c13_ahead_partial",
    "Pango.Props.c13_kept_partial",
    "Pango.Props.c13_lossless_partial"
   ],
   "note": "False as stated: with the rules a, abcd, b, c the token a of abcxa is returned at the position of x. Proved for all lexers: every token up to the first None is the longest match at the front of what the lexer has left (it may have lost characters before). Proved as stated, up to the first None, for all patterns of the class of C10 for which one character of lookahead is enough. c13_ahead_partial: the same for all patterns for which one character of lookahead is enough, whether or not they are in the class of C10, with what the matcher takes for a match (C10). c13_kept_partial: the same for all lexers that never put back what they have read behind a match, a larger class. c13_lossless_partial: for all lexers that find no token inside of what they have put back, such as that of the rules a and abc."
  },
  {
   "property": "C14",
   "status": "proved",
   "theorems": [
    "Pango.Props.c14_first_rule"
   ],
   "note": "Every lexer the builder makes, every input and history of calls, also after None."
  },
  {
   "property": "C15",
   "status": "partial",
   "theorems": [
    "Pango.Props.c15_false",
    "Pango.Props.c15_none_partial",
    "Pango.Props.c15_lookahead_partial",
    "Pango.Props.c15_exact_partial"
   ],
   "note": "False as stated: with the rules a and abc there is no token in ab. Proved for all lexers: at the first None no pattern matches a non-empty prefix of what is left, or a pattern reads all of it without matching. Proved as stated for all patterns for which one character of lookahead is enough. c15_exact_partial: for every lexer, the claim holds on all inputs if and only if one character of lookahead is enough for its patterns."
  },
  {
   "property": "C16",
   "status": "proved",
   "theorems": [
    "Pango.Props.c16_finite"
   ],
   "note": "Every machine, token table, input and number of calls. The machine is any deterministic simulator, not only the one for automata."
  },
  {
   "property": "C17",
   "status": "proved",
   "theorems": [
    "Pango.Props.c17_positions"
   ],
   "note": "Every machine, token table, input and number of calls, also after None."
  },
  {
   "property": "C18",
   "status": "partial",
   "theorems": [
    "Pango.Props.c18_false",
    "Pango.Props.c18_subsequence_partial",
    "Pango.Props.c18_lookahead_partial",
    "Pango.Props.c18_ahead_partial",
    "Pango.Props.c18_kept_partial",
    "Pango.Props.c18_lossless_partial"
   ],
   "note": "False as stated: with the rules a, abcd, b, c the input abcxa loses the x. Proved for all lexers and histories: the source is a subsequence of the input at the position of the token. Proved as stated, up to the first None, for all patterns for which one character of lookahead is enough. c18_ahead_partial: as c13_ahead_partial. c18_kept_partial: the same for all lexers that never put back what they have read behind a match, a larger class. c18_lossless_partial: as c13_lossless_partial."
  },
  {
   "property": "C19",
   "status": "partial",
   "theorems": [
    "Pango.Props.c19_false",
    "Pango.Props.c19_ends_partial",
    "Pango.Props.c19_exact_partial",
    "Pango.Props.c19_every_partial"
   ],
   "note": "False as stated: with the rule a the input xa gives None and then a token. Proved for all lexers: only the first n(n+2) calls can return tokens, and after a token at the end of the input only None comes. c19_exact_partial: for every lexer, exactly when the claim holds on all inputs: its patterns match nothing, or no word of which no beginning matches can be followed by a character that cannot be read. c19_every_partial: as stated if every character is matched by some pattern."
  },
  {
   "property": "C20",
   "status": "proved",
   "theorems": [
    "Pango.Props.c20_kind_of_source"
   ],
   "note": "Every machine, token table, input and number of calls. Generators are modelled as functions of the source."
  },
  {
   "property": "C21",
   "status": "proved",
   "theorems": [
    "Pango.Props.c21_no_panic"
   ],
   "note": "Every lexer the builder makes, every input, history of calls and bound on the loops of the simulator."
  },
  {
   "property": "C22",
   "status": "proved",
   "theorems": [
    "Pango.Props.c22_hash_order"
   ],
   "note": "Every lexer the builder makes and every choice of iteration orders, one for each iteration in each call of next. Crashes and non-termination are compared as well."
  },
  {
   "property": "C23",
   "status": "partial",
   "theorems": [
    "Pango.Props.c23_false",
    "Pango.Props.c23_tokenizes_partial",
    "Pango.Props.c23_calls_partial",
    "Pango.Props.c23_tokens_partial",
    "Pango.Props.c23_unique",
    "Pango.Props.c23_exact_partial"
   ],
   "note": "False as stated: see C15. Proved as stated, with termination and uniqueness, for all patterns of the class of C10 for which one character of lookahead is enough. c23_calls_partial: for every lexer, every input and any number of calls, what the calls return and which calls return, exactly, in terms of the words that patterns take, can be read up to and get stuck on; c23_unique: this determines the answers. c23_exact_partial: for every lexer, the tokens are those of maximal munch on all inputs if and only if one character of lookahead is enough for its patterns."
  },
  {
   "property": "C24",
   "status": "proved",
   "theorems": [
    "Pango.Props.c24_cached_peekable"
   ],
   "note": "All histories of next/peek/next_if/current."
  },
  {
   "property": "C25",
   "status": "proved",
   "theorems": [
    "Pango.Props.c25_cautious_map_while",
    "Pango.Props.c25_cautious_take_while",
    "Pango.Props.c25_any_take_while",
    "Pango.Props.c25_any_map_while"
   ],
   "note": "All predicates and sequences; also over any iterator, which may go on after None, and after any calls, for both peekable iterators."
  },
  {
   "property": "C26",
   "status": "proved",
   "theorems": [
    "Pango.Props.c26_build"
   ],
   "note": "All sequences of builder calls."
  },
  {
   "property": "C27",
   "status": "proved",
   "theorems": [
    "Pango.Props.c27_same_rules_same_grammar",
    "Pango.Props.c27_permutation_and_repetition",
    "Pango.Props.c27_add_rule_reports_new"
   ],
   "note": "All pairs of histories that add the same rules."
  },
  {
   "property": "C28",
   "status": "proved",
   "theorems": [
    "Pango.Props.c28_first_of_string",
    "Pango.Props.c28_first_of_variable"
   ],
   "note": "Every built grammar, every non-empty string of symbols whose variables have rules (the code never asks for anything else), every choice of iteration orders."
  },
  {
   "property": "C29",
   "status": "proved",
   "theorems": [
    "Pango.Props.c29_follow"
   ],
   "note": "Every built grammar and every choice of iteration orders. Whether a variable without followers has an entry is not part of the claim; see C42."
  },
  {
   "property": "C30",
   "status": "proved",
   "theorems": [
    "Pango.Props.c30_closure"
   ],
   "note": "Every built grammar, every set of items whose cursors are not in front of epsilons and whose variables have rules (C31: all items the program makes), every choice of iteration orders."
  },
  {
   "property": "C31",
   "status": "proved",
   "theorems": [
    "Pango.Props.c31_cursor"
   ],
   "note": "All bodies and numbers of advances."
  },
  {
   "property": "C32",
   "status": "proved",
   "theorems": [
    "Pango.Props.c32_construction"
   ],
   "note": "Every built grammar and every choice of iteration orders."
  },
  {
   "property": "C33",
   "status": "proved",
   "theorems": [
    "Pango.Props.c33_viable"
   ],
   "note": "Every built grammar, every string of symbols and every choice of iteration orders."
  },
  {
   "property": "C34",
   "status": "partial",
   "theorems": [
    "Pango.Props.c34_false",
    "Pango.Props.c34_equivalent_partial",
    "Pango.Props.c34_unique_partial",
    "Pango.Props.c34_twice_partial",
    "Pango.Props.c34_order_false",
    "Pango.Props.c34_order_decides_partial",
    "Pango.Props.c34_every_partial",
    "Pango.Props.c34_some_partial"
   ],
   "note": "False as stated: the automaton of S -> a S | b has equal states. Proved for all grammars and orders: states with the same items are interchangeable; no two states are equal if every item set is entered in one way only, ways from sets further from the start not counted; two are equal if a set is entered in two ways from sets nearer to the start, or from itself. c34_every_partial: the first condition is exact, there are no equal states in any iteration order if and only if every set is entered in one way only. c34_some_partial: exactly when some order gives no equal states: no set is entered in two ways from nearer sets or from itself, and the symbols of every set can be ordered so that sets are finished before sets at the same distance that lead to them."
  },
  {
   "property": "C35",
   "status": "partial",
   "theorems": [
    "Pango.Props.c35_false",
    "Pango.Props.c35_exact_partial",
    "Pango.Props.c35_no_conflict_partial",
    "Pango.Props.c35_builds_partial",
    "Pango.Props.c35_orders_partial"
   ],
   "note": "False as stated: S -> a b | a c has no conflict but construction panics. Proved for all grammars and orders: the exact condition under which construction succeeds; no conflict on terminals if it succeeds; success without conflict if terminals read by the items of a state differ. c35_orders_partial: the exact conditions for a parser under every and under some iteration order."
  },
  {
   "property": "C36",
   "status": "partial",
   "theorems": [
    "Pango.Props.c36_false",
    "Pango.Props.c36_suffix_partial",
    "Pango.Props.c36_whole_partial",
    "Pango.Props.c36_epsilon_false",
    "Pango.Props.c37_all_partial",
    "Pango.Props.c36_exact_partial"
   ],
   "note": "False as stated: S -> ( S ) | x accepts '( x'. Proved without epsilon: the tree is a parse tree of the end of the input, of the whole input if the start variable can not begin inside of anything; and exactly which inputs are accepted. With epsilon not even this holds (c36_epsilon_false): for S -> A t | x A t, A -> eps, U -> S u the tree returned for 'x t' has x below A and is a parse tree of nothing. c36_exact_partial: for grammars without epsilon whose start variable is surely followed (a terminal can follow it, or something stands behind it or behind a variable with it at the end of a body), the claim holds for all inputs exactly if no tokens can stand in front of the start variable or no parse tree ends in a token."
  },
  {
   "property": "C37",
   "status": "partial",
   "theorems": [
    "Pango.Props.c37_false",
    "Pango.Props.c37_partial",
    "Pango.Props.c37_exact_partial",
    "Pango.Props.c37_all_partial",
    "Pango.Props.c37_iff_partial",
    "Pango.Props.c37_language_partial"
   ],
   "note": "False as stated: S -> S ; A | A, A -> x rejects 'x' (no reduction at the end of input). Proved: trees without epsilon rules whose last child is a token are returned if the start variable is surely followed (see C36); without epsilon these are exactly the accepted ones. c37_iff_partial: all parse trees are returned exactly if all end in a token. c37_language_partial: with all variables reachable and productive, the parser reads exactly the language iff something can stand behind the start variable, it can not begin inside of anything, and its rules end in terminals."
  },
  {
   "property": "C38",
   "status": "partial",
   "theorems": [
    "Pango.Props.c38_false",
    "Pango.Props.c38_unused_partial",
    "Pango.Props.c38_never_returned",
    "Pango.Props.c38_returned",
    "Pango.Props.c38_exact_partial"
   ],
   "note": "False: S -> S A t | t, A -> eps | a rejects 't t'. Proved: epsilon rules do not disturb sentences that do not use them; and for every grammar a parse tree in which a variable is empty is never returned, if it has tokens. c38_exact_partial: for every grammar whose start variable is surely followed, with epsilons or not, exactly which parse trees are returned: those that use no rule with epsilon and end in a token (c38_returned: no others, for every grammar)."
  },
  {
   "property": "C39",
   "status": "partial",
   "theorems": [
    "Pango.Props.c39_false",
    "Pango.Props.c39_nothing_accepted",
    "Pango.Props.c39_unfollowed",
    "Pango.Props.c39_exact_partial",
    "Pango.Props.c39_every_partial"
   ],
   "note": "False in the strongest sense: if the start variable is in no body, the parser accepts nothing at all (proved for every grammar). c39_unfollowed: nothing is accepted already if nothing can stand behind the start variable (for example S → a S | b). c39_exact_partial: for grammars without epsilon, exactly when some parser accepts something; c39_every_partial: when every parser does."
  },
  {
   "property": "C40",
   "status": "partial",
   "theorems": [
    "Pango.Props.c40_false",
    "Pango.Props.c40_partial",
    "Pango.Props.c40_input_partial",
    "Pango.Props.c40_reachable_partial",
    "Pango.Props.c40_trim_partial",
    "Pango.Props.c40_decided_partial"
   ],
   "note": "False: S -> x A, A -> A | a, U -> A t does not end on 'x a t'. Proved with a linear bound for grammars without unit cycles and bodies that are just epsilon. c40_input_partial: for grammars without epsilon, exactly the inputs on which parsing does not end. c40_reachable_partial: for grammars without epsilon in which every variable can be reached, parsing always ends, with the same bound; unit cycles need not be excluded, since they would be conflicts. c40_trim_partial: for trim grammars (no epsilon, every variable reachable and with a FIRST set, something follows the start variable) the parser returns on every input. For every grammar, also with epsilons: an input on which parsing has not ended after (2n+1)(rules+1)+1 iterations is one on which it never ends."
  },
  {
   "property": "C41",
   "status": "partial",
   "theorems": [
    "Pango.Props.c41_false",
    "Pango.Props.c41_partial",
    "Pango.Props.c41_trim_partial",
    "Pango.Props.c41_exact_partial",
    "Pango.Props.c41_panics_partial",
    "Pango.Props.c41_iff_partial"
   ],
   "note": "False: S -> a S | b panics on 'a b'. Proved for grammars without epsilon whose variables have terminals in FIRST and FOLLOW and whose start variable has a rule with a variable. c41_trim_partial: the hypotheses on FOLLOW sets and on the start rules follow from reachability and a FOLLOW set of the start variable. c41_exact_partial: for all grammars, exactly where the parser panics: where the state behind the stack comes after all that do something, or the state behind the rest of the stack after all that read a variable, or the stack is too short. c41_iff_partial: if everything reachable is without epsilon and has terminals in FIRST and FOLLOW, the parser never panics if and only if a rule of the start variable contains a variable."
  },
  {
   "property": "C42",
   "status": "partial",
   "theorems": [
    "Pango.Props.c42_false",
    "Pango.Props.c42_construction_partial",
    "Pango.Props.c42_result_partial",
    "Pango.Props.c42_equal_partial",
    "Pango.Props.c42_same_partial",
    "Pango.Props.c42_errors_false",
    "Pango.Props.c42_trim_partial",
    "Pango.Props.c42_machines",
    "Pango.Props.c42_exact_partial",
    "Pango.Props.c42_epsFree_partial",
    "Pango.Props.c42_first_partial"
   ],
   "note": "False: for S -> a, X -> B eps, B -> C, C -> S the order of dependencies between follow sets decides whether 'a' is accepted. Proved for all grammars in which the start variable is surely followed (see C36), or nothing can stand behind it: same construction verdict, same returned value unless panic; equal results under the hypotheses of c41_partial. c42_same_partial: trees and non-termination are the same for all iteration orders (under this condition), only an error may be a panic; c42_errors_false: this exception is necessary, S → a d | c returns an error or panics on c depending on the iteration order. c42_trim_partial: the full claim for trim grammars. c42_exact_partial: exactly for which grammars the iteration order does not matter (up to errors that are panics): the start variable is surely followed, or nothing can stand behind it, or there is a conflict anyway, or nothing is accepted; c42_epsFree_partial says it with parse trees for grammars without epsilon, c42_first_partial that it never matters if moreover all variables have FIRST sets. c42_machines: the order can choose between two machines, and both are realised."
  },
  {
   "property": "C43",
   "status": "proved",
   "theorems": [
    "Pango.Props.c43_kinds"
   ],
   "note": "For every table."
  },
  {
   "property": "C44",
   "status": "partial",
   "theorems": [
    "Pango.Props.c44_false",
    "Pango.Props.c44_tokens_partial",
    "Pango.Props.c44_rest_partial",
    "Pango.Props.c44_whole_partial",
    "Pango.Props.c44_ahead_partial"
   ],
   "note": "False: 'x;?' is accepted by a lexer without a rule for '?'. Proved: the tree is that of the tokens up to the first None, for all lexers and grammars; with one character of lookahead the ignored rest begins where no pattern matches, so nothing is ignored if some pattern matches everywhere. c44_ahead_partial: for all patterns for which one character of lookahead is enough, regular or not."
  },
  {
   "property": "C45",
   "status": "partial",
   "theorems": [
    "Pango.Props.c45_false",
    "Pango.Props.c45_suffix_partial",
    "Pango.Props.c45_whole_partial",
    "Pango.Props.c45_exact_partial"
   ],
   "note": "False: '( x' is accepted with the tree of 'x'. Proved for all grammars: the leaves are the end of the input in order; all of the input under the hypotheses of c36_whole_partial. c45_exact_partial: the same exact condition for the leaves."
  },
  {
   "property": "C46",
   "status": "partial",
   "theorems": [
    "Pango.Props.c46_false",
    "Pango.Props.c46_partial",
    "Pango.Props.c46_token_partial",
    "Pango.Props.c46_exact_partial",
    "Pango.Props.c46_reachable_partial"
   ],
   "note": "False: S -> A | B, A -> C, B -> C, C -> c has a parser, since FOLLOW sets are empty. Proved without epsilon and unit cycles if something can follow the start variable, and for trees whose last child is a token. c46_exact_partial: if something can follow the start variable and there is no epsilon, sentences have one tree if and only if the start variable does not derive itself (or there are no sentences). c46_reachable_partial: always if every variable can be reached."
  },
  {
   "property": "C47",
   "status": "proved",
   "theorems": [
    "Pango.Props.c47_render",
    "Pango.Props.c47_render_reachable",
    "Pango.Props.c47_text"
   ],
   "note": "All items with the cursor in the body, in particular all items the program makes."
  },
  {
   "property": "C48",
   "status": "partial",
   "theorems": [
    "Pango.Props.c48_partial",
    "Pango.Props.c48_false",
    "Pango.Props.c48_machine_partial",
    "Pango.Props.c48_scans_partial"
   ],
   "note": "False as stated (c48_false: x;? is accepted). Proved under the conditions of c23_tokenizes_partial and c37_exact_partial: a tree is returned iff it is a parse tree, ending in a token, of the maximal munch tokenization of the text up to the first place without a match. c48_machine_partial: for all lexers and all grammars, exactly which texts give which tree, an error or panic, or no result, in terms of the specification of the lexer and of the machine; the parser asks for no more tokens than it needs. c48_scans_partial: the accepted texts for all lexers."
  },
  {
   "property": "C49",
   "status": "partial",
   "theorems": [
    "Pango.Props.c49_partial",
    "Pango.Props.c49_false",
    "Pango.Props.c49_trim_partial",
    "Pango.Props.c49_returns_partial"
   ],
   "note": "False as stated (c49_false: S -> a S | b panics on ab). Proved under the conditions of c23_tokenizes_partial, c40_partial and c41_partial. c49_trim_partial: for trim grammars and all lexers, no panic, and a result unless the lexer does not return from a call that the parser makes. c49_returns_partial: always a result if no pattern repeats something empty."
  },
  {
   "property": "C50",
   "status": "proved",
   "theorems": [
    "Pango.Props.c50_table",
    "Pango.Props.c50_control",
    "Pango.Props.c50_other"
   ],
   "note": "One theorem per sort of escape; the table of the escapes is part of the specification."
  },
  {
   "property": "C51",
   "status": "partial",
   "theorems": [
    "Pango.Props.c51_false",
    "Pango.Props.c51_partial",
    "Pango.Props.c51_modulo_partial",
    "Pango.Props.c51_no_code_partial"
   ],
   "note": "False: \\u{100000041} is read as A. Proved for four to eight digits; for more digits only the last eight count, for characters and for numbers that are no code."
  },
  {
   "property": "C52",
   "status": "partial",
   "theorems": [
    "Pango.Props.c52_false",
    "Pango.Props.c52_place_partial",
    "Pango.Props.c52_inside_partial"
   ],
   "note": "False: in a(b the missing parenthesis is reported at the a. Proved: the exact position for each kind of error, relative to the first token that continues no sentence, and the span lies in the pattern unless the last token is cut off."
  },
  {
   "property": "C53",
   "status": "proved",
   "theorems": [
    "Pango.Props.c53_program"
   ],
   "note": "Model/Example.lean is the program with the text as an argument. Lexer and parser are composed through C48, C49 and C42."
  },
  {
   "property": "C54",
   "status": "partial",
   "theorems": [
    "Pango.Props.c54_false",
    "Pango.Props.c54_partial",
    "Pango.Props.c54_reads_partial"
   ],
   "note": "False: \\u4 is read as the character with code 4 although four digits are required. Proved: every token that is not invalid has a text of the syntax, except \\u with a wrong number of digits, \\u{...} with more than 32 bits, and bounds that overflow; and every text of the syntax is read as its token unless hexadecimal digits follow an escape without braces or the numbers are long enough to overflow."
  },
  {
   "property": "C55",
   "status": "partial",
   "theorems": [
    "Pango.Props.c55_false",
    "Pango.Props.c55_partial"
   ],
   "note": "False: () parses and crashes the builder. Proved: every pattern is usable, rejected with one error, or crashing; a lexer is built if all are usable, and otherwise the first one that is not usable decides between the error and the crash."
  },
  {
   "property": "C56",
   "status": "partial",
   "theorems": [
    "Pango.Props.c56_false",
    "Pango.Props.c56_partial"
   ],
   "note": "False: names are not escaped, so with strings as symbols (Debug output in quotes) the text is not in the DOT language. Proved with a reader for the DOT language: if no name in the rules has a quote, a backslash or a newline, the text is read as a graph with exactly the states, items and transitions."
  },
  {
   "property": "C57",
   "status": "partial",
   "theorems": [
    "Pango.Props.c57_false",
    "Pango.Props.c57_partial"
   ],
   "note": "False: the message for a token that starts no expression does not name the left parenthesis, which could stand there. Proved: there is one error, its text has the stated form, its message names something, and all that it names could stand at the place where the pattern goes wrong."
  },
  {
   "property": "C58",
   "status": "partial",
   "theorems": [
    "Pango.Props.c58_false",
    "Pango.Props.c58_partial",
    "Pango.Props.c58_polynomial_partial",
    "Pango.Props.c58_constant_partial",
    "Pango.Props.c58_exponential_partial",
    "Pango.Props.c58_no_polynomial",
    "Pango.Props.c58_unambiguous_partial",
    "Pango.Props.c58_exact_partial",
    "Pango.Props.c58_dichotomy_partial"
   ],
   "note": "False: `(a|[a])*` holds at least 2^n runs after n times `a`, since equal runs are kept several times. Proved, if no repeated group matches the empty string: the number of runs is at most exponential, and the number of different runs is at most polynomial, so that merging equal runs would be enough. For patterns whose repeated groups can be read in one way only (the next character decides where in the group it is read) the number of runs itself is polynomial (c58_polynomial_partial); if the whole pattern is like this, as numbers and string literals are, it is bounded by a constant (c58_constant_partial). In the other direction: if the rounds of some group can match some text in two ways, as for (a+)+, x(a|aa)*y or (\\d+,?)+, then every time it is read in the group doubles the number of runs (c58_exponential_partial, c58_no_polynomial). If no text is matched in two ways by the rounds of a group, as for (ab|ac)*, the number of runs is polynomial (c58_unambiguous_partial). So it is polynomial exactly if no repetition is ambiguous (c58_exact_partial), and otherwise exponential (c58_dichotomy_partial). Missing: repeated groups that match the empty string, or that have a choice of two parts that both match it, and patterns with parts that never match."
  },
  {
   "property": "C59",
   "status": "partial",
   "theorems": [
    "Pango.Props.c59_false",
    "Pango.Props.c59_construction_partial",
    "Pango.Props.c59_result_partial",
    "Pango.Props.c59_separate_partial",
    "Pango.Props.c59_same_partial",
    "Pango.Props.c59_errors_false",
    "Pango.Props.c59_orders_partial",
    "Pango.Props.c59_order_partial",
    "Pango.Props.c59_rules_partial"
   ],
   "note": "False: `S -> x` accepts nothing, but accepts `x` if the unusable rule `U -> S t` is added. Proved: other rules matter only through the FOLLOW sets of reachable variables and through whether something follows the start variable; in particular they do not matter if their bodies have no reachable variables. c59_same_partial: under these conditions trees and non-termination are the same, only an error may be a panic. c59_errors_false: this exception is necessary, even for one iteration order. c59_order_partial: for all grammars, the order in which rules are added changes no more than the iteration order can: every parser has one that does the same for the other order, up to errors that are panics; c59_rules_partial: likewise with unreachable rules whose bodies have no reachable variables; c59_orders_partial: the general form."
  },
  {
   "property": "C60",
   "status": "proved",
   "theorems": [
    "Pango.Props.c60_order"
   ],
   "note": "Rules are compared as sets, which covers reorderings and repetitions. The answers after a `None` are included, and the loops of one lexer end exactly if those of the other one do."
  },
  {
   "property": "C61",
   "status": "proved",
   "theorems": [
    "Pango.Props.c61_repeated"
   ],
   "note": "For patterns that the parser reads as the same tree."
  },
  {
   "property": "C62",
   "status": "partial",
   "theorems": [
    "Pango.Props.c62_false",
    "Pango.Props.c62_machine_partial",
    "Pango.Props.c62_exact_partial",
    "Pango.Props.c62_deterministic",
    "Pango.Props.c62_trim_partial",
    "Pango.Props.c41_exact_partial"
   ],
   "note": "Refuted: the machine of S → a accepts a, the parser does not. Proved for all grammars, with epsilon or without: the parser makes the steps of the machine and stops where it stops, returns its trees and runs forever exactly if it does, but may panic instead of returning an error, panics where the stack is too short for a rule, and accepts nothing if the start variable has no FOLLOW set. c62_exact_partial: the full claim for the grammars of C41. c62_trim_partial: the full claim for trim grammars. c41_exact_partial: for all grammars, which of the errors of the machine are panics of the parser."
  },
  {
   "property": "C63",
   "status": "partial",
   "theorems": [
    "Pango.Props.c63_false",
    "Pango.Props.c63_stops_false",
    "Pango.Props.c63_epsilon_false",
    "Pango.Props.c63_partial",
    "Pango.Props.c63_exact_partial",
    "Pango.Props.c63_trim_partial",
    "Pango.Props.c63_text_partial",
    "Pango.Props.c63_reads_partial"
   ],
   "note": "Refuted: the parser of S → a S | b panics on a b b (c63_false); the parser of S → a B | c, B → b B reads on after a, although no sentence begins with a (c63_stops_false). Proved: for grammars without epsilon in which every variable can be reached and stands for some token sequence, the parser returns an error or panics without asking for more tokens as soon as no sentence begins with what it has read, and only then (c63_exact_partial); an error if moreover the grammar is trim (c63_trim_partial), also on text, even if the lexer hangs on what follows (c63_text_partial). With epsilon it fails even then (c63_epsilon_false): the parser of S → S x A y | S A z | b, A → ε | a reads b x z, with which no sentence begins. For every grammar, with epsilon or not, the parser asks for more if what it has read begins a sentence that has a tree without rules with epsilon (c63_reads_partial)."
  },
  {
   "property": "C64",
   "status": "partial",
   "theorems": [
    "Pango.Props.c64_false",
    "Pango.Props.c64_builder",
    "Pango.Props.c64_exists_partial",
    "Pango.Props.c64_partial",
    "Pango.Props.c64_trim_partial",
    "Pango.Props.c64_orders_partial",
    "Pango.Props.c64_free_partial"
   ],
   "note": "Refuted already by renaming nothing, since parsers differ with the iteration order (C42). Proved: the builder is equivariant without condition; if the start variable is surely followed or nothing can stand behind it, a parser exists for the renamed grammar under every iteration order and does the same, except that an error may be a panic; in full for trim grammars. The token type must not be empty. c64_orders_partial: for all grammars, every parser has one that does the same for the renamed grammar, and the other way round, so names change no more than iteration orders; c64_free_partial: all do the same if the order does not matter."
  },
  {
   "property": "C65",
   "status": "partial",
   "theorems": [
    "Pango.Props.c65_false",
    "Pango.Props.c65_first_partial",
    "Pango.Props.c65_exact_partial"
   ],
   "note": "Refuted with the rules a and abc: the first token of abd is a, that of abc is abc. c65_exact_partial: for every lexer, the claim holds on all texts if and only if the lexer never puts back what it has read behind a match (for one character of lookahead this is so, and for lexers such as those of the rules ; and \".*\"). c65_first_partial: for the first call of every lexer, if no pattern can be read to the end of the first part. Missing: that it holds for all lexers, which is false."
  },
  {
   "property": "C66",
   "status": "partial",
   "theorems": [
    "Pango.Props.c66_false",
    "Pango.Props.c66_kept_partial",
    "Pango.Props.c66_join_partial",
    "Pango.Props.c66_lossless_partial",
    "Pango.Props.c66_lossless_join_partial",
    "Pango.Props.c66_implies"
   ],
   "note": "Refuted with the rules a, abcd, b and c: the tokens of abcxa are a, b, c, a and those of bcxa are b and c. Proved in both directions for all lexers that never put back what they have read behind a match. Missing: other lexers, for which it is false in general. c66_lossless_partial and c66_lossless_join_partial: for all lexers that find no token inside of what they have put back, such as that of the rules a and abc. c66_implies: for every lexer C66 implies C13 and C18 up to the first None."
  },
  {
   "property": "C67",
   "status": "partial",
   "theorems": [
    "Pango.Props.c67_false",
    "Pango.Props.c67_kept_partial",
    "Pango.Props.c67_lossless_partial"
   ],
   "note": "Refuted with the same rules: abcx has the tokens a, b and c, and abcxa a fourth one behind the x, which was dropped. Proved for all lexers that never put back what they have read behind a match. Missing: other lexers, for which it is false in general. c67_lossless_partial: for all lexers that find no token inside of what they have put back."
  },
  {
   "property": "C68",
   "status": "proved",
   "theorems": [
    "Pango.Props.c68_program",
    "Pango.Props.c68_unused"
   ],
   "note": "For every text, not only the one in the program. What println writes for a token (Debug) is not modelled."
  },
  {
   "property": "C69",
   "status": "partial",
   "theorems": [
    "Pango.Props.c69_false",
    "Pango.Props.c69_calls_partial",
    "Pango.Props.c69_each_partial",
    "Pango.Props.c69_exact_partial",
    "Pango.Props.c69_words_partial",
    "Pango.Props.c69_pure",
    "Pango.Props.c69_no_panic",
    "Pango.Props.c69_panics"
   ],
   "note": "Refuted: the function of a+ is called twice for the token aa. For all lexers: which functions are called, exactly; every token has its call, in order; once per token if and only if nothing can be read behind a match. In full: functions without effects, no panics without panicking functions."
  },
  {
   "property": "C70",
   "status": "proved",
   "theorems": [
    "Pango.Props.c70_quoted",
    "Pango.Props.c70_plain",
    "Pango.Props.c70_builds"
   ],
   "note": "In full, the empty text included."
  },
  {
   "property": "C71",
   "status": "partial",
   "theorems": [
    "Pango.Props.c71_false",
    "Pango.Props.c71_exact_partial"
   ],
   "note": "Refuted: the words a and abc. Exactly: lexing always returns, and the tokens are those of maximal munch on all inputs if and only if between a word and a longer one that begins with it there is a word at each length."
  },
  {
   "property": "C72",
   "status": "partial",
   "theorems": [
    "Pango.Props.c72_false",
    "Pango.Props.c72_exact_partial",
    "Pango.Props.c72_prefix_partial",
    "Pango.Props.c72_all_partial",
    "Pango.Props.c72_kinds_partial"
   ],
   "note": "Refuted: the words = and ==. Exact for lists of words that fill up (C71); in full, with the kinds, if no word begins with another one. c72_all_partial: exactly, for all lists of words; c72_kinds_partial: then with the kinds."
  },
  {
   "property": "C73",
   "status": "partial",
   "theorems": [
    "Pango.Props.c73_false",
    "Pango.Props.c73_partial",
    "Pango.Props.c73_every_partial"
   ],
   "note": "Refuted: acc and ac{2} accept the same words, but only with acc there is a token in accc (the other one reads all four characters). Proved if one character of lookahead is enough for the rules before and after, and no new pattern repeats something empty. Missing: other lexers, for which it is false in general. c73_every_partial: for all lexers nothing changes, call by call, if the words that each pattern takes (with the first round counted as the matcher does), and the words that can be read and that the patterns get stuck on, are the same."
  },
  {
   "property": "C74",
   "status": "partial",
   "theorems": [
    "Pango.Props.c74_false",
    "Pango.Props.c74_partial",
    "Pango.Props.c74_every_partial"
   ],
   "note": "Refuted: with the rules a and abc there are no tokens in ab, with the rule a there is one. Proved, including that the smaller lexer can be built, if one character of lookahead is enough for the rules before the removal. Missing: other lexers, for which it is false in general. c74_every_partial: for all lexers, if whatever can be read with the removed pattern can be read with the others."
  },
  {
   "property": "C75",
   "status": "proved",
   "theorems": [
    "Pango.Props.c75_build",
    "Pango.Props.c75_parse",
    "Pango.Props.c75_no_fault",
    "Pango.Props.c75_gone",
    "Pango.Props.c75_gone_build",
    "Pango.Props.c75_read",
    "Pango.Props.layOut_lies",
    "Pango.Props.layOut_places"
   ],
   "note": "A second model of the automaton, the table and the parser with addresses instead of values (Model/Pointers.lean), refined to the one without. c75_gone: without the grammar in memory a parse does read what is not there, and so does the construction (c75_gone_build). c75_read: what a read gives and when it is a fault. That the owner of the grammar keeps it in place (Pin, Box, the order of drops) is the assumption StillHolds, not a theorem; so is that the references in follow sets point into the grammar (PlacesFollow)."
  },
  {
   "property": "C76",
   "status": "partial",
   "theorems": [
    "Pango.Props.c76_false",
    "Pango.Props.c76_partial",
    "Pango.Props.c76_determines_partial"
   ],
   "note": "Refuted: labels are not escaped, so the text for the pattern \" is not in the DOT language. Proved, with the reader of C56: if no Debug output of a character in a label has a quote, a backslash or a newline, the text is read as a graph with exactly the states, shapes and transitions; if also the Debug outputs of characters are a prefix code, the text determines the automaton. Missing: other characters, for which it is false."
  },
  {
   "property": "C77",
   "status": "partial",
   "theorems": [
    "Pango.Props.c77_false",
    "Pango.Props.c77_doubling",
    "Pango.Props.c77_bound_partial",
    "Pango.Props.c77_between_partial"
   ],
   "note": "Refuted: for the grammar X_l -> a X_(l+1) | b X_(l+1) (l < n), X_n -> a | b with 2n+2 rules the automaton has at least 2^n states in every iteration order although there are at most 4n+3 different item sets, because pending states are not looked through. Proved: the number of states is at most (symbols + 1)^(2 * different item sets). In every iteration order there are at least as many states as shortest strings into item sets, and at most as many as strings at most one symbol longer than the shortest (c77_between_partial). Missing: the polynomial bound, which is false."
  },
  {
   "property": "C78",
   "status": "proved",
   "theorems": [
    "Pango.Props.c78_size"
   ],
   "note": "For every lexer that can be built, by induction over the compiler (what each step adds), the syntax of accepted patterns (C06) and the tiling of the pattern by tokens (C01)."
  },
  {
   "property": "C79",
   "status": "proved",
   "theorems": [
    "Pango.Props.c79_calls"
   ],
   "note": "For every lexer whose functions note that they were called (C69): a call consumes at least as many characters as it calls functions."
  },
  {
   "property": "C80",
   "status": "partial",
   "theorems": [
    "Pango.Props.c80_false",
    "Pango.Props.c80_erased",
    "Pango.Props.c80_same",
    "Pango.Props.c80_square_partial",
    "Pango.Props.c80_reached",
    "Pango.Props.c80_back_partial",
    "Pango.Props.c80_kept_partial",
    "Pango.Props.c80_short_partial"
   ],
   "note": "False: with the rules a and a*b, the calls on n-1 times a and c read n(n+1)/2 characters. Proved: no lexer reads more than n(n+1)/2 characters, and one that puts back at most k characters behind a match reads at most (k+2)n; so does one whose patterns can be read for at most k+1 characters. Missing: an exact condition for a linear bound."
  },
  {
   "property": "C81",
   "status": "partial",
   "theorems": [
    "Pango.Props.c81_false",
    "Pango.Props.c81_doubling",
    "Pango.Props.c81_final",
    "Pango.Props.c81_row_partial",
    "Pango.Props.c81_free_partial",
    "Pango.Props.c81_short_partial",
    "Pango.Props.c81_least"
   ],
   "note": "False: whole -> front opt_0 ... opt_(n-1) with opt_i -> eps | real_i, real_i -> t_i looks at 2^(n-2) bodies or more, whatever the hash orders, because a body that is looked at again waits once more for each of its variables. Proved: if no more than k variables in a row can be empty the number is at most the power k+3 of the size; without epsilon it is at most the cube; with bodies of at most k symbols at most the power k+3. Missing: an exact condition. Every place where a variable has something behind it is counted (c81_least)."
  },
  {
   "property": "C82",
   "status": "partial",
   "theorems": [
    "Pango.Props.c82_false",
    "Pango.Props.c82_height",
    "Pango.Props.c82_nodes",
    "Pango.Props.c82_partial",
    "Pango.Props.c82_endless_partial",
    "Pango.Props.c82_exact_partial",
    "Pango.Props.c82_reachable_partial"
   ],
   "note": "False: on `x a t` the tree of A in the parser of S -> x A, A -> A | a, U -> A t grows forever. Proved for all grammars: the height of the stack and the tokens that are left are together at most the number of tokens plus one; the trees hold exactly one node per iteration; if the parser ends on the input the nodes are linear in the number of tokens, if not they exceed every bound. So the memory is linear exactly if the parser ends on every input; for instance without epsilon when all variables can be reached."
  },
  {
   "property": "C83",
   "status": "proved",
   "theorems": [
    "Pango.Props.c83_on_demand",
    "Pango.Props.c83_or",
    "Pango.Props.c83_pure",
    "Pango.Props.c83_error"
   ],
   "note": "c83_on_demand: the outcome and the state after Slr::parse, exactly, for all tables, lexers and functions with effects. c83_or: after any tokens the parser either asks for another or its result is settled. c83_pure: functions without effects give the outcome of the model without effects. c83_error: for trim grammars in which all variables stand for something, the calls end at the first token that continues no sentence (for other grammars errors are found later, see C63)."
  },
  {
   "property": "C84",
   "status": "proved",
   "theorems": [
    "Pango.Props.c84_cached",
    "Pango.Props.c84_peekable",
    "Pango.Props.c84_list",
    "Pango.Props.c84_adapters"
   ],
   "note": "c84_cached and c84_peekable: refinement to a tape with a cursor. c84_list and c84_adapters: over an iterator that returns the items of a list and then None forever, the model of C24 and C25 answers the same."
  },
  {
   "property": "C85",
   "status": "proved",
   "theorems": [
    "Pango.Props.c85_calls",
    "Pango.Props.c85_match",
    "Pango.Props.c85_every_false"
   ],
   "note": "Over the syntax trees that the pattern parser returns. c85_every_false: the laws cannot be replaced by all identities of regular languages, (aa*){2} and (a+){2} answer differently."
  },
  {
   "property": "C86",
   "status": "proved",
   "theorems": [
    "Pango.Props.c86_build",
    "Pango.Props.c86_table",
    "Pango.Props.c86_accepts",
    "Pango.Props.c86_reads",
    "Pango.Props.c86_unambiguous",
    "Pango.Props.c86_early",
    "Pango.Props.c86_text",
    "Pango.Props.c86_scans"
   ],
   "note": "Grammars without epsilon, which is part of the property. c86_text is for patterns that need one character of lookahead, as the lexer does not do maximal munch for others (C23). c86_scans: all lexers."
  },
  {
   "property": "C87",
   "status": "partial",
   "theorems": [
    "Pango.Props.c87_false",
    "Pango.Props.c87_same",
    "Pango.Props.c87_parse_partial",
    "Pango.Props.c87_bars_partial",
    "Pango.Props.c87_text_partial",
    "Pango.Props.c87_deep_partial",
    "Pango.Props.c87_compile_partial",
    "Pango.Props.c87_tree_partial",
    "Pango.Props.c87_list_partial",
    "Pango.Props.c87_free",
    "Pango.Props.c87_free_tree",
    "Pango.Props.c87_opened_partial",
    "Pango.Props.c87_reached",
    "Pango.Props.c87_none_partial"
   ],
   "note": "Refuted: every alternative of a|a|...|a is nested in the one before, so the depth is the number of alternatives. Proved: the exact depth of the parser for accepted patterns, a bound for all patterns by the number of ( and |, the exact depth of the compiler and its relation to that of the parser, the linear bound for parse trees and that a left recursive list reaches it up to a factor. The size of a stack frame and of the stack is not modelled. The depths of freeing are the lengths of the longest ways down in the trees (c87_free, c87_free_tree). Below: c87_opened_partial, also for patterns that are not accepted. c87_reached: the exact depth of the compiler also where it crashes."
  },
  {
   "property": "C88",
   "status": "partial",
   "theorems": [
    "Pango.Props.c88_false",
    "Pango.Props.c88_calls_partial",
    "Pango.Props.c88_no_panic",
    "Pango.Props.c88_same",
    "Pango.Props.c88_positions",
    "Pango.Props.c88_bound",
    "Pango.Props.c88_sources_partial",
    "Pango.Props.c88_next_partial"
   ],
   "note": "Refuted: the text at which the panic happened stays in front of the source of the next token (rules a+, = and ==, where = panics, on =aa). Proved for all lexers: exactly what the calls do, panics included; no other panics; tokens stay contiguous; there are not more panics and tokens than characters; what the token behind a panic is. For lexers that put nothing back: no text is lost. Functions that do not return are left to C69."
  },
  {
   "property": "C89",
   "status": "proved",
   "theorems": [
    "Pango.Props.c89_builds",
    "Pango.Props.c89_answers",
    "Pango.Props.c89_default"
   ],
   "note": "For all lists of trees and all strings. The single patterns are described by C10 and C11."
  },
  {
   "property": "C90",
   "status": "proved",
   "theorems": [
    "Pango.Props.c90_covers",
    "Pango.Props.c90_lookahead",
    "Pango.Props.c90_builds",
    "Pango.Props.c90_reads",
    "Pango.Props.c90_text"
   ],
   "note": "The condition on the patterns is the exact one: c90_covers and c90_lookahead are equivalences. c90_text reads regular patterns as languages."
  },
  {
   "property": "C91",
   "status": "partial",
   "theorems": [
    "Pango.Props.c91_false",
    "Pango.Props.c91_exact_partial",
    "Pango.Props.c91_same_partial",
    "Pango.Props.c91_one_partial",
    "Pango.Props.c91_orders_partial",
    "Pango.Props.c91_trim_partial"
   ],
   "note": "Refuted (c91_false): with two values of one kind behind a variable its rule is entered twice for one kind of token, and the construction panics. c91_exact_partial says exactly when there is a parser; c91_same_partial and c91_trim_partial say that parsers, where there are any, do the same. Missing: grammars whose start variable has a FOLLOW set or not depending on the iteration order (c91_one_partial relates these to the grammar with one value for each kind)."
  },
  {
   "property": "C92",
   "status": "partial",
   "theorems": [
    "Pango.Props.c92_false",
    "Pango.Props.c92_trees_partial",
    "Pango.Props.c92_partial",
    "Pango.Props.c92_sequence_partial",
    "Pango.Props.c92_which_partial",
    "Pango.Props.c92_ignored_partial",
    "Pango.Props.c92_bar_partial",
    "Pango.Props.c92_cut_partial",
    "Pango.Props.c92_group_partial"
   ],
   "note": "Refuted (c92_false): `a)` is accepted and `a)|b` is read as `a`. For texts all of whose tokens are read, c92_trees_partial and c92_partial give the trees and their meaning, and c92_sequence_partial does so for `ab`; for `a|b` only `a` has to be such a text (c92_bar_partial). c92_which_partial says which accepted texts are left: the empty one, and those with an unmatched right parenthesis, for which all that is put behind is ignored (c92_ignored_partial). A text that is read to the end has the same tree with a right parenthesis and anything behind it (c92_cut_partial). For these, `(a)(b)` depends on the text that is ignored in `a`: x)y gives (x)y, and x)* gives (x)*; if `(a` is accepted then `(a)(b)` has its tree (c92_group_partial). Missing: `(a)(b)` where `a` is accepted and `(a` is not, like x)(y."
  },
  {
   "property": "C93",
   "status": "partial",
   "theorems": [
    "Pango.Props.c93_false",
    "Pango.Props.c93_partial",
    "Pango.Props.c93_rules",
    "Pango.Props.c93_ignored_partial",
    "Pango.Props.c93_empty_partial"
   ],
   "note": "Refuted (c93_false): with `a)` and `b` the rule `a)|b` makes no token of `b`. Proved if `a` is read to the end and `b` is not empty (c93_partial), by a condition for any two lists of rules to make lexers that return the same (c93_rules). The other cases: if `a` has an unmatched right parenthesis the rule for `a|b` is the rule for `a` (c93_ignored_partial); if one of them is empty no lexer is built for `a|b`, although one is for the two rules (c93_empty_partial)."
  },
  {
   "property": "C94",
   "status": "partial",
   "theorems": [
    "Pango.Props.c94_false",
    "Pango.Props.c94_exists",
    "Pango.Props.c94_partial",
    "Pango.Props.c94_followed_partial",
    "Pango.Props.c94_steps",
    "Pango.Props.c94_rejected_partial",
    "Pango.Props.c94_exact_partial"
   ],
   "note": "The second half is proved (c94_exists), for some iteration order and for all. The first is refuted (c94_false), but only by parsers that accept nothing at all because of the iteration order (C42): a parser of the grammar with more rules that accepts anything returns all trees of the other (c94_partial), and so does every parser if the start variable is surely followed (c94_followed_partial). c94_steps: nor does it stop sooner; c94_rejected_partial: with fewer rules nothing more is accepted. c94_exact_partial: of the trees of the smaller grammar that use no rule with epsilon both parsers return the same, after as many steps, if the start variable of the smaller one is surely followed."
  },
  {
   "property": "C95",
   "status": "proved",
   "theorems": [
    "Pango.Props.c95_built",
    "Pango.Props.c95_calls"
   ],
   "note": "In full. Functions that panic or have effects are those of C69 and C79."
  },
  {
   "property": "C96",
   "status": "proved",
   "theorems": [
    "Pango.Props.c96_settles",
    "Pango.Props.c96_rejected",
    "Pango.Props.c96_error"
   ],
   "note": "In full for every grammar; c96_error: if the grammar is trim the result is an error (for others it can be a panic, C41, or there can be none, C40)."
  },
  {
   "property": "C97",
   "status": "proved",
   "theorems": [
    "Pango.Props.c97_equal",
    "Pango.Props.c97_kinds",
    "Pango.Props.c97_tokens",
    "Pango.Props.c97_functions",
    "Pango.Props.c97_rewritten"
   ],
   "note": "In full. c97_tokens: texts of which all tokens are known; c97_functions, c97_rewritten: with C95 and C85, other functions and rewritten patterns."
  },
  {
   "property": "C98",
   "status": "partial",
   "theorems": [
    "Pango.Props.c98_false",
    "Pango.Props.c98_calls_partial",
    "Pango.Props.c98_exact_partial",
    "Pango.Props.c98_checked_partial",
    "Pango.Props.c98_ends",
    "Pango.Props.c98_match_partial",
    "Pango.Props.c98_endless",
    "Pango.Props.c98_parse_partial",
    "Pango.Props.c98_parse_checked_partial",
    "Pango.Props.c98_parse_ends_partial",
    "Pango.Props.c98_parse_exact_partial"
   ],
   "note": "Refuted: with `(a*)*` a counter goes on until it overflows (c98_false, words of 64 bits). Proved: every call that returns if the numbers have no end returns the same with machine words (c98_calls_partial); with overflow checks those that would not return are exactly those that panic (c98_exact_partial), and what is returned is right for texts of any length (c98_checked_partial); with machine words every call ends (c98_ends); the same for matching a pattern (c98_match_partial, c98_endless). Parsing a text that ends if the numbers have no end, ends in the same way with machine words (c98_parse_partial); with overflow checks what the parser returns is right (c98_parse_checked_partial); for trim grammars it always ends (c98_parse_ends_partial), and with the checks it panics exactly where it would wait for the lexer forever (c98_parse_exact_partial). Missing: what is returned in release builds after a counter has wrapped around."
  },
  {
   "property": "C99",
   "status": "partial",
   "theorems": [
    "Pango.Props.c99_false",
    "Pango.Props.c99_pretty_partial",
    "Pango.Props.c99_compact_partial",
    "Pango.Props.c99_balanced_partial",
    "Pango.Props.c99_example",
    "Pango.Props.c99_program"
   ],
   "note": "Refuted for {:?}: a terminal that prints its name without quotes can look like two nodes (c99_false). Proved: in full for {:#?} (c99_pretty_partial); for {:?} if the outputs can be told apart in front of a right parenthesis (c99_compact_partial), for instance because parentheses in them are balanced outside of quotation marks (c99_balanced_partial); for the types of examples/expr.rs (c99_example), and which texts that program prints alike (c99_program). Missing: false otherwise."
  },
  {
   "property": "C123",
   "status": "proved",
   "theorems": [
    "Pango.Props.c123_two_trees",
    "Pango.Props.c123_ambiguous",
    "Pango.Props.c123_direct",
    "Pango.Props.c123_builds",
    "Pango.Props.c123_reads",
    "Pango.Props.c123_one",
    "Pango.Props.c123_tree",
    "Pango.Props.c123_every"
   ],
   "note": "For grammars with an end marker as in C86; c123_two_trees and c123_ambiguous are about grammars without epsilon in which every variable stands for some tokens."
  },
  {
   "property": "C124",
   "status": "proved",
   "theorems": [
    "Pango.Props.c124_confused",
    "Pango.Props.c124_palindromes"
   ],
   "note": "for grammars without explicit epsilons; the example is the grammar of palindromes, whose sentences are computed by induction"
  },
  {
   "property": "C125",
   "status": "proved",
   "theorems": [
    "Pango.Props.c125_both",
    "Pango.Props.c125_infix"
   ],
   "note": "for grammars without explicit epsilons, with the end marker of C86"
  },
  {
   "property": "C126",
   "status": "partial",
   "theorems": [
    "Pango.Props.c126_exponential",
    "Pango.Props.c126_false",
    "Pango.Props.c126_predictive_partial",
    "Pango.Props.c126_bound_partial"
   ],
   "note": "false: `c126_false`; the grammar of texts that use a name they declared has about 6n² short rules and a parser, and 2^n item sets and rows (`c126_exponential`); LL(1) grammars (C108) have at most one set more than rules and symbols (`c126_predictive_partial`); no grammar has more than two to that number (`c126_bound_partial`)"
  },
  {
   "property": "C127",
   "status": "proved",
   "theorems": [
    "Pango.Props.c127_automata",
    "Pango.Props.c127_not",
    "Pango.Props.c127_both",
    "Pango.Props.c127_backwards",
    "Pango.Props.c127_without"
   ],
   "note": "with the finite automata of Mathlib"
  },
  {
   "property": "C128",
   "status": "proved",
   "theorems": [
    "Pango.Props.c128_confused",
    "Pango.Props.c128_nested",
    "Pango.Props.c128_lexer",
    "Pango.Props.c128_depth"
   ],
   "note": "brackets of one character"
  },
  {
   "property": "C129",
   "status": "proved",
   "theorems": [
    "Pango.Props.c129_grammar",
    "Pango.Props.c129_parser",
    "Pango.Props.c129_trees",
    "Pango.Props.c129_accepts",
    "Pango.Props.c129_reads",
    "Pango.Props.c129_first"
   ],
   "note": ""
  },
  {
   "property": "C130",
   "status": "proved",
   "theorems": [
    "Pango.Props.c130_no_parser",
    "Pango.Props.c130_each",
    "Pango.Props.c130_choice"
   ],
   "note": ""
  },
  {
   "property": "C131",
   "status": "proved",
   "theorems": [
    "Pango.Props.c131_no_grammar",
    "Pango.Props.c131_both",
    "Pango.Props.c131_first",
    "Pango.Props.c131_last"
   ],
   "note": ""
  },
  {
   "property": "C132",
   "status": "proved",
   "theorems": [
    "Pango.Props.c132_no_grammar",
    "Pango.Props.c132_mirror",
    "Pango.Props.c132_names"
   ],
   "note": ""
  },
  {
   "property": "C133",
   "status": "proved",
   "theorems": [
    "Pango.Props.c133_places",
    "Pango.Props.c133_anyCase",
    "Pango.Props.c133_builds"
   ],
   "note": ""
  },
  {
   "property": "C134",
   "status": "proved",
   "theorems": [
    "Pango.Props.c134_behind",
    "Pango.Props.c134_front",
    "Pango.Props.c134_grammar"
   ],
   "note": ""
  },
  {
   "property": "C135",
   "status": "proved",
   "theorems": [
    "Pango.Props.c135_merged",
    "Pango.Props.c135_behind",
    "Pango.Props.c135_list"
   ],
   "note": ""
  },
  {
   "property": "C136",
   "status": "proved",
   "theorems": [
    "Pango.Props.c136_clean",
    "Pango.Props.c136_parser",
    "Pango.Props.c136_back_false"
   ],
   "note": "both claims about cleaning are proved; the converse (C136Back) is refuted by S → x | x B, B → B b"
  },
  {
   "property": "C137",
   "status": "proved",
   "theorems": [
    "Pango.Props.c137_low",
    "Pango.Props.c137_high",
    "Pango.Props.c137_exact"
   ],
   "note": ""
  },
  {
   "property": "C138",
   "status": "proved",
   "theorems": [
    "Pango.Props.c138_regular",
    "Pango.Props.c138_exact",
    "Pango.Props.c138_nested"
   ],
   "note": ""
  },
  {
   "property": "C139",
   "status": "proved",
   "theorems": [
    "Pango.Props.c139_short",
    "Pango.Props.c139_long",
    "Pango.Props.c139_exact"
   ],
   "note": ""
  },
  {
   "property": "C140",
   "status": "proved",
   "theorems": [
    "Pango.Props.c140_both",
    "Pango.Props.c140_cycle"
   ],
   "note": ""
  }
 ]
}
