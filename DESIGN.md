# Formal model of exellentcoin26/pango in Lean 4

## Layout

* `lean/Verif/Model/*` – the model: total, computable functions, one per Rust function, each with a
  comment citing file and lines in `/repo`.
* `lean/Verif/Spec/*` – small specifications that do not mention the model's algorithms
  (regular-language semantics, maximal munch, context-free derivations, parse trees, ...).
* `lean/Verif/Proofs/*` – lemmas.
* `lean/Verif/Props/*` – the property theorems (`cnn_...`) with, next to each, a non-trivial instance
  meeting its hypotheses.
* `lean/Verif/Tests.lean` – every `#[test]` of the repository, replayed on the model.  These are tests of
  the model (does it do what the code is known to do?), not proofs of anything.
* `properties.jsonl` – the claims in English; `MANIFEST.json` – which theorems belong to which claim;
  `seeded/LOG.jsonl` – trials of the theorems against wrong programs.

A claim that the code does not meet is kept as it is: it is a `def ... : Prop` with the full statement, a
theorem `cnn_false` refutes it with a concrete input, and theorems `cnn_..._partial` say what does hold, with
the missing part in their comment.

## Modelling conventions

* `&mut self` methods become functions returning the new value.  `Vec`, `VecDeque`, `HashSet`,
  `BTreeSet`, `HashMap` and `String` become `List`s (sets are duplicate-free lists, maps association
  lists).  Where the iteration order of a hash container can be observed, the order is a parameter
  (an oracle returning a permutation, free to depend on the whole state), and theorems hold for
  every oracle.  A map of sets is iterated key by key (`HashOrder.grouped`).
* `char` is Lean's `Char` (Unicode scalar values).  `char::is_alphabetic`/`is_whitespace` are
  uninterpreted parameters (class `Unicode`); theorems hold for every choice.
* `usize` is `Nat` (no address-space overflow, except in C98); `u32` arithmetic that can overflow in practice
  (decimal and hexadecimal numerals) is modelled with its real width, and the build profile
  (debug: overflow panics, release: overflow wraps) is a parameter `Profile`.
* A panic (`expect`, `assert!`, `unreachable!`, arithmetic overflow in debug) is the value
  `Outcome.panic`.  Loops whose termination is not structural take fuel; running out is
  `Outcome.diverge`.  Termination of such a loop is therefore a theorem ("there is a bound from which
  on the result is not `diverge`"), non-termination is the theorem "`diverge` for every fuel".
* `Pin`/`NonNull` self-references are modelled by values (memory safety is not modelled).

## Trusted base

* Lean's kernel (4.33.0), and that the statements in `Spec` and `Props` say what the English claims say.
* Axioms: only `propext`, `Classical.choice` and `Quot.sound`.  No axioms are added, nothing is proved by
  `sorry`, `native_decide` or `bv_decide`; `decide +kernel` (evaluation by the kernel itself) is used for
  concrete witnesses.  Of the theorems in the manifest, these use less than all three axioms:
  `propext` only: `c07_false`, `c08_complements`, `c12_dead_stays_dead`, `c34_false`, `c34_order_decides_partial`,
  `c34_order_false`, `c55_false`, `c75_gone`, `c75_gone_build`, `c105_unique`, `c108_simple`, `c123_tree`, `c129_trees`; `propext` and
  `Quot.sound`: `c98_checked_partial`, `c98_parse_checked_partial`, `c08_literal_sets`, `c09_build_checks`, `c10_false`, `c12_can_feed_iff_survivor`, `c12_feed_str`,
  `c12_feed_answer`, `c24_cached_peekable`, `c25_any_map_while`, `c25_any_take_while`, `c27_add_rule_reports_new`, `c43_kinds`, `c47_render`,
  `c52_place_partial`, `c59_separate_partial`, `c64_builder`, `c75_read`, `c80_erased`, `c80_same`, `c80_square_partial`, `c81_final`, `c81_least`, `c82_endless_partial`,
  `c82_nodes`, `c83_on_demand`, `c83_or`, `c83_pure`, `c84_cached`, `c84_peekable`, `c84_list`, `c87_free_tree`, `c87_none_partial`, `c88_same`, `c95_built`, `c106_groups`, `c107_sentences`, `c109_trees`, `c111_calls`, `c111_count`, `c111_release`,
  `c111_same`, `c111_square`, `c119_trees`, `c120_tree`, `c121_erased`, `c122_erased`, `c131_first`, `c131_last`, `layOut_lies`,
  `layOut_places`; none: `c84_adapters`.
  All others use all three.
* Of Mathlib these are imported: `Mathlib.Computability.RegularExpressions`, for C102 (regular expressions and their
  languages), `Mathlib.Computability.ContextFreeGrammar`, for C103 (context-free grammars and their languages),
  `Mathlib.Computability.DFA` and `Mathlib.Data.Set.Finite.Basic` and `Range`, for C104 (automata and finite sets),
  `Mathlib.Computability.MyhillNerode` and `NFA`, `Mathlib.Combinatorics.Pigeonhole`, finite sets and sums over them,
  for the languages that have no pattern or no parser (such as C130) and for C138.
* That the model does what the code does.  It was written from the source text, function by function; the
  code was never run.  The comment at each definition has the file and lines.

### Modelled

| code | model |
|----|----|
| `pango-lexer/src/iter/*` | `Model/Iter.lean`, `Model/PeekIter.lean` (over any iterator, with `std::iter::Peekable`) |
| `pango-lexer/src/regex/ast.rs` | `Model/Ast.lean` |
| `pango-lexer/src/regex/tokenizer.rs` | `Model/Tokenizer.lean` |
| `pango-lexer/src/regex/parser.rs`, with the texts of errors | `Model/RegexParser.lean`, `Model/Depth.lean` (how deep it recurses) |
| `pango-lexer/src/fsm/nfa/{model,compiler,sim}.rs`, `fsm/traits.rs` | `Model/Nfa.lean`, `Model/Several.lean` (automata of several patterns), `Model/SimOrder.lean` (hash orders), `Model/Depth.lean` (how deep `Compiler::expr` recurses) |
| `pango-lexer/src/fsm/nfa/dot.rs` | `Model/NfaDot.lean` |
| `pango-lexer/src/lexer/*` | `Model/Lexer.lean`, `Model/Effects.lean` (functions of the user with effects), `Model/Caught.lean` (use after a panic), `Model/Reads.lean` (what is read), `Model/Work.lean` (what is read and how many runs are made), `Model/Debug.lean` (what is written) |
| `pango-parser/src/grammar.rs` | `Model/Grammar.lean`, `Model/FirstWork.lean` (how many bodies are looked at) |
| `pango-parser/src/cfsm/{item,state,mod}.rs` | `Model/Cfsm.lean` |
| `pango-parser/src/cfsm/dot.rs` | `Model/Dot.lean` |
| `pango-parser/src/parser/*`, `cst.rs` | `Model/Slr.lean`, `Model/StackSize.lean` (the stacks of a run), `Model/ParseEffects.lean` (reading from a lexer whose functions have effects), `Model/Depth.lean` (how deep freeing a tree recurses), `Model/Printed.lean`, `Model/PrintedParser.lean` (`Debug`) |
| `Slr::parse` on a `Lexer` | `Model/LexParse.lean`, `Model/ParseWork.lean` (how much work it is) |
| `pango-parser/examples/expr.rs` | `Model/Example.lean`, `Model/PrintedExample.lean` |
| `NonNull` in `pango-parser/src/cfsm/{item,state,mod}.rs`, `parser/{table,slr}.rs` | `Model/Pointers.lean` |
| `usize` in `pango-lexer/src/fsm/nfa/sim.rs`, `lexer/input.rs` | `Model/MachineWord.lean` |
| `pango-lexer/examples/ab.rs` | `Model/ExampleAb.lean` |

### Not modelled

* Memory, except for the targets of `NonNull` (C75, with the assumption that the grammar stays in place): `Pin`, `Cow`,
  borrowing, the aliasing rules of `unsafe`; `Debug` through pointers; time and memory use, except for the number
  of runs of the simulator (C58), of states (C77, C78), of functions called (C79), of characters read (C80), of characters and runs together (C121), with the steps of the parser (C122), of nodes on the stack of the parser (C82, C137) and of calls that are
  active at the same time (C87).
* `Debug` outputs of the user's types and of characters (parameters where they matter, in C56, C76 and
  C99–C101); the builders of the standard library that `Debug` calls are modelled as functions on texts (C99–C101).
* `From`/`AsRef`/`Hash` boilerplate; `Eq` and `Hash` of symbols are taken to
  be lawful and to agree, `TerminalEq` is any equivalence (`LawfulTerminalEq`, the contract of `HashMap`).
* Generators of tokens (`with_token`, `with_token_map`) are functions, except in C69, where they may change a world,
  panic or not return, and in C88, where they may change a world or panic, and the panic is caught.
* `usize` overflow outside of C98, which has counters and positions as machine words: elsewhere these, and the numbers
  of states everywhere, are natural numbers.
* How `dbg!` makes a text of what `feed` writes to the standard error in debug builds (sim.rs:172-176; the values are in
  C111).
* That a hash container which is iterated twice without being changed has the same order both times: the orders of the
  model are independent.  A theorem about all orders holds all the more; where a theorem says that an order exists, the
  order changes only the iteration over the dependencies of FOLLOW sets (C35, C39, C42, C64) or over the symbols of each
  item set (C34), each of which is made once, on a map of its own.
* The tables of Unicode: `char::is_alphabetic` and the like are parameters.

## Properties

| id | what is modelled and how it is proved |
|----|----|
| C01 | `Tokenizer`; invariant on the cursor; refuted at truncated ends (`a\\`), `_partial` for the rest |
| C02 | hexadecimal reader; refuted (`\\x41b`), `_partial`: not followed by another hexadecimal digit, and what runs of any length are read as |
| C03 | decimal reader with `u32` overflow and profile; refuted at 4294967296..9, `_partial` elsewhere, and what happens there: panic exactly there, or the prefix is read as one digit |
| C04 | printer from the repo's property test + tokenizer + parser; induction on trees |
| C05 | parser with fuel; fuel bound by number of tokens; errors are single; refuted (overflow), `_partial`: exactly when it crashes |
| C06 | relations for the documented syntax; refuted (`a)b`, `()`), `_partial`: exactly what is accepted |
| C07 | compiler; refuted (`()`), `_partial`: crashes exactly if the tree has an empty sequence |
| C08 | `contains` functions against set-theoretic spec |
| C09 | builder invariants by induction over compilation |
| C10 | denotational semantics; simulation of runs by an abstract stack machine; refuted in general (`(a?b)+` on `b`); `_partial`: the regular language on a decidable class of patterns, and for all patterns exactly the language `Taken` (first round of a group at the start not counted), from which follow the classes without wrong matches and without missed ones |
| C11 | measure on the stack machine; refuted (`(a*)*` on `a` diverges for every fuel), `_partial` on the class without nullable repetition bodies, and for all patterns exactly the strings on which it ends (`SpinsFirst`): a closure ends iff it does not get to the head of a loop whose body reads the empty word |
| C12 | direct proofs on the simulator |
| C13, C14 | loop invariant of `Lexer::next` over any simulator, composed with C10 |
| C15 | refuted (rules `a`, `abc`, input `ab`), `_partial`: what `None` means for every lexer; true exactly if one character of lookahead is enough |
| C16, C17, C20, C21 | invariants over all call histories |
| C18 | refuted (lost character), `_partial`: subsequence always, substring with one character of lookahead and, more generally, if nothing that was read behind a match is put back, and more generally still if no token is found inside of what was put back (`LosesNothing`, `Proofs/Steady.lean`) |
| C19 | refuted (`xa`), `_partial`: bound on the number of tokens; after the end of the input only `None`; exactly which lexers have the property (`CanGiveUp`, `CanFind`) from the specification of calls (C23) |
| C22 | invariance under permutation |
| C23 | refuted; exact description of all calls of every lexer (`Spec/Scanning.lean`), by a refinement between the iterator and a specification of a scanner; from it: maximal munch exactly if one character of lookahead is enough |
| C24, C25 | refinement to lists; C25 also to a tape with a cursor (as C84), for the adapters over any iterator |
| C26, C27 | builder invariants |
| C28, C29 | work-list invariants + least fixpoint + derivations |
| C30–C33 | work-list invariants, exploration measure |
| C34 | refuted (`S → a S | b`); `_partial`: equal states are interchangeable; states are made in the order of their distance from the start, so there are none if every item set has one way in (not counting ways from sets further away), and always some if a set has two ways in from nearer sets or one from itself; for sets at the same distance the iteration order decides, shown by a grammar whose number of states depends on it; exact conditions for no equal states in every order and in some order, by an order that follows one string first and one that sorts symbols by a relation without cycles (`Proofs/Sooner.lean`) |
| C35 | refuted (`S → a b | a c`); `_partial`: exact condition implemented, for each, for every and for some iteration order |
| C36, C45 | stack invariant; refuted (`S → ( S ) | x` accepts `( x`), `_partial`: exactly for which grammars without epsilon both hold |
| C37, C46 | simulation of a parse tree; refuted, `_partial`: exactly which trees are returned, and for which grammars these are the parse trees |
| C38 | refuted; trees with empty variables are never returned; exactly which parse trees are, for all grammars: the run of a parse tree up to the first node made by a rule with epsilon, the node that the parser makes instead, and where it would stand in the tree (`Proofs/Plain.lean`) |
| C39 | refuted: universal theorem that such a grammar, or any in which nothing can stand behind the start variable, accepts nothing; exactly which grammars without epsilon have a parser that accepts something (`c39_exact_partial`) |
| C40 | refuted (unit cycle + unreachable rule); `_partial` without unit cycles, or without epsilon if all variables can be reached (a unit cycle is a conflict then); without epsilon, exactly the inputs on which parsing does not end; with epsilon, it ends after a linear number of iterations or never |
| C41 | refuted (`S → a S | b` on `a b`); `_partial`, in particular for trim grammars (no epsilon, every variable reachable and with a FIRST set, something follows the start variable); exactly where the parser panics, for all grammars, from the items behind the stack and the numbers of the states (`Breaks` in `Spec/Breaks.lean`, `Props/Panics.lean`) |
| C42 | two tables of a grammar carry out the same machine (C62); refuted at empty FOLLOW entries and, for errors that are panics, at state numbers; exactly which grammars are affected (`Props/Orders.lean`), by choosing the order in which the dependencies between FOLLOW sets are looked at (`Proofs/FollowOrder.lean`) |
| C43 | simulation |
| C44 | refuted; `_partial`: result depends only on the tokens before the first `None` |
| C47 | list lemma |
| C48, C49 | composition of lexer and parser theorems; `_partial` for all lexers and grammars: `TextStops`, `TextLoops`, `TextWaits` (`Props/TextMachine.lean`) run the machine of C62 on the answers of the specification of the lexer |
| C50, C51 | table of escapes; `\\u{…}` refuted for more than eight digits |
| C52 | the parser against the documented syntax: viable prefixes; refuted (`a(b`), `_partial`: exact position for each kind of error |
| C53 | the example program: its tables are evaluated by the kernel, texts of all lengths by C48 |
| C54 | relations between texts and tokens; refuted (`\\u4`), `_partial` in both directions |
| C55 | the lexer builder as a fold over rules; refuted (`()`), `_partial` |
| C56 | a reader for the DOT language; refuted (quotes are not escaped), `_partial` |
| C57 | words of the messages against the documented syntax; refuted (`*`), `_partial` |
| C58 | number of runs after a string; refuted (`(a\|[a])*`), upper bounds `_partial` (all runs, different runs); polynomial and constant bounds for the patterns of `Spec/OneWay.lean`: every edge leads down or stays inside of an outermost loop, where the next character decides which edge to take (`Proofs/Ways.lean`), so that a run has one successor of its level and a constant number of lower ones (`Proofs/Count.lean`). Lower bounds for groups whose rounds match some text in two ways (`Ambiguous` in `Spec/Repeats.lean`: two parts of a choice, two places to split a sequence, two divisions into rounds, or one of these inside): by induction on the ambiguity, two paths differ in their place, edge or counters when they read some character, and both come back to the group (`Proofs/ManyRuns.lean`, `Proofs/ManyRunsFrag.lean`). The upper bound for all others: every run has a list of steps of its own (`Proofs/TracesRuns.lean`); such a list goes, for every loop, into the middle of a round, then through whole rounds, then into the middle of a round (`Proofs/Traces.lean`); without ambiguity there is one way to go through whole rounds, and so polynomially many lists of steps for a text (`Proofs/TracesFew.lean`). Every group of a pattern without dead parts can be reached (`Proofs/Alive.lean`), so that this is exact |
| C59 | two grammars with the same reachable rules; refuted (`S → x` with and without `U → S t`), `_partial`: a table of one is a table of the other if FOLLOW agrees, except that one may panic where the other returns an error; that exception is necessary (`c59_errors_false`); the order of the rules, without any condition, up to the choice of the iteration order (`c59_order_partial`) |
| C60, C61 | two lexers with the same trees: their automata are fed the same words, and the loops run in lock step |
| C62 | refinement between the loop over the tables and an abstract shift-reduce machine over viable prefixes (`Spec/ShiftReduce.lean`); refuted, `_partial` for all grammars, with the panics in `c41_exact_partial` |
| C63 | the machine of C62 on an input that goes on: what it has read begins a sentence, since viable prefixes can be completed (`Proofs/Sentence.lean`), and it reads every beginning of a sentence; refuted, also with epsilons only, `_partial` for grammars without epsilon and without useless variables, and the second half for trees without rules with epsilon in all grammars |
| C64 | the machine of C62 is kept by renaming (`Proofs/Rename.lean`); the builder by induction over calls; refuted for the reason C42 is, `_partial` under the condition of C42 and in full for trim grammars; for all grammars up to the choice of the iteration order (`c64_orders_partial`) |
| C65 | a lexer that never puts back what it has read behind a match (`PutsNothingBack`; one character of lookahead implies it) needs no memory but the rest of the text (`Proofs/Cut.lean`, derived from the exact calls of C23), and what is decided by the first part follows by induction over the tokens; refuted (`a`, `abc`), `_partial`: holds on all texts exactly for these lexers, and for the first call of every lexer |
| C66 | the same form of the lexer, split behind a token and moved to the front; refuted (`abcxa`), `_partial` in both directions for these lexers and for all that find no token inside of what they have put back (`LosesNothing`); it implies C13 and C18 for every lexer |
| C67 | what is read consists of characters of the patterns (`Proofs/Uses.lean`), so nothing is read beyond such a character; refuted (`abcx`, `abcxa`), `_partial` for these lexers, and for those that lose nothing |
| C68 | the program `examples/ab.rs` with its text as an argument; the form of the lexer of C65, with the words the patterns read and match worked out; for all texts |
| C69 | the loop of the lexer with functions that act on a world (`Model/Effects.lean`); it runs in lock step with the loop without effects, and the functions called are listed by `Applies` (`Spec/Effects.lean`); refuted (`a+`), exact for all lexers |
| C70 | `quoted` (`Spec/Words.lean`) against the scanner, the parser and the matcher: the tokens of a quoted text are its characters, by induction; the converse by counting tokens and characters; proved in full |
| C71 | lexers whose rules are quoted words; what they take is computed from the words (`Proofs/Words.lean`), then C23; refuted (`a`, `abc`), exact for all lists of words (`FillsUp`) |
| C72 | texts made of words against maximal munch, which has only one result; refuted (`=`, `==`), exact for all lists of words (`TakenApart`), by following the calls |
| C73 | the form of the lexer of C65 for both lists of rules (`Cut.replace`); refuted (`acc`, `ac{2}`), `_partial` for one character of lookahead, and for all lexers if the words taken, read and stuck on are the same |
| C74 | the same, with one rule less; refuted (`a`, `abc`), `_partial` for one character of lookahead before the removal, and for all lexers if what the removed pattern reads the others read too |
| C75 | the automaton, the table and the parser once more, with addresses in place of bodies, symbols and keys (`Model/Pointers.lean`); a simulation (`Sim`) by the model without pointers, for every memory that holds the grammar |
| C76 | `Nfa::to_dot` with the derived `Debug` outputs and any hash order, read by the reader of C56 (with comments and defaults of attributes); every state of a built lexer is final, the start, or has a transition (`Full`, `Fr.Shape.inner_out`), so every state is drawn; refuted (pattern `"`), `_partial` for quiet characters |
| C77 | how the main loop of `from_grammar` makes states (`Grown`, Proofs/Grow.lean): a transition to a larger id is the one the state was made for, in the order of the states it leaves; levels of the counterexample double; upper bound by counting strings along which a set returns at most at once; the number lies between the numbers of shortest and of nearly shortest strings into the item sets (`Shortest`, `NearlyShortest`, Spec/Levels.lean; Proofs/Between.lean) |
| C78 | states and transitions counted on the model of the compiler (`Within`); size of an accepted tree against its tokens (C06), tokens against characters (C01); proved |
| C79 | the log of C69's noting functions; by induction over the calls, what is left to read shrinks by at least the number of functions called; proved |
| C80 | `Model/Reads.lean` counts what `self.iter.next()` returns, `c80_same` and `c80_erased` tie it to the lexer; refuted by a family of inputs; the quadratic bound for all lexers by induction over the calls, linear bounds from how much is put back; partial |
| C81 | `Model/FirstWork.lean` counts the bodies that `first_bodies` looks at while FOLLOW is computed; refuted by a simulation of the computation for `n` optional variables in a row, for all hash orders; upper bounds by a potential (a product over the variables of each waiting body); lower bound by the places where a variable has something behind it; partial |
| C82 | `Model/StackSize.lean` lists the stacks at each iteration; refuted (unit cycle + unreachable rule); the height is bounded for all grammars because every reduction takes something off the stack; one node per iteration; linear exactly for parsers that end on every input (reductions by one symbol either stop after as many steps as there are rules or repeat forever); partial |
| C83 | `Model/ParseEffects.lean` runs `Slr::parse` on a lexer whose functions change a state, panic or do not return; `Spec/Asking.lean` says what parsing on demand is; proved equivalent by induction over the iterations, and that the outcome is unique; with C63 the calls end at the first wrong token |
| C84 | `Model/PeekIter.lean` has the adapters over an arbitrary iterator, with the cache of `std::iter::Peekable`; `Spec/Cursor.lean` is a tape with a cursor; refinement by induction over the calls, and `Model/Iter.lean` is a special case |
| C85 | `Rewrites` in `Spec/Rewrite.lean` is the smallest congruence with the laws; by induction over it, all the relations that describe the matcher (`Same` in `Proofs/Rewrite.lean`) are preserved, then C73 for all lexers |
| C86 | `withEnd` and the textbook's SLR(1) table in `Spec/EndMarker.lean`; the viable prefixes, FIRST and FOLLOW of the larger grammar are those of the original grammar and of the two rules, then C35, C37, C40, C46 and C63 for it |
| C87 | the recursive functions once more, with the number of calls that are active at the same time (`Model/Depth.lean`); induction on the fuel of the parser, on trees and on runs; refuted (`a\|a\|…\|a`), exact in terms of the nesting of groups and alternatives, for the compiler also where it crashes; freeing exact in terms of the longest way down in a tree |
| C88 | the loop of the lexer with functions that may panic, where the panic leaves the state of the lexer behind (`Model/Caught.lean`); calls without panic are those of C69, a call with a panic is described by induction on what it reads; refuted, exact for all lexers (`CallsC` in `Spec/Caught.lean`) |
| C89 | `From<Vec<Ast>> for Nfa` and `Nfa::default` (`Model/Several.lean`): compiled as the alternatives of one pattern, by induction on the list, then C10 and C11 for all patterns |
| C90 | lexer and parser of a text as for C86, with `.` as last rule: maximal munch with a rule for single characters leaves no rest (`Props/WholeText.lean`), then C15 for the lookahead and C86 for the grammar with its marker; every leaf of a tree is a terminal of the grammar, so no leaf comes from `.` |
| C91 | grammars compared by a map from terminals to terminals of the same kind, not injective (`Proofs/Payload.lean`): strings and items are kept, and come back if no entry of the table is needed twice, so the machine of C62 takes the same steps; refuted where two values of a kind meet in one state, which is exactly where there is no parser (`Props/Payload.lean`) |
| C92 | a token is the same if more text is put behind it, unless it is an escape with a number that can go on (`Proofs/Compose.lean`), so the tokens of `a|b` and `(a)(b)` are those of the parts, and expressions are put together by the documented syntax; with C06 these are the trees that the parser returns; refuted by an unmatched right parenthesis, which is shown to be the only way besides the empty text (`Props/Compose.lean`) |
| C93 | what calls return depends only on the words that rules take, how far they can be read, and the function of the first rule that takes a word (from C23), and these are the same for `a|b` as for the two rules (`Props/Bar.lean`); refuted by an unmatched right parenthesis |
| C94 | all that the SLR(1) machine of C62 asks of the grammar grows with the rules: derivations, FOLLOW sets, items, entries of the table (`Proofs/MoreRules.lean`), so every step of the one machine is a step of the other, and a table that fits with more rules fits with fewer; refuted only where the iteration order makes a parser that accepts nothing; in the other direction, a tree of the smaller grammar returned by the larger one's parser ends in a token, so C37 and the uniqueness of runs apply (`Props/MoreRules.lean`) |
| C95 | building is the same step by step for generators with the same compiler; what calls return is described by C23 in terms of the trees of the patterns and of a function from rules and sources to kinds, and only the latter differs (`Props/Kinds.lean`, with `SameButKind` of `Spec/Kinds.lean`) |
| C96 | the keys of the rows of the table are terminals in bodies or in FOLLOW sets, which are in bodies too, and acceptance is entered for the end of the input only; so no row has an entry for the token (`Props/Unknown.lean`), and C40 and C41 say when the result is an error |
| C97 | a run of the parser on a text is a run on a list of kinds, with the end or cut off where the parser has its result, for calls that return these tokens, and the other way around (`Seen` in `Props/OnlyKinds.lean`, with `kindsOf` and `SameKind` of `Spec/OnlyKinds.lean`) |
| C98 | a second model of the simulator and the lexer with machine words of any size (`Model/MachineWord.lean`); between two characters a state that was left along an epsilon edge is not entered again (`Proofs/NoReturn.lean`), so counters are at most one more than the number of characters read; there are finitely many runs, so closures end; refuted for closures that would not end, `_partial`: all others, and exactly with overflow checks; the parser on such a lexer (`Model/MachineWordParse.lean`): the same, and for trim grammars it ends as every token takes a character away (`Proofs/MachineWordParseEnds.lean`) |
| C99 | the text of a result is built as the derived `Debug` and the builders of the standard library do (`Model/Printed.lean`), the outputs of the user's types are parameters; indented text is read back line by line (`pad_close`), text on one line up to the right parenthesis of a symbol; refuted for `{:?}` (an output that looks like two nodes), `_partial`: `{:#?}` in full, `{:?}` for outputs with balanced parentheses, and examples/expr.rs |
| C100 | `Debug` of `Grammar` with any hash order (`Model/PrintedParser.lean`); lists, sets, maps and structures are read back from the front (`seq_inj`, `struct2_inj`), neat outputs up to the first colon or comma outside of brackets; refuted (a name that looks like a rule), `_partial` for neat outputs |
| C101 | `Debug` of `Slr`, `ParseTable` and its keys; rows that are printed alike are permutations, keys of a row of a constructed table differ and accepting entries have the start variable (`RowsOk`), so lookups agree; without accepting entries the node at the bottom of the stack, which has the start variable, is never returned; refuted for `{:?}`, `_partial` for neat outputs |
| C102 | with the languages of regular expressions of Mathlib; a pattern is made of the words other than the empty one (`nonEmptyTree`), so that only groups that are not empty are repeated, and only with `*`, which is matched right (C10); what the matcher takes (`Taken`) is regular by induction on the tree |
| C103 | with the context-free grammars of Mathlib (`asCfg`); its derivations are those of the specification once epsilons are removed, and trees are derivations; a context-free grammar becomes one that can be built by adding `v → v` for every variable |
| C104 | with the automata of Mathlib: the left-linear grammar of an automaton (`RuleOf`) has the entries of C86 once each, since the symbols on the stack are just those in front of the cursor (`viable_ruleOf`); with C86 its parser reads the words of the automaton |
| C105 | behind every string of symbols there is at most one item with its cursor not at the front (`Simple.one_kernel`, by induction on the length of the string), so that the table of C86 has one entry in each place (`Simple.oneEntry`); the one tree by induction on the tree |
| C106 | the items behind each string of symbols are determined by its last two symbols and by which levels can begin there (`OpItem`, `Opens`), FOLLOW by the levels (`Behind`); so the table of C86 has one entry in each place (`op_oneEntry`).  Trees and texts correspond by induction on the tree and on the text |
| C107 | the items behind a string of symbols of the new grammar are those of the outer grammar, or, behind a string of the outer grammar at whose end the hole can be read, those of the inner grammar (`viable_plug`); FOLLOW likewise (`fol_plug`); so the table of C86 has one entry in each place (`plug_oneEntry`).  The sentences by induction on the trees |
| C108 | no variable can begin with itself (`Predictive.noLoop`, by induction on why a terminal comes first), so two items that read the same symbol are the same, and behind each string of symbols there is at most one item with its cursor not at the front (`Predictive.one_kernel`, by induction on the string): a complete item is alone in its state |
| C109 | the items of the new grammar are those of the old one, an item in front of each terminal that some of them reads, and an item behind it, which is alone in its state (`viable_named`, `named_viable`, by induction); FIRST, FOLLOW and what can end a sentence are the same; so the table has one entry in each place exactly if the textbook's table has one action in each place (`named_oneEntry`).  Trees by induction |
| C110 | the calls of C23 on such a text, by induction on its words: each call reads one character too far and puts it back.  With C86 for the tree, and with C106 for the operators; no two values stand side by side in the text of an expression (`text_values`) |
| C111 | `Model/Debug.lean`, the loop of the lexer with what `feed` writes; erasing it gives the loop back; what is written by induction on the run of the loop (`Lexes.written`, `Lexes.counted`) |
| C112 | one character of lookahead is enough for all patterns together, so the tokens are those of maximal munch (C23); where a name begins exactly the names can be read, and the first pattern that matches is the keyword or that of the names |
| C113 | both lexers are run on the same input state; they agree on all words that begin with the next character (what is read, what matches first, what gets stuck), and two machines that agree there give equal results (Proofs/Agree.lean); for whole texts the exact condition of C23 is split by the first character |
| C114 | the matches and what can be read of the two patterns are computed by induction on the inside; a match cannot be read further, so one character of lookahead is enough for all rules together and the tokens are those of maximal munch (C23) |
| C115 | the tree of `(a)(b)` (C92); a word is split into what `a` reads and blanks in one way only, so lookahead, the longest match and the first rule are those of the old patterns; then C23, and C97 for parsers |
| C116 | what is put back has at most two characters, so all of it is read again (as in C13 for lexers that lose nothing); the last call does not read to the end without a match since the last character closes; trees of numbers by hand |
| C117 | `lexLoopN` (C80) with what the machine can read; by induction on what can be read, words are completed if quantifiers have no upper bounds; false with `ab?`, whose loop is read on beyond its bound |
| C118 | the grammar of lists with the grammar of the elements in place of a terminal (C107); the table of lists is computed once and renamed (C64); trees by induction on the lists, sentences by induction on the trees |
| C119 | C118 for the parser, C110 for the lexer; that the pattern of strings matches what is written, and that nothing longer can match, by induction on the string; trees are told apart by mutual induction |
| C120 | C23 for the lexer, C86 for the parser, whose table is computed by the kernel; the words of each rule, where each can be read further, and which two can be confused are found rule by rule; texts and maximal munch are compared by induction; trees and data by mutual induction |
| C121 | `lexLoopT` counts characters and runs, and without its counter is `lexLoop`; the bound is that of C80 on the characters times a bound on the runs. For the runs the counting argument of C58 is applied to all rules at once: the fragments share the start state only, which is left for good by the first character. Lower bound: the call reads on as long as there are runs, so it counts the runs of the ambiguous groups of C58 (`Proofs/ManyWork.lean`). Upper bound for all other rules: as for C58, with all fragments at once |
| C122 | `lexParseLoopT` adds a counter to the parser that reads from a lexer; without it, it is `lexParseLoop`. The calls of the lexer are split off, and are those of C121. Every node taken from the stack has been put there by an iteration, and the iterations are linear by C40, also if the parser stops before the tokens end |
| C123 | a variable that can be reached and has two trees for the same tokens gives a sentence with two trees, against C86 (C46); two rules that begin alike are two entries of the table by C86 (C35). The table of the grammar with matched and unmatched statements is computed by the kernel; its trees are those of the statements by induction on forests; an `else` is put behind the last free `if` by induction on the statement |
| C124 | the moves between two tokens are looked at as one step on the stack of symbols. Behind every word there is one whose stack is never smaller later on; what happens above that stack depends only on its two topmost symbols, on the items below them and on what the end marker can do there, which are finitely many questions, so by the pigeonhole principle two words of different lengths agree in all of them. A palindrome `x d x⁻¹` then gives `y d x⁻¹`, which is none for the right `d` |
| C125 | the expression with an operator on either side has two trees, which differ since no tree is its own child; with C123 (C86, C46) |
| C126 | the items of the grammar of declared names (`UseRule`, Spec/Declared.lean; Proofs/Declared.lean): they tell which names were declared, and no entry of the table is given twice; in an LL(1) grammar an item set is the closure of one item (`Predictive.one_kernel`); the general bound counts subsets of the items |
| C127 | with C102; that regular expressions and finite automata describe the same languages (Proofs/Kleene.lean, not in Mathlib): finitely many left quotients (Myhill and Nerode), and the expression for the paths over the first states (Kleene) |
| C128 | what the patterns of a lexer take is regular (C102, C127), so that two numbers of open brackets are not told apart; a lexer makes one token of a text exactly if some pattern takes it (C23); a regular expression for every depth (`Brackets`, Spec/Comments.lean) |
| C129 | the items behind a string of symbols are those of one of the grammars, or of the new rules (`viable_choice`, Proofs/Choice.lean); FOLLOW sets and what can come last are those of the grammar a variable is of; two grammars have entries behind the same symbols only at the start, or behind a terminal both begin with (`entry_first`), so that the table of the textbook has one entry each exactly under the condition (C86) |
| C130 | a parser reads `a^n b^i` to one stack whatever comes behind it (`Path`); stacks behind different `(n, i)` with `i <= p n` have to differ (`Counts.apart`); while the `b`s are read there are again and again, after a bounded number of them, at most two symbols upon what is left of the stack of the `a`s (`Counts.window`, pigeonhole), and these rests are beginnings of one another (`Counts.stays`), so that there are too few such stacks (`Counts.impossible`, Proofs/TwoCounts.lean); the grammars for one count are simple (C108), the one for both is a choice (C129) |
| C131 | in a tree of a long sentence there is a variable whose part of the sentence is neither short nor long, and it can be exchanged for anything else that comes from the variable (`forest_part`, by induction on forests); such a part of `a^n b^n c^n` has no `a` or no `c`; for infinitely many `n` it is the same variable and the same letter (pigeonhole), so that a sentence could be made longer without more of the letter (`three_impossible`, Proofs/ThreeCounts.lean); the sentences of the two grammars by induction, their tables by the kernel |
| C132 | as for C131, with the sentences `a^n b^n s a^n b^n` (`same_part`, Proofs/Copies.lean): a part without the separator makes one of the two copies longer, one with it has `b`s before and `a`s behind it, and the numbers of both cannot change (`copies_impossible`); the other grammars are simple (C108), their sentences by induction on forests |
| C133 | the text of a pattern from the places (`Spec/Places.lean`); its tokens by induction with those of quoted texts (C70); its tree by the documented syntax (C06); what it matches by C10, none of whose exceptions it has; the two ways to write a letter by their numbers |
| C134 | the stacks of C130 with two tokens that end the counts instead of one (`Proofs/TwoCounts.lean`, `Counts`); rules whose body stands for nothing are left out first (`Proofs/Useful.lean`), which keeps the parser (C94) and makes everything that can be read begin a sentence (C63); in front, the grammar is simple (C108) |
| C135 | C130 behind any tokens: the stack of `Counts` (`Proofs/TwoCounts.lean`) begins as the one behind these tokens; the grammars before the change are simple (C108), or have a table that is computed; their sentences by those of C130 |
| C136 | `clean_grammar` (`Proofs/Useful.lean`): first the rules whose bodies stand for something, then those of the variables that can be reached from the start; trees by induction on `Forest`; the parser by C94 (fewer rules keep the parser), what it does by C86 |
| C137 | `Encloses`, `LeftOnly` (`Spec/Height.lean`) against the stacks of `Model/StackSize.lean`: every stack has the symbols of a viable prefix (`loopStacks_ok`), which is bounded by counting the variables inside of each other (`viable_low`); upwards, viable prefixes are pumped (`source_high`) and read by C37's completeness (`viable_moves`, `moves_stacks`) |
| C138 | the theorem of Myhill and Nerode (Mathlib): what may follow a prefix depends on the symbols on the stack behind it (`Path.det`), of which there are finitely many if the stack is low (`lists_finite`, `moves_stacks`); conversely the grammar of C104 (`regular_grammar`) has terminals only behind the first symbol of each body (`leftOnly_of_terms`), so C137 bounds its stack; for nested brackets the quotients are told apart (`c138_nested`) |
| C139 | `HasInside`, `NoRecursion` (`Spec/Recursion.lean`); upper bound by counting the variables inside of each variable (`rankOf`, `forest_short`); long inputs by putting a tree of the variable into itself (`inside_context`, `reachable_context`), which adds tokens since the larger tree would else be a second tree of the same sentence, against C86 (`recursion_long`) |
| C140 | `StartsBy`, `EndsBy` (`Spec/Recursion.lean`): a tree of the variable is put at the front of a larger one and at the end of one, in either order (`startsBy_context`, `endsBy_context`); the two trees have the same tokens but their leftmost leaves are not at the same depth (`leftSpine`), with C123 |

## What the proofs found

Regex: tokens behind a surplus `)` are ignored; `()` crashes the builder; `(a*)*` does not end on `a`; `(a?b)+`
rejects `b` and `(a?b)?` accepts `bb`; `\\x41b` is rejected, `\\u00e9a` is one character, `\\u4` is
accepted, `\\u{100000041}` is `A`; bounds from 2^32 on overflow; unclosed parentheses and brackets are reported at
the first character; `(a|[a])*` needs memory exponential in the length of the string, and so does every pattern that repeats a group whose
rounds can match some text in two ways, such as `(a+)+` or `(\\d+,?)+`, while for nearly all others, such as `(ab|ac)*`, it is polynomial; the code recurses as
deep as a pattern has alternatives.

Lexer: a token is lost if a longer one is begun and the input ends; characters that were pushed back can be
lost, with the effect that lexing goes on behind a character that no pattern can read (with `\\d+(\\.\\d+)?` and `\\.` the
`.4` of `1.2.3.4` is lost); after `None` tokens may come
again; the functions of the user are called for every beginning of a token that some rule matches; if one of them
panics and the panic is caught, its text is put in front of the next token; a lexical error is
the end of the input for the parser (`x;?` is accepted, `1 + 2` in the example program is read as `1`).  In the other example program the rules `b{4}` and `/\\* .* \\*/` are
never used, and a comment goes on to the end of the text.
A lexer can read the square of the length of its input (`a` and `a*b` on `aaac`).

Parser: equal states are duplicated (whether, and how many states there are, can depend on hash order), so that a grammar with `2 n + 2` short rules can have an automaton with `2 ^ n`
states; with `n` optional variables in a row the computation of FOLLOW looks at `2 ^ (n - 2)` bodies; `S → a b | a c` is reported as a conflict (it is not with a variable for every terminal, C109); a start variable behind which nothing can
stand accepts nothing (`S → a S | b`); there are no reductions at the end of input for other variables; `S → a S | b`
panics on `a b`; whether `S → a d | c` panics on `c` or returns an error depends on hash order; with `A → ε` a returned
tree can be no parse tree of anything (the reduction takes a token from the stack and puts it below `A`), and
`S → A t` panics where nothing is on the stack; `S → ( S ) | x` accepts `( x`; rules that cannot be used change what is
accepted (`U → S t`); unit cycles may not end, but only together with rules that cannot be reached; empty variables are
never recognised, but the length of a reduction counts epsilons; whether a sentence is accepted can depend on hash
order; the printed automata are not DOT if names or patterns have quotes; different trees, grammars and parsers can be printed alike with `{:?}`; freeing the tree of a left recursive list recurses as
deep as the list is long.

What does work, without epsilon: a start variable with an end marker and a recursive rule that is never used (C86).

## Trials against wrong programs

`seeded/LOG.jsonl` has one line for each edit of the model.  The edited copy is built; every theorem whose proof breaks
is replaced by `sorry` and the build is repeated until it goes through; the theorems of the manifest that then depend
on `sorry` are listed as failed.  That a theorem is listed means that its proof, or that of a lemma it uses, does not
go through any more; it does not show by itself that its statement became false.  Where no theorem failed, or only
proofs and not statements broke, the line says whether the edit breaks a claim and what was tightened.
