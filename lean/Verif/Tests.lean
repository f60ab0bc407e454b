import Verif.Model.Example

/-!
# The unit tests of the crates, run on the model

Every `#[test]` of the repository is an `example` here: the model gives the answers that the tests expect of the code.
The property test (regex/tests/proptest.rs:235-248) is the theorem `c04_round_trip`, for all patterns.
This is evidence that the model is the code; it proves none of the properties.
-/

namespace Pango.Tests

open Pango Pango.Regex Pango.Fsm Pango.Lex Pango.Parse Pango.Example

/-- The Unicode predicates on ASCII; the tests ask for no other characters. -/
local instance : Unicode := ⟨Char.isAlpha, fun c => c = ' ' || c = '\t' || c = '\n' || c = '\r'⟩

/-! ## `iter` -/

/-- `cautious_map_while` (cautious/map_while.rs:63-88). -/
example :
    let f (d : Char) (c : Char) : Option Char := if c ≠ d then some 'c' else none
    let (first, it) := (CachedPeekable.ofList "foobar!".toList).cautiousMapWhile (f 'b')
    let (b, it) := it.next
    let (last, _) := it.cautiousMapWhile (f '\n')
    first.length = 3 ∧ first.getLast? = some 'c' ∧ b = some 'b' ∧ last.length = 3 := by decide

/-- `cautious_take_while` (cautious/take_while.rs:61-80). -/
example :
    let (first, it) := (CachedPeekable.ofList "foobar!".toList).cautiousTakeWhile (· ≠ 'b')
    let (b, it) := it.next
    let (last, _) := it.cautiousTakeWhile (· ≠ '\n')
    first.length = 3 ∧ first.getLast? = some 'o' ∧ b = some 'b' ∧ last.length = 3 := by decide

/-- `cached_peek_and_current` (peekable.rs:232-249). -/
example :
    let p := CachedPeekable.ofList "He!".toList
    let (h, p1) := p.next
    let (e, p2) := p1.next
    let (bang, p3) := p2.next
    p.peek = some 'H' ∧ p.currentItem = none ∧ h = some 'H' ∧ p1.currentItem = some 'H' ∧ p1.peek = some 'e' ∧
      e = some 'e' ∧ bang = some '!' ∧ p3.peek = none ∧ p3.currentItem = some '!' := by decide

/-- `chached_peek_and_peekable` (peekable.rs:251-271). -/
example :
    let p := CachedPeekable.ofList "He!".toList
    let (no, p1) := p.nextIf (· ≠ 'H')
    let (h, p2) := p1.nextIfEq 'H'
    let (e, p3) := p2.nextIf (· = 'e')
    let (bang, p4) := p3.next
    no = none ∧ p1.currentItem = none ∧ h = some 'H' ∧ p2.currentItem = some 'H' ∧ p2.peek = some 'e' ∧
      e = some 'e' ∧ p3.currentItem = some 'e' ∧ bang = some '!' ∧ p4.peek = none ∧ p4.currentItem = some '!' := by
  decide

/-! ## `regex` -/

/-- `grouped_literal_kind` (regex/ast.rs:100-108). -/
example : (GLit.mtch 'z').contains 'z' = true ∧ (GLit.mtch 'b').contains 'a' = false ∧
    (GLit.cls .digit).contains '1' = true ∧ (GLit.cls .digit).contains 'a' = false ∧
    (GLit.range 'a' 'f').contains 'e' = true ∧ (GLit.range 'a' 'z').contains '0' = false := by decide

/-- `literal_kind` (regex/ast.rs:110-144). -/
example :
    let items : List GLit := [.mtch 'a', .mtch 'b', .cls .whitespace, .range '_' '-']
    (Lit.mtch 'a').contains 'a' = true ∧ (Lit.mtch 'b').contains 'a' = false ∧
    (Lit.cls .nonWord).contains '1' = true ∧ (Lit.cls .nonWord).contains 'a' = false ∧
    (Lit.group false items).contains ' ' = true ∧ (Lit.group false items).contains 'b' = true ∧
    (Lit.group false items).contains 'z' = false ∧ (Lit.group true items).contains ' ' = false ∧
    (Lit.group true items).contains 'b' = false ∧ (Lit.group true items).contains 'z' = true := by decide

/-- `parse` (regex/parser.rs:423-427). -/
example : (match parse .debug "\\w\\d[q-z](0|4+)*.🙃#".toList with | .ok (.ok _) => true | _ => false) = true := by
  decide +kernel

/-- A token that is a single character standing for itself. -/
def plain (i : Nat) (c : Char) : Token := ⟨.mtch c, (i, i + 1)⟩

/-- `matches` (regex/tokenizer.rs:467-487). -/
example : scan .debug "Hello, World!".toList =
    ⟨(enumFrom 0 "Hello, World!".toList).map fun x => plain x.1 x.2, .eof⟩ := by decide +kernel

/-- `unicode_literals` (regex/tokenizer.rs:489-517). -/
example : scan .debug "⬛α🌟🔥ž 🍎ж🐶日!3ç🌺💡ś 🎉ë🌞🐧".toList =
    ⟨(enumFrom 0 "⬛α🌟🔥ž 🍎ж🐶日!3ç🌺💡ś 🎉ë🌞🐧".toList).map fun x => plain x.1 x.2, .eof⟩ := by decide +kernel

/-- `unicode_constructs` (regex/tokenizer.rs:519-541). -/
example : scan .debug ("\\u{27A1}\\u{1F319}\\u{1F4A1}\\u{1F34E}\\u{2328}\\u27A1\\u27B7\\u1CA1\\u27BE" ++
      "\\xF0\\x9F\\x8C\\x99").toList =
    ⟨[⟨.mtch '➡', (0, 8)⟩, ⟨.mtch '🌙', (8, 17)⟩, ⟨.mtch '💡', (17, 26)⟩, ⟨.mtch '🍎', (26, 35)⟩,
      ⟨.mtch '⌨', (35, 43)⟩, ⟨.mtch '➡', (43, 49)⟩, ⟨.mtch '➷', (49, 55)⟩, ⟨.mtch 'Ს', (55, 61)⟩,
      ⟨.mtch '➾', (61, 67)⟩, ⟨.mtch 'ð', (67, 71)⟩, ⟨.mtch '\u009f', (71, 75)⟩, ⟨.mtch '\u008c', (75, 79)⟩,
      ⟨.mtch '\u0099', (79, 83)⟩], .eof⟩ := by decide +kernel

/-- `control_character_constructs` (regex/tokenizer.rs:543-553). -/
example : scan .debug "\\cA\\cZ\\cJ".toList =
    ⟨[⟨.mtch '\u0001', (0, 3)⟩, ⟨.mtch '\u001a', (3, 6)⟩, ⟨.mtch '\n', (6, 9)⟩], .eof⟩ := by decide +kernel

/-- `escape_characters` (regex/tokenizer.rs:555-581). -/
example : scan .debug "\\f\\n\\r\\t\\v\\0\\^\\$\\\\\\.\\*\\+\\?\\(\\)\\[\\]\\|\\/".toList =
    ⟨(enumFrom 0 ['\u000c', '\n', '\r', '\t', '\u000b', '\u0000', '^', '$', '\\', '.', '*', '+', '?', '(', ')', '[',
      ']', '|', '/']).map fun x => ⟨.mtch x.2, (2 * x.1, 2 * x.1 + 2)⟩, .eof⟩ := by decide +kernel

/-- `character_classes` (regex/tokenizer.rs:583-597). -/
example : scan .debug ".\\d\\D\\w\\W\\s\\S".toList =
    ⟨[⟨.cls .wildcard, (0, 1)⟩, ⟨.cls .digit, (1, 3)⟩, ⟨.cls .nonDigit, (3, 5)⟩, ⟨.cls .word, (5, 7)⟩,
      ⟨.cls .nonWord, (7, 9)⟩, ⟨.cls .whitespace, (9, 11)⟩, ⟨.cls .nonWhitespace, (11, 13)⟩], .eof⟩ := by
  decide +kernel

/-- `operators` (regex/tokenizer.rs:599-613). -/
example : scan .debug "[]()^|-".toList =
    ⟨[⟨.operator .leftBracket, (0, 1)⟩, ⟨.operator .rightBracket, (1, 2)⟩, ⟨.operator .leftParen, (2, 3)⟩,
      ⟨.operator .rightParen, (3, 4)⟩, ⟨.operator .carret, (4, 5)⟩, ⟨.operator .vertical, (5, 6)⟩,
      ⟨.operator .minus, (6, 7)⟩], .eof⟩ := by decide +kernel

/-- `quantifiers` (regex/tokenizer.rs:615-628). -/
example : scan .debug "?+*{123}{659,}{495,1003}".toList =
    ⟨[⟨.quantifier .questionMark, (0, 1)⟩, ⟨.quantifier .plus, (1, 2)⟩, ⟨.quantifier .asterisk, (2, 3)⟩,
      ⟨.quantifier (.max 123), (3, 8)⟩, ⟨.quantifier (.min 659), (8, 14)⟩,
      ⟨.quantifier (.range 495 1003), (14, 24)⟩], .eof⟩ := by decide +kernel

/-! ## `fsm` -/

/-- `Nfa::from(Parser::new(pattern).parse().unwrap())`, simulated on the texts. -/
def accepts (pattern : String) (texts : List String) : Outcome (List Bool) := do
  match ← parse .debug pattern.toList with
  | .error _ => .panic
  | .ok e =>
    let nfa ← nfaOfAst e
    texts.foldr (fun text r => do
      let a ← nfa.simulate 1000 text.toList
      let r ← r
      pure (a :: r)) (.ok [])

/-- `accepts` (fsm/nfa/sim.rs:227-236). -/
example : accepts "(ab){3}c{2}" ["aa", "abababcc", "abababccc"] = .ok [false, true, false] := by decide +kernel

/-- `concat` (fsm/nfa/sim.rs:238-248). -/
example : accepts "abc🌕" ["abc🌕", "abd🌕", "abc🌕🌕", "aabc🌕"] = .ok [true, false, false, false] := by
  decide +kernel

/-- `empty` (fsm/nfa/sim.rs:250-258). -/
example : accepts "" ["", "a"] = .ok [true, false] := by decide +kernel

/-- `alt` (fsm/nfa/sim.rs:260-274). -/
example : accepts "(a|b){3,4}" ["aaaa", "bbbb", "abab", "bbaa", "baba", "aabb", "aaab", "bbba"] =
    .ok (List.replicate 8 true) := by decide +kernel

/-- `lit` (fsm/nfa/sim.rs:276-284). -/
example : accepts "a" ["a", "b"] = .ok [true, false] := by decide +kernel

/-- `group` (fsm/nfa/sim.rs:286-295). -/
example : accepts "(abc)(ac)🌕" ["abcac🌕", "bcac🌕", "abcac🌕🌕"] = .ok [true, false, false] := by decide +kernel

/-- `range_quantifier` (fsm/nfa/sim.rs:297-310). -/
example : accepts "a{3}(bc){2,}\\}{2,4}" ["aaabcbcbc}}}", "aaabcbcbcbcbcbcbcbcbcbcbc}}}}", "aaabcbc}}", "aaabcbc}",
    "aaaabcbc}}", "aaabc}}", "aaaabcbcbcbc}}}}}"] = .ok [true, true, true, false, false, false, false] := by
  decide +kernel

/-- `symbol_quantifiers` (fsm/nfa/sim.rs:312-322). -/
example : accepts "a*(bc?)+c?" ["b", "aaaaaaaabcbbbbbbcc", "bbcc", "aaaaabcbccc"] = .ok [true, true, true, false] := by
  decide +kernel

/-! ## `lexer` -/

/-- The kinds of tokens in the test of the lexer (lexer/mod.rs:273-283). -/
inductive Foo where
  | a | b | c | e
  | d (len : Nat)
  deriving DecidableEq

/-- `lexer` (lexer/mod.rs:271-310). -/
example : (do
    match ← buildLexer .debug [("aaaa".toList, fun _ => Foo.a), ("b{4,}".toList, fun _ => .b),
      ("b{4}".toList, fun _ => .c), ("d*".toList, fun source => .d source.length), ("/\\* .*".toList, fun _ => .a),
      ("/\\* .* \\*/".toList, fun _ => .e), ("a".toList, fun _ => .a)] with
    | .error _ => .panic
    | .ok l => lexCalls (nfaMachine l.nfa 1000) l.tokens 5 (InputIter.new
        "bbbbbbbaaaabbbbddddddddddddddddd/* foo bar baz **** * /* foo bar baz ***** */".toList)) >>=
      (fun r => Outcome.ok r.1) =
    Outcome.ok [some ⟨.b, "bbbbbbb".toList, (0, 7)⟩, some ⟨.a, "aaaa".toList, (7, 11)⟩,
      some ⟨.b, "bbbb".toList, (11, 15)⟩, some ⟨.d 17, "ddddddddddddddddd".toList, (15, 32)⟩,
      some ⟨.a, "/* foo bar baz **** * /* foo bar baz ***** */".toList, (32, 77)⟩] := by
  decide +kernel

/-! ## `grammar` -/

/-- `Variable` of the tests (grammar.rs:520-526, cfsm/item.rs:264-270, cfsm/mod.rs:228-234). -/
inductive Variable where
  | function | prototype | body | statement
  deriving DecidableEq

/-- `Terminal` of the tests (grammar.rs:528-533, cfsm/item.rs:272-277, cfsm/mod.rs:236-241). -/
inductive Terminal where
  | bracket | semi
  | identifier (name : String)
  deriving DecidableEq


/-- A builder with a start variable and rules. -/
def builder {V T : Type} [DecidableEq V] [DecidableEq T] (start : Option V) (rules : List (V × List (Body V T))) :
    GrammarBuilder V T :=
  rules.foldl (fun b r => b.addRules r.1 r.2)
    (match start with
      | some v => GrammarBuilder.new.setStart v
      | none => GrammarBuilder.new)

/-- The value exists. -/
def isOk {α : Type} : Outcome α → Bool
  | .ok _ => true
  | _ => false

/-- `==` of sets. -/
def sameSet {α : Type} [DecidableEq α] (a b : List α) : Bool := a.all (· ∈ b) && b.all (· ∈ a)

/-- `grammar_construction::grammar` (grammar.rs:555-577). -/
example : isOk (builder (some .function) [(Variable.function, [[.var .prototype, .term Terminal.bracket, .var .body]]),
    (.prototype, [[.term .bracket]]), (.body, [[.term (.identifier ""), .term .semi]])]).build = true := by decide

/-- `grammar_construction::multi_rule` (grammar.rs:579-604). -/
example : isOk (builder (some .function) [(Variable.function, [[.var .prototype, .term Terminal.bracket, .var .body]]),
    (.prototype, [[.term .bracket]]),
    (.body, [[.term (.identifier ""), .term .semi], [.term .bracket, .term .bracket]])]).build = true := by decide

/-- `grammar_construction::empty_body` (grammar.rs:608-619). -/
example : (builder (some .function) [(Variable.function, [([] : Body Variable Terminal)])]).build =
    .ok ⟨.function, [(.function, [.eps])]⟩ := by decide

/-- `grammar_construction::no_start_variable` (grammar.rs:621-634). -/
example : (builder none [(Variable.function,
    [[.term Terminal.bracket, .term (.identifier ""), .term .semi]])]).build = .panic := by decide

/-- `grammar_construction::variable_with_no_rule` (grammar.rs:636-646). -/
example : (builder (some .function) [(Variable.function, [[.var .body, .term Terminal.semi]])]).build = .panic := by
  decide

/-- `grammar_construction::start_variable_without_rule` (grammar.rs:648-654). -/
example : (builder (some Variable.function) ([] : List (Variable × List (Body Variable Terminal)))).build =
    .panic := by decide

/-- FIRST of the variables of a grammar, in the order of insertion. -/
def firsts {V T : Type} [DecidableEq V] [DecidableEq T] (b : GrammarBuilder V T) (vs : List (V × List (Sym V T))) :
    Bool :=
  match b.build with
  | .ok g => vs.all fun x => match g.first .insertion 100 x.1 with
    | .ok s => sameSet s x.2
    | _ => false
  | _ => false

/-- `first_follow::first` (grammar.rs:662-709). -/
example : firsts (builder (some .function) [(Variable.function, [[.var .prototype, .var .body]]),
      (.prototype, [[.term Terminal.bracket], []]),
      (.body, [[.term (.identifier ""), .term .semi], [.term .semi]])])
    [(.function, [.term (.identifier ""), .term .semi, .term .bracket]),
      (.body, [.term (.identifier ""), .term .semi]), (.prototype, [.term .bracket, .eps])] = true := by
  decide +kernel

/-- `first_follow::first_recursive` (grammar.rs:711-724). -/
example : firsts (builder (some .function) [(Variable.body, [[.var .function]]), (.function, [[.var .prototype]]),
      (.prototype, [[.var .body], ([] : Body Variable Terminal)])])
    [(.body, [.eps]), (.function, [.eps]), (.prototype, [.eps])] = true := by decide +kernel

/-- `first_follow::first_recursive_self` (grammar.rs:726-752). -/
example : firsts (builder (some .function) [(Variable.function, [[.var .function, .eps, .var .body,
      .term Terminal.bracket], [.var .prototype]]), (.prototype, [[.eps]]), (.body, [[.eps]])])
    [(.function, [.term .bracket, .eps])] = true := by decide +kernel

/-- `first_follow::follow` (grammar.rs:754-805), with the letters of the test for variables and terminals. -/
example : (match (builder (some 'S') [('S', [[.term 'a', .var 'B', .var 'D', .term 'h']]),
      ('B', [[.term 'c', .var 'C']]), ('C', [[.term 'b', .var 'C'], []]), ('D', [[.var 'E', .var 'F']]),
      ('E', [[.term 'g'], []]), ('F', [[.term 'f'], []])]).build with
    | .ok g => match g.followSet .insertion 100 with
      | .ok m => sameSet (m.map Prod.fst) ['B', 'C', 'D', 'E', 'F'] &&
          [('B', ['g', 'f', 'h']), ('C', ['g', 'f', 'h']), ('D', ['h']), ('E', ['f', 'h']), ('F', ['h'])].all fun x =>
            match mapGet m x.1 with
            | some s => sameSet s (x.2.map Sym.term)
            | none => false
      | _ => false
    | _ => false) = true := by decide +kernel

/-! ## `cfsm` -/

/-- `item_body_epsilon` (cfsm/item.rs:295-302). -/
example :
    let item := Item.ofBody [(.eps : Sym Variable Terminal)]
    item.cursor = 1 ∧ item.cursorSymbol = none := by decide

/-- `item_body_epsilon_advance` (cfsm/item.rs:304-331). -/
example :
    let item := Item.ofBody [.var Variable.function, .eps, .eps, .eps, .term Terminal.semi]
    item.cursor = 0 ∧ item.cursorSymbol = some (.var .function) ∧ item.cursorVariable = .ok (some .function) ∧
      item.advance.cursorSymbol = some (.term .semi) ∧ item.advance.cursorVariable = .ok none ∧
      item.advance.cursor = 4 := by decide

/-- The grammar of the two tests that follow. -/
def functions : GrammarBuilder Variable Terminal :=
  builder (some .function) [(.function, [[.var .prototype, .var .body]]),
    (.prototype, [[.term (.identifier "")], [.var .statement, .term .semi]]),
    (.statement, [[.term (.identifier "")]]),
    (.body, [[.term .bracket, .var .function, .term .bracket],
      [.term .bracket, .term (.identifier ""), .term .semi, .term .bracket]])]

/-- `item_set_from_incomplete_map` (cfsm/item.rs:333-391). -/
example : (match functions.build with
    | .ok g => match startItems g .insertion 100 with
      | .ok items => sameItems items [(.function, ⟨[.var .prototype, .var .body], 0⟩),
          (.prototype, ⟨[.term (.identifier "")], 0⟩), (.prototype, ⟨[.var .statement, .term .semi], 0⟩),
          (.statement, ⟨[.term (.identifier "")], 0⟩)]
      | _ => false
    | _ => false) = true := by decide +kernel

/-- `cfsm` (cfsm/mod.rs:256-294). -/
example : isOk (do let g ← functions.build; Cfsm.fromGrammar g .insertion 100) = true := by decide +kernel

/-! ## `parser` -/

mutual

/-- The symbols of a tree with their depths, from the root on and from left to right. -/
def outline {V T : Type} (depth : Nat) : Node V T → List (Nat × Sym V T)
  | .mk s cs => (depth, s) :: outlines (depth + 1) cs

/-- The outlines of trees, one after the other. -/
def outlines {V T : Type} (depth : Nat) : List (Node V T) → List (Nat × Sym V T)
  | [] => []
  | c :: cs => outline depth c ++ outlines depth cs

end

/-- `parse` (parser/slr.rs:178-283); the test and the example program have the same grammar and the same rules of the
lexer. -/
example : (match exprMain .debug .insertion 100 "3+4*3+1".toList with
    | .ok (.ok (some root)) => outline 0 root
    | _ => []) = [(0, .var .expr), (1, .term (.val 1)), (1, .term .plus), (1, .var .expr), (2, .term (.val 3)),
      (2, .term .mul), (2, .var .expr), (3, .term (.val 4)), (3, .term .plus), (3, .var .expr),
      (4, .term (.val 3))] := by decide +kernel

end Pango.Tests
