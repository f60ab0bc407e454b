import Verif.Model.Tokenizer

/-!
# Regex recursive descent parser (`pango-lexer/src/regex/parser.rs`)

The parser pulls tokens lazily from a `CachedPeekable<Tokenizer>`.  The model computes the token
stream of the pattern beforehand (`scan`); a panic of the tokenizer sits at the end of that stream and
happens only when the parser pulls it.
-/

namespace Pango.Regex

/-- `ParseErrorKind` (parser.rs:30-42). -/
inductive ParseErrorKind where
  | leftParan | rightParan | leftBracket | rightBracket | subExpression | tokenForSubExpression
  | mtch | matchCharacterClassLeftBracket | characterGroupItem | characterClassCharacter
  | tokenForCharacterGroupItem
  deriving Repr, DecidableEq

/-- `ParseError` (parser.rs:24-27). -/
structure ParseError where
  kind : ParseErrorKind
  pos : Nat × Nat
  deriving Repr, DecidableEq

/-- `Display for ParseErrorKind` (parser.rs:44-66). -/
def ParseErrorKind.text : ParseErrorKind → List Char
  | .subExpression => "expected at least one sub expression".toList
  | .tokenForSubExpression => "expected at least one token for a subexpression".toList
  | .leftParan => "expected LEFT_PAREN".toList
  | .rightParan => "expected RIGTH_PAREN".toList
  | .matchCharacterClassLeftBracket => "expected MATCH, CHARACTER_CLASS or LEFT_BRACKET".toList
  | .leftBracket => "expected LEFT_BRACKET".toList
  | .rightBracket => "expected RIGHT_BRACKET".toList
  | .characterGroupItem => "expected at least one character group item".toList
  | .mtch => "expected MATCH".toList
  | .characterClassCharacter => "expected CHARACTER_CLASS or CHARACTER".toList
  | .tokenForCharacterGroupItem => "expected at least one token for the character group item".toList

/-- `Display for ParseError` (parser.rs:68-72); numbers are written in decimal. -/
def ParseError.text (e : ParseError) : List Char :=
  "[ERROR] (".toList ++ Nat.toDigits 10 e.pos.1 ++ ", ".toList ++ Nat.toDigits 10 e.pos.2 ++ "): ".toList ++
    e.kind.text ++ ['\n']

/-- `Display for W<Vec<ParseError>>` (parser.rs:74-82). -/
def errorsText (es : List ParseError) : List Char := es.flatMap fun e => e.text ++ ['\n']

/-- The `tokens` field of `Parser` (parser.rs:15): what the tokenizer will still yield, why it stops,
and the cached current token. -/
structure PState where
  toks : List Token
  stop : Stop
  cur : Option (Option Token)
  deriving Repr, DecidableEq

/-- Result of a parser function: a value and the new state, an `Err`, a panic, or out of fuel.  The state is not needed
after an `Err`, every caller returns it immediately (`?`).  The type at regex/parser.rs:19-20, of the methods at
regex/parser.rs:98-395. -/
inductive PResult (α : Type) where
  | ok (a : α) (s : PState)
  | err (errors : List ParseError)
  | panic
  | diverge
  deriving Repr, DecidableEq

/-- A method of `Parser` (`&mut self`).  The methods are at regex/parser.rs:98-395. -/
def P (α : Type) := PState → PResult α

namespace P

/-- Sequencing with `?`.  As at regex/parser.rs:113-395. -/
def bind {α β : Type} (x : P α) (f : α → P β) : P β := fun s =>
  match x s with
  | .ok a s => f a s
  | .err e => .err e
  | .panic => .panic
  | .diverge => .diverge

/-- Return a value.  As `Ok(..)` at regex/parser.rs:113-395. -/
def pure {α : Type} (a : α) : P α := fun s => .ok a s

/-- Models one statement after another, as at regex/parser.rs:113-395, written with `do`. -/
instance : Monad P where
  pure := P.pure
  bind := P.bind

end P

/-- `self.tokens.peek()`.  For example at regex/parser.rs:99, 121 and 138. -/
def peekTok : P (Option Token) := fun s =>
  match s.toks with
  | t :: _ => .ok (some t) s
  | [] => match s.stop with
    | .eof => .ok none s
    | .panic => .panic
    | .fuel => .diverge

/-- `self.tokens.next()` (`CachedPeekable::next`, peekable.rs:170-172). -/
def nextTok : P (Option Token) := fun s =>
  match s.toks with
  | t :: r => .ok (some t) { s with toks := r, cur := some (some t) }
  | [] => match s.stop with
    | .eof => .ok none { s with cur := some none }
    | .panic => .panic
    | .fuel => .diverge

/-- `get_current_token_position` (parser.rs:397-416).  The subtraction is on `Nat`: every token ends at
position 1 or later. -/
def currentPosition : P (Nat × Nat) := fun s =>
  match peekTok s with
  | .ok (some t) s => .ok t.pos s
  | .ok none s =>
    match s.cur.getD none with
    | some t => .ok (t.pos.2 - 1, t.pos.2) s
    | none => .ok (0, 1) s
  | .err e => .err e
  | .panic => .panic
  | .diverge => .diverge

/-- `Err(W(vec![ParseError { kind, pos: self.get_current_token_position() }]))`.  For example at
regex/parser.rs:139-142. -/
def failHere {α : Type} (kind : ParseErrorKind) : P α :=
  P.bind currentPosition fun pos _ => .err [⟨kind, pos⟩]

/-- The kind of the next token, if any.  As matched on at regex/parser.rs:121, 147 and 162. -/
def peekKind : P (Option TokenKind) :=
  P.bind peekTok fun t => P.pure (t.map Token.kind)

/-- The optional quantifier at the end of `group` and `match_` (parser.rs:209-218, 227-236). -/
def optQuantifier : P (Option Quant) := do
  match ← peekKind with
  | some (.quantifier q) => let _ ← nextTok; pure (some q)
  | _ => pure none

/-- `character_group_item` (parser.rs:346-394). -/
def characterGroupItem : P GLit := do
  match ← nextTok with
  | some ⟨kind, pos⟩ =>
    match kind with
    | .cls k => pure (.cls k)
    | .mtch start =>
      match ← peekKind with
      | some (.operator .minus) =>
        let _ ← nextTok
        match (← nextTok).map Token.kind with
        | some (.mtch stop) => pure (.range start stop)
        | _ => failHere .mtch
      | _ => pure (.mtch start)
    | _ => fun _ => .err [⟨.characterClassCharacter, pos⟩]
  | none => failHere .tokenForCharacterGroupItem

/-- The loop of `character_group` (parser.rs:312-323). -/
def characterGroupLoop : Nat → P (List GLit)
  | 0 => fun _ => .diverge
  | n + 1 => do
    match ← peekKind with
    | none => pure []
    | some (.operator .rightBracket) => pure []
    | some _ =>
      let item ← characterGroupItem
      let items ← characterGroupLoop n
      pure (item :: items)

/-- `character_group` (parser.rs:276-342). -/
def characterGroup (n : Nat) : P Lit := do
  match (← nextTok).map Token.kind with
  | some (.operator .leftBracket) =>
    let negated ← (do
      match ← peekKind with
      | some (.operator .carret) => let _ ← nextTok; pure true
      | _ => pure false : P Bool)
    match ← peekKind with
    | none => failHere .characterGroupItem
    | some _ =>
      let literals ← characterGroupLoop n
      match (← nextTok).map Token.kind with
      | some (.operator .rightBracket) => pure (.group negated literals)
      | _ => failHere .rightBracket
  | _ => failHere .leftBracket

/-- `match_item` (parser.rs:242-272). -/
def matchItem (n : Nat) : P Lit := do
  match ← peekKind with
  | some (.mtch c) => let _ ← nextTok; pure (.mtch c)
  | some (.operator .leftBracket) => characterGroup n
  | some (.cls k) => let _ ← nextTok; pure (.cls k)
  | _ => failHere .matchCharacterClassLeftBracket

/-- `match_` (parser.rs:224-239). -/
def match_ (n : Nat) : P Expr := do
  let literal ← matchItem n
  let quantifier ← optQuantifier
  pure (.lit literal quantifier)

/-- `lhs.remove(0)` if there is one item, else `Concat(lhs)` (parser.rs:115-119). -/
def concatOf : List Expr → Expr
  | [e] => e
  | es => .concat es

mutual

/-- `expression` (parser.rs:113-134).  All functions of the recursive descent carry a fuel argument;
`parse` supplies enough of it (C05). -/
def expression : Nat → P Expr
  | 0 => fun _ => .diverge
  | n + 1 => do
    let lhs ← subExpression n
    match ← peekKind with
    | some (.operator .vertical) =>
      let _ ← nextTok
      let rhs ← expression n
      pure (.alt (concatOf lhs) rhs)
    | _ => pure (concatOf lhs)

/-- `sub_expression` (parser.rs:137-158). -/
def subExpression : Nat → P (List Expr)
  | 0 => fun _ => .diverge
  | n + 1 => do
    match ← peekKind with
    | none => failHere .subExpression
    | some _ => subExpressionLoop n

/-- The loop of `sub_expression` (parser.rs:145-155). -/
def subExpressionLoop : Nat → P (List Expr)
  | 0 => fun _ => .diverge
  | n + 1 => do
    match ← peekKind with
    | none => pure []
    | some (.operator .vertical) => pure []
    | some (.operator .rightParen) => pure []
    | some _ =>
      let item ← subExpressionItem n
      let items ← subExpressionLoop n
      pure (item :: items)

/-- `sub_expression_item` (parser.rs:161-173). -/
def subExpressionItem : Nat → P Expr
  | 0 => fun _ => .diverge
  | n + 1 => do
    match ← peekKind with
    | none => failHere .tokenForSubExpression
    | some (.operator .leftParen) => group n
    | some _ => match_ n

/-- `group` (parser.rs:176-221). -/
def group : Nat → P Expr
  | 0 => fun _ => .diverge
  | n + 1 => do
    match (← nextTok).map Token.kind with
    | some (.operator .leftParen) =>
      let expr ← expression n
      match (← nextTok).map Token.kind with
      | some (.operator .rightParen) =>
        let quantifier ← optQuantifier
        pure (.group expr quantifier)
      | _ => failHere .rightParan
    | _ => failHere .leftParan

end

/-- Fuel that always suffices for a stream of `n` tokens (C05).  The recursion at regex/parser.rs:113-222 has no fuel.
-/
def parseFuel (n : Nat) : Nat := 5 * n + 5

/-- `Parser::parse` (parser.rs:98-110) on a fresh parser, whose error list is empty. -/
def parseScan (sc : Scan) : PResult Expr :=
  let s : PState := ⟨sc.toks, sc.stop, none⟩
  match peekTok s with
  | .ok none s => .ok .empty s
  | .ok (some _) s => expression (parseFuel sc.toks.length) s
  | .err e => .err e
  | .panic => .panic
  | .diverge => .diverge

/-- `Parser::new(input).parse()` (parser.rs:88-110): the tree, or the list of errors. -/
def parse (p : Profile) (input : List Char) : Outcome (Except (List ParseError) Expr) :=
  match parseScan (scan p input) with
  | .ok e _ => .ok (.ok e)
  | .err es => .ok (.error es)
  | .panic => .panic
  | .diverge => .diverge

end Pango.Regex
