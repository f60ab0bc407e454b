import Verif.Model.LexParse

/-!
# The example program (`pango-parser/examples/expr.rs`)

A lexer and a parser for sums and products of digits, put together as a user of the crates does.
-/

namespace Pango.Example

open Pango Pango.Lex Pango.Parse Pango.Regex

/-- `Variables` (examples/expr.rs:4-7). -/
inductive Variables where
  | expr
  deriving Repr, DecidableEq

/-- `Terminals` (examples/expr.rs:9-14); `usize` is unbounded here. -/
inductive Terminals where
  | mul
  | plus
  | val (n : Nat)
  deriving Repr, DecidableEq

/-- `impl TerminalEq for Terminals` (examples/expr.rs:16-24). -/
instance : TerminalEq Terminals :=
  ⟨fun s t => match s, t with
    | .val _, .val _ => true
    | s, t => decide (s = t)⟩

/-- The builder of the grammar (examples/expr.rs:54-63). -/
def exprBuilder : GrammarBuilder Variables Terminals :=
  (GrammarBuilder.new.setStart .expr).addRules .expr
    [[.var .expr, .term .mul, .term (.val 0)], [.var .expr, .term .plus, .term (.val 0)], [.term (.val 0)]]

/-- `source.parse()` to a `usize`, without overflow (examples/expr.rs:71); the code panics for anything that is not a
numeral. -/
def parseNumber (source : List Char) : Nat :=
  source.foldl (fun n c => n * 10 + (c.toNat - '0'.toNat)) 0

/-- The rules of the lexer (examples/expr.rs:69-74). -/
def exprRules : List (List Char × (List Char → Terminals)) :=
  [("\\d".toList, fun source => .val (parseNumber source)), ("\\+".toList, fun _ => .plus),
    ("\\*".toList, fun _ => .mul)]

/-- `main` (examples/expr.rs:51-80) with the text as an argument, without what it prints: the result of the parser, or
the errors of a pattern.  `fuel` bounds all the loops. -/
def exprMain [Unicode] (p : Profile) (ord : HashOrder) (fuel : Nat) (text : List Char) :
    Outcome (Except (List ParseError) (Option (Node Variables Terminals))) := do
  let grammar ← exprBuilder.build
  let parser ← slrNew grammar ord fuel
  match ← buildLexer p exprRules with
  | .error es => pure (.error es)
  | .ok lexer =>
    let result ← parseText lexer parser fuel fuel text
    pure (.ok result)

end Pango.Example
