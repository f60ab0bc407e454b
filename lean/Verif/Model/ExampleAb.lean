import Verif.Model.Lexer

/-!
# The example program of the lexer (`pango-lexer/examples/ab.rs`)
-/

namespace Pango.Example

open Pango Pango.Lex Pango.Regex

/-- `Foo` (examples/ab.rs:3-10). -/
inductive Foo where
  | a
  | b
  | c
  | d (len : Nat)
  | e
  deriving Repr, DecidableEq

/-- The rules of the lexer (examples/ab.rs:13-22).  `len` is the number of bytes of the source (examples/ab.rs:17-19),
which is the sum of the sizes of its characters. -/
def abRules : List (List Char × (List Char → Foo)) :=
  [("aaaa".toList, fun _ => .a), ("b{4,}".toList, fun _ => .b), ("b{4}".toList, fun _ => .c),
    ("d*".toList, fun source => .d (source.map Char.utf8Size).sum), ("/\\* .*".toList, fun _ => .a),
    ("/\\* .* \\*/".toList, fun _ => .e)]

/-- `main` (examples/ab.rs:12-28) with the text as an argument: the tokens that it prints, or the errors of a pattern.
`fuel` bounds the loops. -/
def abMain [Unicode] (p : Profile) (fuel : Nat) (text : List Char) :
    Outcome (Except (List ParseError) (List (Tok Foo))) := do
  match ← buildLexer p abRules with
  | .error es => pure (.error es)
  | .ok lexer =>
    let (ts, _) ← lexAll (nfaMachine lexer.nfa fuel) lexer.tokens fuel (InputIter.new text)
    pure (.ok ts)

end Pango.Example
