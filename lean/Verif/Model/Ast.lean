import Verif.Model.Basic

/-!
# Regex tokens and syntax tree (`pango-lexer/src/regex/{tokenizer,ast}.rs`)
-/

namespace Pango.Regex

/-- `ClassKind` (tokenizer.rs:51-59). -/
inductive ClassKind where
  | wildcard | word | whitespace | digit | nonWord | nonDigit | nonWhitespace
  deriving Repr, DecidableEq

/-- `OperatorKind` (tokenizer.rs:63-71). -/
inductive OperatorKind where
  | leftBracket | rightBracket | leftParen | rightParen | carret | vertical | minus
  deriving Repr, DecidableEq

/-- `QuantifierKind` with `QuantifierRangeKind` flattened into it (tokenizer.rs:76-90); the numbers
are `u32`s. `Max n` is the form `{n}`, `Min n` the form `{n,}`. -/
inductive Quant where
  | asterisk
  | plus
  | questionMark
  | max (n : Nat)
  | min (n : Nat)
  | range (lo hi : Nat)
  deriving Repr, DecidableEq

/-- `TokenKind` (tokenizer.rs:40-46). -/
inductive TokenKind where
  | cls (c : ClassKind)
  | operator (o : OperatorKind)
  | quantifier (q : Quant)
  | mtch (c : Char)
  | invalid
  deriving Repr, DecidableEq

/-- `Token` (tokenizer.rs:22-29); positions count characters. -/
structure Token where
  kind : TokenKind
  pos : Nat × Nat
  deriving Repr, DecidableEq

/-- `GroupedLiteralKind` (ast.rs:53-61). -/
inductive GLit where
  | mtch (c : Char)
  | cls (c : ClassKind)
  | range (lo hi : Char)
  deriving Repr, DecidableEq

/-- `LiteralKind` (ast.rs:38-49). -/
inductive Lit where
  | mtch (c : Char)
  | cls (c : ClassKind)
  | group (negated : Bool) (literals : List GLit)
  deriving Repr, DecidableEq

/-- `ExprKind` (ast.rs:23-34). -/
inductive Expr where
  | concat (es : List Expr)
  | empty
  | alt (l r : Expr)
  | lit (l : Lit) (q : Option Quant)
  | group (e : Expr) (q : Option Quant)
  deriving Repr

/-- `QuantifierKind::is_satisfied` (tokenizer.rs:404-415). -/
def Quant.isSatisfied : Quant → Nat → Bool
  | .asterisk, _ => true
  | .plus, count => count > 0
  | .questionMark, count => count ≤ 1
  | .max m, count => count == m
  | .min m, count => count ≥ m
  | .range lo hi, count => count ≥ lo && count ≤ hi

variable [Unicode]

/-- `char::is_ascii_digit`.  Called at regex/tokenizer.rs:154, 425 and 427. -/
def isAsciiDigit (c : Char) : Bool := '0' ≤ c && c ≤ '9'

/-- `ClassKind::contains` (tokenizer.rs:420-430). -/
def ClassKind.contains : ClassKind → Char → Bool
  | .wildcard, _ => true
  | .word, c => Unicode.isAlphabetic c
  | .whitespace, c => Unicode.isWhitespace c
  | .digit, c => isAsciiDigit c
  | .nonWord, c => !Unicode.isAlphabetic c
  | .nonDigit, c => !isAsciiDigit c
  | .nonWhitespace, c => !Unicode.isWhitespace c

/-- `GroupedLiteralKind::contains` (ast.rs:86-92). -/
def GLit.contains : GLit → Char → Bool
  | .mtch m, c => m == c
  | .cls k, c => k.contains c
  | .range lo hi, c => lo ≤ c && c ≤ hi

/-- `W<Vec<GroupedLiteralKind>>::contains` (ast.rs:79-81). -/
def containsAny (ls : List GLit) (c : Char) : Bool := ls.any (fun l => l.contains c)

/-- `LiteralKind::contains` (ast.rs:65-74). -/
def Lit.contains : Lit → Char → Bool
  | .mtch m, c => m == c
  | .cls k, c => k.contains c
  | .group negated ls, c => xor (containsAny ls c) negated

end Pango.Regex
