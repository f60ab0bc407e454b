import Verif.Model.Ast

/-!
# The documented syntax of patterns

The EBNF the parser cites (`regex/parser.rs:1`, repeated in `regex/tests/proptest.rs:132-142`), as
relations between syntax trees and token sequences.  With `strict` these are exactly the documented
rules; the relaxed forms also allow an empty sequence (`sub_expression_item*` instead of
`sub_expression_item+`) and an empty bracket group (`character_group_item*`).
-/

namespace Pango.Spec

open Pango.Regex

/-- Which repetitions may be empty. -/
structure Relaxed where
  emptySeq : Bool
  emptyBracket : Bool

/-- The documented syntax. -/
def strict : Relaxed := ⟨false, false⟩

/-- `character_group_item ::= CHARACTER_CLASS | character_range | CHARACTER` -/
inductive GroupItem : GLit → List TokenKind → Prop
  | cls (k : ClassKind) : GroupItem (.cls k) [.cls k]
  | range (a b : Char) : GroupItem (.range a b) [.mtch a, .operator .minus, .mtch b]
  | chr (a : Char) : GroupItem (.mtch a) [.mtch a]

/-- `character_group_item+` -/
inductive GroupItems (r : Relaxed) : List GLit → List TokenKind → Prop
  | none : r.emptyBracket = true → GroupItems r [] []
  | one {i : GLit} {ks : List TokenKind} : GroupItem i ks → GroupItems r [i] ks
  | more {i : GLit} {is : List GLit} {ks ks' : List TokenKind} :
      GroupItem i ks → GroupItems r is ks' → GroupItems r (i :: is) (ks ++ ks')

/-- `match_item ::= CHARACTER_CLASS | CHARACTER | character_group`,
`character_group ::= LEFT_BRACKET CARRET? character_group_item+ RIGHT_BRACKET` -/
inductive MatchItem (r : Relaxed) : Lit → List TokenKind → Prop
  | cls (k : ClassKind) : MatchItem r (.cls k) [.cls k]
  | chr (a : Char) : MatchItem r (.mtch a) [.mtch a]
  | group {is : List GLit} {ks : List TokenKind} : GroupItems r is ks →
      MatchItem r (.group false is) (.operator .leftBracket :: (ks ++ [.operator .rightBracket]))
  | negated {is : List GLit} {ks : List TokenKind} : GroupItems r is ks →
      MatchItem r (.group true is)
        (.operator .leftBracket :: .operator .carret :: (ks ++ [.operator .rightBracket]))

/-- `QUANTIFIER?` -/
inductive OptQuantifier : Option Quant → List TokenKind → Prop
  | none : OptQuantifier none []
  | some (q : Quant) : OptQuantifier (some q) [.quantifier q]

/-- The tree of a sequence: the item itself if there is only one. -/
def seqTree : List Expr → Expr
  | [e] => e
  | es => .concat es

mutual

/-- `expression ::= sub_expression (VERTICAL expression)?` -/
inductive Expression (r : Relaxed) : Expr → List TokenKind → Prop
  | sub {es : List Expr} {ks : List TokenKind} : SubExpression r es ks → Expression r (seqTree es) ks
  | alt {es : List Expr} {e : Expr} {ks ks' : List TokenKind} :
      SubExpression r es ks → Expression r e ks' →
      Expression r (.alt (seqTree es) e) (ks ++ .operator .vertical :: ks')

/-- `sub_expression ::= sub_expression_item+` -/
inductive SubExpression (r : Relaxed) : List Expr → List TokenKind → Prop
  | none : r.emptySeq = true → SubExpression r [] []
  | one {e : Expr} {ks : List TokenKind} : SubExpressionItem r e ks → SubExpression r [e] ks
  | more {e : Expr} {es : List Expr} {ks ks' : List TokenKind} :
      SubExpressionItem r e ks → SubExpression r es ks' → SubExpression r (e :: es) (ks ++ ks')

/-- `sub_expression_item ::= match | group`, `match ::= match_item QUANTIFIER?`,
`group ::= LEFT_PAREN expression RIGHT_PAREN QUANTIFIER?` -/
inductive SubExpressionItem (r : Relaxed) : Expr → List TokenKind → Prop
  | mtch {l : Lit} {q : Option Quant} {ks kq : List TokenKind} :
      MatchItem r l ks → OptQuantifier q kq → SubExpressionItem r (.lit l q) (ks ++ kq)
  | group {e : Expr} {q : Option Quant} {ks kq : List TokenKind} :
      Expression r e ks → OptQuantifier q kq →
      SubExpressionItem r (.group e q)
        (.operator .leftParen :: (ks ++ .operator .rightParen :: kq))

end

/-- A whole pattern: an expression, or nothing at all. -/
def Pattern (r : Relaxed) (e : Expr) (ks : List TokenKind) : Prop :=
  (e = .empty ∧ ks = []) ∨ Expression r e ks

/-! ## Writing a tree as text

The writer of the property tests of the repository (`regex/tests/proptest.rs:9-130`). -/

/-- `char_to_string` (proptest.rs:9-25). -/
def charText (c : Char) : List Char :=
  if c ∈ ['[', ']', '(', ')', '^', '|', '-', '*', '+', '?', '{', '}', '.'] then ['\\', c]
  else if c = '\\' then ['\\', '\\']
  else if c = Char.ofNat 0 then ['\\', '0']
  else [c]

/-- The decimal digit of value `d`. -/
def digitChar (d : Nat) : Char := ("0123456789".toList)[d]?.getD '0'

/-- A number in decimal. -/
def natText (n : Nat) : List Char :=
  if n < 10 then [digitChar n] else natText (n / 10) ++ [digitChar (n % 10)]
termination_by n

/-- Quantifiers (proptest.rs:27-47). -/
def quantText : Option Quant → List Char
  | none => []
  | some .asterisk => ['*']
  | some .plus => ['+']
  | some .questionMark => ['?']
  | some (.max m) => '{' :: natText m ++ ['}']
  | some (.min m) => '{' :: natText m ++ [',', '}']
  | some (.range lo hi) => '{' :: natText lo ++ ',' :: natText hi ++ ['}']

/-- Classes (proptest.rs:49-63). -/
def classText : ClassKind → List Char
  | .wildcard => ['.']
  | .word => ['\\', 'w']
  | .whitespace => ['\\', 's']
  | .digit => ['\\', 'd']
  | .nonWord => ['\\', 'W']
  | .nonDigit => ['\\', 'D']
  | .nonWhitespace => ['\\', 'S']

/-- Items of a bracket group (proptest.rs:65-74). -/
def groupItemText : GLit → List Char
  | .mtch c => charText c
  | .cls k => classText k
  | .range a b => charText a ++ '-' :: charText b

/-- Literals (proptest.rs:76-97). -/
def litText : Lit → List Char
  | .mtch c => charText c
  | .cls k => classText k
  | .group neg is => '[' :: (if neg then ['^'] else []) ++ is.flatMap groupItemText ++ [']']

mutual

/-- Trees (proptest.rs:99-130). -/
def exprText : Expr → List Char
  | .concat es => exprsText es
  | .empty => []
  | .alt l r => exprText l ++ '|' :: exprText r
  | .lit l q => litText l ++ quantText q
  | .group e q => '(' :: exprText e ++ ')' :: quantText q

/-- Sequences of trees. -/
def exprsText : List Expr → List Char
  | [] => []
  | e :: es => exprText e ++ exprsText es

end

/-- The numbers of a quantifier fit in 32 bits. -/
def QuantFits : Option Quant → Prop
  | some (.max m) => m < 2 ^ 32
  | some (.min m) => m < 2 ^ 32
  | some (.range lo hi) => lo < 2 ^ 32 ∧ hi < 2 ^ 32
  | _ => True

mutual

/-- All numbers in a tree fit in 32 bits (the tree type of the code has no others). -/
def ExprFits : Expr → Prop
  | .concat es => ExprsFit es
  | .empty => True
  | .alt l r => ExprFits l ∧ ExprFits r
  | .lit _ q => QuantFits q
  | .group e q => ExprFits e ∧ QuantFits q

/-- `ExprFits` for all trees of a list. -/
def ExprsFit : List Expr → Prop
  | [] => True
  | e :: es => ExprFits e ∧ ExprsFit es

end

mutual

/-- Somewhere in the tree is a sequence without items. -/
def HasEmptySeq : Expr → Prop
  | .concat es => es = [] ∨ AnyEmptySeq es
  | .empty => False
  | .alt l r => HasEmptySeq l ∨ HasEmptySeq r
  | .lit _ _ => False
  | .group e _ => HasEmptySeq e

/-- `HasEmptySeq` for some tree of a list. -/
def AnyEmptySeq : List Expr → Prop
  | [] => False
  | e :: es => HasEmptySeq e ∨ AnyEmptySeq es

end

mutual

/-- Somewhere in the tree is a bracket group without items. -/
def HasEmptyBracket : Expr → Prop
  | .concat es => AnyEmptyBracket es
  | .empty => False
  | .alt l r => HasEmptyBracket l ∨ HasEmptyBracket r
  | .lit l _ => ∃ neg, l = .group neg []
  | .group e _ => HasEmptyBracket e

/-- `HasEmptyBracket` for some tree of a list. -/
def AnyEmptyBracket : List Expr → Prop
  | [] => False
  | e :: es => HasEmptyBracket e ∨ AnyEmptyBracket es

end

end Pango.Spec
