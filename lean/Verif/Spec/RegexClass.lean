import Verif.Spec.Regex

/-!
# Classes of patterns

Two restrictions on pattern trees under which matching is right: what is repeated does not match the
empty string, and counted repetitions at the beginning of the pattern repeat something that begins with
a character.
-/

namespace Pango.Spec

open Pango.Regex

variable [Unicode]

mutual

/-- No group that carries a quantifier matches the empty string, `(a*)+` being the smallest example of
one that does. -/
def RepeatsNonEmpty : Expr → Prop
  | .concat es => RepeatsNonEmptyAll es
  | .empty => True
  | .alt l r => RepeatsNonEmpty l ∧ RepeatsNonEmpty r
  | .lit _ _ => True
  | .group e none => RepeatsNonEmpty e
  | .group e (some _) => ¬ Matches e [] ∧ RepeatsNonEmpty e

/-- `RepeatsNonEmpty` for every tree of a list. -/
def RepeatsNonEmptyAll : List Expr → Prop
  | [] => True
  | e :: es => RepeatsNonEmpty e ∧ RepeatsNonEmptyAll es

end

mutual

/-- Every match begins with a character of an unquantified literal. -/
def BeginsWithLiteral : Expr → Prop
  | .concat es => FirstBeginsWithLiteral es
  | .empty => False
  | .alt l r => BeginsWithLiteral l ∧ BeginsWithLiteral r
  | .lit _ none => True
  | .lit _ (some _) => False
  | .group e none => BeginsWithLiteral e
  | .group _ (some _) => False

/-- `BeginsWithLiteral` for the first tree of a list. -/
def FirstBeginsWithLiteral : List Expr → Prop
  | [] => False
  | e :: _ => BeginsWithLiteral e

end

mutual

/-- Groups that may be entered before the first character is read and that carry a quantifier other
than `*` begin with a literal.  `(ab){2}`, `x(a?b)+` and `(a?b)*` are like this, `(a?b)+` is not. -/
def CountsAtStart : Expr → Prop
  | .concat es => CountsAtStartSeq es
  | .empty => True
  | .alt l r => CountsAtStart l ∧ CountsAtStart r
  | .lit _ _ => True
  | .group e none => CountsAtStart e
  | .group e (some q) => CountsAtStart e ∧ (q = .asterisk ∨ BeginsWithLiteral e)

/-- `CountsAtStart` for a sequence: a tree is at the start if those before it match the empty
string. -/
def CountsAtStartSeq : List Expr → Prop
  | [] => True
  | e :: es => CountsAtStart e ∧ (Matches e [] → CountsAtStartSeq es)

end

end Pango.Spec
