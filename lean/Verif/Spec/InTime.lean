import Verif.Spec.RegexReach

/-!
# Reading no further than necessary
-/

namespace Pango.Spec

open Pango.Regex

variable [Unicode]

/-- More characters can make a match of the word. -/
def CanComplete (rules : List (List Char → Prop)) (u : List Char) : Prop := ∃ v, AnyMatch rules (u ++ v)

/-- The quantifier has no upper bound: `*`, `+` or `{n,}`. -/
def OpenQuant : Quant → Prop
  | .asterisk => True
  | .plus => True
  | .min _ => True
  | _ => False

mutual

/-- The quantifiers of the pattern have no upper bounds, and its sets of characters are not empty. -/
def OpenEnded : Expr → Prop
  | .empty => True
  | .alt l r => OpenEnded l ∧ OpenEnded r
  | .concat es => OpenEndedAll es
  | .lit l q => (∃ c, LitSet l c) ∧ ∀ k, q = some k → OpenQuant k
  | .group e q => OpenEnded e ∧ ∀ k, q = some k → OpenQuant k

/-- The same for several patterns. -/
def OpenEndedAll : List Expr → Prop
  | [] => True
  | e :: es => OpenEnded e ∧ OpenEndedAll es

end

end Pango.Spec
