import Verif.Spec.RegexReach
import Verif.Spec.Scanning

/-!
# Texts that are written for a lexer

Someone who prints tokens wants to know whether the lexer makes the same tokens of the text.
-/

namespace Pango.Spec

open Pango.Regex

variable [Unicode] {K : Type}

/-- The word is a way to write the token: the first pattern that matches it makes this token of it. -/
structure Spells (rules : List (List Char × (List Char → K))) (es : List Expr) (u : List Char) (k : K) : Prop where
  nonempty : u ≠ []
  first : ∃ i r, FirstMatch (taken es) u i ∧ rules[i]? = some r ∧ r.2 u = k

/-- The word ends where the next one begins: no pattern can be read on with the first character of the next word. -/
def EndsBefore (es : List Expr) (u v : List Char) : Prop := ∀ c, v.head? = some c → ¬ Readable es (u ++ [c])

end Pango.Spec
