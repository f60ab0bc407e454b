import Verif.Spec.RegexReach

/-!
# The characters a pattern can begin with
-/

namespace Pango.Spec

open Pango.Regex

/-- The pattern can be read, whether or not up to a match, from a text that begins with this character. -/
def CanBegin [Unicode] (e : Expr) (c : Char) : Prop := ∃ w, MayBegin e (c :: w)

end Pango.Spec
