import Verif.Spec.Slr

/-!
# Grammars with more rules
-/

namespace Pango.Spec

open Pango.Parse

variable {V T : Type}

/-- The second grammar has the same start variable, and all of the rules of the first. -/
def Extends (g g' : Grammar V T) : Prop := g.start = g'.start ∧ ∀ r ∈ g.rules, r ∈ g'.rules

end Pango.Spec
