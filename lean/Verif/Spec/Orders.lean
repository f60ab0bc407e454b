import Verif.Spec.Slr

/-!
# What the iteration order can change

The code gives a variable a FOLLOW set when something stands behind it, and hands it on to the variables at the end of
its bodies.  Whether an empty set is handed on further depends on the order in which this is done.
-/

namespace Pango.Spec

open Pango.Parse

variable {V T : Type}

/-- No entry of the table is needed by two items, or by one for two terminals of the same kind. -/
def Fits [TerminalEq T] (g : Grammar V T) (accepts : Prop) : Prop :=
  ∀ γ p p' k k', Needs g accepts γ p k → Needs g accepts γ p' k' → keyEq k k' = true → p = p' ∧ k = k'

end Pango.Spec
