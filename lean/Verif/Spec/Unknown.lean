import Verif.Model.Slr

/-!
# Tokens that no rule mentions
-/

namespace Pango.Spec

open Pango.Parse

variable {V T : Type}

/-- No terminal in a rule is of the kind of the token. -/
def Unknown [TerminalEq T] (g : Grammar V T) (u : T) : Prop :=
  ∀ h β t, (h, β) ∈ g.rules → .term t ∈ β → teq t u = false

end Pango.Spec
