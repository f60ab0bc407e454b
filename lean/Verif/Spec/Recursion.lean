import Verif.Spec.Slr

/-!
# Grammars without recursion
-/

namespace Pango.Spec

open Pango.Parse

variable {V T : Type}

/-- The second variable is in a body of the first one, or in a body of a variable in there and so on. -/
inductive HasInside (g : Grammar V T) : V → V → Prop
  | one {v w : V} {β : Body V T} : (v, β) ∈ g.rules → .var w ∈ β → HasInside g v w
  | step {v u w : V} {β : Body V T} : (v, β) ∈ g.rules → .var u ∈ β → HasInside g u w → HasInside g v w

/-- No variable that can be reached is inside of itself. -/
def NoRecursion (g : Grammar V T) : Prop := ∀ v, Reachable g v → ¬ HasInside g v v

/-- The first variable has a rule that begins with the second one, or with a variable for which this holds. -/
inductive StartsBy (g : Grammar V T) : V → V → Prop
  | one {v w : V} {β : List (Sym V T)} : (v, .var w :: β) ∈ g.rules → StartsBy g v w
  | step {v u w : V} {β : List (Sym V T)} : (v, .var u :: β) ∈ g.rules → StartsBy g u w → StartsBy g v w

/-- The first variable has a rule that ends with the second one, or with a variable for which this holds. -/
inductive EndsBy (g : Grammar V T) : V → V → Prop
  | one {v w : V} {α : List (Sym V T)} : (v, α ++ [.var w]) ∈ g.rules → EndsBy g v w
  | step {v u w : V} {α : List (Sym V T)} : (v, α ++ [.var u]) ∈ g.rules → EndsBy g u w → EndsBy g v w

end Pango.Spec
