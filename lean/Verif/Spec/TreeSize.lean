import Verif.Model.Slr

/-!
# The size of trees
-/

namespace Pango.Spec

open Pango.Parse

variable {V T : Type}

mutual
/-- The number of nodes of a tree. -/
def nodeCount : Node V T → Nat
  | .mk _ children => nodesCount children + 1
/-- The number of nodes of several trees. -/
def nodesCount : List (Node V T) → Nat
  | [] => 0
  | n :: ns => nodeCount n + nodesCount ns
end

/-- The number of nodes a stack holds, in all its trees. -/
def stackNodes (stack : List (ParseNode V T)) : Nat := nodesCount (stack.map ParseNode.node)

end Pango.Spec
