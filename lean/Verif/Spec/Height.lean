import Verif.Spec.Slr

/-!
# What stands inside of a variable
-/

namespace Pango.Spec

open Pango.Parse

variable {V T : Type}

/-- `Encloses g b h w`: `w` is `h`, or it is in a body of `h`, or in a body of a variable in there and so on.  If `b`,
then it (or one of the variables in between) is not the first symbol of the body. -/
inductive Encloses (g : Grammar V T) : Bool → V → V → Prop
  | self {v : V} : Encloses g false v v
  | front {b : Bool} {h v w : V} {post : List (Sym V T)} : (h, .var v :: post) ∈ g.rules → Encloses g b v w →
      Encloses g b h w
  | behind {b : Bool} {h v w : V} {x : Sym V T} {pre post : List (Sym V T)} :
      (h, x :: (pre ++ .var v :: post)) ∈ g.rules → Encloses g b v w → Encloses g true h w

/-- No variable that can be reached is inside of itself, behind something else: the grammar is recursive at the front of
the bodies only. -/
def LeftOnly (g : Grammar V T) : Prop := ∀ v, Reachable g v → ¬ Encloses g true v v

end Pango.Spec
