import Verif.Model.Pointers
import Verif.Spec.Cfg

/-!
# A grammar in memory
-/

namespace Pango.Spec

open Pango Pango.Parse

variable {V T : Type}

/-- The memory holds the bodies of the grammar at the addresses of `gp`. -/
structure Lies (m : Mem V T) (gp : PGrammar V) (g : Grammar V T) : Prop where
  start : gp.start = g.start
  rules : gp.rules.map (fun r => (r.1, m r.2)) = g.rules.map (fun r => (r.1, some r.2))

/-- `locate v t` is the place of a `t` in one of the bodies, for the terminals `t` in the follow set of `v`. -/
def PlacesFollow (m : Mem V T) (g : Grammar V T) (locate : V → Sym V T → SymPtr) : Prop :=
  ∀ v t, InFollow g v (.term t) →
    ∃ body, m (locate v (.term t)).1 = some body ∧ body[(locate v (.term t)).2]? = some (.term t)

/-- Everything that the memory `m` holds is still there in `mem`, which may hold more. -/
def StillHolds (m mem : Mem V T) : Prop := ∀ a body, m a = some body → mem a = some body

end Pango.Spec
