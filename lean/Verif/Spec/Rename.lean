import Verif.Spec.ShiftReduce

/-!
# Renaming

Other names for the variables and terminals of a grammar, and for those in a tree.
-/

namespace Pango.Spec

open Pango.Parse

variable {V T V' T' : Type} (f : V → V') (k : T → T')

/-- The same symbol with another name. -/
def _root_.Pango.Parse.Sym.rename : Sym V T → Sym V' T'
  | .term t => .term (k t)
  | .var v => .var (f v)
  | .eps => .eps

/-- The same rule with other names. -/
def renameRule (r : V × Body V T) : V' × Body V' T' := (f r.1, r.2.map (Sym.rename f k))

/-- The same grammar with other names. -/
def _root_.Pango.Parse.Grammar.rename (g : Grammar V T) : Grammar V' T' := ⟨f g.start, g.rules.map (renameRule f k)⟩

mutual
/-- The same tree with other names. -/
def _root_.Pango.Parse.Node.rename : Node V T → Node V' T'
  | .mk x cs => .mk (x.rename f k) (renameTrees cs)

/-- The same trees with other names. -/
def renameTrees : List (Node V T) → List (Node V' T')
  | [] => []
  | n :: ns => n.rename :: renameTrees ns
end

/-- The names can be told apart as before, and the terminals are of the same kind as before. -/
structure Renaming [TerminalEq T] [TerminalEq T'] : Prop where
  vars : ∀ v w, f v = f w → v = w
  terms : ∀ t u, k t = k u → t = u
  kinds : ∀ t u, teq (k t) (k u) = teq t u

end Pango.Spec
