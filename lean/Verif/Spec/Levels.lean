import Verif.Spec.Items

/-!
The ways into an item set, stated with the strings read.  Nothing here mentions the construction of the automaton.
-/

namespace Pango.Spec

open Pango.Parse

variable {V T : Type}

/-- The strings are read into the same item set. -/
def SameItems (g : Grammar V T) (γ δ : List (Sym V T)) : Prop :=
  ∀ p, Viable g γ p ↔ Viable g δ p

/-- The string can be read. -/
def CanRead (g : Grammar V T) (γ : List (Sym V T)) : Prop :=
  ∃ p, Viable g γ p

/-- The string can be read, and no shorter string is read into the same item set. -/
def Shortest (g : Grammar V T) (γ : List (Sym V T)) : Prop :=
  CanRead g γ ∧ ∀ δ, SameItems g γ δ → γ.length ≤ δ.length

/-- The string can be read, and no string that is shorter by two or more is read into the same item set. -/
def NearlyShortest (g : Grammar V T) (γ : List (Sym V T)) : Prop :=
  CanRead g γ ∧ ∀ δ, SameItems g γ δ → γ.length ≤ δ.length + 1

/-- The last symbol of `γ` is `x`, and it is read in the item set of `α`. -/
def EndsWith (g : Grammar V T) (γ α : List (Sym V T)) (x : Sym V T) : Prop :=
  ∃ β, γ = β ++ [x] ∧ SameItems g α β

/-- Every item set is entered in only one way, by one symbol read in one item set, if ways from item sets that are
further from the start than itself are not counted. -/
def OneWayIn (g : Grammar V T) : Prop :=
  ∀ γ, Shortest g γ → ∀ α x, SameItems g (α ++ [x]) γ → α.length ≤ γ.length → EndsWith g γ α x

/-- Some item set is entered in two ways from item sets nearer to the start, or from itself. -/
def TwoWaysIn (g : Grammar V T) : Prop :=
  ∃ γ, Shortest g γ ∧ ∃ α x, SameItems g (α ++ [x]) γ ∧
    (α.length < γ.length ∧ ¬ EndsWith g γ α x ∨ SameItems g α γ)

/-- In the item set of `ρ` the symbol `y` has to be looked at before `z`: behind `z` there is an item set from which an
item set is entered that is behind `y`, just as far from the start. -/
def Before (g : Grammar V T) (ρ : List (Sym V T)) (y z : Sym V T) : Prop :=
  y ≠ z ∧ ∃ γ α x, γ.length = α.length ∧ Shortest g (ρ ++ y :: γ) ∧ Shortest g (ρ ++ z :: α) ∧
    SameItems g (ρ ++ z :: α ++ [x]) (ρ ++ y :: γ)

/-- No item set is entered in two ways from item sets nearer to the start, or from itself, and the symbols of every
item set can be ordered so that none comes before one that has to be looked at before it. -/
def CanBeOrdered (g : Grammar V T) : Prop :=
  ¬ TwoWaysIn g ∧ ∀ ρ y, ¬ Relation.TransGen (Before g ρ) y y

end Pango.Spec
