import Verif.Spec.EndMarker

/-!
# A choice between grammars
-/

namespace Pango.Spec

open Pango.Parse

variable {V T : Type}

/-- The grammar has the rules of all the others, which have no variables in common, and one more for each of them, with
which the new start variable becomes that of the other grammar. -/
structure Choice (g : Grammar V T) (gs : List (Grammar V T)) : Prop where
  rules : ∀ v β, (v, β) ∈ g.rules ↔ (∃ a ∈ gs, (v, β) ∈ a.rules) ∨ v = g.start ∧ ∃ a ∈ gs, β = [.var a.start]
  fresh : ∀ a ∈ gs, ∀ β, (g.start, β) ∉ a.rules
  apart : ∀ a ∈ gs, ∀ b ∈ gs, ∀ v β γ, (v, β) ∈ a.rules → (v, γ) ∈ b.rules → a = b

end Pango.Spec
