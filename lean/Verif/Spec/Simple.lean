import Verif.Spec.Slr

/-!
# Grammars in which the next token tells the rule
-/

namespace Pango.Spec

open Pango.Parse

variable {V T : Type}

/-- A simple grammar: there is no epsilon, every body begins with a terminal, the bodies of a variable begin with
terminals of different kinds, and there is only one terminal of each kind. -/
structure Simple [TerminalEq T] (g : Grammar V T) : Prop where
  noEps : EpsFree g
  begins : ∀ v β, (v, β) ∈ g.rules → ∃ t α, β = .term t :: α
  differ : ∀ v t α u β, (v, .term t :: α) ∈ g.rules → (v, .term u :: β) ∈ g.rules → teq t u = true → α = β
  kinds : ∀ v β t w γ u, (v, β) ∈ g.rules → .term t ∈ β → (w, γ) ∈ g.rules → .term u ∈ γ → teq t u = true → t = u

end Pango.Spec
