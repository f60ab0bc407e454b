import Verif.Spec.Slr

/-!
# LL(1) grammars

Grammars without epsilon in which the next token tells the rule.
-/

namespace Pango.Spec

open Pango.Parse

variable {V T : Type}

/-- An LL(1) grammar without epsilon: two bodies of a variable have no kind of terminal in common with which they can
begin.  Every variable can begin with some terminal, and there is only one terminal of each kind. -/
structure Predictive [TerminalEq T] (g : Grammar V T) : Prop where
  noEps : EpsFree g
  first : ∀ v β, (v, β) ∈ g.rules → ∃ t, InFirst g [.var v] (.term t)
  differ : ∀ v α β t u, (v, α) ∈ g.rules → (v, β) ∈ g.rules → InFirst g α (.term t) → InFirst g β (.term u) →
    teq t u = true → α = β
  kinds : ∀ v β t w γ u, (v, β) ∈ g.rules → .term t ∈ β → (w, γ) ∈ g.rules → .term u ∈ γ → teq t u = true → t = u

end Pango.Spec
