import Verif.Spec.Orders

/-!
# Grammars that differ in the values inside of their terminals

Terminals of one kind can carry different values, for example the numbers 0 and 1.  The tokens of the input are compared
by kind only.
-/

namespace Pango.Spec

open Pango.Parse

variable {V T : Type} [TerminalEq T]

/-- Bodies that differ only in the values of terminals. -/
inductive SameKinds : Body V T → Body V T → Prop
  | nil : SameKinds [] []
  | eps {β γ : Body V T} : SameKinds β γ → SameKinds (.eps :: β) (.eps :: γ)
  | var {v : V} {β γ : Body V T} : SameKinds β γ → SameKinds (.var v :: β) (.var v :: γ)
  | term {t u : T} {β γ : Body V T} : teq t u = true → SameKinds β γ → SameKinds (.term t :: β) (.term u :: γ)

/-- Grammars that differ only in the values of the terminals in their rules. -/
structure SameButValues (g g' : Grammar V T) : Prop where
  start : g.start = g'.start
  there : ∀ v β, (v, β) ∈ g.rules → ∃ β', (v, β') ∈ g'.rules ∧ SameKinds β β'
  back : ∀ v β', (v, β') ∈ g'.rules → ∃ β, (v, β) ∈ g.rules ∧ SameKinds β β'

/-- All terminals of one kind in the rules have the same value. -/
def OneValue (g : Grammar V T) : Prop :=
  ∀ v β t v' β' t', (v, β) ∈ g.rules → .term t ∈ β → (v', β') ∈ g.rules → .term t' ∈ β' → teq t t' = true → t = t'

/-- Where the parser looks at the next token, it never has to tell apart two values of the same kind. -/
def ValuesApart (g : Grammar V T) : Prop :=
  ∀ γ p p' t t', Needs g False γ p (some t) → Needs g False γ p' (some t') → teq t t' = true → t = t'

end Pango.Spec
