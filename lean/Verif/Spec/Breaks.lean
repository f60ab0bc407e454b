import Verif.Spec.ShiftReduce

/-!
# Where the parser breaks

The rows of the two tables are numbered like the states of the automaton, and each table ends with the last row that
has an entry.  A state that comes after all states with an entry has no row.
-/

namespace Pango.Spec

open Pango.Parse

variable {V T : Type}

/-- The state behind `γ` comes after the states behind all `γ'` with this property. -/
def After (c : Cfsm V T) (p : List (Sym V T) → Prop) (γ : List (Sym V T)) : Prop :=
  ∃ s, Reached c γ s ∧ ∀ γ' s', p γ' → Reached c γ' s' → s'.id < s.id

/-- An item behind the string asks for a token or for the end of the input. -/
def Acts (g : Grammar V T) (accepts : Prop) (γ : List (Sym V T)) : Prop := ∃ p k, Needs g accepts γ p k

/-- An item behind the string has a variable behind the cursor. -/
def ReadsVariable (g : Grammar V T) (γ : List (Sym V T)) : Prop := ∃ q v, Viable g γ q ∧ Reads q.2 (.var v)

/-- Where the parser breaks, with states numbered as in the automaton: behind the stack is a state that comes after all
that do something; or a rule is reduced and what is left of the stack leads to a state that comes after all that read a
variable; or a rule is longer than the stack. -/
inductive Breaks [TerminalEq T] (g : Grammar V T) (c : Cfsm V T) (accepts : Prop) : Config V T → Prop
  | noRow {γ : List (Sym V T)} {ns : List (Node V T)} {w : List T} : After c (Acts g accepts) γ →
      Breaks g c accepts ⟨γ, ns, w⟩
  | noGotoRow {γ ρ : List (Sym V T)} {ns : List (Node V T)} {h : V} {i : Item V T} {t u : T} {w : List T} :
      Viable g (γ ++ ρ) (h, i) → Complete i → InFollow g h (.term t) → teq t u = true → ρ.length = i.body.length →
      After c (ReadsVariable g) γ → Breaks g c accepts ⟨γ ++ ρ, ns, u :: w⟩
  | underflow {x : Config V T} : Halts g accepts x .underflow → Breaks g c accepts x

end Pango.Spec
