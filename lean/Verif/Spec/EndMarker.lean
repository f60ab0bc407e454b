import Verif.Spec.Slr

/-!
# Grammars with an end marker
-/

namespace Pango.Spec

open Pango.Parse

variable {V T : Type}

/-- The grammar `g` with the start variable `z` and the additional rules `z → S e` and `z → z f`, where `S` is the start
variable of `g`. -/
def withEnd (g : Grammar V T) (z : V) (e f : T) : Grammar V T :=
  ⟨z, g.rules ++ [(z, [.var g.start, .term e]), (z, [.var z, .term f])]⟩

/-- The variable and the terminals are not in the grammar, not even up to the kind of the terminals. -/
structure NotIn [TerminalEq T] (g : Grammar V T) (z : V) (e f : T) : Prop where
  head : ∀ β, (z, β) ∉ g.rules
  marker : ∀ h β t, (h, β) ∈ g.rules → .term t ∈ β → teq t e = false
  never : ∀ h β t, (h, β) ∈ g.rules → .term t ∈ β → teq t f = false
  differ : teq e f = false

/-- The variable can come last in something derived from the start variable: it is the start variable, or the last
symbol in a body of a variable that can. -/
inductive CanEnd (g : Grammar V T) : V → Prop
  | start : CanEnd g g.start
  | last {h v : V} {pre : List (Sym V T)} : (h, pre ++ [.var v]) ∈ g.rules → CanEnd g h → CanEnd g v

/-- What the textbook's table for SLR(1) parsing has in the state behind `γ`, by item: a terminal to be shifted, or a
terminal or the end of the input (`none`) on which a rule is reduced.  There is one item more, which is no item of the
grammar: behind the start variable the input is accepted if it ends. -/
inductive TableEntry (g : Grammar V T) (γ : List (Sym V T)) : Option (V × Item V T) → Option T → Prop
  | shift {h : V} {i : Item V T} {t : T} : Viable g γ (h, i) → Reads i (.term t) → TableEntry g γ (some (h, i)) (some t)
  | reduce {h : V} {i : Item V T} {t : T} : Viable g γ (h, i) → Complete i → InFollow g h (.term t) →
      TableEntry g γ (some (h, i)) (some t)
  | reduceEnd {h : V} {i : Item V T} : Viable g γ (h, i) → Complete i → CanEnd g h → TableEntry g γ (some (h, i)) none
  | accept : γ = [.var g.start] → TableEntry g γ none none

/-- No two items behind the same symbols have entries for terminals of the same kind, or for the end of the input; nor
has one item two such entries.  The textbook only forbids this for different actions: it lets two items shift the same
terminal, as in `S → a b | a c`. -/
def OneEntryEach [TerminalEq T] (g : Grammar V T) : Prop :=
  ∀ γ p p' k k', TableEntry g γ p k → TableEntry g γ p' k' → keyEq k k' = true → p = p' ∧ k = k'

end Pango.Spec
