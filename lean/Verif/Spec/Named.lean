import Verif.Spec.EndMarker

/-!
# A variable for every terminal

The textbook's SLR(1) grammars, and grammars in which every terminal stands alone in a rule of its own.
-/

namespace Pango.Spec

open Pango.Parse

variable {V T : Type}

/-- What the textbook's parser does next. -/
inductive TextbookMove (V T : Type) where
  | shift
  | reduce (h : V) (β : Body V T)
  | accept

/-- The textbook's table for SLR(1) parsing: what may be done in the state behind `γ` if a terminal comes next, or
(`none`) at the end of the input. -/
inductive TextbookEntry (g : Grammar V T) (γ : List (Sym V T)) : Option T → TextbookMove V T → Prop
  | shift {h : V} {i : Item V T} {t : T} : Viable g γ (h, i) → Reads i (.term t) → TextbookEntry g γ (some t) .shift
  | reduce {h : V} {i : Item V T} {t : T} : Viable g γ (h, i) → Complete i → InFollow g h (.term t) →
      TextbookEntry g γ (some t) (.reduce h i.body)
  | reduceEnd {h : V} {i : Item V T} : Viable g γ (h, i) → Complete i → CanEnd g h →
      TextbookEntry g γ none (.reduce h i.body)
  | accept : γ = [.var g.start] → TextbookEntry g γ none .accept

/-- The grammar is SLR(1): there is no state and no next terminal for which two things may be done. -/
def SlrGrammar [TerminalEq T] (g : Grammar V T) : Prop :=
  ∀ γ k k' m m', TextbookEntry g γ k m → TextbookEntry g γ k' m' → keyEq k k' = true → m = m'

/-- There is only one terminal of each kind. -/
def OneOfEachKind [TerminalEq T] (g : Grammar V T) : Prop :=
  ∀ v β t w γ u, (v, β) ∈ g.rules → .term t ∈ β → (w, γ) ∈ g.rules → .term u ∈ γ → teq t u = true → t = u

/-- A symbol with a variable in place of a terminal. -/
def nameSym : Sym V T → Sym (V ⊕ T) T
  | .var v => .var (.inl v)
  | .term t => .var (.inr t)
  | .eps => .eps

/-- The rules with variables in place of terminals, and the rules for those variables. -/
inductive NamedRule (g : Grammar V T) : V ⊕ T → Body (V ⊕ T) T → Prop
  | rule {v : V} {β : Body V T} : (v, β) ∈ g.rules → NamedRule g (.inl v) (β.map nameSym)
  | terminal {v : V} {β : Body V T} {t : T} : (v, β) ∈ g.rules → .term t ∈ β → NamedRule g (.inr t) [.term t]

mutual

/-- The tree without the nodes for the variables of terminals. -/
def unname : Node (V ⊕ T) T → Node V T
  | .mk (.var (.inl v)) cs => .mk (.var v) (unnames cs)
  | .mk (.var (.inr _)) [.mk (.term t) _] => .mk (.term t) []
  | .mk (.var (.inr t)) _ => .mk (.term t) []
  | .mk (.term t) _ => .mk (.term t) []
  | .mk .eps _ => .mk .eps []

/-- Several trees without those nodes. -/
def unnames : List (Node (V ⊕ T) T) → List (Node V T)
  | [] => []
  | n :: ns => unname n :: unnames ns

end

end Pango.Spec
