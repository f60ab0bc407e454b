import Verif.Model.Cfsm

/-!
# Items

An item is a rule with a cursor in its body.  The rules of the start variable are looked at first; a variable in
front of the cursor brings in its own rules; reading a symbol moves the cursor behind it.  Epsilons are stepped
over at once.
-/

namespace Pango.Spec

open Pango.Parse

variable {V T : Type}

/-- The cursor is in front of the symbol. -/
def Reads (i : Item V T) (x : Sym V T) : Prop :=
  ∃ pre post, i.body = pre ++ x :: post ∧ i.cursor = pre.length

/-- The cursor is at the front of the body, behind its leading epsilons. -/
def Fresh (β : Body V T) (i : Item V T) : Prop :=
  i.body = β ∧ ∃ rest, β = List.replicate i.cursor .eps ++ rest ∧ ∀ r, rest ≠ .eps :: r

/-- `j` is `i` after reading the symbol `x`: the cursor is behind it, and behind the epsilons after it. -/
def Advanced (i : Item V T) (x : Sym V T) (j : Item V T) : Prop :=
  j.body = i.body ∧ ∃ pre k rest, i.body = pre ++ x :: (List.replicate k .eps ++ rest) ∧
    (∀ r, rest ≠ .eps :: r) ∧ i.cursor = pre.length ∧ j.cursor = pre.length + 1 + k

/-- The items that can be reached from the given ones by bringing in the rules of variables. -/
inductive Closure (g : Grammar V T) (given : V × Item V T → Prop) : V × Item V T → Prop
  | given {p : V × Item V T} : given p → Closure g given p
  | expand {h v : V} {i j : Item V T} {β : Body V T} : Closure g given (h, i) → Reads i (.var v) →
      (v, β) ∈ g.rules → Fresh β j → Closure g given (v, j)

/-- The items that can be reached from the start rules by reading the string. -/
inductive Viable (g : Grammar V T) : List (Sym V T) → V × Item V T → Prop
  | start {β : Body V T} {i : Item V T} : (g.start, β) ∈ g.rules → Fresh β i → Viable g [] (g.start, i)
  | expand {γ : List (Sym V T)} {h v : V} {i j : Item V T} {β : Body V T} : Viable g γ (h, i) →
      Reads i (.var v) → (v, β) ∈ g.rules → Fresh β j → Viable g γ (v, j)
  | read {γ : List (Sym V T)} {h : V} {i j : Item V T} {x : Sym V T} : Viable g γ (h, i) →
      Advanced i x j → Viable g (γ ++ [x]) (h, j)

/-- The state of an automaton reached from the start state along a string of symbols. -/
inductive Reached (c : Cfsm V T) : List (Sym V T) → CState V T → Prop
  | start {s : CState V T} : s ∈ c.states → s.id = 0 → Reached c [] s
  | step {γ : List (Sym V T)} {s s' : CState V T} {x : Sym V T} {d : Nat} : Reached c γ s →
      (x, d) ∈ s.transitions → s' ∈ c.states → s'.id = d → Reached c (γ ++ [x]) s'

end Pango.Spec
