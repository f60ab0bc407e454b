import Verif.Model.Grammar

/-!
# Derivations

What a context-free grammar means, as in a textbook: a string of symbols is rewritten by replacing a variable
with the body of one of its rules; the symbol epsilon stands for the empty string.
-/

namespace Pango.Spec

open Pango.Parse

variable {V T : Type}

/-- One step of a derivation. -/
inductive Step (g : Grammar V T) : List (Sym V T) → List (Sym V T) → Prop
  | rule {x y β : List (Sym V T)} {v : V} :
      (v, β) ∈ g.rules → Step g (x ++ .var v :: y) (x ++ (β ++ y))
  | eps {x y : List (Sym V T)} : Step g (x ++ .eps :: y) (x ++ y)

/-- Any number of steps. -/
inductive Derives (g : Grammar V T) : List (Sym V T) → List (Sym V T) → Prop
  | refl {x : List (Sym V T)} : Derives g x x
  | step {x y z : List (Sym V T)} : Derives g x y → Step g y z → Derives g x z

/-- FIRST: the terminals that begin a string derived from `α`, and epsilon if the empty string can be
derived. -/
def InFirst (g : Grammar V T) (α : List (Sym V T)) : Sym V T → Prop
  | .term t => ∃ β, Derives g α (.term t :: β)
  | .eps => Derives g α []
  | .var _ => False

/-- FOLLOW: the terminals that stand directly behind `v` in a string derived from some variable. -/
def InFollow (g : Grammar V T) (v : V) : Sym V T → Prop
  | .term t => ∃ w α β, Derives g [.var w] (α ++ .var v :: .term t :: β)
  | _ => False

/-- What the grammar builder makes sure of. -/
structure WellFormed (g : Grammar V T) : Prop where
  start : ∃ β, (g.start, β) ∈ g.rules
  closed : ∀ h β v, (h, β) ∈ g.rules → Sym.var v ∈ β → ∃ γ, (v, γ) ∈ g.rules
  nonempty : ∀ h β, (h, β) ∈ g.rules → β ≠ []
  nodup : g.rules.Nodup

end Pango.Spec
