import Verif.Spec.Repeats

/-!
# What is repeated in a pattern
-/

namespace Pango.Spec

open Pango.Regex

variable [Unicode]

mutual

/-- In no choice both parts match the empty string. -/
def NoEmptyChoice : Expr → Prop
  | .concat es => NoEmptyChoices es
  | .empty => True
  | .alt l r => ¬ (Matches l [] ∧ Matches r []) ∧ NoEmptyChoice l ∧ NoEmptyChoice r
  | .lit _ _ => True
  | .group e _ => NoEmptyChoice e

/-- `NoEmptyChoice` for every tree of a list. -/
def NoEmptyChoices : List Expr → Prop
  | [] => True
  | e :: es => NoEmptyChoice e ∧ NoEmptyChoices es

end

/-- `Repeats e b`: `b` is what a group with a quantifier somewhere in `e` repeats. -/
inductive Repeats : Expr → Expr → Prop
  | here {b : Expr} {q : Quant} : Repeats (.group b (some q)) b
  | group {e b : Expr} {q : Option Quant} : Repeats e b → Repeats (.group e q) b
  | altL {l r b : Expr} : Repeats l b → Repeats (.alt l r) b
  | altR {l r b : Expr} : Repeats r b → Repeats (.alt l r) b
  | seq {e b : Expr} {es : List Expr} : e ∈ es → Repeats e b → Repeats (.concat es) b

mutual

/-- Every literal of the pattern matches some character, and every quantifier allows some rounds. -/
def Alive : Expr → Prop
  | .concat es => AllAlive es
  | .empty => True
  | .alt l r => Alive l ∧ Alive r
  | .lit l q => (∃ c, LitSet l c) ∧ ∃ n, QuantSet q (n + 1)
  | .group e q => Alive e ∧ ∃ n, QuantSet q (n + 1)

/-- `Alive` for every tree of a list. -/
def AllAlive : List Expr → Prop
  | [] => True
  | e :: es => Alive e ∧ AllAlive es

end

end Pango.Spec
