import Verif.Spec.Regex

/-!
# Patterns that can be read in one way only

Read from left to right, the next character decides in which part of the pattern it is read.
-/

namespace Pango.Spec

open Pango.Regex

variable [Unicode]

mutual

/-- Reading the pattern can open with the character. -/
def Opens : Expr → Char → Prop
  | .concat es, c => OpensSeq es c
  | .empty, _ => False
  | .alt l r, c => Opens l c ∨ Opens r c
  | .lit l _, c => LitSet l c
  | .group e _, c => Opens e c

/-- `Opens` for a sequence: in the first part, or in a later one if those before it can be empty. -/
def OpensSeq : List Expr → Char → Prop
  | [], _ => False
  | e :: es, c => Opens e c ∨ (Matches e [] ∧ OpensSeq es c)

end

mutual

/-- The next character decides how to go on, if the pattern can be followed by the characters `after`: the two
sides of a choice do not open with the same character, and after a repetition it is clear from the next
character whether to repeat once more. -/
def OneWay : Expr → (after : Char → Prop) → Prop
  | .concat es, after => OneWaySeq es after
  | .empty, _ => True
  | .alt l r, after => OneWay l after ∧ OneWay r after ∧
      ∀ c, ¬ ((Opens l c ∨ (Matches l [] ∧ after c)) ∧ (Opens r c ∨ (Matches r [] ∧ after c)))
  | .lit _ none, _ => True
  | .lit l (some _), after => ∀ c, ¬ (LitSet l c ∧ after c)
  | .group e none, after => OneWay e after
  | .group e (some _), after => OneWay e (fun c => Opens e c ∨ after c) ∧ ∀ c, ¬ (Opens e c ∧ after c)

/-- `OneWay` for a sequence: each part is followed by the rest. -/
def OneWaySeq : List Expr → (after : Char → Prop) → Prop
  | [], _ => True
  | e :: es, after =>
    OneWay e (fun c => OpensSeq es c ∨ (Matches (.concat es) [] ∧ after c)) ∧ OneWaySeq es after

end

mutual

/-- Every repeated group that is not itself inside of one can be read in one way only.  There is no condition on
repeated literals outside of them. -/
def RepeatsOneWay : Expr → Prop
  | .concat es => RepeatsOneWayAll es
  | .empty => True
  | .alt l r => RepeatsOneWay l ∧ RepeatsOneWay r
  | .lit _ _ => True
  | .group e none => RepeatsOneWay e
  | .group e (some _) => OneWay e (Opens e)

/-- `RepeatsOneWay` for every tree of a list. -/
def RepeatsOneWayAll : List Expr → Prop
  | [] => True
  | e :: es => RepeatsOneWay e ∧ RepeatsOneWayAll es

end

end Pango.Spec
