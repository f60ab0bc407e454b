import Verif.Spec.Regex

/-!
# What patterns mean to the matcher

The matcher counts the rounds of a repeated group when it goes around, but at the very start of a string
it looks for what can come first without counting.  So the first round of a group that is entered before
any character was read counts only if its first character is read by a literal that stands at the very
front of the group.  This is the regular language with that difference and no other.
-/

namespace Pango.Spec

open Pango.Regex

mutual

/-- The pattern can be passed over before the first character: optional parts and repetitions that
allow zero rounds.  A repetition that needs a round is not passed over, even if what it repeats is
empty. -/
def Skips : Expr → Prop
  | .concat es => SkipsAll es
  | .empty => True
  | .alt l r => Skips l ∨ Skips r
  | .lit _ none => False
  | .lit _ (some q) => QuantSet (some q) 0
  | .group e none => Skips e
  | .group _ (some q) => QuantSet (some q) 0

/-- `Skips` for every tree of a list. -/
def SkipsAll : List Expr → Prop
  | [] => True
  | e :: es => Skips e ∧ SkipsAll es

end

variable [Unicode]

/-- `Begins e counted w`: the string `w`, with the first character of the input at its front, is read
by `e`.  It is counted if that character was read by a literal without a quantifier that nothing stands
before. -/
inductive Begins : Expr → Bool → List Char → Prop
  | lit {l : Lit} {c : Char} : LitSet l c → Begins (.lit l none) true [c]
  | rep {l : Lit} {q : Quant} {w : List Char} : w ≠ [] → QuantSet (some q) w.length →
      (∀ c ∈ w, LitSet l c) → Begins (.lit l (some q)) false w
  | altL {l r : Expr} {b : Bool} {w : List Char} : Begins l b w → Begins (.alt l r) b w
  | altR {l r : Expr} {b : Bool} {w : List Char} : Begins r b w → Begins (.alt l r) b w
  | here {e : Expr} {es : List Expr} {b : Bool} {u v : List Char} :
      Begins e b u → Matches (.concat es) v → Begins (.concat (e :: es)) b (u ++ v)
  | later {e : Expr} {es : List Expr} {b : Bool} {w : List Char} :
      Skips e → Begins (.concat es) b w → Begins (.concat (e :: es)) false w
  | group {e : Expr} {b : Bool} {w : List Char} : Begins e b w → Begins (.group e none) b w
  | rounds {e : Expr} {q : Quant} {b : Bool} {u : List Char} {ws : List (List Char)} :
      Begins e b u → (∀ w ∈ ws, Matches e w) →
      QuantSet (some q) (if b then ws.length + 1 else ws.length) →
      Begins (.group e (some q)) false (u ++ ws.flatten)

/-- What the matcher takes for a match of the whole string. -/
def Taken (e : Expr) (w : List Char) : Prop :=
  (w = [] ∧ Skips e) ∨ ∃ b, Begins e b w

end Pango.Spec
