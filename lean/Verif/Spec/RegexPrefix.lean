import Verif.Spec.RegexClass
import Verif.Spec.Lexing

/-!
# How far a pattern can be read
-/

namespace Pango.Spec

open Pango.Regex

variable [Unicode]

/-- The words that can be read from the beginning of a pattern, whether or not they can be completed to a
match: repetitions are read without regard to how often the quantifier allows them.  `aaa` can be read from
the beginning of `a?`. -/
inductive MayRead : Expr → List Char → Prop
  | nothing {e : Expr} : MayRead e []
  | altL {l r : Expr} {w : List Char} : MayRead l w → MayRead (.alt l r) w
  | altR {l r : Expr} {w : List Char} : MayRead r w → MayRead (.alt l r) w
  | here {e : Expr} {es : List Expr} {w : List Char} : MayRead e w → MayRead (.concat (e :: es)) w
  | later {e : Expr} {es : List Expr} {u v : List Char} :
      Matches e u → MayRead (.concat es) v → MayRead (.concat (e :: es)) (u ++ v)
  | char {l : Lit} {c : Char} : LitSet l c → MayRead (.lit l none) [c]
  | chars {l : Lit} {q : Quant} {w : List Char} : (∀ c ∈ w, LitSet l c) → MayRead (.lit l (some q)) w
  | once {e : Expr} {w : List Char} : MayRead e w → MayRead (.group e none) w
  | times {e : Expr} {q : Quant} {ws : List (List Char)} {v : List Char} :
      (∀ w ∈ ws, Matches e w) → MayRead e v → MayRead (.group e (some q)) (ws.flatten ++ v)

/-- The patterns of a lexer about whose matching everything is known. -/
def Regular (es : List Expr) : Prop := ∀ e ∈ es, RepeatsNonEmpty e ∧ CountsAtStart e

/-- The rules of a lexer as regular languages. -/
def languages (es : List Expr) : List (List Char → Prop) := es.map fun e w => Matches e w

/-- One character of lookahead is enough: if a rule matches what was read, and some pattern
can read one more character, then a rule matches that too. -/
def OneLookahead (es : List Expr) : Prop :=
  ∀ w c, w ≠ [] → AnyMatch (languages es) w → (∃ e ∈ es, MayRead e (w ++ [c])) →
    AnyMatch (languages es) (w ++ [c])

end Pango.Spec
