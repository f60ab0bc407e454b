import Verif.Spec.RegexReach

/-!
# The characters of a pattern
-/

namespace Pango.Spec

open Pango.Regex

variable [Unicode]

/-- The character stands somewhere in the pattern, or is in one of its classes. -/
inductive Uses : Expr → Char → Prop
  | lit {l : Lit} {q : Option Quant} {c : Char} : LitSet l c → Uses (.lit l q) c
  | altL {l r : Expr} {c : Char} : Uses l c → Uses (.alt l r) c
  | altR {l r : Expr} {c : Char} : Uses r c → Uses (.alt l r) c
  | part {e : Expr} {es : List Expr} {c : Char} : e ∈ es → Uses e c → Uses (.concat es) c
  | group {e : Expr} {q : Option Quant} {c : Char} : Uses e c → Uses (.group e q) c

end Pango.Spec
