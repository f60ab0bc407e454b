import Verif.Model.Example
import Verif.Model.Printed

/-!
# What the example prints for a result
-/

namespace Pango.Example

open Pango.Parse

/-- `Debug` of `Variables` (examples/expr.rs:4-7). -/
def Variables.debug : Variables → Text
  | .expr => "Expr".toList

/-- `Debug` of `Terminals` (examples/expr.rs:9-14); a `usize` is printed in decimal. -/
def Terminals.debug (style : Style) : Terminals → Text
  | .mul => "Mul".toList
  | .plus => "Plus".toList
  | .val n => debugTuple style "Val".toList [Nat.toDigits 10 n]

/-- `Debug` of the two types (examples/expr.rs:4 and 9). -/
def exprPrints : Prints Variables Terminals := ⟨fun _ => Variables.debug, Terminals.debug⟩

end Pango.Example
