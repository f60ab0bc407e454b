import Verif.Spec.RegexSyntax
import Verif.Proofs.Scan

/-!
# Patterns that are read to the end
-/

namespace Pango.Spec

open Pango.Regex

/-- All tokens of the text together are an expression of the documented syntax, with this tree; bracket groups may
be empty. -/
structure Whole (p : Profile) (a : List Char) (e : Expr) : Prop where
  tokens : Expression ⟨false, true⟩ e (scan p a).kinds
  ends : (scan p a).stop = .eof

/-- The tree of `a|b`: bars are nested to the right. -/
def orTree : Expr → Expr → Expr
  | .alt x y, e => .alt x (orTree y e)
  | x, e => .alt x e

/-- The parts of a sequence, or the tree itself. -/
def parts : Expr → List Expr
  | .concat es => es
  | e => [e]

end Pango.Spec
