import Verif.Model.Slr

/-!
# Tokens with an end marker
-/

namespace Pango.Spec

open Pango.Parse

/-- Letters as tokens, and two tokens more: one that stands behind a word, and one that is not used. -/
inductive Marked (A : Type) where
  | letter (a : A)
  | stop
  | never
  deriving DecidableEq

/-- Tokens are of the same kind if they are equal. -/
instance {A : Type} [DecidableEq A] : TerminalEq (Marked A) := ⟨fun a b => decide (a = b)⟩

end Pango.Spec
