import Mathlib.Computability.ContextFreeGrammar
import Verif.Spec.Cfg

/-!
# Grammars as context-free grammars of Mathlib
-/

namespace Pango.Spec

open Pango.Parse

variable {V T : Type}

/-- A string of symbols without the epsilons. -/
def symbols : List (Sym V T) → List (Symbol T V)
  | [] => []
  | .eps :: α => symbols α
  | .term t :: α => .terminal t :: symbols α
  | .var v :: α => .nonterminal v :: symbols α

open Classical in
/-- The context-free grammar with the same rules. -/
noncomputable def asCfg (g : Grammar V T) : ContextFreeGrammar T where
  NT := V
  initial := g.start
  rules := (g.rules.map fun r => ⟨r.1, symbols r.2⟩).toFinset

end Pango.Spec
