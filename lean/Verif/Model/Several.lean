import Verif.Model.Nfa

/-!
# Automata of several patterns (`pango-lexer/src/fsm/nfa`)
-/

namespace Pango.Fsm

open Pango.Regex

/-- `with_expression` for each of several trees, in order (fsm/nfa/compiler.rs:28-30): they share the final state. -/
def Compiler.addExpressions (c : Compiler) : List Expr → Outcome Compiler
  | [] => .ok c
  | e :: es => do
    let c ← c.addExpression e
    c.addExpressions es

/-- `Nfa::from(asts)` (fsm/nfa/compiler.rs:24-33). -/
def nfaOfAsts (es : List Expr) : Outcome Nfa := do
  let c ← Compiler.new.addExpressions es
  c.nfa.build

/-- `Nfa::default()` (fsm/nfa/model.rs:49-53). -/
def Nfa.default : Outcome Nfa := ((Nfa.new false).addState true).2.build

end Pango.Fsm
