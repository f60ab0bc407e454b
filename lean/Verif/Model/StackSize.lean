import Verif.Model.Slr

/-!
# The stacks of the parser

The functions follow the loops of `Slr::parse` in `Model/Slr.lean` and list the stacks it holds.
-/

namespace Pango.Parse

variable {V T : Type} [DecidableEq V] [DecidableEq T] [TerminalEq T]

/-- The stacks at the start of the iterations of the loop at the end of the input (parser/slr.rs:74-89), in at most `n`
iterations. -/
def eofStacks (tbl : Table V T) : Nat → List (ParseNode V T) → Nat → List (List (ParseNode V T))
  | 0, _, _ => []
  | n + 1, stack, current => stack ::
    match handleToken tbl none stack current with
    | .ok (some h) => if h.accepted then [] else eofStacks tbl n (h.node :: h.stack) h.node.state
    | _ => []

/-- The stacks at the start of the iterations of both loops (parser/slr.rs:58-89), in at most `n` iterations, each with
the tokens that are not yet on the stack.  `fin` says how the input ends, as in `parseLoop`. -/
def loopStacks (tbl : Table V T) (fin : InputEnd) :
    Nat → List T → List (ParseNode V T) → Nat → List (List T × List (ParseNode V T))
  | 0, _, _, _ => []
  | n + 1, [], stack, current =>
    match fin with
    | .ok () => (eofStacks tbl (n + 1) stack current).map fun st => ([], st)
    | _ => [([], stack)]
  | n + 1, t :: input, stack, current => (t :: input, stack) ::
    match handleToken tbl (some t) stack current with
    | .ok (some h) =>
      if h.accepted then []
      else loopStacks tbl fin n (if h.taken then input else t :: input) (h.node :: h.stack) h.node.state
    | _ => []

/-- The stacks `Slr::parse` holds (parser/slr.rs:44-90). -/
def parseStacks (tbl : Table V T) (fuel : Nat) (input : List T) (fin : InputEnd := .ok ()) :
    List (List T × List (ParseNode V T)) :=
  loopStacks tbl fin fuel input [⟨.mk (.var tbl.start) [], 0⟩] 0

end Pango.Parse
