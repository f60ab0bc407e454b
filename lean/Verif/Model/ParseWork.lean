import Verif.Model.LexParse
import Verif.Model.Work

/-!
# How much work it is to parse text

The functions of `Model/LexParse.lean` once more, with a counter: every call of `handle_token` counts once, every node
that it takes from the stack counts once, and the lexer counts as in `Model/Work.lean`.
-/

namespace Pango.Parse

open Pango.Lex Pango.Fsm

variable {σ V T : Type} [DecidableEq V] [TerminalEq T]

/-- `handle_token` (parser/slr.rs:92-171) and how much work it is. -/
def handleTokenT (tbl : Table V T) (token : Option T) (stack : List (ParseNode V T)) (current : Nat) :
    Outcome (Option (Handled V T) × Nat) := do
  let row ← Outcome.expect (tbl.action[current]?)
  match rowGet row token with
  | none => pure (none, 1)
  | some (.shift dest) =>
    let t ← Outcome.expect token
    pure (some ⟨⟨.mk (.term t) [], dest⟩, false, stack, true⟩, 1)
  | some (.reduce v amount) =>
    let (children, stack) ← drainStack stack amount
    let top ← Outcome.expect stack.head?
    let row ← Outcome.expect (tbl.goto[top.state]?)
    match mapGet row v with
    | none => pure (none, 1 + children.length)
    | some dest => pure (some ⟨⟨.mk (.var v) children, dest⟩, false, stack, false⟩, 1 + children.length)
  | some (.accept v amount) =>
    let (children, stack) ← drainStack stack amount
    pure (some ⟨⟨.mk (.var v) children, 0⟩, true, stack, false⟩, 1 + children.length)

/-- The loop at the end of the input (parser/slr.rs:74-89), at most `n` iterations; `t` has been counted before. -/
def parseEofT (tbl : Table V T) : Nat → List (ParseNode V T) → Nat → Nat → Outcome (Option (Node V T) × Nat)
  | 0, _, _, _ => .diverge
  | n + 1, stack, current, t => do
    match ← handleTokenT tbl none stack current with
    | (none, k) => pure (none, t + k)
    | (some h, k) =>
      if h.accepted then pure (some h.node.node, t + k)
      else parseEofT tbl n (h.node :: h.stack) h.node.state (t + k)

/-- `next_token.or_else(|| input.next())` (parser/slr.rs:58); a token that is left over is no work. -/
def nextKindT (m : Machine σ) (size : σ → Nat) (gs : Generators T) (next : Option T) (it : InputIter) (t : Nat) :
    Outcome ((Option T × InputIter) × Nat) :=
  match next with
  | some a => .ok ((some a, it), t)
  | none => do
    let ((tok, it), t) ← lexNextT m size gs it t
    pure ((tok.map Tok.kind, it), t)

/-- The loop over the tokens and what follows it (parser/slr.rs:58-89), at most `n` iterations; `next` is
`next_token`, and `t` has been counted before. -/
def lexParseLoopT (m : Machine σ) (size : σ → Nat) (gs : Generators T) (tbl : Table V T) :
    Nat → Option T → InputIter → List (ParseNode V T) → Nat → Nat → Outcome (Option (Node V T) × Nat)
  | 0, _, _, _, _, _ => .diverge
  | n + 1, next, it, stack, current, t => do
    match ← nextKindT m size gs next it t with
    | ((none, _), t) => parseEofT tbl (n + 1) stack current t
    | ((some a, it), t) =>
      match ← handleTokenT tbl (some a) stack current with
      | (none, k) => pure (none, t + k)
      | (some h, k) =>
        if h.accepted then pure (some h.node.node, t + k)
        else lexParseLoopT m size gs tbl n (if h.taken then none else some a) it (h.node :: h.stack) h.node.state (t + k)

/-- `Slr::parse` (parser/slr.rs:44-90) on a lexer that has just been made by `tokenize(input)`, and how much work it is;
the size of the simulator is the number of its runs.  `sim` bounds the loops of the simulator, `fuel` those of the
parser. -/
def parseTextT [Unicode] (l : Lexer T) (tbl : Table V T) (sim fuel : Nat) (input : List Char) :
    Outcome (Option (Node V T) × Nat) :=
  lexParseLoopT (nfaMachine l.nfa sim) List.length l.tokens tbl fuel none (InputIter.new input)
    [⟨.mk (.var tbl.start) [], 0⟩] 0 0

end Pango.Parse
