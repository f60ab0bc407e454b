import Verif.Model.Effects
import Verif.Model.LexParse

/-!
# A parser that reads from a lexer whose functions have effects (`pango-parser/src/parser/slr.rs`)

As `Model/LexParse.lean`, with the lexer of `Model/Effects.lean`.
-/

namespace Pango.Parse

open Pango.Lex Pango.Fsm

variable {σ V T W : Type} [DecidableEq V] [TerminalEq T]

/-- `next_token.or_else(|| input.next())` (parser/slr.rs:58). -/
def nextKindE (m : Machine σ) (gs : Generators (Lex.Action W T)) (next : Option T) (it : InputIter) (world : W) :
    Outcome ((Option T × InputIter) × W) :=
  match next with
  | some t => .ok ((some t, it), world)
  | none => do
    let ((tok, it), world) ← lexNextE m gs it world
    pure ((tok.map Tok.kind, it), world)

/-- The outcome of the parser, which changes nothing in the world itself (parser/slr.rs:44-90), with the world at that
moment. -/
def withWorld {α : Type} (world : W) : Outcome α → Outcome (α × W)
  | .ok a => .ok (a, world)
  | .panic => .panic
  | .diverge => .diverge

/-- The loop over the tokens and what follows it (parser/slr.rs:58-89), at most `n` iterations; `next` is
`next_token`. -/
def lexParseLoopE (m : Machine σ) (gs : Generators (Lex.Action W T)) (tbl : Table V T) :
    Nat → Option T → InputIter → List (ParseNode V T) → Nat → W → Outcome (Option (Node V T) × W)
  | 0, _, _, _, _, _ => .diverge
  | n + 1, next, it, stack, current, world => do
    match ← nextKindE m gs next it world with
    | ((none, _), world) => withWorld world (parseEof tbl (n + 1) stack current)
    | ((some t, it), world) =>
      match ← handleToken tbl (some t) stack current with
      | none => pure (none, world)
      | some h =>
        if h.accepted then pure (some h.node.node, world)
        else lexParseLoopE m gs tbl n (if h.taken then none else some t) it (h.node :: h.stack) h.node.state world

/-- `Slr::parse` (parser/slr.rs:44-90) on a lexer that has just been made by `tokenize(input)`.  `sim` bounds the loops
of the simulator, `fuel` those of the parser. -/
def parseTextE [Unicode] (l : Lexer (Lex.Action W T)) (tbl : Table V T) (sim fuel : Nat) (input : List Char)
    (world : W) : Outcome (Option (Node V T) × W) :=
  lexParseLoopE (nfaMachine l.nfa sim) l.tokens tbl fuel none (InputIter.new input)
    [⟨.mk (.var tbl.start) [], 0⟩] 0 world

end Pango.Parse
