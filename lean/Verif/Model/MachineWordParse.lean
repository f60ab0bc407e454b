import Verif.Model.MachineWord
import Verif.Model.LexParse

/-!
# A parser that reads from a lexer, with machine words

As `Model/LexParse.lean`, with the lexer of `Model/MachineWord.lean`.
-/

namespace Pango.Parse

open Pango.Lex Pango.Fsm

variable {σ V T : Type} [DecidableEq V] [TerminalEq T]

/-- `next_token.or_else(|| input.next())` (pango-parser/src/parser/slr.rs:58). -/
def nextKindW (w : Words) (m : Machine σ) (gs : Generators T) (next : Option T) (it : InputIter) :
    Outcome (Option T × InputIter) :=
  match next with
  | some t => .ok (some t, it)
  | none => do
    let (tok, it) ← lexNextW w m gs it
    pure (tok.map Tok.kind, it)

/-- The loop over the tokens and what follows it (pango-parser/src/parser/slr.rs:58-89), at most `n` iterations; `next`
is `next_token`.  The parser itself does no arithmetic on its states. -/
def lexParseLoopW (w : Words) (m : Machine σ) (gs : Generators T) (tbl : Table V T) :
    Nat → Option T → InputIter → List (ParseNode V T) → Nat → Outcome (Option (Node V T))
  | 0, _, _, _, _ => .diverge
  | n + 1, next, it, stack, current => do
    match ← nextKindW w m gs next it with
    | (none, _) => parseEof tbl (n + 1) stack current
    | (some t, it) =>
      match ← handleToken tbl (some t) stack current with
      | none => pure none
      | some h =>
        if h.accepted then pure (some h.node.node)
        else lexParseLoopW w m gs tbl n (if h.taken then none else some t) it (h.node :: h.stack) h.node.state

/-- `Slr::parse` (pango-parser/src/parser/slr.rs:44-90) on a lexer that has just been made by `tokenize(input)`. -/
def parseTextW [Unicode] (w : Words) (l : Lexer T) (tbl : Table V T) (sim fuel : Nat) (input : List Char) :
    Outcome (Option (Node V T)) :=
  lexParseLoopW w (nfaMachineW w l.nfa sim) l.tokens tbl fuel none (InputIter.new input)
    [⟨.mk (.var tbl.start) [], 0⟩] 0

end Pango.Parse
