import Verif.Model.Lexer
import Verif.Model.Slr

/-!
# A parser that reads from a lexer (`pango-parser/src/parser/slr.rs`)

`Slr::parse` takes its tokens from the lexer one at a time, when it needs them.
-/

namespace Pango.Parse

open Pango.Lex Pango.Fsm

variable {σ V T : Type} [DecidableEq V] [TerminalEq T]

/-- `next_token.or_else(|| input.next())` (parser/slr.rs:58): the token that is left over, or the next one of the
lexer; the kind is all the parser uses of a token. -/
def nextKind (m : Machine σ) (gs : Generators T) (next : Option T) (it : InputIter) : Outcome (Option T × InputIter) :=
  match next with
  | some t => .ok (some t, it)
  | none => do
    let (tok, it) ← lexNext m gs it
    pure (tok.map Tok.kind, it)

/-- The loop over the tokens and what follows it (parser/slr.rs:58-89), at most `n` iterations; `next` is
`next_token`. -/
def lexParseLoop (m : Machine σ) (gs : Generators T) (tbl : Table V T) :
    Nat → Option T → InputIter → List (ParseNode V T) → Nat → Outcome (Option (Node V T))
  | 0, _, _, _, _ => .diverge
  | n + 1, next, it, stack, current => do
    match ← nextKind m gs next it with
    | (none, _) => parseEof tbl (n + 1) stack current
    | (some t, it) =>
      match ← handleToken tbl (some t) stack current with
      | none => pure none
      | some h =>
        if h.accepted then pure (some h.node.node)
        else lexParseLoop m gs tbl n (if h.taken then none else some t) it (h.node :: h.stack) h.node.state

/-- `Slr::parse` (parser/slr.rs:44-90) on a lexer that has just been made by `tokenize(input)`.  `sim` bounds the loops
of the simulator, `fuel` those of the parser. -/
def parseText [Unicode] (l : Lexer T) (tbl : Table V T) (sim fuel : Nat) (input : List Char) :
    Outcome (Option (Node V T)) :=
  lexParseLoop (nfaMachine l.nfa sim) l.tokens tbl fuel none (InputIter.new input)
    [⟨.mk (.var tbl.start) [], 0⟩] 0

end Pango.Parse
