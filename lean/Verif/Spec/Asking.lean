import Verif.Model.ParseEffects

/-!
# Parsing on demand

What a parser does that asks for tokens only when it needs them.
-/

namespace Pango.Spec

open Pango Pango.Lex Pango.Fsm Pango.Parse

variable {σ V T W : Type} [DecidableEq V] [TerminalEq T]

/-- The result does not depend on what comes behind these tokens. -/
def Settles (tbl : Table V T) (fuel : Nat) (kinds : List T) (result : Outcome (Option (Node V T))) : Prop :=
  ∀ more fin, parseTokens tbl fuel (kinds ++ more) fin = result

/-- After these tokens the parser waits for another one: if that makes the lexer panic then this is the outcome, and if
the lexer does not return the parser does not return. -/
def AsksAfter (tbl : Table V T) (fuel : Nat) (kinds : List T) : Prop :=
  parseTokens tbl fuel kinds .panic = .panic ∧ parseTokens tbl fuel kinds .diverge = .diverge

/-- The tokens are those that the first calls of `next` return, and the parser asks for each of them. -/
structure Asked (m : Machine σ) (gs : Generators (Lex.Action W T)) (tbl : Table V T) (fuel : Nat) (it : InputIter)
    (world : W) (toks : List (Tok T)) (it' : InputIter) (world' : W) : Prop where
  calls : lexCallsE m gs toks.length it world = .ok ((toks.map some, it'), world')
  asks : ∀ k < toks.length, AsksAfter tbl fuel ((toks.take k).map Tok.kind)

/-- Parsing on demand: the lexer is called as long as the parser asks for tokens, and the world is changed by these calls
only. -/
inductive OnDemand (m : Machine σ) (gs : Generators (Lex.Action W T)) (tbl : Table V T) (fuel : Nat) (it : InputIter)
    (world : W) : Outcome (Option (Node V T) × W) → Prop
  /-- The tokens settle the result: no further call is made. -/
  | settled {toks : List (Tok T)} {it' : InputIter} {world' : W} {result : Outcome (Option (Node V T))} :
      Asked m gs tbl fuel it world toks it' world' → Settles tbl fuel (toks.map Tok.kind) result →
      OnDemand m gs tbl fuel it world (withWorld world' result)
  /-- The lexer has no more tokens: the result is that of its tokens. -/
  | ended {toks : List (Tok T)} {it' it'' : InputIter} {world' world'' : W} :
      Asked m gs tbl fuel it world toks it' world' → AsksAfter tbl fuel (toks.map Tok.kind) →
      lexNextE m gs it' world' = .ok ((none, it''), world'') →
      OnDemand m gs tbl fuel it world (withWorld world'' (parseTokens tbl fuel (toks.map Tok.kind)))
  /-- A call that the parser needs panics. -/
  | panic {toks : List (Tok T)} {it' : InputIter} {world' : W} :
      Asked m gs tbl fuel it world toks it' world' → AsksAfter tbl fuel (toks.map Tok.kind) →
      lexNextE m gs it' world' = .panic → OnDemand m gs tbl fuel it world .panic
  /-- A call that the parser needs does not return. -/
  | diverge {toks : List (Tok T)} {it' : InputIter} {world' : W} :
      Asked m gs tbl fuel it world toks it' world' → AsksAfter tbl fuel (toks.map Tok.kind) →
      lexNextE m gs it' world' = .diverge → OnDemand m gs tbl fuel it world .diverge

end Pango.Spec
