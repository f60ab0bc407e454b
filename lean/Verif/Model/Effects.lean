import Verif.Model.Lexer

/-!
# Lexers whose functions have effects (`pango-lexer/src/lexer/mod.rs`)

`Model/Lexer.lean` takes the functions that the user gives to `with_token` and `with_token_map` for functions in
the sense of mathematics.  Here they may read and write a world (a file, a static variable, ...), panic, or not
return.  A token kind of the lexer built by `buildLexer` is then an action on the world, and the loop runs the
action where the code calls the function.  What a lexer does after a panic inside of it was caught is in
`Model/Caught.lean`.
-/

namespace Pango.Lex

open Pango.Regex Pango.Fsm

/-- What a call of a function of the user does (`TokenKindGenerator`, lexer/mod.rs:32-37): it changes the world
and returns a token kind. -/
abbrev Action (W K : Type) := W → Outcome (K × W)

variable {σ W K : Type}

/-- The `while let` loop of `Lexer::next` and what follows it (lexer/mod.rs:72-119); the function of the user is
called in lines 96-107. -/
def lexLoopE (m : Machine σ) (gs : Generators (Action W K)) (sim : σ) (kind : Option K) (it : InputIter)
    (world : W) : Outcome ((Option (Tok K) × InputIter) × W) :=
  match _h : it.next with
  | (some ch, it') =>
    match m.canFeed sim ch with
    | .ok false =>
      .ok (match kind with
        | some k => let (t, it) := takeToken it' k; ((some t, it), world)
        | none => ((none, it'), world))
    | .ok true =>
      match m.feed sim ch with
      | .ok (sim, true) =>
        match m.finals sim with
        | [] => .panic
        | f :: _ =>
          match gs.get f with
          | none => .panic
          | some gen =>
            match gen it'.acceptSuffix.source world with
            | .ok (k, world) => lexLoopE m gs sim (some k) it'.acceptSuffix world
            | .panic => .panic
            | .diverge => .diverge
      | .ok (sim, false) => lexLoopE m gs sim kind it' world
      | .panic => .panic
      | .diverge => .diverge
    | .panic => .panic
    | .diverge => .diverge
  | (none, it') =>
    match m.isAccepting sim with
    | .ok true =>
      .ok (match kind with
        | some k => let (t, it) := takeToken it' k; ((some t, it), world)
        | none => ((none, it'), world))
    | .ok false => .ok ((none, it'), world)
    | .panic => .panic
    | .diverge => .diverge
termination_by it.pending
decreasing_by
  · rw [InputIter.pending_accept]; exact InputIter.pending_next _h
  · exact InputIter.pending_next _h

/-- `Lexer::next` (lexer/mod.rs:68-120). -/
def lexNextE (m : Machine σ) (gs : Generators (Action W K)) (it : InputIter) (world : W) :
    Outcome ((Option (Tok K) × InputIter) × W) := do
  let sim ← m.start
  lexLoopE m gs sim none it world

/-- `n` calls of `Lexer::next` in a row, whatever they return (lexer/mod.rs:68-120): the answers, the iterator at
the end and the world at the end. -/
def lexCallsE (m : Machine σ) (gs : Generators (Action W K)) :
    Nat → InputIter → W → Outcome ((List (Option (Tok K)) × InputIter) × W)
  | 0, it, world => .ok (([], it), world)
  | n + 1, it, world => do
    let ((a, it), world) ← lexNextE m gs it world
    let ((as, it), world) ← lexCallsE m gs n it world
    pure ((a :: as, it), world)

end Pango.Lex
