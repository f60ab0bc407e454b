import Verif.Model.Effects

/-!
# Lexers that are used again after a panic (`pango-lexer/src/lexer/mod.rs`)

A function of the user may panic, and the panic may be caught (`std::panic::catch_unwind` around the call of
`next`).  The lexer can then be used again.  It is in the state that it was in when the function was called: what
has been read is in the token that is being built, and nothing has been consumed.  The simulator and `token_kind` are
variables of the call, and are gone.  In this model functions that do not return are left out.
-/

namespace Pango.Lex

/-- What a call of a function of the user does (`TokenKindGenerator`, lexer/mod.rs:32-37): it changes the world, and
returns a token kind or (`none`) panics. -/
abbrev Fallible (W K : Type) := W → Option K × W

/-- What a call of `next` does that is made inside of `catch_unwind` (lexer/mod.rs:68). -/
inductive Answer (K : Type) where
  | returned (a : Option (Tok K))
  | panicked
  deriving DecidableEq

variable {σ W K : Type}

/-- The `while let` loop of `Lexer::next` and what follows it (lexer/mod.rs:72-119); the function of the user is
called in lines 96-107.  If it panics the call ends there, with the iterator as it is then. -/
def lexLoopC (m : Machine σ) (gs : Generators (Fallible W K)) (sim : σ) (kind : Option K) (it : InputIter)
    (world : W) : Outcome ((Answer K × InputIter) × W) :=
  match _h : it.next with
  | (some ch, it') =>
    match m.canFeed sim ch with
    | .ok false =>
      .ok (match kind with
        | some k => let (t, it) := takeToken it' k; ((.returned (some t), it), world)
        | none => ((.returned none, it'), world))
    | .ok true =>
      match m.feed sim ch with
      | .ok (sim, true) =>
        match m.finals sim with
        | [] => .panic
        | f :: _ =>
          match gs.get f with
          | none => .panic
          | some gen =>
            match gen it'.acceptSuffix.source world with
            | (some k, world) => lexLoopC m gs sim (some k) it'.acceptSuffix world
            | (none, world) => .ok ((.panicked, it'.acceptSuffix), world)
      | .ok (sim, false) => lexLoopC m gs sim kind it' world
      | .panic => .panic
      | .diverge => .diverge
    | .panic => .panic
    | .diverge => .diverge
  | (none, it') =>
    match m.isAccepting sim with
    | .ok true =>
      .ok (match kind with
        | some k => let (t, it) := takeToken it' k; ((.returned (some t), it), world)
        | none => ((.returned none, it'), world))
    | .ok false => .ok ((.returned none, it'), world)
    | .panic => .panic
    | .diverge => .diverge
termination_by it.pending
decreasing_by
  · rw [InputIter.pending_accept]; exact InputIter.pending_next _h
  · exact InputIter.pending_next _h

/-- `Lexer::next` (lexer/mod.rs:68-120), called inside of `catch_unwind`. -/
def lexNextC (m : Machine σ) (gs : Generators (Fallible W K)) (it : InputIter) (world : W) :
    Outcome ((Answer K × InputIter) × W) := do
  let sim ← m.start
  lexLoopC m gs sim none it world

/-- `n` calls of `Lexer::next` in a row, each inside of `catch_unwind`, whatever they do (lexer/mod.rs:68-120): the
answers, the iterator at the end and the world at the end. -/
def lexCallsC (m : Machine σ) (gs : Generators (Fallible W K)) :
    Nat → InputIter → W → Outcome ((List (Answer K) × InputIter) × W)
  | 0, it, world => .ok (([], it), world)
  | n + 1, it, world => do
    let ((a, it), world) ← lexNextC m gs it world
    let ((as, it), world) ← lexCallsC m gs n it world
    pure ((a :: as, it), world)

end Pango.Lex
