import Verif.Model.Lexer

/-!
# How much `Lexer::next` reads

The functions of `Model/Lexer.lean` once more, with a counter of the characters that `self.iter.next()` has returned
(lexer/mod.rs:72).  For every character the loop calls `can_feed` once, and `feed` at most once.
-/

namespace Pango.Lex

variable {σ K : Type}

/-- The `while let` loop of `Lexer::next` and what follows it (lexer/mod.rs:72-119); `n` characters have been read. -/
def lexLoopN (m : Machine σ) (gs : Generators K) (sim : σ) (kind : Option K) (it : InputIter) (n : Nat) :
    Outcome ((Option (Tok K) × InputIter) × Nat) :=
  match _h : it.next with
  | (some ch, it') =>
    match m.canFeed sim ch with
    | .ok false =>
      .ok (match kind with
        | some k => let (t, it) := takeToken it' k; ((some t, it), n + 1)
        | none => ((none, it'), n + 1))
    | .ok true =>
      match m.feed sim ch with
      | .ok (sim, true) =>
        match m.finals sim with
        | [] => .panic
        | f :: _ =>
          match gs.get f with
          | none => .panic
          | some gen => lexLoopN m gs sim (some (gen it'.acceptSuffix.source)) it'.acceptSuffix (n + 1)
      | .ok (sim, false) => lexLoopN m gs sim kind it' (n + 1)
      | .panic => .panic
      | .diverge => .diverge
    | .panic => .panic
    | .diverge => .diverge
  | (none, it') =>
    match m.isAccepting sim with
    | .ok true =>
      .ok (match kind with
        | some k => let (t, it) := takeToken it' k; ((some t, it), n)
        | none => ((none, it'), n))
    | .ok false => .ok ((none, it'), n)
    | .panic => .panic
    | .diverge => .diverge
termination_by it.pending
decreasing_by
  · rw [InputIter.pending_accept]; exact InputIter.pending_next _h
  · exact InputIter.pending_next _h

/-- `Lexer::next` (lexer/mod.rs:68-120). -/
def lexNextN (m : Machine σ) (gs : Generators K) (it : InputIter) (n : Nat) :
    Outcome ((Option (Tok K) × InputIter) × Nat) := do
  let sim ← m.start
  lexLoopN m gs sim none it n

/-- `calls` calls of `Lexer::next` in a row, whatever they return (lexer/mod.rs:68-120): the answers, the iterator at
the end, and how many characters have been read. -/
def lexCallsN (m : Machine σ) (gs : Generators K) :
    Nat → InputIter → Nat → Outcome ((List (Option (Tok K)) × InputIter) × Nat)
  | 0, it, n => .ok (([], it), n)
  | calls + 1, it, n => do
    let ((a, it), n) ← lexNextN m gs it n
    let ((as, it), n) ← lexCallsN m gs calls it n
    pure ((a :: as, it), n)

end Pango.Lex
