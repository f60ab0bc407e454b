import Verif.Model.Lexer

/-!
# How much work `Lexer::next` does

The functions of `Model/Lexer.lean` once more, with a counter.  It goes up by one for every character that
`self.iter.next()` returns (lexer/mod.rs:72), and by the number of runs for every set of runs that the simulator makes:
one when a call begins (lexer/mod.rs:69, fsm/nfa/sim.rs:60-67), and one for every character that is fed
(lexer/mod.rs:81, fsm/nfa/sim.rs:136-179).  The other things that are done with a set of runs, `can_feed`,
`is_accepting` and `get_current_final_states` (fsm/nfa/sim.rs:130-134 and 181-218), look at each run of the set at most
once, and so does the next `feed`; `eps_closure` (fsm/nfa/sim.rs:72-113) looks once at each run that it returns.  Not
counted: the work of moving characters between the buffers of the iterator, and of the functions that make the kinds.
-/

namespace Pango.Lex

variable {σ K : Type}

/-- The `while let` loop of `Lexer::next` and what follows it (lexer/mod.rs:72-119); `size` tells how many runs there
are, and `t` is the work done so far. -/
def lexLoopT (m : Machine σ) (size : σ → Nat) (gs : Generators K) (sim : σ) (kind : Option K) (it : InputIter)
    (t : Nat) : Outcome ((Option (Tok K) × InputIter) × Nat) :=
  match _h : it.next with
  | (some ch, it') =>
    match m.canFeed sim ch with
    | .ok false =>
      .ok (match kind with
        | some k => let (tok, it) := takeToken it' k; ((some tok, it), t + 1)
        | none => ((none, it'), t + 1))
    | .ok true =>
      match m.feed sim ch with
      | .ok (sim, true) =>
        match m.finals sim with
        | [] => .panic
        | f :: _ =>
          match gs.get f with
          | none => .panic
          | some gen =>
            lexLoopT m size gs sim (some (gen it'.acceptSuffix.source)) it'.acceptSuffix (t + 1 + size sim)
      | .ok (sim, false) => lexLoopT m size gs sim kind it' (t + 1 + size sim)
      | .panic => .panic
      | .diverge => .diverge
    | .panic => .panic
    | .diverge => .diverge
  | (none, it') =>
    match m.isAccepting sim with
    | .ok true =>
      .ok (match kind with
        | some k => let (tok, it) := takeToken it' k; ((some tok, it), t)
        | none => ((none, it'), t))
    | .ok false => .ok ((none, it'), t)
    | .panic => .panic
    | .diverge => .diverge
termination_by it.pending
decreasing_by
  · rw [InputIter.pending_accept]; exact InputIter.pending_next _h
  · exact InputIter.pending_next _h

/-- `Lexer::next` (lexer/mod.rs:68-120). -/
def lexNextT (m : Machine σ) (size : σ → Nat) (gs : Generators K) (it : InputIter) (t : Nat) :
    Outcome ((Option (Tok K) × InputIter) × Nat) := do
  let sim ← m.start
  lexLoopT m size gs sim none it (t + size sim)

/-- `calls` calls of `Lexer::next` in a row, whatever they return (lexer/mod.rs:68-120): the answers, the iterator at
the end, and how much work has been done. -/
def lexCallsT (m : Machine σ) (size : σ → Nat) (gs : Generators K) :
    Nat → InputIter → Nat → Outcome ((List (Option (Tok K)) × InputIter) × Nat)
  | 0, it, t => .ok (([], it), t)
  | calls + 1, it, t => do
    let ((a, it), t) ← lexNextT m size gs it t
    let ((as, it), t) ← lexCallsT m size gs calls it t
    pure ((a :: as, it), t)

end Pango.Lex
