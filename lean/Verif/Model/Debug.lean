import Verif.Model.Lexer

/-!
# What a lexer writes to the standard error

A build with debug assertions writes something each time that a character has been fed to the simulator
(fsm/nfa/sim.rs:172-176).  The functions of `Model/Lexer.lean` once more, with what is written.  It is kept as values; how
`dbg!` makes a text of them is not modelled, nor is what was written by a call that does not return.
-/

namespace Pango.Lex

variable {σ K : Type}

/-- What `feed` writes for one character (fsm/nfa/sim.rs:174-175): the character, the runs of the simulator behind it,
and whether one of them is accepting. -/
structure Dbg (σ : Type) where
  input : Char
  runs : σ
  accepting : Bool

/-- The block at the end of `feed` (fsm/nfa/sim.rs:172-176).  `cfg(debug_assertions)` is the profile. -/
def writeDbg (p : Profile) (input : Char) (runs : σ) (accepting : Bool) (out : List (Dbg σ)) : List (Dbg σ) :=
  match p with
  | .debug => out ++ [⟨input, runs, accepting⟩]
  | .release => out

/-- The `while let` loop of `Lexer::next` and what follows it (lexer/mod.rs:72-119); `out` has been written. -/
def lexLoopD (p : Profile) (m : Machine σ) (gs : Generators K) (sim : σ) (kind : Option K) (it : InputIter)
    (out : List (Dbg σ)) : Outcome ((Option (Tok K) × InputIter) × List (Dbg σ)) :=
  match _h : it.next with
  | (some ch, it') =>
    match m.canFeed sim ch with
    | .ok false =>
      .ok (match kind with
        | some k => let (t, it) := takeToken it' k; ((some t, it), out)
        | none => ((none, it'), out))
    | .ok true =>
      match m.feed sim ch with
      | .ok (sim, true) =>
        match m.finals sim with
        | [] => .panic
        | f :: _ =>
          match gs.get f with
          | none => .panic
          | some gen =>
            lexLoopD p m gs sim (some (gen it'.acceptSuffix.source)) it'.acceptSuffix (writeDbg p ch sim true out)
      | .ok (sim, false) => lexLoopD p m gs sim kind it' (writeDbg p ch sim false out)
      | .panic => .panic
      | .diverge => .diverge
    | .panic => .panic
    | .diverge => .diverge
  | (none, it') =>
    match m.isAccepting sim with
    | .ok true =>
      .ok (match kind with
        | some k => let (t, it) := takeToken it' k; ((some t, it), out)
        | none => ((none, it'), out))
    | .ok false => .ok ((none, it'), out)
    | .panic => .panic
    | .diverge => .diverge
termination_by it.pending
decreasing_by
  · rw [InputIter.pending_accept]; exact InputIter.pending_next _h
  · exact InputIter.pending_next _h

/-- `Lexer::next` (lexer/mod.rs:68-120).  Nothing is fed, and nothing written, when the simulator is made
(fsm/nfa/sim.rs:60-67). -/
def lexNextD (p : Profile) (m : Machine σ) (gs : Generators K) (it : InputIter) (out : List (Dbg σ)) :
    Outcome ((Option (Tok K) × InputIter) × List (Dbg σ)) := do
  let sim ← m.start
  lexLoopD p m gs sim none it out

/-- `calls` calls of `Lexer::next` in a row, whatever they return (lexer/mod.rs:68-120): the answers, the iterator at
the end, and what has been written. -/
def lexCallsD (p : Profile) (m : Machine σ) (gs : Generators K) :
    Nat → InputIter → List (Dbg σ) → Outcome ((List (Option (Tok K)) × InputIter) × List (Dbg σ))
  | 0, it, out => .ok (([], it), out)
  | calls + 1, it, out => do
    let ((a, it), out) ← lexNextD p m gs it out
    let ((as, it), out) ← lexCallsD p m gs calls it out
    pure ((a :: as, it), out)

end Pango.Lex
