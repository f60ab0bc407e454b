import Verif.Model.Lexer

/-!
# The lexer with machine words

In `Model/Nfa.lean` and `Model/Lexer.lean` counters and positions are natural numbers.  Here they are the `usize` they
are in the code: there are `size` many, and going beyond the last is a panic with overflow checks (debug) and leads to
zero without (release).  The two models are related by property C98.
-/

namespace Pango

/-- A `usize` has `size` values; the profile says what its arithmetic does on overflow.  `usize` is the type of the
counters (fsm/nfa/model.rs:8) and positions (lexer/input.rs:12, 23). -/
structure Words where
  size : Nat
  profile : Profile
  deriving Repr, DecidableEq

/-- `+ 1` on a `usize`, as at fsm/nfa/sim.rs:50 and lexer/input.rs:109. -/
def Words.succ (w : Words) (n : Nat) : Outcome Nat :=
  if n + 1 < w.size then .ok (n + 1)
  else match w.profile with
    | .debug => .panic
    | .release => .ok 0

end Pango

namespace Pango.Fsm

open Pango Pango.Regex

/-- `counters.entry(id).or_insert(0)` followed by an update that may panic.  fsm/nfa/sim.rs:45-51. -/
def Counters.updateW (f : Nat → Outcome Nat) (id : Nat) : Counters → Outcome Counters
  | [] => do
    let n ← f 0
    pure [(id, n)]
  | (k, v) :: r =>
    if id < k then do
      let n ← f 0
      pure ((id, n) :: (k, v) :: r)
    else if k = id then do
      let n ← f v
      pure ((k, n) :: r)
    else do
      let r ← Counters.updateW f id r
      pure ((k, v) :: r)

/-- `take_transition` (fsm/nfa/sim.rs:44-55). -/
def Run.takeTransitionW (w : Words) (r : Run) (dest : Nat) (quantified : Bool) : Outcome Run := do
  let counters ← r.counters.updateW (fun n => if quantified then .ok 0 else w.succ n) r.state
  pure ⟨dest, counters⟩

/-- The new runs of one round of `eps_closure` (fsm/nfa/sim.rs:77-104). -/
def Nfa.epsStepW (w : Words) (nfa : Nfa) (r : Run) : Outcome (List Run) := do
  let st ← nfa.getState r.state
  flatMapOutcome (fun m => do
    let r' ← r.takeTransitionW w m.1 m.2
    pure [r']) (st.epsMoves (r.counters.count r.state))

/-- `NfaSimulator::eps_closure` (fsm/nfa/sim.rs:72-114). -/
def Nfa.epsClosureW (w : Words) (nfa : Nfa) (fuel : Nat) (r : Run) : Outcome (List Run) :=
  worklist (nfa.epsStepW w) fuel [r] [r]

variable [Unicode]

/-- The new runs of `feed` (fsm/nfa/sim.rs:137-168). -/
def Nfa.feedRunsW (w : Words) (nfa : Nfa) (fuel : Nat) (runs : List Run) (c : Char) : Outcome (List Run) :=
  flatMapOutcome (fun r => do
    let st ← nfa.getState r.state
    flatMapOutcome (fun d => do
      let r' ← r.takeTransitionW w d false
      nfa.epsClosureW w fuel r') (st.charMoves c)) runs

/-- `feed` (fsm/nfa/sim.rs:136-179). -/
def Nfa.feedW (w : Words) (nfa : Nfa) (fuel : Nat) (runs : List Run) (c : Char) : Outcome (List Run × Bool) := do
  let runs ← nfa.feedRunsW w fuel runs c
  let acc ← nfa.isAccepting runs
  pure (runs, acc)

/-- `input.chars().map(|c| self.feed(c)).last()` (fsm/traits.rs:19-22). -/
def Nfa.feedAllW (w : Words) (nfa : Nfa) (fuel : Nat) : List Run → Option Bool → List Char →
    Outcome (List Run × Option Bool)
  | runs, last, [] => .ok (runs, last)
  | runs, _, c :: cs => do
    let (runs, acc) ← nfa.feedW w fuel runs c
    nfa.feedAllW w fuel runs (some acc) cs

/-- `feed_str` (fsm/traits.rs:18-24). -/
def Nfa.feedStrW (w : Words) (nfa : Nfa) (fuel : Nat) (runs : List Run) (input : List Char) : Outcome Bool := do
  let (runs, last) ← nfa.feedAllW w fuel runs none input
  let acc ← nfa.isAccepting runs
  pure (last.getD acc)

/-- `simulate` (fsm/nfa/sim.rs:120-122).  The closure at the start does not count. -/
def Nfa.simulateW (w : Words) (nfa : Nfa) (fuel : Nat) (input : List Char) : Outcome Bool := do
  let runs ← nfa.initRuns fuel
  nfa.feedStrW w fuel runs input

end Pango.Fsm

namespace Pango.Lex

open Pango.Regex Pango.Fsm

/-- The NFA as a machine (fsm/nfa/sim.rs:117-220). -/
def nfaMachineW [Unicode] (w : Words) (nfa : Nfa) (fuel : Nat) : Machine (List Run) where
  start := nfa.initRuns fuel
  canFeed := nfa.canFeed
  feed := nfa.feedW w fuel
  isAccepting := nfa.isAccepting
  finals := nfa.currentFinals

/-- `InputIter::next` (lexer/input.rs:50-60).  `Enumerate` (lexer/input.rs:8, 67) returns its count and adds one to it,
in the profile of the crate.  Simplified: the list of unread characters has them numbered by natural numbers, of which
the count is the remainder. -/
def InputIter.nextW (w : Words) (it : InputIter) : Outcome (Option Char × InputIter) :=
  match it.prev with
  | (pos, ch) :: r => .ok (some ch, { it with prev := r, suffix := it.suffix ++ [(pos, ch)] })
  | [] =>
    match it.iter with
    | (pos, ch) :: r => do
      let _ ← w.succ (pos % w.size)
      pure (some ch, { it with iter := r, suffix := it.suffix ++ [(pos % w.size, ch)] })
    | [] => .ok (none, it)

/-- `accept_suffix` (lexer/input.rs:96-110). -/
def InputIter.acceptSuffixW (w : Words) (it : InputIter) : Outcome InputIter := do
  let last := match it.suffix.getLast? with
    | some (pos, _) => pos
    | none => 0
  let e ← w.succ last
  pure { it with source := it.source ++ it.suffix.map Prod.snd, suffix := [], pos := (it.pos.1, e) }

theorem InputIter.pending_nextW {w : Words} {it it' : InputIter} {c : Char} (h : it.nextW w = .ok (some c, it')) :
    it'.pending < it.pending := by
  unfold InputIter.nextW at h
  split at h
  · cases h; simp_all [InputIter.pending]
  · split at h
    · simp only [Outcome.bind_eq_ok] at h
      obtain ⟨_, _, h⟩ := h
      cases h
      simp_all [InputIter.pending]
    · cases h

theorem InputIter.pending_acceptW {w : Words} {it it' : InputIter} (h : it.acceptSuffixW w = .ok it') :
    it'.pending = it.pending := by
  simp only [InputIter.acceptSuffixW, Outcome.bind_eq_ok] at h
  obtain ⟨_, _, h⟩ := h
  cases h
  rfl

variable {σ K : Type}

/-- The `while let` loop of `Lexer::next` and what follows it (lexer/mod.rs:72-119). -/
def lexLoopW (w : Words) (m : Machine σ) (gs : Generators K) (sim : σ) (kind : Option K) (it : InputIter) :
    Outcome (Option (Tok K) × InputIter) :=
  match _h : it.nextW w with
  | .ok (some ch, it') =>
    match m.canFeed sim ch with
    | .ok false =>
      .ok (match kind with
        | some k => let (t, it) := takeToken it' k; (some t, it)
        | none => (none, it'))
    | .ok true =>
      match m.feed sim ch with
      | .ok (sim, true) =>
        match m.finals sim with
        | [] => .panic
        | f :: _ =>
          match gs.get f with
          | none => .panic
          | some gen =>
            match _h' : it'.acceptSuffixW w with
            | .ok it'' => lexLoopW w m gs sim (some (gen it''.source)) it''
            | .panic => .panic
            | .diverge => .diverge
      | .ok (sim, false) => lexLoopW w m gs sim kind it'
      | .panic => .panic
      | .diverge => .diverge
    | .panic => .panic
    | .diverge => .diverge
  | .ok (none, it') =>
    match m.isAccepting sim with
    | .ok true =>
      .ok (match kind with
        | some k => let (t, it) := takeToken it' k; (some t, it)
        | none => (none, it'))
    | .ok false => .ok (none, it')
    | .panic => .panic
    | .diverge => .diverge
  | .panic => .panic
  | .diverge => .diverge
termination_by it.pending
decreasing_by
  · rw [InputIter.pending_acceptW _h']; exact InputIter.pending_nextW _h
  · exact InputIter.pending_nextW _h

/-- `Lexer::next` (lexer/mod.rs:68-120). -/
def lexNextW (w : Words) (m : Machine σ) (gs : Generators K) (it : InputIter) :
    Outcome (Option (Tok K) × InputIter) := do
  let sim ← m.start
  lexLoopW w m gs sim none it

/-- `n` calls of `Lexer::next` in a row, whatever they return (lexer/mod.rs:68-120). -/
def lexCallsW (w : Words) (m : Machine σ) (gs : Generators K) :
    Nat → InputIter → Outcome (List (Option (Tok K)) × InputIter)
  | 0, it => .ok ([], it)
  | n + 1, it => do
    let (a, it) ← lexNextW w m gs it
    let (as, it) ← lexCallsW w m gs n it
    pure (a :: as, it)

end Pango.Lex
