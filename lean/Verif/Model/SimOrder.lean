import Verif.Model.Lexer

/-!
# The simulator with arbitrary hash orders

`Model/Nfa.lean` iterates hash sets and hash maps in insertion order.  Here every iteration over one of them is
in an arbitrary order, given by a `HashOrder`.  A clock counts the iterations, so that each has an order of
its own.  The two models are related by property C22.
-/

namespace Pango.Fsm

open Pango Pango.Regex

/-- The worklist loop of the epsilon closures (fsm/nfa/model.rs:90-122, fsm/nfa/sim.rs:72-114): the
transitions of a state are iterated in any order (all permutations of what they give, which includes the
orders of a `HashMap` of `HashSet`s), and so is the result. -/
def worklistH {α : Type} [DecidableEq α] (ord : HashOrder) (step : α → Outcome (List α)) :
    Nat → Nat → List α → List α → Outcome (List α × Nat)
  | _, now, [], result => .ok (ord.shuffle [now] α result, now + 1)
  | 0, _, _ :: _, _ => .diverge
  | n + 1, now, a :: queue, result => do
    let news ← step a
    let (queue, result) := (ord.shuffle [now] α news).foldl
      (fun (qr : List α × List α) b => if b ∈ qr.2 then qr else (qr.1 ++ [b], qr.2 ++ [b]))
      (queue, result)
    worklistH ord step n (now + 1) queue result

/-- `NfaSimulator::new` (fsm/nfa/sim.rs:60-67) with `Nfa::eps_closure` (fsm/nfa/model.rs:90-122). -/
def Nfa.initRunsH (ord : HashOrder) (nfa : Nfa) (fuel : Nat) : Outcome (Nat × List Run) := do
  let (ids, now) ← worklistH ord (fun id => do
    let st ← nfa.getState id
    pure ((st.epsMoves 0).map Prod.fst)) fuel 0 [nfa.start] [nfa.start]
  pure (now, ids.map fun id => ⟨id, []⟩)

/-- `NfaSimulator::eps_closure` (fsm/nfa/sim.rs:72-114). -/
def Nfa.epsClosureH (ord : HashOrder) (nfa : Nfa) (fuel now : Nat) (r : Run) : Outcome (List Run × Nat) :=
  worklistH ord (fun r => do
    let st ← nfa.getState r.state
    pure ((st.epsMoves (r.counters.count r.state)).map fun m => r.takeTransition m.1 m.2)) fuel now [r] [r]

/-- `flat_map` with the clock.  fsm/nfa/sim.rs:165. -/
def flatMapH {α β : Type} (f : Nat → α → Outcome (List β × Nat)) : Nat → List α → Outcome (List β × Nat)
  | now, [] => .ok ([], now)
  | now, a :: l => do
    let (bs, now) ← f now a
    let (rest, now) ← flatMapH f now l
    pure (bs ++ rest, now)

variable [Unicode]

/-- The new runs of `feed` (fsm/nfa/sim.rs:137-168). -/
def Nfa.feedRunsH (ord : HashOrder) (nfa : Nfa) (fuel now : Nat) (runs : List Run) (c : Char) :
    Outcome (List Run × Nat) :=
  flatMapH (fun now r => do
    let st ← nfa.getState r.state
    flatMapH (fun now d => nfa.epsClosureH ord fuel now (r.takeTransition d false)) (now + 1)
      (ord.shuffle [now] Nat (st.charMoves c))) now runs

/-- `feed` (fsm/nfa/sim.rs:136-179). -/
def Nfa.feedH (ord : HashOrder) (nfa : Nfa) (fuel : Nat) (s : Nat × List Run) (c : Char) :
    Outcome ((Nat × List Run) × Bool) := do
  let (runs, now) ← nfa.feedRunsH ord fuel s.1 s.2 c
  let acc ← nfa.isAccepting runs
  pure ((now, runs), acc)

/-- The automaton as a machine of the lexer.  `can_feed` (fsm/nfa/sim.rs:181-197) asks whether any key takes
the character, `is_accepting` and `get_current_final_states` (130-134, 201-219) do not iterate hash
containers. -/
def nfaMachineH (ord : HashOrder) (nfa : Nfa) (fuel : Nat) : Lex.Machine (Nat × List Run) where
  start := nfa.initRunsH ord fuel
  canFeed s c := nfa.canFeed s.2 c
  feed := nfa.feedH ord fuel
  isAccepting s := nfa.isAccepting s.2
  finals s := nfa.currentFinals s.2

end Pango.Fsm

namespace Pango.Lex

open Pango Pango.Fsm Pango.Regex

variable {K : Type} [Unicode]

/-- `n` calls of `Lexer::next` (lexer/mod.rs:68-120), each with hash orders of its own. -/
def lexCallsH (ord : Nat → HashOrder) (nfa : Nfa) (fuel : Nat) (gs : Generators K) :
    Nat → InputIter → Outcome (List (Option (Tok K)) × InputIter)
  | 0, it => .ok ([], it)
  | n + 1, it => do
    let (a, it) ← lexNext (nfaMachineH (ord n) nfa fuel) gs it
    let (as, it) ← lexCallsH ord nfa fuel gs n it
    pure (a :: as, it)

end Pango.Lex
