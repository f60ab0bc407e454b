import Verif.Model.RegexParser

/-!
# NFA, its builder, compiler and simulator (`pango-lexer/src/fsm`)

Hash sets and hash maps are lists without duplicates (keys) in insertion order.  That the order does
not matter is property C22.
-/

namespace Pango.Fsm

open Pango.Regex

/-- `Input` (fsm/nfa/model.rs:38-47). -/
inductive Input where
  | literal (l : Lit)
  | eps
  | quantified (q : Quant)
  deriving Repr, DecidableEq

/-- `State` (fsm/nfa/model.rs:25-32); `Transitions = HashMap<Input, HashSet<StateId>>` is an
association list. -/
structure NState where
  id : Nat
  fin : Bool
  transitions : List (Input × List Nat)
  deriving Repr, DecidableEq

/-- `Nfa` (fsm/nfa/model.rs:12-15) and `NfaBuilder` (155-158), which have the same fields. -/
structure Nfa where
  start : Nat
  states : List NState
  deriving Repr, DecidableEq

/-- `get_state` (fsm/nfa/model.rs:67-72, 268-273): panics if there is no such state. -/
def Nfa.getState (nfa : Nfa) (id : Nat) : Outcome NState :=
  Outcome.expect (nfa.states.find? (fun s => s.id == id))

/-- `NfaBuilder::new` (fsm/nfa/model.rs:163-168). -/
def Nfa.new (startFinal : Bool) : Nfa := ⟨0, [⟨0, startFinal, []⟩]⟩

/-- `add_state` (fsm/nfa/model.rs:225-229): the id of the new state is the number of states. -/
def Nfa.addState (nfa : Nfa) (fin : Bool) : Nat × Nfa :=
  (nfa.states.length, { nfa with states := nfa.states ++ [⟨nfa.states.length, fin, []⟩] })

/-- Insertion into a set.  `HashSet::insert` at fsm/nfa/model.rs:115 and 241 and fsm/nfa/sim.rs:107. -/
def setInsert {α : Type} [DecidableEq α] (a : α) (l : List α) : List α :=
  if a ∈ l then l else l ++ [a]

/-- `entry(input).or_insert(HashSet::new()).insert(end)` on a `Transitions`
(fsm/nfa/model.rs:237-241). -/
def insertTransition (input : Input) (dest : Nat) : List (Input × List Nat) → List (Input × List Nat)
  | [] => [(input, [dest])]
  | (i, ds) :: r =>
    if i = input then (i, setInsert dest ds) :: r else (i, ds) :: insertTransition input dest r

/-- Apply `f` to the first state with the given id (`get_state_mut`, fsm/nfa/model.rs:280-285). -/
def updateState (id : Nat) (f : NState → NState) : List NState → Option (List NState)
  | [] => none
  | s :: r => if s.id == id then some (f s :: r) else (updateState id f r).map (s :: ·)

/-- `add_transition` (fsm/nfa/model.rs:236-242): panics if there is no state `start`. -/
def Nfa.addTransition (nfa : Nfa) (start dest : Nat) (input : Input) : Outcome Nfa :=
  match updateState start (fun s => { s with transitions := insertTransition input dest s.transitions })
      nfa.states with
  | some states => .ok { nfa with states }
  | none => .panic

/-- `add_quantified_state` (fsm/nfa/model.rs:246-261). -/
def Nfa.addQuantifiedState (nfa : Nfa) (fin : Bool) (q : Quant) (done : Nat) : Outcome (Nat × Nfa) :=
  let (id, nfa) := nfa.addState fin
  do let nfa ← nfa.addTransition id done (.quantified q)
     pure (id, nfa)

/-- `build` (fsm/nfa/model.rs:178-206): panics if a transition leads to a missing state or the start
state is missing. -/
def Nfa.build (nfa : Nfa) : Outcome Nfa :=
  let stateIds := nfa.states.map NState.id
  let destinationIds := nfa.states.flatMap (fun s => s.transitions.flatMap Prod.snd)
  if destinationIds.all (fun d => stateIds.contains d) = false then .panic
  else if stateIds.contains nfa.start = false then .panic
  else .ok nfa

/-- `Compiler` (fsm/nfa/compiler.rs:11-16). -/
structure Compiler where
  nfa : Nfa
  finalState : Nat
  deriving Repr, DecidableEq

/-- `Compiler::new` (fsm/nfa/compiler.rs:38-46): state 0 is the start, state 1 is final.  The final
state is looked up as the first final state of the builder, which is state 1. -/
def Compiler.new : Compiler := ⟨((Nfa.new false).addState true).2, 1⟩

/-- `new_final` (fsm/nfa/compiler.rs:49-52). -/
def Compiler.newFinal (c : Compiler) : Nat × Compiler :=
  let (id, nfa) := c.nfa.addState true
  (id, ⟨nfa, id⟩)

/-- `insert_quantifier_state` (fsm/nfa/compiler.rs:73-85). -/
def insertQuantifierState (nfa : Nfa) (q : Quant) (start dest : Nat) : Outcome (Nat × Nfa) := do
  let (x, nfa) ← nfa.addQuantifiedState false q dest
  let nfa ← nfa.addTransition start x .eps
  pure (x, nfa)

mutual

/-- `Compiler::expr` (fsm/nfa/compiler.rs:89-145). -/
def compileExpr : Expr → Nat → Nat → Nfa → Outcome Nfa
  | .concat es, start, dest, nfa => compileConcat es start dest nfa
  | .empty, start, dest, nfa => nfa.addTransition start dest .eps
  | .alt l r, start, dest, nfa => do
    let nfa ← compileExpr l start dest nfa
    compileExpr r start dest nfa
  | .lit l none, start, dest, nfa => nfa.addTransition start dest (.literal l)
  | .lit l (some q), start, dest, nfa => do
    let (x, nfa) ← insertQuantifierState nfa q start dest
    nfa.addTransition x x (.literal l)
  | .group e none, start, dest, nfa => compileExpr e start dest nfa
  | .group e (some q), start, dest, nfa => do
    let (x, nfa) ← insertQuantifierState nfa q start dest
    compileExpr e x x nfa

/-- The `Concat` case of `Compiler::expr` (fsm/nfa/compiler.rs:91-112).  An empty concatenation
panics: `exprs.len() - 1` underflows with overflow checks, and without them `last().expect` fails. -/
def compileConcat : List Expr → Nat → Nat → Nfa → Outcome Nfa
  | [], _, _, _ => .panic
  | [e], start, dest, nfa => compileExpr e start dest nfa
  | e :: es, start, dest, nfa => do
    let (m, nfa) := nfa.addState false
    let nfa ← compileExpr e start m nfa
    compileConcat es m dest nfa

end

/-- `add_expression`/`with_expression` (fsm/nfa/compiler.rs:55-63). -/
def Compiler.addExpression (c : Compiler) (e : Expr) : Outcome Compiler := do
  let nfa ← compileExpr e c.nfa.start c.finalState c.nfa
  pure { c with nfa }

/-- `Nfa::from(ast)` (fsm/nfa/compiler.rs:18-22). -/
def nfaOfAst (e : Expr) : Outcome Nfa := do
  let c ← Compiler.new.addExpression e
  c.nfa.build

/-! ## Simulation -/

/-- The flattened transitions of a state: all `(input, destination)` pairs.  As iterated at fsm/nfa/sim.rs:84-100 and
144-153. -/
def NState.edges (s : NState) : List (Input × Nat) :=
  s.transitions.flatMap (fun t => t.2.map (fun d => (t.1, d)))

/-- The epsilon and satisfied quantified transitions of a state that was left `count` times, with
the flag that says whether the transition is quantified (fsm/nfa/model.rs:97-112,
fsm/nfa/sim.rs:84-100). -/
def NState.epsMoves (s : NState) (count : Nat) : List (Nat × Bool) :=
  s.edges.filterMap fun e =>
    match e.1 with
    | .literal _ => none
    | .eps => some (e.2, false)
    | .quantified q => if q.isSatisfied count then some (e.2, true) else none

/-- The worklist loop shared by the two epsilon closures: pop from the front, insert what is new into the result and
push it at the back.  fsm/nfa/model.rs:90-122 and fsm/nfa/sim.rs:72-114. -/
def worklist {α : Type} [DecidableEq α] (step : α → Outcome (List α)) :
    Nat → List α → List α → Outcome (List α)
  | _, [], result => .ok result
  | 0, _ :: _, _ => .diverge
  | n + 1, a :: queue, result => do
    let news ← step a
    -- `for new in news { if result.insert(new) { queue.push_back(new) } }`
    let (queue, result) := news.foldl
      (fun (qr : List α × List α) b => if b ∈ qr.2 then qr else (qr.1 ++ [b], qr.2 ++ [b]))
      (queue, result)
    worklist step n queue result

/-- `Nfa::eps_closure` (fsm/nfa/model.rs:90-122).  The result is in insertion order, the code sorts it
(`BTreeSet`); only the order of the runs depends on this. -/
def Nfa.staticClosure (nfa : Nfa) (fuel : Nat) (s : Nat) : Outcome (List Nat) :=
  worklist (fun id => do
    let st ← nfa.getState id
    pure ((st.epsMoves 0).map Prod.fst)) fuel [s] [s]

/-- `StateCounters` (fsm/nfa/model.rs:8): a `BTreeMap`, here an association list with increasing
keys. -/
abbrev Counters := List (Nat × Nat)

/-- `counters.get(id).unwrap_or(&0)`.  fsm/nfa/sim.rs:91. -/
def Counters.count : Counters → Nat → Nat
  | [], _ => 0
  | (k, v) :: r, id => if k = id then v else Counters.count r id

/-- `counters.entry(id).or_insert(0)` followed by an update with `f`.  fsm/nfa/sim.rs:45-51. -/
def Counters.update (f : Nat → Nat) (id : Nat) : Counters → Counters
  | [] => [(id, f 0)]
  | (k, v) :: r =>
    if id < k then (id, f 0) :: (k, v) :: r
    else if k = id then (k, f v) :: r
    else (k, v) :: Counters.update f id r

/-- `Run` (fsm/nfa/sim.rs:28-31). -/
structure Run where
  state : Nat
  counters : Counters
  deriving Repr, DecidableEq

/-- `take_transition` (fsm/nfa/sim.rs:44-55). -/
def Run.takeTransition (r : Run) (dest : Nat) (quantified : Bool) : Run :=
  ⟨dest, r.counters.update (fun n => if quantified then 0 else n + 1) r.state⟩

/-- `NfaSimulator::new` (fsm/nfa/sim.rs:60-67): the runs; the automaton itself is a separate argument
of all functions. -/
def Nfa.initRuns (nfa : Nfa) (fuel : Nat) : Outcome (List Run) := do
  let ids ← nfa.staticClosure fuel nfa.start
  pure (ids.map fun id => ⟨id, []⟩)

/-- `NfaSimulator::eps_closure` (fsm/nfa/sim.rs:72-114). -/
def Nfa.epsClosure (nfa : Nfa) (fuel : Nat) (r : Run) : Outcome (List Run) :=
  worklist (fun r => do
    let st ← nfa.getState r.state
    pure ((st.epsMoves (r.counters.count r.state)).map fun m => r.takeTransition m.1 m.2)) fuel [r] [r]

/-- `flat_map` of a function that may panic or not finish.  fsm/nfa/sim.rs:165. -/
def flatMapOutcome {α β : Type} (f : α → Outcome (List β)) : List α → Outcome (List β)
  | [] => .ok []
  | a :: l => do
    let bs ← f a
    let rest ← flatMapOutcome f l
    pure (bs ++ rest)

variable [Unicode]

/-- `Input::can_take` (fsm/nfa/model.rs:127-133). -/
def Input.canTake : Input → Char → Bool
  | .literal l, c => l.contains c
  | .eps, _ => false
  | .quantified _, _ => false

/-- Destinations of a state on a character (fsm/nfa/sim.rs:144-153). -/
def NState.charMoves (s : NState) (c : Char) : List Nat :=
  s.edges.filterMap fun e => if e.1.canTake c then some e.2 else none

/-- `is_accepting` (fsm/nfa/sim.rs:130-134). -/
def Nfa.isAccepting (nfa : Nfa) : List Run → Outcome Bool
  | [] => .ok false
  | r :: rs => do
    let st ← nfa.getState r.state
    if st.fin then pure true else nfa.isAccepting rs

/-- The new runs of `feed` (fsm/nfa/sim.rs:137-168). -/
def Nfa.feedRuns (nfa : Nfa) (fuel : Nat) (runs : List Run) (c : Char) : Outcome (List Run) :=
  flatMapOutcome (fun r => do
    let st ← nfa.getState r.state
    flatMapOutcome (fun d => nfa.epsClosure fuel (r.takeTransition d false)) (st.charMoves c)) runs

/-- `feed` (fsm/nfa/sim.rs:136-179). -/
def Nfa.feed (nfa : Nfa) (fuel : Nat) (runs : List Run) (c : Char) : Outcome (List Run × Bool) := do
  let runs ← nfa.feedRuns fuel runs c
  let acc ← nfa.isAccepting runs
  pure (runs, acc)

/-- `can_feed` (fsm/nfa/sim.rs:181-197). -/
def Nfa.canFeed (nfa : Nfa) : List Run → Char → Outcome Bool
  | [], _ => .ok false
  | r :: rs, c => do
    let st ← nfa.getState r.state
    if st.transitions.any (fun t => t.1.canTake c) then pure true else nfa.canFeed rs c

/-- `BTreeSet::insert`, which fsm/nfa/sim.rs:217 calls when it collects: the set is the list of its members
in increasing order. -/
def btreeInsert (a : Nat) : List Nat → List Nat
  | [] => [a]
  | b :: l => if a < b then a :: b :: l else if a = b then b :: l else b :: btreeInsert a l

/-- `get_current_final_states` (fsm/nfa/sim.rs:201-219), a `BTreeSet`: increasing, no duplicates. -/
def Nfa.currentFinals (nfa : Nfa) (runs : List Run) : List Nat :=
  let finals := (nfa.states.filter NState.fin).map NState.id
  ((runs.map Run.state).filter (fun s => finals.contains s)).foldl (fun set s => btreeInsert s set) []

/-- `input.chars().map(|c| self.feed(c)).last()` (fsm/traits.rs:19-22): the runs at the end and the
last answer. -/
def Nfa.feedAll (nfa : Nfa) (fuel : Nat) : List Run → Option Bool → List Char →
    Outcome (List Run × Option Bool)
  | runs, last, [] => .ok (runs, last)
  | runs, _, c :: cs => do
    let (runs, acc) ← nfa.feed fuel runs c
    nfa.feedAll fuel runs (some acc) cs

/-- `feed_str` (fsm/traits.rs:18-24). -/
def Nfa.feedStr (nfa : Nfa) (fuel : Nat) (runs : List Run) (input : List Char) : Outcome Bool := do
  let (runs, last) ← nfa.feedAll fuel runs none input
  let acc ← nfa.isAccepting runs
  pure (last.getD acc)

/-- `simulate` (fsm/nfa/sim.rs:120-122). -/
def Nfa.simulate (nfa : Nfa) (fuel : Nat) (input : List Char) : Outcome Bool := do
  let runs ← nfa.initRuns fuel
  nfa.feedStr fuel runs input

end Pango.Fsm
