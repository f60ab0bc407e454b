import Verif.Model.Slr

/-!
# The pointers of the automaton and of the table

`ItemBody`, `WSymbol` and `Terminal` hold `NonNull` pointers into the grammar that the pinned `Cfsm` owns
(cfsm/item.rs:14-17, state.rs:21, parser/table.rs:26-29) and read them in `unsafe` blocks.  The rest of the model has
the values in place of the pointers.  This file is the same code with the pointers: a pointer is an address, reading it
looks the address up in a memory, and reading an address that holds nothing is a fault, which in Rust is undefined
behaviour.

A body is one cell of memory.  A pointer to a symbol or a terminal is the address of the body and a position in it: the
symbols of a body lie in it one behind the other.
-/

namespace Pango.Parse

open Pango

/-- What running code that reads pointers comes to: a value, a panic, out of fuel, or a read of an address that holds
nothing of the type that is read.  The reads are the `unsafe` blocks at cfsm/item.rs:33, cfsm/state.rs:75 and
parser/table.rs:225 and 244. -/
inductive Access (α : Type u) where
  | val (a : α)
  | panic
  | diverge
  | fault
  deriving Repr, DecidableEq

namespace Access

/-- Sequencing: a panic, an unfinished loop or a fault stops everything that follows.  Models one statement after
another, for example at parser/table.rs:46-133. -/
def bind {α : Type u} {β : Type v} (x : Access α) (f : α → Access β) : Access β :=
  match x with
  | val a => f a
  | panic => panic
  | diverge => diverge
  | fault => fault

/-- Models one statement after another, for example at parser/table.rs:46-133, written with `do`. -/
instance : Monad Access where
  pure := val
  bind := bind

/-- Code without pointers.  For example the arithmetic at parser/slr.rs:123. -/
def of {α : Type u} : Outcome α → Access α
  | .ok a => val a
  | .panic => panic
  | .diverge => diverge

end Access

/-- The address of a body.  What the `NonNull<Body<V, T>>` at cfsm/item.rs:15 holds. -/
abbrev Addr := Nat

/-- `NonNull<Symbol<V, T>>` and `NonNull<T>`: a body and a position in it.  cfsm/state.rs:21 and parser/table.rs:27. -/
abbrev SymPtr := Addr × Nat

/-- A memory: what the addresses hold.  The bodies of the grammar that the automaton owns, cfsm/mod.rs:25-33. -/
abbrev Mem (V T : Type) := Addr → Option (Body V T)

variable {V T : Type}

/-- The memory with a body stored at an address.  `HashSet::insert` of a body, grammar.rs:445-447. -/
def Mem.store (mem : Mem V T) (a : Addr) (b : Body V T) : Mem V T := fun a' => if a' = a then some b else mem a'

/-- `NonNull::as_ref` on a body (cfsm/item.rs:30-34). -/
def bodyAt (mem : Mem V T) (a : Addr) : Access (Body V T) :=
  match mem a with
  | some b => .val b
  | none => .fault

/-- `NonNull::as_ref` on a symbol (cfsm/state.rs:71-77). -/
def symbolAt (mem : Mem V T) (p : SymPtr) : Access (Sym V T) :=
  match (mem p.1).bind (·[p.2]?) with
  | some s => .val s
  | none => .fault

/-- `NonNull::as_ref` on a terminal (parser/table.rs:225, 244): the pointer was made from the terminal in a
`Symbol::Terminal`. -/
def terminalAt (mem : Mem V T) (p : SymPtr) : Access T := do
  match ← symbolAt mem p with
  | .term t => pure t
  | _ => .fault

/-- `Grammar` (grammar.rs:16-21): the bodies are in memory. -/
structure PGrammar (V : Type) where
  start : V
  rules : List (V × Addr)

/-- `ItemBody` (cfsm/item.rs:14-17). -/
structure PItem where
  body : Addr
  cursor : Nat
  deriving Repr, DecidableEq

/-- `ItemBody::from(&Body)` (cfsm/item.rs:172-186). -/
def PItem.ofBody (mem : Mem V T) (a : Addr) : Access PItem := do
  let b ← bodyAt mem a
  pure ⟨a, leadingEpsilons b⟩

/-- `get_cursor_symbol` (cfsm/item.rs:37-39): a reference into the body. -/
def PItem.cursorSymbol (mem : Mem V T) (i : PItem) : Access (Option SymPtr) := do
  let b ← bodyAt mem i.body
  pure (if i.cursor < b.length then some (i.body, i.cursor) else none)

/-- `get_cursor_variable` (cfsm/item.rs:43-49). -/
def PItem.cursorVariable (mem : Mem V T) (i : PItem) : Access (Option V) := do
  match ← i.cursorSymbol mem with
  | none => pure none
  | some p =>
    match ← symbolAt mem p with
    | .var v => pure (some v)
    | .term _ => pure none
    | .eps => .panic

/-- `advance` (cfsm/item.rs:63-75). -/
def PItem.advance (mem : Mem V T) (i : PItem) : Access PItem := do
  let b ← bodyAt mem i.body
  pure ⟨i.body, min (i.cursor + (1 + leadingEpsilons (b.drop (i.cursor + 1)))) b.length⟩

/-- `ItemSet` (cfsm/item.rs:24-26). -/
abbrev PItemSet (V : Type) := List (V × PItem)

/-- Whether a hash set has an element: `same` is the equality of the elements.  The code compares only elements with
the hash of the wanted one, and hashing them reads them too; the model compares all of them up to the wanted one.  The
sets at cfsm/item.rs:11 and grammar.rs:289, with the equalities at cfsm/item.rs:219-226. -/
def containsP {α : Type} (same : α → α → Access Bool) (a : α) : List α → Access Bool
  | [] => pure false
  | b :: l => do
    if ← same b a then pure true else containsP same a l

/-- `HashSet::insert`.  For example at cfsm/item.rs:103 and 154. -/
def insertP {α : Type} (same : α → α → Access Bool) (a : α) (l : List α) : Access (List α) := do
  if ← containsP same a l then pure l else pure (l ++ [a])

/-- `HashSet::extend`.  For example at grammar.rs:356. -/
def extendP {α : Type} (same : α → α → Access Bool) (l : List α) : List α → Access (List α)
  | [] => pure l
  | a :: new => do
    let l ← insertP same a l
    extendP same l new

/-- `Iterator::map` with a function that reads pointers, collected.  For example at cfsm/mod.rs:87-97. -/
def mapP {α β : Type} (f : α → Access β) : List α → Access (List β)
  | [] => pure []
  | a :: l => do
    let b ← f a
    let bs ← mapP f l
    pure (b :: bs)

/-- `Iterator::filter_map` with a function that reads pointers, collected.  As in the loop at cfsm/item.rs:96-106,
which skips items that read nothing. -/
def filterMapP {α β : Type} (f : α → Access (Option β)) : List α → Access (List β)
  | [] => pure []
  | a :: l => do
    let b ← f a
    let bs ← filterMapP f l
    pure (b.toList ++ bs)

/-- `Iterator::all` with a function that reads pointers.  Used for the equality at cfsm/item.rs:203-211, called at
cfsm/mod.rs:105. -/
def allP {α : Type} (f : α → Access Bool) : List α → Access Bool
  | [] => pure true
  | a :: l => do
    if ← f a then allP f l else pure false

/-- `Iterator::find` with a function that reads pointers.  At cfsm/mod.rs:102-105. -/
def findP {α : Type} (f : α → Access Bool) : List α → Access (Option α)
  | [] => pure none
  | a :: l => do
    if ← f a then pure (some a) else findP f l

/-- Rearranges a list so that the values of its elements are in the given order.  Models the order of the iterations at
cfsm/mod.rs:84-118 and parser/table.rs:60-125. -/
def arrange {α β : Type} [DecidableEq β] (val : α → Option β) : List β → List α → List α
  | [], _ => []
  | b :: bs, l =>
    match l.find? (fun a => decide (val a = some b)) with
    | some a => a :: arrange val bs (l.eraseP (fun a => decide (val a = some b)))
    | none => arrange val bs l

/-- The values of all elements, if they have values.  Used for the order of the iterations at cfsm/mod.rs:84-118 and
parser/table.rs:60-125. -/
def allAt {α β : Type} (val : α → Option β) : List α → Option (List β)
  | [] => some []
  | a :: l =>
    match val a, allAt val l with
    | some b, some bs => some (b :: bs)
    | _, _ => none

/-- The iteration order of a hash container whose elements are hashed and compared by what their pointers point to
(`val`): `ord` orders these values, `tie` orders elements with equal values.  Every permutation of a list is of this
form.  The iterations at cfsm/item.rs:85-125 and 138, cfsm/mod.rs:84-118 and parser/table.rs:60 and 87. -/
def shuffleP {α β : Type} [DecidableEq β] (ord tie : HashOrder) (now : List Nat) (val : α → Option β) (l : List α) :
    List α :=
  arrange val (ord.shuffle now β ((allAt val l).getD [])) (tie.shuffle now α l)

/-- The same for a map of sets, iterated key by key.  The iterations at cfsm/item.rs:119-123 and 137-138. -/
def groupedP {α β κ : Type} [DecidableEq β] [DecidableEq κ] (ord tie : HashOrder) (key : β → κ) (val : α → Option β)
    (l : List α) : List α :=
  arrange val (ord.grouped key ((allAt val l).getD [])) (tie.shuffle [] α l)

/-- The item that a pointer and a cursor stand for.  What the `ItemBody` at cfsm/item.rs:14-17 compares and hashes,
cfsm/item.rs:219-238. -/
def itemAt (mem : Mem V T) (i : PItem) : Option (Item V T) := (mem i.body).map fun b => ⟨b, i.cursor⟩

/-- The symbol behind a pointer.  What the `WSymbol` at cfsm/state.rs:21 compares and hashes, cfsm/state.rs:94-112. -/
def symAt (mem : Mem V T) (p : SymPtr) : Option (Sym V T) := (mem p.1).bind (·[p.2]?)

/-- The head and the item.  What is iterated over at cfsm/item.rs:119-123. -/
def headItemAt (mem : Mem V T) (i : V × PItem) : Option (V × Item V T) := (itemAt mem i.2).map fun j => (i.1, j)

/-- A symbol and the items that read it.  What is iterated over at cfsm/item.rs:85-110. -/
def groupAt (mem : Mem V T) (e : SymPtr × PItemSet V) : Option (Sym V T × ItemSet V T) :=
  match symAt mem e.1, allAt (headItemAt mem) e.2 with
  | some s, some l => some (s, l)
  | _, _ => none

variable [DecidableEq V] [DecidableEq T]

/-- Equality of items (cfsm/item.rs:219-226), which reads both bodies. -/
def PItem.same (mem : Mem V T) (i j : PItem) : Access Bool := do
  let a ← bodyAt mem i.body
  let b ← bodyAt mem j.body
  pure (decide (a = b) && decide (i.cursor = j.cursor))

/-- Equality of items with their heads: the items of different heads are in different sets.  The map and the sets at
cfsm/item.rs:11 and 24-26. -/
def sameHeadItem (mem : Mem V T) (i j : V × PItem) : Access Bool :=
  if i.1 = j.1 then i.2.same mem j.2 else pure false

/-- Equality of symbols behind references and of `WSymbol`s (cfsm/state.rs:94-101). -/
def sameSymbol (mem : Mem V T) (p q : SymPtr) : Access Bool := do
  let a ← symbolAt mem p
  let b ← symbolAt mem q
  pure (decide (a = b))

/-- `get_rule_bodies(v).expect(..)` (grammar.rs:71-73, 385-390): references to the bodies of a variable. -/
def PGrammar.expectBodies (g : PGrammar V) (v : V) : Access (List Addr) :=
  match g.rules.filterMap (fun r => if r.1 = v then some r.2 else none) with
  | [] => .panic
  | as => pure as

/-- The inner loop of `from_incomplete_map` (cfsm/item.rs:150-158). -/
def insertBodiesP (mem : Mem V T) (head : V) :
    List Addr → List PItem → PItemSet V → Access (List PItem × PItemSet V)
  | [], pending, items => pure (pending, items)
  | a :: as, pending, items => do
    let new ← PItem.ofBody mem a
    if ← containsP (sameHeadItem mem) (head, new) items then insertBodiesP mem head as pending items
    else insertBodiesP mem head as (pending ++ [new]) (items ++ [(head, new)])

/-- The loop of `from_incomplete_map` (cfsm/item.rs:140-159), at most `n` iterations. -/
def closureLoopP (mem : Mem V T) (g : PGrammar V) (ord tie : HashOrder) :
    Nat → List PItem → PItemSet V → Access (PItemSet V)
  | _, [], items => pure items
  | 0, _ :: _, _ => .diverge
  | n + 1, i :: pending, items => do
    match ← i.cursorVariable mem with
    | none => closureLoopP mem g (ord.sub 1) (tie.sub 1) n pending items
    | some head =>
      let bodies ← g.expectBodies head
      let (pending, items) ← insertBodiesP mem head (shuffleP ord tie [0] mem bodies) pending items
      closureLoopP mem g (ord.sub 1) (tie.sub 1) n pending items
termination_by n => n

/-- `from_incomplete_map` (cfsm/item.rs:133-162). -/
def itemClosureP (mem : Mem V T) (g : PGrammar V) (ord tie : HashOrder) (fuel : Nat) (items : PItemSet V) :
    Access (PItemSet V) :=
  closureLoopP mem g (ord.sub 1) (tie.sub 1) fuel
    ((groupedP (ord.sub 0) (tie.sub 0) Prod.fst (headItemAt mem) items).map Prod.snd) items

/-- `ItemSet::from((start_rules, grammar))` (cfsm/item.rs:240-249, grammar.rs:385-390). -/
def startItemsP (mem : Mem V T) (g : PGrammar V) (ord tie : HashOrder) (fuel : Nat) : Access (PItemSet V) := do
  let bodies ← g.expectBodies g.start
  let items ← mapP (fun a => do pure (g.start, ← PItem.ofBody mem a)) bodies
  itemClosureP mem g ord tie fuel (← extendP (sameHeadItem mem) [] items)

/-- `iter_by_cursor_symbol` (cfsm/item.rs:85-110): references to the symbols read by some item, each with the items
that read it. -/
def groupBySymbolP (mem : Mem V T) (items : PItemSet V) : Access (List (SymPtr × PItemSet V)) := do
  let read ← filterMapP (fun i => i.2.cursorSymbol mem) items
  let symbols ← extendP (sameSymbol mem) [] read
  mapP (fun p => do
    let group ← filterMapP (fun i : V × PItem => do
      match ← i.2.cursorSymbol mem with
      | none => pure none
      | some q => do
        if ← sameSymbol mem q p then pure (some i) else pure none) items
    pure (p, group)) symbols

/-- `State` (cfsm/state.rs:12-19). -/
structure PState (V : Type) where
  id : Nat
  items : PItemSet V
  transitions : List (SymPtr × Nat)
  deriving Repr, DecidableEq

/-- The item set reached from the items that read a symbol (cfsm/mod.rs:87-99). -/
def gotoItemsP (mem : Mem V T) (g : PGrammar V) (ord tie : HashOrder) (fuel : Nat) (group : PItemSet V) :
    Access (PItemSet V) := do
  let advanced ← mapP (fun i : V × PItem => do pure (i.1, ← i.2.advance mem)) group
  itemClosureP mem g ord tie fuel (← extendP (sameHeadItem mem) [] advanced)

/-- Equality of item sets (cfsm/item.rs:203-211). -/
def sameItemsP (mem : Mem V T) (a b : PItemSet V) : Access Bool := do
  if ← allP (fun i => containsP (sameHeadItem mem) i b) a then allP (fun i => containsP (sameHeadItem mem) i a) b
  else pure false

/-- Loop state of `from_grammar` (cfsm/mod.rs:63-73, state.rs:119-130). -/
structure PWork (V : Type) where
  pending : List (Nat × PItemSet V)
  nextId : Nat

/-- The inner loop of `from_grammar` (cfsm/mod.rs:84-118). -/
def cfsmTransitionsP (mem : Mem V T) (g : PGrammar V) (ord tie : HashOrder) (fuel : Nat) (done : List (PState V)) :
    List (SymPtr × PItemSet V) → PWork V → Access (List (SymPtr × Nat) × PWork V)
  | [], w => pure ([], w)
  | (symbol, group) :: groups, w => do
    let items ← gotoItemsP mem g (ord.sub groups.length) (tie.sub groups.length) fuel group
    let found ← findP (fun s : PState V => sameItemsP mem s.items items) done
    let (dest, w) := match found with
      | some s => (s.id, w)
      | none => (w.nextId, { pending := w.pending ++ [(w.nextId, items)], nextId := w.nextId + 1 })
    let (transitions, w) ← cfsmTransitionsP mem g ord tie fuel done groups w
    pure ((symbol, dest) :: transitions, w)

/-- The main loop of `from_grammar` (cfsm/mod.rs:75-121), at most `n` iterations. -/
def cfsmLoopP (mem : Mem V T) (g : PGrammar V) (ord tie : HashOrder) (fuel : Nat) :
    Nat → List (PState V) → PWork V → Access (List (PState V))
  | n, done, w =>
    match w.pending with
    | [] => pure done
    | (id, items) :: pending =>
      match n with
      | 0 => .diverge
      | n + 1 => do
        let groups ← groupBySymbolP mem items
        let (transitions, w) ← cfsmTransitionsP mem g ((ord.sub id).sub 1) ((tie.sub id).sub 1) fuel done
          (shuffleP ord tie [id, 0] (groupAt mem) groups) { w with pending := pending }
        cfsmLoopP mem g ord tie fuel n (done ++ [⟨id, items, transitions⟩]) w

/-- `Cfsm` (cfsm/mod.rs:25-33). -/
structure PCfsm (V : Type) where
  grammar : PGrammar V
  states : List (PState V)

/-- `CfsmBuilder::build` (cfsm/mod.rs:181-221). -/
def PCfsm.checked (c : PCfsm V) : Access (PCfsm V) :=
  let ids := c.states.map PState.id
  let destinations := c.states.flatMap (fun s => s.transitions.map Prod.snd)
  if ids.contains 0 && (0 :: destinations).all (fun d => ids.contains d) then pure c else .panic

/-- `Cfsm::from_grammar` (cfsm/mod.rs:60-124). -/
def PCfsm.fromGrammar (mem : Mem V T) (g : PGrammar V) (ord tie : HashOrder) (fuel : Nat) : Access (PCfsm V) := do
  let items ← startItemsP mem g (ord.sub 0) (tie.sub 0) fuel
  let states ← cfsmLoopP mem g (ord.sub 1) (tie.sub 1) fuel fuel [] { pending := [(0, items)], nextId := 1 }
  PCfsm.checked ⟨g, states⟩

/-! ## The table -/

/-- A row of the action table: the keys are `Terminal`s (parser/table.rs:26-29); `none` is `Eof`. -/
abbrev PRow (V : Type) := List (Option SymPtr × Action V)

/-- `ParseTable` (parser/table.rs:10-14). -/
structure PTable (V : Type) where
  start : V
  action : List (PRow V)
  goto : List (List (V × Nat))
  deriving Repr, DecidableEq

variable [TerminalEq T]

/-- Equality of the keys of the action table (parser/table.rs:217-232), which reads both terminals. -/
def keyEqP (mem : Mem V T) : Option SymPtr → Option SymPtr → Access Bool
  | some p, some q => do
    let s ← terminalAt mem p
    let t ← terminalAt mem q
    pure (teq s t)
  | none, none => pure true
  | _, _ => pure false

/-- `HashMap::get` on a row.  parser/slr.rs:109, with the equality at parser/table.rs:217-233. -/
def rowGetP (mem : Mem V T) (key : Option SymPtr) : PRow V → Access (Option (Action V))
  | [] => pure none
  | (k, a) :: r => do
    if ← keyEqP mem k key then pure (some a) else rowGetP mem key r

/-- `insert_action` (parser/table.rs:140-164). -/
def insertActionP (mem : Mem V T) (table : List (PRow V)) (state : Nat) (key : Option SymPtr) (action : Action V) :
    Access (Option (List (PRow V))) := do
  let table := resizeTo [] (state + 1) table
  let row := (table[state]?).getD []
  match ← rowGetP mem key row with
  | some _ => pure none
  | none => pure (some (table.set state (row ++ [(key, action)])))

/-- `for s in follow.iter()` (parser/table.rs:87-105). -/
def insertReducesP (mem : Mem V T) (state : Nat) (action : Action V) :
    List SymPtr → List (PRow V) → Access (Option (List (PRow V)))
  | [], table => pure (some table)
  | p :: follow, table => do
    match ← symbolAt mem p with
    | .term _ =>
      match ← insertActionP mem table state (some p) action with
      | some table => insertReducesP mem state action follow table
      | none => pure none
    | .var _ => .panic
    | .eps => insertReducesP mem state action follow table

omit [DecidableEq V] [TerminalEq T] in
/-- `HashMap::get` on the transitions of a state, with keys of type `WSymbol`.  parser/table.rs:64-66 and 76-78, with
the equality at cfsm/state.rs:94-102. -/
def transitionP (mem : Mem V T) (p : SymPtr) : List (SymPtr × Nat) → Access (Option Nat)
  | [] => pure none
  | (q, d) :: r => do
    if ← sameSymbol mem q p then pure (some d) else transitionP mem p r

/-- The body of the loop over the items of a state (parser/table.rs:60-125). -/
def insertItemP (mem : Mem V T) (g : PGrammar V) (ord tie : HashOrder) (follow : List (V × List SymPtr))
    (s : PState V) (head : V) (item : PItem) (table : PTable V) : Access (Option (PTable V)) := do
  match ← item.cursorSymbol mem with
  | some p =>
    match ← symbolAt mem p with
    | .term _ =>
      let dest ← Access.of (Outcome.expect (← transitionP mem p s.transitions))
      let action ← insertActionP mem table.action s.id (some p) (.shift dest)
      pure (action.map fun a => { table with action := a })
    | .var v =>
      let dest ← Access.of (Outcome.expect (← transitionP mem p s.transitions))
      let goto ← Access.of (insertGoto table.goto s.id v dest)
      pure (some { table with goto })
    | .eps => .panic
  | none =>
    match mapGet follow head with
    | none => pure (some table)
    | some f =>
      let body ← bodyAt mem item.body
      match ← insertReducesP mem s.id (.reduce head body.length) (shuffleP ord tie [] (symAt mem) f) table.action with
      | none => pure none
      | some action =>
        if head = g.start then
          let action ← insertActionP mem action s.id none (.accept head body.length)
          pure (action.map fun a => { table with action := a })
        else pure (some { table with action })

/-- The loop over the items of a state.  parser/table.rs:60-125. -/
def insertItemsP (mem : Mem V T) (g : PGrammar V) (ord tie : HashOrder) (follow : List (V × List SymPtr))
    (s : PState V) : PItemSet V → PTable V → Access (Option (PTable V))
  | [], table => pure (some table)
  | (head, item) :: items, table => do
    match ← insertItemP mem g (ord.sub items.length) (tie.sub items.length) follow s head item table with
    | none => pure none
    | some table => insertItemsP mem g ord tie follow s items table

/-- The loop over the states (parser/table.rs:54-126). -/
def insertStatesP (mem : Mem V T) (g : PGrammar V) (ord tie : HashOrder) (follow : List (V × List SymPtr)) :
    List (PState V) → PTable V → Access (Option (PTable V))
  | [], table => pure (some table)
  | s :: states, table => do
    match ← insertItemsP mem g ((ord.sub s.id).sub 1) ((tie.sub s.id).sub 1) follow s
      (groupedP ((ord.sub s.id).sub 0) ((tie.sub s.id).sub 0) Prod.fst (headItemAt mem) s.items) table with
    | none => pure none
    | some table => insertStatesP mem g ord tie follow states table

omit [DecidableEq V] [DecidableEq T] [TerminalEq T] in
/-- The grammar with its bodies, read from memory.  What the fields at grammar.rs:15-24 stand for; not a step of the
code. -/
def PGrammar.load (mem : Mem V T) (g : PGrammar V) : Access (Grammar V T) := do
  let rules ← mapP (fun r : V × Addr => do pure (r.1, ← bodyAt mem r.2)) g.rules
  pure ⟨g.start, rules⟩

/-- `ParseTable::new_slr` (parser/table.rs:46-133).  `follow_set` (grammar.rs:243-345) has no pointers: it returns
sets of references to symbols of the grammar.  Where these references point is a parameter of the model: in the set of
`v` the symbol `s` is a reference to `locate v s`. -/
def newSlrP (mem : Mem V T) (c : PCfsm V) (locate : V → Sym V T → SymPtr) (ord tie : HashOrder) (fuel : Nat) :
    Access (Option (PTable V)) := do
  let g ← c.grammar.load mem
  let follow ← Access.of (g.followSet (ord.sub 0) fuel)
  insertStatesP mem c.grammar (ord.sub 1) (tie.sub 1) (follow.map fun e => (e.1, e.2.map (locate e.1)))
    c.states ⟨c.grammar.start, [], []⟩

/-- `Cfsm::from_grammar` followed by `ParseTable::new_slr`.  parser/slr.rs:30-33. -/
def slrTableP (mem : Mem V T) (g : PGrammar V) (locate : V → Sym V T → SymPtr) (ord tie : HashOrder) (fuel : Nat) :
    Access (Option (PTable V)) := do
  let c ← PCfsm.fromGrammar mem g (ord.sub 0) (tie.sub 0) fuel
  newSlrP mem c locate (ord.sub 1) (tie.sub 1) fuel

/-! ## Parsing -/

omit [DecidableEq V] [DecidableEq T] in
/-- `action.get(&terminal)` (parser/slr.rs:98-109).  The kind of the token lies at the address `slot`; the key points
there. -/
def findActionP (mem : Mem V T) (slot : Addr) (row : PRow V) : Option T → Access (Option (Action V))
  | some t => rowGetP (mem.store slot [.term t]) (some (slot, 0)) row
  | none => rowGetP mem none row

/-- `handle_token` (parser/slr.rs:92-171). -/
def handleTokenP (mem : Mem V T) (slot : Addr) (tbl : PTable V) (token : Option T) (stack : List (ParseNode V T))
    (current : Nat) : Access (Option (Handled V T)) := do
  let row ← Access.of (Outcome.expect (tbl.action[current]?))
  match ← findActionP mem slot row token with
  | none => pure none
  | some (.shift dest) =>
    let t ← Access.of (Outcome.expect token)
    pure (some ⟨⟨.mk (.term t) [], dest⟩, false, stack, true⟩)
  | some (.reduce v amount) =>
    let (children, stack) ← Access.of (drainStack stack amount)
    let top ← Access.of (Outcome.expect stack.head?)
    let row ← Access.of (Outcome.expect (tbl.goto[top.state]?))
    match mapGet row v with
    | none => pure none
    | some dest => pure (some ⟨⟨.mk (.var v) children, dest⟩, false, stack, false⟩)
  | some (.accept v amount) =>
    let (children, stack) ← Access.of (drainStack stack amount)
    pure (some ⟨⟨.mk (.var v) children, 0⟩, true, stack, false⟩)

/-- The loop at the end of the input (parser/slr.rs:74-89). -/
def parseEofP (mem : Mem V T) (slot : Addr) (tbl : PTable V) :
    Nat → List (ParseNode V T) → Nat → Access (Option (Node V T))
  | 0, _, _ => .diverge
  | n + 1, stack, current => do
    match ← handleTokenP mem slot tbl none stack current with
    | none => pure none
    | some h =>
      if h.accepted then pure (some h.node.node)
      else parseEofP mem slot tbl n (h.node :: h.stack) h.node.state

/-- The loop over the tokens (parser/slr.rs:58-71). -/
def parseLoopP (mem : Mem V T) (slot : Addr) (tbl : PTable V) (fin : InputEnd) :
    Nat → List T → List (ParseNode V T) → Nat → Access (Option (Node V T))
  | 0, _, _, _ => .diverge
  | n + 1, [], stack, current =>
    match fin with
    | .ok () => parseEofP mem slot tbl (n + 1) stack current
    | .panic => .panic
    | .diverge => .diverge
  | n + 1, t :: input, stack, current => do
    match ← handleTokenP mem slot tbl (some t) stack current with
    | none => pure none
    | some h =>
      if h.accepted then pure (some h.node.node)
      else parseLoopP mem slot tbl fin n (if h.taken then input else t :: input) (h.node :: h.stack) h.node.state

/-- `Slr::parse` (parser/slr.rs:44-90) on the given tokens. -/
def parseTokensP (mem : Mem V T) (slot : Addr) (tbl : PTable V) (fuel : Nat) (input : List T)
    (fin : InputEnd := .ok ()) : Access (Option (Node V T)) :=
  parseLoopP mem slot tbl fin fuel input [⟨.mk (.var tbl.start) [], 0⟩] 0

end Pango.Parse
