import Verif.Model.Grammar

/-!
# Items, item sets and the canonical finite-state machine (`pango-parser/src/cfsm`)
-/

namespace Pango.Parse

variable {V T : Type}

/-- `ItemBody` (cfsm/item.rs:14-17).  The pointer to the body is the body itself; equality and hash of
the code also look through the pointer (219-238). -/
structure Item (V T : Type) where
  body : Body V T
  cursor : Nat
  deriving Repr, DecidableEq

/-- Number of leading epsilons (`take_while(..).count()`).  At cfsm/item.rs:67-71 and 176-179. -/
def leadingEpsilons : Body V T → Nat
  | .eps :: r => leadingEpsilons r + 1
  | _ => 0

/-- `ItemBody::from(&Body)` (cfsm/item.rs:172-186). -/
def Item.ofBody (body : Body V T) : Item V T := ⟨body, leadingEpsilons body⟩

/-- `get_cursor_symbol` (cfsm/item.rs:37-39). -/
def Item.cursorSymbol (i : Item V T) : Option (Sym V T) := i.body[i.cursor]?

/-- `get_cursor_variable` (cfsm/item.rs:43-49). -/
def Item.cursorVariable (i : Item V T) : Outcome (Option V) :=
  match i.cursorSymbol with
  | none => .ok none
  | some (.var v) => .ok (some v)
  | some (.term _) => .ok none
  | some .eps => .panic

/-- `advance` (cfsm/item.rs:63-75). -/
def Item.advance (i : Item V T) : Item V T :=
  { i with cursor := min (i.cursor + (1 + leadingEpsilons (i.body.drop (i.cursor + 1)))) i.body.length }

/-- What `Display for ItemBody` writes (cfsm/dot.rs:69-95): the names of the symbols and the bullet,
before they are joined with spaces.  `show_` is the `Debug` output of a symbol. -/
def Item.render (show_ : Sym V T → String) (i : Item V T) : List String :=
  let result := i.body.foldl (fun (result : List String) s =>
    (if result.length = i.cursor then result ++ ["•"] else result) ++ [show_ s]) []
  if i.cursor = result.length then result ++ ["•"] else result

/-- `ItemSet` (cfsm/item.rs:24-26): the list of all `(head, item)` pairs of the map.  No head maps to
an empty set: entries are created together with an item (item.rs:150-154, 246, cfsm/mod.rs:87-97). -/
abbrev ItemSet (V T : Type) := List (V × Item V T)

variable [DecidableEq V] [DecidableEq T]

/-- Duplicate-free collection into a hash set.  At cfsm/mod.rs:94 and 97, and cfsm/item.rs:91-105 and 246. -/
def collectSet {α : Type} [DecidableEq α] (l : List α) : List α := extendSet [] l

/-- Equality of item sets (cfsm/item.rs:203-211): equality of hash maps of hash sets. -/
def sameItems (a b : ItemSet V T) : Bool :=
  a.all (fun i => decide (i ∈ b)) && b.all (fun i => decide (i ∈ a))

/-- The loop of `from_incomplete_map` (cfsm/item.rs:140-159), at most `n` iterations. -/
def closureLoop (g : Grammar V T) : HashOrder → Nat → List (Item V T) → ItemSet V T → Outcome (ItemSet V T)
  | _, _, [], items => .ok items
  | _, 0, _ :: _, _ => .diverge
  | ord, n + 1, i :: pending, items => do
    match ← i.cursorVariable with
    | none => closureLoop g (ord.sub 1) n pending items
    | some head =>
      let bodies ← g.expectBodies head
      let (pending, items) := (ord.shuffle [0] _ bodies).foldl (fun (acc : List (Item V T) × ItemSet V T) b =>
        let new := Item.ofBody b
        if (head, new) ∈ acc.2 then acc else (acc.1 ++ [new], acc.2 ++ [(head, new)])) (pending, items)
      closureLoop g (ord.sub 1) n pending items

/-- `from_incomplete_map` (cfsm/item.rs:133-162). -/
def itemClosure (g : Grammar V T) (ord : HashOrder) (fuel : Nat) (items : ItemSet V T) :
    Outcome (ItemSet V T) :=
  closureLoop g (ord.sub 1) fuel (((ord.sub 0).grouped Prod.fst items).map Prod.snd) items

/-- `ItemSet::from((start_rules, grammar))` (cfsm/item.rs:245-248, grammar.rs:385-390). -/
def startItems (g : Grammar V T) (ord : HashOrder) (fuel : Nat) : Outcome (ItemSet V T) := do
  let bodies ← g.expectBodies g.start
  itemClosure g ord fuel (collectSet (bodies.map fun b => (g.start, Item.ofBody b)))

/-- `iter_by_cursor_symbol` (cfsm/item.rs:85-110): the symbols read by some item, each with the items
that read it. -/
def groupBySymbol (items : ItemSet V T) : List (Sym V T × ItemSet V T) :=
  (collectSet (items.filterMap fun i => i.2.cursorSymbol)).map fun s =>
    (s, items.filter fun i => decide (i.2.cursorSymbol = some s))

/-- `State` (cfsm/state.rs:12-19). -/
structure CState (V T : Type) where
  id : Nat
  items : ItemSet V T
  transitions : List (Sym V T × Nat)
  deriving Repr, DecidableEq

/-- The item set reached from the items that read a symbol (cfsm/mod.rs:87-99). -/
def gotoItems (g : Grammar V T) (ord : HashOrder) (fuel : Nat) (group : ItemSet V T) :
    Outcome (ItemSet V T) :=
  itemClosure g ord fuel (collectSet (group.map fun i => (i.1, i.2.advance)))

/-- Loop state of `from_grammar` besides the states already built: the queue `pending_states` and the id
generator (cfsm/mod.rs:63-73, state.rs:119-130). -/
structure CfsmWork (V T : Type) where
  pending : List (Nat × ItemSet V T)
  nextId : Nat

/-- The inner loop of `from_grammar` (cfsm/mod.rs:84-118): the transitions of the state being
processed. -/
def cfsmTransitions (g : Grammar V T) (ord : HashOrder) (fuel : Nat) (done : List (CState V T)) :
    List (Sym V T × ItemSet V T) → CfsmWork V T → Outcome (List (Sym V T × Nat) × CfsmWork V T)
  | [], w => .ok ([], w)
  | (symbol, group) :: groups, w => do
    let items ← gotoItems g (ord.sub groups.length) fuel group
    let (dest, w) := match done.find? (fun s => sameItems s.items items) with
      | some s => (s.id, w)
      | none => (w.nextId, { pending := w.pending ++ [(w.nextId, items)], nextId := w.nextId + 1 })
    let (transitions, w) ← cfsmTransitions g ord fuel done groups w
    pure ((symbol, dest) :: transitions, w)

/-- The main loop of `from_grammar` (cfsm/mod.rs:75-121), at most `n` iterations. -/
def cfsmLoop (g : Grammar V T) (ord : HashOrder) (fuel : Nat) :
    Nat → List (CState V T) → CfsmWork V T → Outcome (List (CState V T))
  | n, done, w =>
    match w.pending with
    | [] => .ok done
    | (id, items) :: pending =>
      match n with
      | 0 => .diverge
      | n + 1 => do
        let (transitions, w) ← cfsmTransitions g ((ord.sub id).sub 1) fuel done
          (ord.shuffle [id, 0] _ (groupBySymbol items)) { w with pending := pending }
        cfsmLoop g ord fuel n (done ++ [⟨id, items, transitions⟩]) w

/-- `Cfsm` (cfsm/mod.rs:25-33).  The start state has id 0. -/
structure Cfsm (V T : Type) where
  grammar : Grammar V T
  states : List (CState V T)
  deriving Repr, DecidableEq

/-- `CfsmBuilder::build` (cfsm/mod.rs:181-221): panics if the start state or the target of a transition
is missing. -/
def Cfsm.checked (c : Cfsm V T) : Outcome (Cfsm V T) :=
  let ids := c.states.map CState.id
  let destinations := c.states.flatMap (fun s => s.transitions.map Prod.snd)
  if ids.contains 0 && (0 :: destinations).all (fun d => ids.contains d) then .ok c else .panic

/-- `Cfsm::from_grammar` (cfsm/mod.rs:60-124). -/
def Cfsm.fromGrammar (g : Grammar V T) (ord : HashOrder) (fuel : Nat) : Outcome (Cfsm V T) := do
  let items ← startItems g (ord.sub 0) fuel
  let states ← cfsmLoop g (ord.sub 1) fuel fuel [] { pending := [(0, items)], nextId := 1 }
  Cfsm.checked ⟨g, states⟩

end Pango.Parse
