import Verif.Model.Cfsm

/-!
# SLR tables and parser (`pango-parser/src/parser`, `pango-parser/src/cst.rs`)
-/

namespace Pango.Parse

/-- `TerminalEq` (parser/traits.rs:3-5).  The tables are `HashMap`s keyed by this equality and
`terminal_hash`; the model assumes what `HashMap` requires of its keys, that equal terminals have equal
hashes. -/
class TerminalEq (T : Type) where
  teq : T → T → Bool

export TerminalEq (teq)

/-- The contract of `Eq` for the keys of a hash map: an equivalence relation.  A user implements the trait at
parser/traits.rs:3-5, and parser/table.rs:217-234 makes it the `Eq` of the keys. -/
class LawfulTerminalEq (T : Type) [TerminalEq T] : Prop where
  refl : ∀ t : T, teq t t = true
  symm : ∀ s t : T, teq s t = true → teq t s = true
  trans : ∀ s t u : T, teq s t = true → teq t u = true → teq s u = true

variable {V T : Type}

/-- `ActionKind` (parser/table.rs:20-24). -/
inductive Action (V : Type) where
  | shift (dest : Nat)
  | reduce (head : V) (amount : Nat)
  | accept (head : V) (amount : Nat)
  deriving Repr, DecidableEq

/-- Equality of the keys of the action table (parser/table.rs:217-232); `none` is `Eof`. -/
def keyEq [TerminalEq T] : Option T → Option T → Bool
  | some s, some t => teq s t
  | none, none => true
  | _, _ => false

/-- A row of the action table, a `HashMap` keyed by terminals.  parser/table.rs:16. -/
abbrev ActionRow (V T : Type) := List (Option T × Action V)

/-- `HashMap::get` on a row.  parser/slr.rs:109. -/
def rowGet [TerminalEq T] (row : ActionRow V T) (key : Option T) : Option (Action V) :=
  match row with
  | [] => none
  | (k, a) :: r => if keyEq k key then some a else rowGet r key

/-- `ParseTable` (parser/table.rs:10-14) with the start variable of its grammar. -/
structure Table (V T : Type) where
  start : V
  action : List (ActionRow V T)
  goto : List (List (V × Nat))
  deriving Repr, DecidableEq

/-- `table.resize_with(state + 1, Default::default)` if the table is shorter (parser/table.rs:146-148,
172-174). -/
def resizeTo {α : Type} (default : α) (n : Nat) (l : List α) : List α :=
  l ++ List.replicate (n - l.length) default

/-- `insert_action` (parser/table.rs:140-164): `none` is `Err(())`, the entry is occupied. -/
def insertAction [TerminalEq T] (table : List (ActionRow V T)) (state : Nat) (key : Option T)
    (action : Action V) : Option (List (ActionRow V T)) :=
  let table := resizeTo [] (state + 1) table
  let row := (table[state]?).getD []
  match rowGet row key with
  | some _ => none
  | none => some (table.set state (row ++ [(key, action)]))

variable [DecidableEq V]

/-- `insert_goto` (parser/table.rs:171-190).  The assertion is only compiled with debug assertions; it
never fails (C41), so the model always checks it. -/
def insertGoto (table : List (List (V × Nat))) (state : Nat) (v : V) (dest : Nat) :
    Outcome (List (List (V × Nat))) :=
  let table := resizeTo [] (state + 1) table
  let row := (table[state]?).getD []
  match mapGet row v with
  | some old => if old = dest then .ok (table.set state (mapSet row v dest)) else .panic
  | none => .ok (table.set state (mapSet row v dest))

variable [DecidableEq T] [TerminalEq T]

/-- `for s in follow.iter()` (parser/table.rs:87-105). -/
def insertReduces (state : Nat) (action : Action V) :
    List (Sym V T) → List (ActionRow V T) → Outcome (Option (List (ActionRow V T)))
  | [], table => .ok (some table)
  | .term t :: follow, table =>
    match insertAction table state (some t) action with
    | some table => insertReduces state action follow table
    | none => .ok none
  | .var _ :: _, _ => .panic
  | .eps :: follow, table => insertReduces state action follow table

/-- The body of the loop over the items of a state (parser/table.rs:60-125). -/
def insertItem (g : Grammar V T) (ord : HashOrder) (follow : List (V × List (Sym V T)))
    (s : CState V T) (head : V) (item : Item V T) (table : Table V T) : Outcome (Option (Table V T)) :=
  match item.cursorSymbol with
  | some (.term t) => do
    let dest ← Outcome.expect (mapGet s.transitions (.term t))
    pure ((insertAction table.action s.id (some t) (.shift dest)).map fun a => { table with action := a })
  | some (.var v) => do
    let dest ← Outcome.expect (mapGet s.transitions (.var v))
    let goto ← insertGoto table.goto s.id v dest
    pure (some { table with goto })
  | none =>
    match mapGet follow head with
    | none => .ok (some table)
    | some f => do
      match ← insertReduces s.id (.reduce head item.body.length) (ord.shuffle [] _ f) table.action with
      | none => pure none
      | some action =>
        if head = g.start then
          pure ((insertAction action s.id none (.accept head item.body.length)).map
            fun a => { table with action := a })
        else pure (some { table with action })
  | some .eps => .panic

/-- The loop over the items of a state.  parser/table.rs:60-125. -/
def insertItems (g : Grammar V T) (ord : HashOrder) (follow : List (V × List (Sym V T)))
    (s : CState V T) : ItemSet V T → Table V T → Outcome (Option (Table V T))
  | [], table => .ok (some table)
  | (head, item) :: items, table => do
    match ← insertItem g (ord.sub items.length) follow s head item table with
    | none => pure none
    | some table => insertItems g ord follow s items table

/-- The loop over the states (parser/table.rs:54-126). -/
def insertStates (g : Grammar V T) (ord : HashOrder) (follow : List (V × List (Sym V T))) :
    List (CState V T) → Table V T → Outcome (Option (Table V T))
  | [], table => .ok (some table)
  | s :: states, table => do
    match ← insertItems g ((ord.sub s.id).sub 1) follow s (((ord.sub s.id).sub 0).grouped Prod.fst s.items) table with
    | none => pure none
    | some table => insertStates g ord follow states table

/-- `ParseTable::new_slr` (parser/table.rs:46-133); `none` is `Err(())`, a conflict. -/
def newSlr (c : Cfsm V T) (ord : HashOrder) (fuel : Nat) : Outcome (Option (Table V T)) := do
  let follow ← c.grammar.followSet (ord.sub 0) fuel
  insertStates c.grammar (ord.sub 1) follow c.states ⟨c.grammar.start, [], []⟩

/-- `Cfsm::from_grammar` followed by `ParseTable::new_slr`: the table, or `none` for a conflict.  parser/slr.rs:30-33.
-/
def slrTable (g : Grammar V T) (ord : HashOrder) (fuel : Nat) : Outcome (Option (Table V T)) := do
  let c ← Cfsm.fromGrammar g (ord.sub 0) fuel
  newSlr c (ord.sub 1) fuel

/-- `Slr::new` (parser/slr.rs:30-36): panics if there is a conflict. -/
def slrNew (g : Grammar V T) (ord : HashOrder) (fuel : Nat) : Outcome (Table V T) := do
  let t ← slrTable g ord fuel
  Outcome.expect t

/-! ## Parsing -/

/-- `Node` (cst.rs:11-14); `Cst` (5-7) is its root. -/
inductive Node (V T : Type) where
  | mk (symbol : Sym V T) (children : List (Node V T))
  deriving Repr

/-- `ParseNode` (parser/slr.rs:20-23). -/
structure ParseNode (V T : Type) where
  node : Node V T
  state : Nat

/-- What `handle_token` returns when it is not an error: the new node, whether the input is accepted, the remaining
stack, and whether the token was taken.  parser/slr.rs:92-97 and 170; the stack and the token are `&mut` there. -/
structure Handled (V T : Type) where
  node : ParseNode V T
  accepted : Bool
  stack : List (ParseNode V T)
  taken : Bool

/-- `stack.drain((stack.len() - amount)..)` (parser/slr.rs:122-126, 152-156): the nodes taken off and the
remaining stack.  The stack is a list with the top first, so taking from the front and reversing twice
(`drain` yields bottom to top, then `.rev()`) is taking from the front.  Too large an amount panics in
both profiles: the subtraction overflows, or the range starts beyond the end. -/
def drainStack (stack : List (ParseNode V T)) (amount : Nat) :
    Outcome (List (Node V T) × List (ParseNode V T)) :=
  if amount ≤ stack.length then .ok ((stack.take amount).map ParseNode.node, stack.drop amount)
  else .panic

/-- `handle_token` (parser/slr.rs:92-171); `none` is `Err(())`. -/
def handleToken (tbl : Table V T) (token : Option T) (stack : List (ParseNode V T)) (current : Nat) :
    Outcome (Option (Handled V T)) := do
  let row ← Outcome.expect (tbl.action[current]?)
  match rowGet row token with
  | none => pure none
  | some (.shift dest) =>
    let t ← Outcome.expect token
    pure (some ⟨⟨.mk (.term t) [], dest⟩, false, stack, true⟩)
  | some (.reduce v amount) =>
    let (children, stack) ← drainStack stack amount
    let top ← Outcome.expect stack.head?
    let row ← Outcome.expect (tbl.goto[top.state]?)
    match mapGet row v with
    | none => pure none
    | some dest => pure (some ⟨⟨.mk (.var v) children, dest⟩, false, stack, false⟩)
  | some (.accept v amount) =>
    let (children, stack) ← drainStack stack amount
    pure (some ⟨⟨.mk (.var v) children, 0⟩, true, stack, false⟩)

/-- What comes after the tokens in the input of the parser: the lexer returns `None`, panics, or does not return.  The
`next` of the lexer at parser/slr.rs:58. -/
abbrev InputEnd := Outcome Unit

/-- The loop at the end of the input (parser/slr.rs:74-89), at most `n` iterations; `none` is
`Err(())`. -/
def parseEof (tbl : Table V T) : Nat → List (ParseNode V T) → Nat → Outcome (Option (Node V T))
  | 0, _, _ => .diverge
  | n + 1, stack, current => do
    match ← handleToken tbl none stack current with
    | none => pure none
    | some h =>
      if h.accepted then pure (some h.node.node)
      else parseEof tbl n (h.node :: h.stack) h.node.state

/-- The loop over the tokens (parser/slr.rs:58-71), at most `n` iterations.  `input` is what the lexer
will yield, preceded by `next_token` if that is `Some`; tokens are represented by their kind, the
parser uses nothing else. -/
def parseLoop (tbl : Table V T) (fin : InputEnd) :
    Nat → List T → List (ParseNode V T) → Nat → Outcome (Option (Node V T))
  | 0, _, _, _ => .diverge
  | n + 1, [], stack, current =>
    match fin with
    | .ok () => parseEof tbl (n + 1) stack current
    | .panic => .panic
    | .diverge => .diverge
  | n + 1, t :: input, stack, current => do
    match ← handleToken tbl (some t) stack current with
    | none => pure none
    | some h =>
      if h.accepted then pure (some h.node.node)
      else parseLoop tbl fin n (if h.taken then input else t :: input) (h.node :: h.stack) h.node.state

/-- `Slr::parse` (parser/slr.rs:44-90) on the given tokens; `none` is `Err(())`. -/
def parseTokens (tbl : Table V T) (fuel : Nat) (input : List T) (fin : InputEnd := .ok ()) :
    Outcome (Option (Node V T)) :=
  parseLoop tbl fin fuel input [⟨.mk (.var tbl.start) [], 0⟩] 0

end Pango.Parse
