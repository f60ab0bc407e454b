import Verif.Model.Basic

/-!
# Iterator adapters (`pango-lexer/src/iter`)

An underlying iterator is modelled by the list of the items it will still yield; all iterators used
by the crate (`Chars`, `Enumerate`, `Tokenizer`) keep returning `None` once exhausted.
`std::iter::Peekable` is part of the standard library and modelled by the same list: `peek` is its
head.
-/

namespace Pango

/-- `CachedPeekable` (peekable.rs:153-158).  `current` is `None` before the first call of `next`. -/
structure CachedPeekable (α : Type u) where
  rest : List α
  current : Option (Option α)
  deriving Repr, DecidableEq

namespace CachedPeekable

variable {α : Type u} {β : Type v}

/-- `cached_peekable` (peekable.rs:184-191). -/
def ofList (l : List α) : CachedPeekable α := ⟨l, none⟩

/-- `Iterator::next` (peekable.rs:170-172): remembers the item, `None` included. -/
def next (it : CachedPeekable α) : Option α × CachedPeekable α :=
  (it.rest.head?, ⟨it.rest.tail, some it.rest.head?⟩)

/-- `current` (peekable.rs:179-181). -/
def currentItem (it : CachedPeekable α) : Option α := it.current.getD none

/-- `peek` (peekable.rs:197-199). -/
def peek (it : CachedPeekable α) : Option α := it.rest.head?

/-- `next_if` (peekable.rs:205-212): `current` is only touched when an item is returned. -/
def nextIf (f : α → Bool) (it : CachedPeekable α) : Option α × CachedPeekable α :=
  match it.rest with
  | [] => (none, it)
  | a :: r => if f a then (some a, ⟨r, some (some a)⟩) else (none, it)

/-- `next_if_eq` (peekable.rs:214-225). -/
def nextIfEq [BEq α] (expected : α) (it : CachedPeekable α) : Option α × CachedPeekable α :=
  nextIf (fun a => a == expected) it

/-- `CautiousTakeWhile::next` (cautious/take_while.rs:30-41) on a `CachedPeekable`. -/
def cautiousTakeNext (p : α → Bool) (it : CachedPeekable α) : Option α × CachedPeekable α :=
  let returnNext := match it.peek with
    | some a => p a
    | none => false
  if returnNext then it.next else (none, it)

/-- `CautiousMapWhile::next` (cautious/map_while.rs:30-43) on a `CachedPeekable`. -/
def cautiousMapNext (f : α → Option β) (it : CachedPeekable α) : Option β × CachedPeekable α :=
  match it.peek with
  | some a =>
    let result := f a
    if result.isSome then (result, it.next.2) else (result, it)
  | none => (none, it)

/-- Draining a cautious adapter (`collect`/`fold`): call `next` until it returns `None`.  The bound on the number of
calls is the number of remaining items plus one.  As at regex/tokenizer.rs:374-379 and 385-387. -/
def drain (step : CachedPeekable α → Option β × CachedPeekable α) :
    Nat → CachedPeekable α → List β × CachedPeekable α
  | 0, it => ([], it)
  | n + 1, it =>
    match step it with
    | (some b, it') => let (bs, it'') := drain step n it'; (b :: bs, it'')
    | (none, it') => ([], it')

/-- All items of `cautious_map_while(f)` on the iterator, and the iterator
afterwards.  iter/cautious/map_while.rs:30-43 and 51-56. -/
def cautiousMapWhile (f : α → Option β) (it : CachedPeekable α) : List β × CachedPeekable α :=
  drain (cautiousMapNext f) (it.rest.length + 1) it

/-- All items of `cautious_take_while(p)` on the iterator, and the iterator
afterwards.  iter/cautious/take_while.rs:30-41 and 49-54. -/
def cautiousTakeWhile (p : α → Bool) (it : CachedPeekable α) : List α × CachedPeekable α :=
  drain (cautiousTakeNext p) (it.rest.length + 1) it

end CachedPeekable

end Pango
