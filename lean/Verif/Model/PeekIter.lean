import Verif.Model.Iter

/-!
# The iterator adapters over an arbitrary iterator (`pango-lexer/src/iter`)

`Model/Iter.lean` replaces the underlying iterator by the list of its items, which is right for the iterators of the
crate.  Here it is any state with a function, which may go on after it has returned `None`, and `std::iter::Peekable` is
modelled with its cache.
-/

namespace Pango

/-- An `Iterator`: its state, and what `next` does.  The parameter `I` at iter/peekable.rs:130, 153 and 184. -/
structure RawIter (σ α : Type) where
  next : σ → Option α × σ

/-- `std::iter::Peekable` (library/core/src/iter/adapters/peekable.rs): the iterator, and the item, possibly `None`,
that was peeked at.  Implements the trait at iter/peekable.rs:130-150. -/
structure StdPeekable (σ α : Type) where
  iter : σ
  peeked : Option (Option α)
  deriving DecidableEq, Repr

/-- `Peekableable` (peekable.rs:7-128) with `Iterator::next`.  A reference that is returned is modelled by the item.  The
only thing to do with the reference from `peek_mut` is to write to it, so `peekMut` is given what is written. -/
structure Peekableable (ι α : Type) where
  next : ι → Option α × ι
  peek : ι → Option α × ι
  peekMut : (α → α) → ι → Option α × ι
  nextIf : (α → Bool) → ι → Option α × ι
  nextIfEq : α → ι → Option α × ι

namespace StdPeekable

variable {σ α : Type} (it : RawIter σ α)

/-- `Iterator::peekable`.  Called at iter/peekable.rs:184-191. -/
def new (s : σ) : StdPeekable σ α := ⟨s, none⟩

/-- `Peekable::next`: the item that was peeked at, or that of the iterator.  A supertrait of `Peekableable`,
iter/peekable.rs:130. -/
def next (p : StdPeekable σ α) : Option α × StdPeekable σ α :=
  match p.peeked with
  | some v => (v, ⟨p.iter, none⟩)
  | none => ((it.next p.iter).1, ⟨(it.next p.iter).2, none⟩)

/-- `Peekable::peek`: fills the cache.  Called at iter/peekable.rs:131-133. -/
def peek (p : StdPeekable σ α) : Option α × StdPeekable σ α :=
  match p.peeked with
  | some v => (v, p)
  | none => ((it.next p.iter).1, ⟨(it.next p.iter).2, some (it.next p.iter).1⟩)

/-- `Peekable::peek_mut`: fills the cache, and `f` is applied to the item in it.  Called at iter/peekable.rs:135-137.
-/
def peekMut (f : α → α) (p : StdPeekable σ α) : Option α × StdPeekable σ α :=
  let (a, p) := p.peek it
  (a, { p with peeked := p.peeked.map (Option.map f) })

/-- `Peekable::next_if`: an item that does not match, or `None`, goes back to the cache.  Called at
iter/peekable.rs:139-141. -/
def nextIf (f : α → Bool) (p : StdPeekable σ α) : Option α × StdPeekable σ α :=
  match p.next it with
  | (some a, p) => if f a then (some a, p) else (none, { p with peeked := some (some a) })
  | (none, p) => (none, { p with peeked := some none })

/-- `impl Peekableable for Peekable<I>` (peekable.rs:130-150). -/
def peekable [BEq α] : Peekableable (StdPeekable σ α) α where
  next := next it
  peek := peek it
  peekMut := peekMut it
  nextIf := nextIf it
  nextIfEq expected := nextIf it (fun a => a == expected)

end StdPeekable

/-- `CachedPeekable` (peekable.rs:153-158). -/
structure CachedPeek (σ α : Type) where
  iter : StdPeekable σ α
  current : Option (Option α)
  deriving DecidableEq, Repr

namespace CachedPeek

variable {σ α : Type} (it : RawIter σ α)

/-- `cached_peekable` (peekable.rs:184-191). -/
def new (s : σ) : CachedPeek σ α := ⟨.new s, none⟩

/-- `Iterator::next` (peekable.rs:170-172). -/
def next (p : CachedPeek σ α) : Option α × CachedPeek σ α :=
  let (a, iter) := p.iter.next it
  (a, ⟨iter, some a⟩)

/-- `CachedPeekable::current` (peekable.rs:179-181). -/
def currentItem (p : CachedPeek σ α) : Option α := p.current.getD none

/-- `peek` (peekable.rs:197-199). -/
def peek (p : CachedPeek σ α) : Option α × CachedPeek σ α :=
  let (a, iter) := p.iter.peek it
  (a, { p with iter })

/-- `peek_mut` (peekable.rs:201-203). -/
def peekMut (f : α → α) (p : CachedPeek σ α) : Option α × CachedPeek σ α :=
  let (a, iter) := p.iter.peekMut it f
  (a, { p with iter })

/-- `next_if` (peekable.rs:205-212). -/
def nextIf (f : α → Bool) (p : CachedPeek σ α) : Option α × CachedPeek σ α :=
  match p.iter.nextIf it f with
  | (some a, iter) => (some a, ⟨iter, some (some a)⟩)
  | (none, iter) => (none, { p with iter })

/-- `impl Peekableable for CachedPeekable<I>` (peekable.rs:193-226). -/
def peekable [BEq α] : Peekableable (CachedPeek σ α) α where
  next := next it
  peek := peek it
  peekMut := peekMut it
  nextIf := nextIf it
  nextIfEq expected := nextIf it (fun a => a == expected)

end CachedPeek

/-- `CautiousTakeWhile::next` (cautious/take_while.rs:30-41), for any `Peekableable`. -/
def Peekableable.takeNext {ι α : Type} (m : Peekableable ι α) (p : α → Bool) (i : ι) : Option α × ι :=
  let (a, i) := m.peek i
  let returnNext := match a with
    | some a => p a
    | none => false
  if returnNext then m.next i else (none, i)

/-- `CautiousMapWhile::next` (cautious/map_while.rs:30-43), for any `Peekableable`. -/
def Peekableable.mapNext {ι α β : Type} (m : Peekableable ι α) (f : α → Option β) (i : ι) : Option β × ι :=
  match m.peek i with
  | (some a, i) =>
    let result := f a
    if result.isSome then (result, (m.next i).2) else (result, i)
  | (none, i) => (none, i)

end Pango
