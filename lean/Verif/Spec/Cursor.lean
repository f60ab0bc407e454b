/-!
# A tape with a cursor

What a peeking iterator should be: a sequence that has no end, of items and of `None`s, and a place in it.
-/

namespace Pango.Spec

/-- A call on a peeking iterator.  `take` and `map` are single calls of `next` on the iterators made by
`cautious_take_while` and `cautious_map_while`. -/
inductive PeekCall (α : Type) where
  | next
  | peek
  | peekMut (f : α → α)
  | nextIf (p : α → Bool)
  | nextIfEq (a : α)
  | take (p : α → Bool)
  | map (f : α → Option α)

/-- The tape, the place, and the item taken most recently; `none` if there is none, or if the end was taken. -/
structure Cursor (α : Type) where
  tape : Nat → Option α
  pos : Nat
  last : Option α

namespace Cursor

variable {α : Type}

/-- What is under the cursor. -/
def under (c : Cursor α) : Option α := c.tape c.pos

/-- Take what is under the cursor. -/
def step (c : Cursor α) : Cursor α := ⟨c.tape, c.pos + 1, c.under⟩

/-- Write under the cursor. -/
def write (c : Cursor α) (a : Option α) : Cursor α := { c with tape := fun n => if n = c.pos then a else c.tape n }

/-- The answer to a call. -/
def answer [BEq α] (c : Cursor α) : PeekCall α → Option α
  | .next | .peek | .peekMut _ => c.under
  | .nextIf p | .take p => c.under.filter p
  | .nextIfEq a => c.under.filter (· == a)
  | .map f => c.under.bind f

/-- The cursor after a call: it moves if `next` was called, and if any other call that takes an item had an answer. -/
def after [BEq α] (c : Cursor α) : PeekCall α → Cursor α
  | .next => c.step
  | .peek => c
  | .peekMut f => c.write (c.under.map f)
  | op => if (c.answer op).isSome then c.step else c

/-- After a number of calls. -/
def afterAll [BEq α] (c : Cursor α) (ops : List (PeekCall α)) : Cursor α := ops.foldl after c

end Cursor

end Pango.Spec
