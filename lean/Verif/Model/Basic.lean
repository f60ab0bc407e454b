/-!
# Conventions shared by the whole model

* `Outcome` – the result of running a piece of Rust code: a value, a panic, or (for loops modelled
  with fuel) "not finished within the given number of iterations".
* `Profile` – whether the crate was built with overflow checks (`debug`) or without (`release`).
* `Unicode` – the two Unicode predicates of the Rust standard library the code calls.  They are not
  modelled; every theorem holds for every choice of them.
-/

namespace Pango

/-- Result of a computation: a value, a Rust panic, or out of fuel.  Models how a call of a function of either crate
can end: the panics are the `expect`, `unwrap`, `assert!`, `unreachable!`, index and arithmetic panics, for example
regex/tokenizer.rs:160, lexer/mod.rs:95, cfsm/item.rs:148, parser/table.rs:66 and parser/slr.rs:107; fuel stands in
for loops without a bound, such as fsm/nfa/sim.rs:76-111 and parser/slr.rs:58-84. -/
inductive Outcome (α : Type u) where
  | ok (a : α)
  | panic
  | diverge
  deriving Repr, DecidableEq

namespace Outcome

/-- Sequencing: a panic or an unfinished loop stops everything that follows.  Models one statement after another (`;`
and `let`) in the functions of both crates, for example parser/slr.rs:30-36. -/
def bind {α : Type u} {β : Type v} (x : Outcome α) (f : α → Outcome β) : Outcome β :=
  match x with
  | ok a => f a
  | panic => panic
  | diverge => diverge

/-- Models one statement after another, as in parser/slr.rs:30-36, written with `do`. -/
instance : Monad Outcome where
  pure := ok
  bind := bind

@[simp] theorem pure_eq {α : Type u} (a : α) : (pure a : Outcome α) = ok a := rfl
@[simp] theorem bind_ok {α β : Type u} (a : α) (f : α → Outcome β) : ((ok a : Outcome α) >>= f) = f a := rfl
@[simp] theorem bind_panic {α β : Type u} (f : α → Outcome β) : ((panic : Outcome α) >>= f) = panic := rfl
@[simp] theorem bind_diverge {α β : Type u} (f : α → Outcome β) :
    ((diverge : Outcome α) >>= f) = diverge := rfl

theorem bind_eq_ok {α β : Type u} {x : Outcome α} {f : α → Outcome β} {b : β} :
    (x >>= f) = ok b ↔ ∃ a, x = ok a ∧ f a = ok b := by
  cases x <;> simp

/-- `Option::expect`: a missing value is a panic.  For example fsm/nfa/model.rs:71, parser/table.rs:66 and
parser/slr.rs:107. -/
def expect {α : Type u} : Option α → Outcome α
  | some a => ok a
  | none => panic

@[simp] theorem expect_some {α : Type u} (a : α) : expect (some a) = ok a := rfl
@[simp] theorem expect_none {α : Type u} : expect (none : Option α) = panic := rfl

end Outcome

/-- The iteration order of hash containers: an arbitrary permutation at every use.  The list of numbers is the point in
time of the iteration, so that equal containers may be iterated differently: an iteration inside a loop or a call has
a longer list, see `sub`.  Models the `HashMap` and `HashSet` iterations at fsm/nfa/sim.rs:84-110, cfsm/item.rs:85-125
and 133-162, cfsm/mod.rs:84-118, grammar.rs:288-375 and parser/table.rs:60-125. -/
structure HashOrder where
  shuffle : List Nat → (α : Type) → List α → List α
  perm : ∀ now α (l : List α), (shuffle now α l).Perm l

/-- The orders of the iterations made at step `k`.  Models that the iterations inside of a loop, such as
cfsm/mod.rs:84-118, are each made on another container. -/
def HashOrder.sub (ord : HashOrder) (k : Nat) : HashOrder :=
  ⟨fun now => ord.shuffle (k :: now), fun now => ord.perm (k :: now)⟩

/-- Insertion order.  One of the orders that the iterations at cfsm/mod.rs:84-118 may have; for examples. -/
def HashOrder.insertion : HashOrder := ⟨fun _ _ l => l, fun _ _ l => List.Perm.refl l⟩

/-- Reversed insertion order.  One of the orders that the iterations at cfsm/mod.rs:84-118 may have; for examples. -/
def HashOrder.reversed : HashOrder := ⟨fun _ _ l => l.reverse, fun _ _ l => List.reverse_perm l⟩

@[simp] theorem HashOrder.mem_shuffle (ord : HashOrder) {now : List Nat} {α : Type} {l : List α} {a : α} :
    a ∈ ord.shuffle now α l ↔ a ∈ l := (ord.perm now α l).mem_iff

@[simp] theorem HashOrder.length_shuffle (ord : HashOrder) {now : List Nat} {α : Type} {l : List α} :
    (ord.shuffle now α l).length = l.length := (ord.perm now α l).length_eq

/-- Build profile: `debug` panics on integer overflow, `release` wraps around.  Matters for the `u32` arithmetic at
regex/tokenizer.rs:356-388. -/
inductive Profile where
  | debug
  | release
  deriving Repr, DecidableEq

/-- `2^32`, one beyond the largest `u32`.  The type at regex/tokenizer.rs:356-388. -/
def u32Size : Nat := 4294967296

/-- `a + b` on `u32`.  As at regex/tokenizer.rs:356-388. -/
def addU32 (p : Profile) (a b : Nat) : Outcome Nat :=
  if a + b < u32Size then .ok (a + b)
  else match p with
    | .debug => .panic
    | .release => .ok ((a + b) % u32Size)

/-- `char::is_alphabetic` and `char::is_whitespace` of the Rust standard library (not modelled).  Called at
regex/tokenizer.rs:423-428. -/
class Unicode where
  isAlphabetic : Char → Bool
  isWhitespace : Char → Bool

end Pango
