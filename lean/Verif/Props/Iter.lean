import Verif.Model.Iter

/-!
# C24, C25: iterator adapters
-/

namespace Pango.Props

open CachedPeekable

/-! ## C24 -/

/-- The operations of a `CachedPeekable` a user can call. -/
inductive IterOp (α : Type) where
  | next
  | peek
  | nextIf (f : α → Bool)
  | current

/-- One call: the answer and the iterator afterwards. -/
def IterOp.call {α : Type} (it : CachedPeekable α) : IterOp α → Option α × CachedPeekable α
  | .next => it.next
  | .peek => (it.peek, it)
  | .nextIf f => it.nextIf f
  | .current => (it.currentItem, it)

/-- A history of calls with their answers. -/
abbrev IterLog (α : Type) := List (IterOp α × Option α)

/-- Make all the calls and write down the answers. -/
def callAll {α : Type} (it : CachedPeekable α) : List (IterOp α) → IterLog α
  | [] => []
  | op :: ops => (op, (op.call it).1) :: callAll (op.call it).2 ops

/-- Specification: the items handed out by `next` and `next_if` in a history. -/
def handedOut {α : Type} : IterLog α → List α
  | [] => []
  | (.next, some a) :: l => a :: handedOut l
  | (.nextIf _, some a) :: l => a :: handedOut l
  | _ :: l => handedOut l

/-- Specification: the most recent answer of a `next` (the end included) or of a successful `next_if`;
`none` if there is none. -/
def mostRecent {α : Type} (l : IterLog α) : Option α :=
  l.foldl (fun last e => match e with
    | (.next, a) => a
    | (.nextIf _, some a) => some a
    | _ => last) none

private theorem handedOut_append {α : Type} (l₁ l₂ : IterLog α) :
    handedOut (l₁ ++ l₂) = handedOut l₁ ++ handedOut l₂ := by
  induction l₁ with
  | nil => rfl
  | cons e l₁ ih =>
    obtain ⟨op, a⟩ := e
    cases op <;> cases a <;> simp [handedOut, ih]

private theorem head?_drop {α : Type} (xs : List α) (n : Nat) : (xs.drop n).head? = xs[n]? := by
  simp

/-- The state after a history: remaining items and cached item. -/
private theorem callAll_spec {α : Type} (xs : List α) (ops : List (IterOp α)) :
    ∀ (l₀ : IterLog α) (it : CachedPeekable α),
      it.rest = xs.drop (handedOut l₀).length → it.currentItem = mostRecent l₀ →
      (handedOut l₀ ++ it.rest = xs) →
      (∃ r, handedOut (l₀ ++ callAll it ops) ++ r = xs) ∧
      ∀ l₁ op a l₂, callAll it ops = l₁ ++ (op, a) :: l₂ →
        match op with
        | .next => a = xs[(handedOut (l₀ ++ l₁)).length]?
        | .peek => a = xs[(handedOut (l₀ ++ l₁)).length]?
        | .nextIf f => a = (xs[(handedOut (l₀ ++ l₁)).length]?).filter f
        | .current => a = mostRecent (l₀ ++ l₁) := by
  induction ops with
  | nil =>
    intro l₀ it _ _ h3
    refine ⟨⟨it.rest, by simpa [callAll] using h3⟩, ?_⟩
    intro l₁ op a l₂ h
    simp [callAll] at h
  | cons o ops ih =>
    intro l₀ it h1 h2 h3
    have hhead : it.rest.head? = xs[(handedOut l₀).length]? := by rw [h1]; exact head?_drop _ _
    -- the invariant after the call
    have hnew : (o.call it).2.rest = xs.drop (handedOut (l₀ ++ [(o, (o.call it).1)])).length ∧
        (o.call it).2.currentItem = mostRecent (l₀ ++ [(o, (o.call it).1)]) ∧
        handedOut (l₀ ++ [(o, (o.call it).1)]) ++ (o.call it).2.rest = xs := by
      cases o with
      | next =>
        cases hr : it.rest with
        | nil =>
          rw [hr] at h3
          have : handedOut l₀ = xs := by simpa using h3
          simp [IterOp.call, CachedPeekable.next, hr, handedOut_append, handedOut, mostRecent,
            currentItem, this]
        | cons a r =>
          rw [hr] at h3 h1
          have e : r = xs.drop ((handedOut l₀).length + 1) := by
            rw [← List.tail_drop, ← h1]; rfl
          simp only [IterOp.call, CachedPeekable.next, hr, handedOut_append, handedOut, mostRecent,
            currentItem, List.head?_cons, List.tail_cons, List.length_append, List.length_cons,
            List.length_nil, List.foldl_append, List.foldl_cons, List.foldl_nil, Option.getD_some]
          exact ⟨by simpa using e, trivial, by simpa using h3⟩
      | peek =>
        have e1 : handedOut (l₀ ++ [(IterOp.peek, it.peek)]) = handedOut l₀ := by
          rw [handedOut_append]; cases it.peek <;> simp [handedOut]
        have e2 : mostRecent (l₀ ++ [(IterOp.peek, it.peek)]) = mostRecent l₀ := by
          simp [mostRecent]
        exact ⟨by simpa [IterOp.call, e1] using h1, by simpa [IterOp.call, e2] using h2,
          by simpa [IterOp.call, e1] using h3⟩
      | current =>
        have e1 : handedOut (l₀ ++ [(IterOp.current, it.currentItem)]) = handedOut l₀ := by
          rw [handedOut_append]; cases it.currentItem <;> simp [handedOut]
        have e2 : mostRecent (l₀ ++ [(IterOp.current, it.currentItem)]) = mostRecent l₀ := by
          simp [mostRecent]
        exact ⟨by simpa [IterOp.call, e1] using h1, by simpa [IterOp.call, e2] using h2,
          by simpa [IterOp.call, e1] using h3⟩
      | nextIf f =>
        cases hr : it.rest with
        | nil =>
          have e : IterOp.call it (.nextIf f) = (none, it) := by
            simp [IterOp.call, CachedPeekable.nextIf, hr]
          rw [e]
          refine ⟨?_, ?_, ?_⟩
          · simpa [handedOut_append, handedOut] using h1
          · simpa [mostRecent] using h2
          · simpa [handedOut_append, handedOut] using h3
        | cons a r =>
          by_cases hf : f a
          · have e : IterOp.call it (.nextIf f) = (some a, ⟨r, some (some a)⟩) := by
              simp [IterOp.call, CachedPeekable.nextIf, hr, hf]
            rw [e]
            rw [hr] at h1 h3
            have e' : r = xs.drop ((handedOut l₀).length + 1) := by
              rw [← List.tail_drop, ← h1]; rfl
            refine ⟨?_, ?_, ?_⟩
            · simpa [handedOut_append, handedOut] using e'
            · simp [mostRecent, currentItem]
            · simpa [handedOut_append, handedOut] using h3
          · have e : IterOp.call it (.nextIf f) = (none, it) := by
              simp [IterOp.call, CachedPeekable.nextIf, hr, hf]
            rw [e]
            refine ⟨?_, ?_, ?_⟩
            · simpa [handedOut_append, handedOut] using h1
            · simpa [mostRecent] using h2
            · simpa [handedOut_append, handedOut] using h3
    obtain ⟨hp, hall⟩ := ih (l₀ ++ [(o, (o.call it).1)]) (o.call it).2 hnew.1 hnew.2.1 hnew.2.2
    refine ⟨by simpa [callAll] using hp, ?_⟩
    intro l₁ op a l₂ h
    cases l₁ with
    | nil =>
      simp only [callAll, List.nil_append, List.cons.injEq, Prod.mk.injEq] at h
      obtain ⟨⟨rfl, rfl⟩, _⟩ := h
      simp only [List.append_nil]
      cases o with
      | next => simpa [IterOp.call, CachedPeekable.next] using hhead
      | peek => simpa [IterOp.call, CachedPeekable.peek] using hhead
      | current => simpa [IterOp.call] using h2
      | nextIf f =>
        show (it.nextIf f).1 = _
        rw [← hhead]
        unfold CachedPeekable.nextIf
        cases hr : it.rest with
        | nil => simp
        | cons b r =>
          by_cases hf : f b <;> simp [hf, Option.filter]
    | cons e l₁ =>
      simp only [callAll, List.cons_append, List.cons.injEq] at h
      obtain ⟨rfl, h⟩ := h
      have := hall l₁ op a l₂ h
      simpa using this

/-- **C24.** For every sequence `xs` and every history of calls on the caching iterator over it: the
items handed out are a prefix of `xs` in order, and every single answer is the right one – `next` and
`peek` answer with the first item not yet handed out, `next_if` with that item if it satisfies the
predicate, `current` with the most recent answer of `next`/`next_if`. -/
theorem c24_cached_peekable {α : Type} (xs : List α) (ops : List (IterOp α)) :
    (∃ r, handedOut (callAll (ofList xs) ops) ++ r = xs) ∧
    ∀ before op answer after, callAll (ofList xs) ops = before ++ (op, answer) :: after →
      match op with
      | .next => answer = xs[(handedOut before).length]?
      | .peek => answer = xs[(handedOut before).length]?
      | .nextIf f => answer = (xs[(handedOut before).length]?).filter f
      | .current => answer = mostRecent before := by
  have h := callAll_spec xs ops [] (ofList xs) rfl rfl rfl
  simpa using h

/-- A history in which `next` succeeds, `next_if` fails and succeeds, and the end is reached. -/
example : (callAll (ofList [1, 2]) [.peek, .next, .nextIf (· == 7), .current, .nextIf (· == 2),
    .next, .current]).map Prod.snd = [some 1, some 1, none, some 1, some 2, none, none] := rfl

/-! ## C25 -/

private theorem drain_map {α β : Type} (f : α → Option β) :
    ∀ (n : Nat) (it : CachedPeekable α), it.rest.length < n →
      ∃ (taken left : List α) (out : List β) (c : Option (Option α)),
        drain (cautiousMapNext f) n it = (out, ⟨left, c⟩) ∧
        it.rest = taken ++ left ∧ taken.map f = out.map some ∧
        (∀ a, left.head? = some a → f a = none) ∧
        c = (if taken = [] then it.current else some taken.getLast?) := by
  intro n
  induction n with
  | zero => intro it h; omega
  | succ n ih =>
    intro it h
    cases hr : it.rest with
    | nil =>
      exact ⟨[], [], [], it.current, by
        obtain ⟨r, c⟩ := it
        simp_all [drain, cautiousMapNext, CachedPeekable.peek], rfl, rfl, by simp, by simp⟩
    | cons a r =>
      cases hf : f a with
      | none =>
        refine ⟨[], a :: r, [], it.current, ?_, rfl, rfl, ?_, by simp⟩
        · obtain ⟨r', c⟩ := it
          simp_all [drain, cautiousMapNext, CachedPeekable.peek]
        · intro b hb
          simp at hb
          rw [← hb]; exact hf
      | some b =>
        have e : cautiousMapNext f it = (some b, ⟨r, some (some a)⟩) := by
          simp [cautiousMapNext, CachedPeekable.peek, hr, hf, CachedPeekable.next]
        obtain ⟨taken, left, out, c, h1, h2, h3, h4, h5⟩ :=
          ih ⟨r, some (some a)⟩ (by simp [hr] at h; simpa using h)
        refine ⟨a :: taken, left, b :: out, c, ?_, ?_, ?_, h4, ?_⟩
        · simp [drain, e, h1]
        · simpa using h2
        · simp [h3, hf]
        · rw [h5]
          cases taken with
          | nil => simp
          | cons x xs => simp

/-- **C25**, `cautious_map_while`: the adapter yields the images of the longest prefix on which the
function is defined, and leaves the first item on which it is not defined in the underlying iterator.
The cached item of the underlying iterator is the last item taken. -/
theorem c25_cautious_map_while {α β : Type} (f : α → Option β) (it : CachedPeekable α) :
    ∃ taken left out,
      (it.cautiousMapWhile f).1 = out ∧
      (it.cautiousMapWhile f).2.rest = left ∧
      it.rest = taken ++ left ∧
      taken.map f = out.map some ∧
      (∀ a, left.head? = some a → f a = none) ∧
      (it.cautiousMapWhile f).2.current = (if taken = [] then it.current else some taken.getLast?) := by
  obtain ⟨taken, left, out, c, h1, h2, h3, h4, h5⟩ := drain_map f (it.rest.length + 1) it (by omega)
  exact ⟨taken, left, out, by simp [cautiousMapWhile, h1], by simp [cautiousMapWhile, h1], h2, h3, h4,
    by simp [cautiousMapWhile, h1, h5]⟩

example : ((ofList [1, 2, 7, 3]).cautiousMapWhile (fun n => if n < 5 then some (n * 10) else none)).1
    = [10, 20] := rfl

/-- **C25**, `cautious_take_while`: the adapter yields exactly the longest prefix of items that satisfy
the predicate, and the underlying iterator continues with the first item that does not. -/
theorem c25_cautious_take_while {α : Type} (p : α → Bool) (it : CachedPeekable α) :
    (it.cautiousTakeWhile p).1 = it.rest.takeWhile p ∧
    (it.cautiousTakeWhile p).2.rest = it.rest.dropWhile p ∧
    (it.cautiousTakeWhile p).2.current =
      (if it.rest.takeWhile p = [] then it.current else some (it.rest.takeWhile p).getLast?) := by
  suffices h : ∀ (n : Nat) (it : CachedPeekable α), it.rest.length < n →
      drain (cautiousTakeNext p) n it = (it.rest.takeWhile p, ⟨it.rest.dropWhile p,
        if it.rest.takeWhile p = [] then it.current else some (it.rest.takeWhile p).getLast?⟩) by
    have := h (it.rest.length + 1) it (by omega)
    simp [cautiousTakeWhile, this]
  intro n
  induction n with
  | zero => intro it h; omega
  | succ n ih =>
    intro it h
    cases hr : it.rest with
    | nil => obtain ⟨r, c⟩ := it; simp_all [drain, cautiousTakeNext, CachedPeekable.peek]
    | cons a r =>
      by_cases hp : p a
      · have e : cautiousTakeNext p it = (some a, ⟨r, some (some a)⟩) := by
          simp [cautiousTakeNext, CachedPeekable.peek, hr, hp, CachedPeekable.next]
        have := ih ⟨r, some (some a)⟩ (by simp [hr] at h; simpa using h)
        simp only [drain, e, this, List.takeWhile_cons, List.dropWhile_cons, hp, if_true]
        cases r.takeWhile p <;> simp
      · obtain ⟨r', c⟩ := it
        simp_all [drain, cautiousTakeNext, CachedPeekable.peek]

example : ((ofList [1, 2, 7, 3]).cautiousTakeWhile (· < 5)).1 = [1, 2] := rfl

end Pango.Props
