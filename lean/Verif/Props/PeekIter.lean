import Verif.Model.PeekIter
import Verif.Spec.Cursor
import Verif.Props.Iter

/-!
# C84: the peeking iterators over any iterator
-/

namespace Pango.Props

open Pango Pango.Spec

variable {σ α ι : Type} [BEq α]

/-- The iterator after it was called a number of times. -/
def RawIter.skip (it : RawIter σ α) (s : σ) : Nat → σ
  | 0 => s
  | n + 1 => (it.next (RawIter.skip it s n)).2

/-- All that the iterator would return if it were called again and again. -/
def RawIter.tape (it : RawIter σ α) (s : σ) (n : Nat) : Option α := (it.next (RawIter.skip it s n)).1

/-- One call. -/
def PeekCall.call (m : Peekableable ι α) (i : ι) : PeekCall α → Option α × ι
  | .next => m.next i
  | .peek => m.peek i
  | .peekMut f => m.peekMut f i
  | .nextIf p => m.nextIf p i
  | .nextIfEq a => m.nextIfEq a i
  | .take p => m.takeNext p i
  | .map f => m.mapNext f i

/-- After a number of calls. -/
def Peekableable.afterAll (m : Peekableable ι α) (i : ι) (ops : List (PeekCall α)) : ι :=
  ops.foldl (fun i op => (PeekCall.call m i op).2) i

/-- The cache and the iterator are those of the cursor. -/
private def Is (it : RawIter σ α) (s : σ) (c : Cursor α) (p : StdPeekable σ α) : Prop :=
  (∀ n, c.pos < n → c.tape n = RawIter.tape it s n) ∧
  ((p.peeked = none ∧ p.iter = RawIter.skip it s c.pos ∧ c.tape c.pos = RawIter.tape it s c.pos) ∨
    p.peeked = some c.under ∧ p.iter = RawIter.skip it s (c.pos + 1))

private theorem is_next {it : RawIter σ α} {s : σ} {c : Cursor α} {p : StdPeekable σ α} (h : Is it s c p) :
    (p.next it).1 = c.under ∧ Is it s c.step (p.next it).2 ∧ (p.next it).2.peeked = none ∧
      (p.next it).2.iter = RawIter.skip it s (c.pos + 1) := by
  obtain ⟨h0, ⟨h1, h2, h3⟩ | ⟨h1, h2⟩⟩ := h
  · have : p.next it = (c.under, ⟨RawIter.skip it s (c.pos + 1), none⟩) := by
      simp only [StdPeekable.next, h1, h2, Cursor.under, h3, RawIter.tape, RawIter.skip]
    rw [this]
    exact ⟨rfl, ⟨fun n hn => h0 n (by simp only [Cursor.step] at hn; omega),
      .inl ⟨rfl, rfl, h0 _ (Nat.lt_succ_self _)⟩⟩, rfl, rfl⟩
  · have : p.next it = (c.under, ⟨RawIter.skip it s (c.pos + 1), none⟩) := by
      simp only [StdPeekable.next, h1, h2]
    rw [this]
    exact ⟨rfl, ⟨fun n hn => h0 n (by simp only [Cursor.step] at hn; omega),
      .inl ⟨rfl, rfl, h0 _ (Nat.lt_succ_self _)⟩⟩, rfl, rfl⟩

private theorem is_peek {it : RawIter σ α} {s : σ} {c : Cursor α} {p : StdPeekable σ α} (h : Is it s c p) :
    (p.peek it).1 = c.under ∧ (p.peek it).2 = ⟨RawIter.skip it s (c.pos + 1), some c.under⟩ := by
  obtain ⟨h0, ⟨h1, h2, h3⟩ | ⟨h1, h2⟩⟩ := h
  · simp only [StdPeekable.peek, h1, h2, Cursor.under, h3, RawIter.tape, RawIter.skip, and_self]
  · obtain ⟨i, q⟩ := p
    simp only at h1 h2
    subst h1 h2
    simp only [StdPeekable.peek, and_self]

private theorem is_filled {it : RawIter σ α} {s : σ} {c : Cursor α} {p : StdPeekable σ α} (h : Is it s c p) :
    Is it s c ⟨RawIter.skip it s (c.pos + 1), some c.under⟩ := ⟨h.1, .inr ⟨rfl, rfl⟩⟩

private theorem is_peekMut {it : RawIter σ α} {s : σ} {c : Cursor α} {p : StdPeekable σ α} (h : Is it s c p)
    (f : α → α) : (p.peekMut it f).1 = c.under ∧ Is it s (c.write (c.under.map f)) (p.peekMut it f).2 := by
  obtain ⟨h1, h2⟩ := is_peek h
  have : p.peekMut it f = (c.under, ⟨RawIter.skip it s (c.pos + 1), some (c.under.map f)⟩) := by
    simp only [StdPeekable.peekMut, h1, h2, Option.map_some]
  rw [this]
  refine ⟨rfl, fun n hn => ?_, .inr ⟨by simp [Cursor.write, Cursor.under], rfl⟩⟩
  simp only [Cursor.write] at hn ⊢
  rw [if_neg (by omega)]
  exact h.1 n hn

private theorem is_nextIf {it : RawIter σ α} {s : σ} {c : Cursor α} {p : StdPeekable σ α} (h : Is it s c p)
    (f : α → Bool) : (p.nextIf it f).1 = c.under.filter f ∧
      Is it s (if (c.under.filter f).isSome then c.step else c) (p.nextIf it f).2 := by
  obtain ⟨h1, h2, h3, h4⟩ := is_next h
  have hf := is_filled h
  unfold StdPeekable.nextIf
  generalize hq : p.next it = q at h1 h2 h3 h4 ⊢
  obtain ⟨a, q⟩ := q
  simp only at h1 h2 h3 h4
  subst h1
  obtain ⟨qi, qp⟩ := q
  simp only at h3 h4
  subst h3 h4
  cases hu : c.under with
  | none =>
    rw [hu] at hf
    exact ⟨rfl, hf⟩
  | some a =>
    rw [hu] at hf
    by_cases hfa : f a
    · simp only [hfa, if_true, Option.filter_some, Option.isSome_some]
      exact ⟨trivial, h2⟩
    · simp only [hfa, Option.filter_some, Option.isSome_none, if_false, Bool.false_eq_true]
      exact ⟨trivial, hf⟩

/-- What the two kinds of peeking iterators have in common: they can be read as a cursor. -/
private structure Like (m : Peekableable ι α) (R : Cursor α → ι → Prop) : Prop where
  next : ∀ {c i}, R c i → (m.next i).1 = c.under ∧ R c.step (m.next i).2
  peek : ∀ {c i}, R c i → (m.peek i).1 = c.under ∧ R c (m.peek i).2
  peekMut : ∀ {c i}, R c i → ∀ f, (m.peekMut f i).1 = c.under ∧ R (c.write (c.under.map f)) (m.peekMut f i).2
  nextIf : ∀ {c i}, R c i → ∀ f, (m.nextIf f i).1 = c.under.filter f ∧
    R (if (c.under.filter f).isSome then c.step else c) (m.nextIf f i).2
  nextIfEq : ∀ {c i}, R c i → ∀ a, (m.nextIfEq a i).1 = c.under.filter (· == a) ∧
    R (if (c.under.filter (· == a)).isSome then c.step else c) (m.nextIfEq a i).2

private theorem Like.call {m : Peekableable ι α} {R : Cursor α → ι → Prop} (h : Like m R) {c : Cursor α} {i : ι}
    (hr : R c i) (op : PeekCall α) : (PeekCall.call m i op).1 = c.answer op ∧ R (c.after op) (PeekCall.call m i op).2 := by
  cases op with
  | next => exact h.next hr
  | peek => exact h.peek hr
  | peekMut f => exact h.peekMut hr f
  | nextIf p => exact h.nextIf hr p
  | nextIfEq a => exact h.nextIfEq hr a
  | take p =>
    obtain ⟨h1, h2⟩ := h.peek hr
    obtain ⟨h3, h4⟩ := h.next h2
    generalize hq : m.peek i = q at h1 h2 h3 h4
    obtain ⟨b, j⟩ := q
    simp only at h1 h2 h3 h4
    subst h1
    have e : PeekCall.call m i (.take p) = if (match c.under with
        | some a => p a
        | none => false) = true then m.next j else (none, j) := by
      show Peekableable.takeNext m p i = _
      unfold Peekableable.takeNext
      rw [hq]
      cases c.under <;> rfl
    rw [e]
    simp only [Cursor.answer, Cursor.after]
    obtain hu | ⟨a, hu⟩ : c.under = none ∨ ∃ a, c.under = some a := by cases c.under <;> simp
    · simp only [hu]
      exact ⟨rfl, h2⟩
    · simp only [hu] at h3 ⊢
      by_cases hp : p a
      · simp only [hp, if_true, Option.filter_some, Option.isSome_some]
        exact ⟨h3, h4⟩
      · simp only [hp, Option.filter_some, Option.isSome_none, if_false, Bool.false_eq_true]
        exact ⟨trivial, h2⟩
  | map f =>
    obtain ⟨h1, h2⟩ := h.peek hr
    obtain ⟨h3, h4⟩ := h.next h2
    simp only [PeekCall.call, Peekableable.mapNext, Cursor.answer, Cursor.after]
    generalize m.peek i = q at h1 h2 h3 h4
    obtain ⟨a, j⟩ := q
    simp only at h1 h2 h3 h4
    subst h1
    obtain hu | ⟨a, hu⟩ : c.under = none ∨ ∃ a, c.under = some a := by cases c.under <;> simp
    · simp only [hu]
      exact ⟨rfl, h2⟩
    · simp only [hu, Option.bind_some]
      cases hf : f a with
      | none => exact ⟨rfl, h2⟩
      | some b => exact ⟨rfl, h4⟩

private theorem Like.calls {m : Peekableable ι α} {R : Cursor α → ι → Prop} (h : Like m R) {c : Cursor α} {i : ι}
    (hr : R c i) (ops : List (PeekCall α)) : R (c.afterAll ops) (Peekableable.afterAll m i ops) := by
  induction ops generalizing c i with
  | nil => exact hr
  | cons op ops ih => exact ih (h.call hr op).2

private theorem std_like (it : RawIter σ α) (s : σ) : Like (StdPeekable.peekable it) (Is it s) where
  next h := ⟨(is_next h).1, (is_next h).2.1⟩
  peek h := ⟨(is_peek h).1, by
    show Is it s _ (StdPeekable.peek it _).2
    rw [(is_peek h).2]
    exact is_filled h⟩
  peekMut h f := is_peekMut h f
  nextIf h f := is_nextIf h f
  nextIfEq h a := is_nextIf h (· == a)

private theorem cached_nextIf {it : RawIter σ α} {s : σ} {c : Cursor α} {p : CachedPeek σ α}
    (h : Is it s c p.iter ∧ p.currentItem = c.last) (f : α → Bool) : (p.nextIf it f).1 = c.under.filter f ∧
      Is it s (if (c.under.filter f).isSome then c.step else c) (p.nextIf it f).2.iter ∧
      (p.nextIf it f).2.currentItem = (if (c.under.filter f).isSome then c.step else c).last := by
  obtain ⟨h1, h2⟩ := is_nextIf h.1 f
  unfold CachedPeek.nextIf
  generalize p.iter.nextIf it f = q at h1 h2
  obtain ⟨a, q⟩ := q
  simp only at h1 h2
  cases a with
  | none =>
    rw [← h1] at h2 ⊢
    exact ⟨rfl, h2, h.2⟩
  | some a =>
    rw [← h1] at h2 ⊢
    refine ⟨rfl, h2, ?_⟩
    simp only [CachedPeek.currentItem, Option.isSome_some, if_true, Cursor.step, Option.getD_some]
    exact (Option.filter_eq_some_iff.1 h1.symm).1.symm

private theorem cached_like (it : RawIter σ α) (s : σ) :
    Like (CachedPeek.peekable it) (fun c p => Is it s c p.iter ∧ p.currentItem = c.last) where
  next h := ⟨(is_next h.1).1, (is_next h.1).2.1, (is_next h.1).1⟩
  peek h := ⟨(is_peek h.1).1, by
    show Is it s _ (StdPeekable.peek it _).2
    rw [(is_peek h.1).2]
    exact is_filled h.1, h.2⟩
  peekMut h f := ⟨(is_peekMut h.1 f).1, (is_peekMut h.1 f).2, h.2⟩
  nextIf h f := cached_nextIf h f
  nextIfEq h a := cached_nextIf h (· == a)

private theorem is_start (it : RawIter σ α) (s : σ) : Is it s ⟨RawIter.tape it s, 0, none⟩ (StdPeekable.new s) :=
  ⟨fun _ _ => rfl, .inl ⟨rfl, rfl, rfl⟩⟩

private theorem is_skip {it : RawIter σ α} {s : σ} {c : Cursor α} {p : StdPeekable σ α} (h : Is it s c p) :
    p.iter = RawIter.skip it s c.pos ∨ p.iter = RawIter.skip it s (c.pos + 1) := by
  obtain ⟨_, ⟨_, h, _⟩ | ⟨_, h⟩⟩ := h
  · exact .inl h
  · exact .inr h

/-- **C84**, for the caching iterator over any iterator, which may go on after `None`: after any calls every call is
answered as by a cursor on the tape of all that the iterator would return, `current` is the item taken most recently,
and the iterator was called for what is before the cursor and at most once more. -/
theorem c84_cached (it : RawIter σ α) (s : σ) (ops : List (PeekCall α)) :
    let c := (Cursor.mk (RawIter.tape it s) 0 none).afterAll ops
    let p := Peekableable.afterAll (CachedPeek.peekable it) (.new s) ops
    (∀ op, (PeekCall.call (CachedPeek.peekable it) p op).1 = c.answer op) ∧ p.currentItem = c.last ∧
      (p.iter.iter = RawIter.skip it s c.pos ∨ p.iter.iter = RawIter.skip it s (c.pos + 1)) := by
  have h := (cached_like it s).calls (c := ⟨RawIter.tape it s, 0, none⟩) (i := .new s) ⟨is_start it s, rfl⟩ ops
  exact ⟨fun op => ((cached_like it s).call h op).1, h.2, is_skip h.1⟩

/-- **C84**, for `std::iter::Peekable` as a `Peekableable`. -/
theorem c84_peekable (it : RawIter σ α) (s : σ) (ops : List (PeekCall α)) :
    let c := (Cursor.mk (RawIter.tape it s) 0 none).afterAll ops
    let p := Peekableable.afterAll (StdPeekable.peekable it) (.new s) ops
    (∀ op, (PeekCall.call (StdPeekable.peekable it) p op).1 = c.answer op) ∧
      (p.iter = RawIter.skip it s c.pos ∨ p.iter = RawIter.skip it s (c.pos + 1)) := by
  have h := (std_like it s).calls (c := ⟨RawIter.tape it s, 0, none⟩) (i := .new s) (is_start it s) ops
  exact ⟨fun op => ((std_like it s).call h op).1, is_skip h⟩

/-! ## C25 over any iterator -/

/-- After `next` of `CautiousTakeWhile` was called a number of times. -/
def Peekableable.takeTimes (m : Peekableable ι α) (p : α → Bool) (i : ι) : Nat → ι
  | 0 => i
  | n + 1 => (m.takeNext p (Peekableable.takeTimes m p i n)).2

/-- After `next` of `CautiousMapWhile` was called a number of times. -/
def Peekableable.mapTimes {β : Type} (m : Peekableable ι α) (f : α → Option β) (i : ι) : Nat → ι
  | 0 => i
  | n + 1 => (m.mapNext f (Peekableable.mapTimes m f i n)).2

private theorem Like.mapNext {β : Type} {m : Peekableable ι α} {R : Cursor α → ι → Prop} (h : Like m R) {c : Cursor α}
    {i : ι} (hr : R c i) (f : α → Option β) : (m.mapNext f i).1 = c.under.bind f ∧
      R (if (c.under.bind f).isSome then c.step else c) (m.mapNext f i).2 := by
  obtain ⟨h1, h2⟩ := h.peek hr
  obtain ⟨h3, h4⟩ := h.next h2
  simp only [Peekableable.mapNext]
  generalize m.peek i = q at h1 h2 h3 h4
  obtain ⟨a, j⟩ := q
  simp only at h1 h2 h3 h4
  subst h1
  obtain hu | ⟨a, hu⟩ : c.under = none ∨ ∃ a, c.under = some a := by cases c.under <;> simp
  · simp only [hu]
    exact ⟨rfl, h2⟩
  · simp only [hu, Option.bind_some]
    cases hf : f a with
    | none => exact ⟨rfl, h2⟩
    | some b => exact ⟨rfl, h4⟩

private theorem Like.mapTimes {β : Type} {m : Peekableable ι α} {R : Cursor α → ι → Prop} (h : Like m R) {c : Cursor α}
    {i : ι} (hr : R c i) (f : α → Option β) (k : Nat) (hk : ∀ n < k, ∃ a, c.tape (c.pos + n) = some a ∧ (f a).isSome)
    (hend : (c.tape (c.pos + k)).bind f = none) (j : Nat) :
    ∃ last, R ⟨c.tape, c.pos + min j k, last⟩ (Peekableable.mapTimes m f i j) := by
  induction j with
  | zero => exact ⟨c.last, by simpa [Peekableable.mapTimes] using hr⟩
  | succ j ih =>
    obtain ⟨last, ih⟩ := ih
    obtain ⟨_, h2⟩ := h.mapNext ih f
    by_cases hj : j < k
    · obtain ⟨a, ha, hf⟩ := hk j hj
      have hm : min j k = j := by omega
      have hm' : min (j + 1) k = j + 1 := by omega
      rw [hm] at h2
      simp only [Cursor.under, ha, Option.bind_some, hf, if_true] at h2
      rw [hm']
      exact ⟨_, h2⟩
    · have hm : min j k = k := by omega
      have hm' : min (j + 1) k = k := by omega
      rw [hm] at h2
      simp only [Cursor.under, hend, Option.isSome_none, Bool.false_eq_true, if_false] at h2
      rw [hm']
      exact ⟨_, h2⟩

private theorem Like.takeTimes {m : Peekableable ι α} {R : Cursor α → ι → Prop} (h : Like m R) {c : Cursor α}
    {i : ι} (hr : R c i) (p : α → Bool) (k : Nat) (hk : ∀ n < k, ∃ a, c.tape (c.pos + n) = some a ∧ p a = true)
    (hend : ∀ a, c.tape (c.pos + k) = some a → p a = false) (j : Nat) :
    ∃ last, R ⟨c.tape, c.pos + min j k, last⟩ (Peekableable.takeTimes m p i j) := by
  induction j with
  | zero => exact ⟨c.last, by simpa [Peekableable.takeTimes] using hr⟩
  | succ j ih =>
    obtain ⟨last, ih⟩ := ih
    have h2 : R _ (Peekableable.takeTimes m p i (j + 1)) := (h.call ih (.take p)).2
    by_cases hj : j < k
    · obtain ⟨a, ha, hp⟩ := hk j hj
      have hm : min j k = j := by omega
      have hm' : min (j + 1) k = j + 1 := by omega
      rw [hm] at h2
      simp only [Cursor.after, Cursor.answer, Cursor.under, ha, Option.filter_some, hp, if_true, Option.isSome_some] at h2
      rw [hm']
      exact ⟨_, h2⟩
    · have hm : min j k = k := by omega
      have hm' : min (j + 1) k = k := by omega
      have he : (c.tape (c.pos + k)).filter p = none := by
        cases ht : c.tape (c.pos + k) with
        | none => rfl
        | some a => simp [hend a ht]
      rw [hm] at h2
      simp only [Cursor.after, Cursor.answer, Cursor.under, he, Option.isSome_none, Bool.false_eq_true, if_false] at h2
      rw [hm']
      exact ⟨_, h2⟩

private theorem Like.take_all {m : Peekableable ι α} {R : Cursor α → ι → Prop} (h : Like m R) {c : Cursor α}
    {i : ι} (hr : R c i) (p : α → Bool) (k : Nat) (hk : ∀ n < k, ∃ a, c.tape (c.pos + n) = some a ∧ p a = true)
    (hend : ∀ a, c.tape (c.pos + k) = some a → p a = false) (j : Nat) :
    (m.takeNext p (Peekableable.takeTimes m p i j)).1 = (if j < k then c.tape (c.pos + j) else none) ∧
      (m.next (Peekableable.takeTimes m p i j)).1 = c.tape (c.pos + min j k) := by
  obtain ⟨last, hj⟩ := h.takeTimes hr p k hk hend j
  refine ⟨((h.call hj (.take p)).1).trans ?_, (h.next hj).1⟩
  by_cases hlt : j < k
  · obtain ⟨a, ha, hp⟩ := hk j hlt
    have hm : min j k = j := by omega
    simp only [Cursor.answer, Cursor.under, hm, ha, Option.filter_some, hp, if_true, hlt]
  · have hm : min j k = k := by omega
    simp only [Cursor.answer, Cursor.under, hm, hlt, if_false]
    cases ht : c.tape (c.pos + k) with
    | none => rfl
    | some a => simp [hend a ht]

private theorem Like.map_all {β : Type} {m : Peekableable ι α} {R : Cursor α → ι → Prop} (h : Like m R) {c : Cursor α}
    {i : ι} (hr : R c i) (f : α → Option β) (k : Nat)
    (hk : ∀ n < k, ∃ a, c.tape (c.pos + n) = some a ∧ (f a).isSome)
    (hend : ∀ a, c.tape (c.pos + k) = some a → f a = none) (j : Nat) :
    (m.mapNext f (Peekableable.mapTimes m f i j)).1 = (if j < k then (c.tape (c.pos + j)).bind f else none) ∧
      (m.next (Peekableable.mapTimes m f i j)).1 = c.tape (c.pos + min j k) := by
  have he : (c.tape (c.pos + k)).bind f = none := by
    cases ht : c.tape (c.pos + k) with
    | none => rfl
    | some a => simp [hend a ht]
  obtain ⟨last, hj⟩ := h.mapTimes hr f k hk he j
  refine ⟨((h.mapNext hj f).1).trans ?_, (h.next hj).1⟩
  by_cases hlt : j < k
  · have hm : min j k = j := by omega
    simp only [Cursor.under, hm, hlt, if_true]
  · have hm : min j k = k := by omega
    simp only [Cursor.under, hm, hlt, if_false, he]

/-- **C25** for `cautious_take_while` over any iterator, after any calls: if `k` items satisfy the predicate, and what
comes then is `None` or an item that does not, then the calls return these `k` items and `None` from then on, and however
often it is called, the first thing that was not returned is the next one of the underlying iterator.  For both
peekable iterators. -/
theorem c25_any_take_while (it : RawIter σ α) (s : σ) (ops : List (PeekCall α)) (p : α → Bool) (k : Nat) :
    let c := (Cursor.mk (RawIter.tape it s) 0 none).afterAll ops
    (∀ n < k, ∃ a, c.tape (c.pos + n) = some a ∧ p a = true) → (∀ a, c.tape (c.pos + k) = some a → p a = false) →
    ∀ j,
      let i := Peekableable.takeTimes (CachedPeek.peekable it) p
        (Peekableable.afterAll (CachedPeek.peekable it) (.new s) ops) j
      let i' := Peekableable.takeTimes (StdPeekable.peekable it) p
        (Peekableable.afterAll (StdPeekable.peekable it) (.new s) ops) j
      ((CachedPeek.peekable it).takeNext p i).1 = (if j < k then c.tape (c.pos + j) else none) ∧
      ((CachedPeek.peekable it).next i).1 = c.tape (c.pos + min j k) ∧
      ((StdPeekable.peekable it).takeNext p i').1 = (if j < k then c.tape (c.pos + j) else none) ∧
      ((StdPeekable.peekable it).next i').1 = c.tape (c.pos + min j k) := by
  intro c hk hend j
  have h := (cached_like it s).calls (c := ⟨RawIter.tape it s, 0, none⟩) (i := .new s) ⟨is_start it s, rfl⟩ ops
  have h' := (std_like it s).calls (c := ⟨RawIter.tape it s, 0, none⟩) (i := .new s) (is_start it s) ops
  obtain ⟨h1, h2⟩ := (cached_like it s).take_all h p k hk hend j
  obtain ⟨h3, h4⟩ := (std_like it s).take_all h' p k hk hend j
  exact ⟨h1, h2, h3, h4⟩

/-- **C25** for `cautious_map_while` over any iterator, in the same way. -/
theorem c25_any_map_while {β : Type} (it : RawIter σ α) (s : σ) (ops : List (PeekCall α)) (f : α → Option β) (k : Nat) :
    let c := (Cursor.mk (RawIter.tape it s) 0 none).afterAll ops
    (∀ n < k, ∃ a, c.tape (c.pos + n) = some a ∧ (f a).isSome) → (∀ a, c.tape (c.pos + k) = some a → f a = none) →
    ∀ j,
      let i := Peekableable.mapTimes (CachedPeek.peekable it) f
        (Peekableable.afterAll (CachedPeek.peekable it) (.new s) ops) j
      let i' := Peekableable.mapTimes (StdPeekable.peekable it) f
        (Peekableable.afterAll (StdPeekable.peekable it) (.new s) ops) j
      ((CachedPeek.peekable it).mapNext f i).1 = (if j < k then (c.tape (c.pos + j)).bind f else none) ∧
      ((CachedPeek.peekable it).next i).1 = c.tape (c.pos + min j k) ∧
      ((StdPeekable.peekable it).mapNext f i').1 = (if j < k then (c.tape (c.pos + j)).bind f else none) ∧
      ((StdPeekable.peekable it).next i').1 = c.tape (c.pos + min j k) := by
  intro c hk hend j
  have h := (cached_like it s).calls (c := ⟨RawIter.tape it s, 0, none⟩) (i := .new s) ⟨is_start it s, rfl⟩ ops
  have h' := (std_like it s).calls (c := ⟨RawIter.tape it s, 0, none⟩) (i := .new s) (is_start it s) ops
  obtain ⟨h1, h2⟩ := (cached_like it s).map_all h f k hk hend j
  obtain ⟨h3, h4⟩ := (std_like it s).map_all h' f k hk hend j
  exact ⟨h1, h2, h3, h4⟩

/-! ## Iterators that end -/

/-- The model of the caching iterator over a list, as in `Model/Iter.lean`; `peek_mut` (peekable.rs:201-203), which is not
there, writes to the first of the items. -/
def listPeekable : Peekableable (CachedPeekable α) α where
  next := CachedPeekable.next
  peek i := (i.peek, i)
  peekMut f i := (i.peek, { i with rest := match i.rest with
    | [] => []
    | a :: r => f a :: r })
  nextIf := CachedPeekable.nextIf
  nextIfEq := CachedPeekable.nextIfEq

private theorem list_nextIf {c : Cursor α} {i : CachedPeekable α}
    (h : (∀ n, c.tape (c.pos + n) = i.rest[n]?) ∧ i.currentItem = c.last) (f : α → Bool) :
    (i.nextIf f).1 = c.under.filter f ∧
      (∀ n, (if (c.under.filter f).isSome then c.step else c).tape
        ((if (c.under.filter f).isSome then c.step else c).pos + n) = (i.nextIf f).2.rest[n]?) ∧
      (i.nextIf f).2.currentItem = (if (c.under.filter f).isSome then c.step else c).last := by
  obtain ⟨h1, h2⟩ := h
  have hu : c.under = i.rest[0]? := h1 0
  unfold CachedPeekable.nextIf
  cases hr : i.rest with
  | nil =>
    rw [hr] at h1 hu
    simp only [hu, List.getElem?_nil, Option.filter_none, Option.isSome_none, Bool.false_eq_true, if_false]
    exact ⟨trivial, by rw [hr]; exact h1, h2⟩
  | cons a r =>
    rw [hr] at h1 hu
    simp only [List.getElem?_cons_zero] at hu
    by_cases hf : f a
    · simp only [hu, Option.filter_some, hf, if_true, Option.isSome_some]
      refine ⟨trivial, fun n => ?_, by simp [CachedPeekable.currentItem, Cursor.step, hu]⟩
      have := h1 (n + 1)
      simp only [Cursor.step, Nat.add_assoc, Nat.add_comm 1 n]
      simpa using this
    · simp only [hu, Option.filter_some, hf, Bool.false_eq_true, if_false, Option.isSome_none]
      exact ⟨trivial, by rw [hr]; exact h1, h2⟩

private theorem list_next {c : Cursor α} {i : CachedPeekable α}
    (h : (∀ n, c.tape (c.pos + n) = i.rest[n]?) ∧ i.currentItem = c.last) :
    i.next.1 = c.under ∧ (∀ n, c.step.tape (c.step.pos + n) = i.next.2.rest[n]?) ∧
      i.next.2.currentItem = c.step.last := by
  obtain ⟨h1, h2⟩ := h
  have hu : i.rest.head? = c.under := by rw [List.head?_eq_getElem?]; exact (h1 0).symm
  refine ⟨hu, fun n => ?_, by simp [CachedPeekable.next, CachedPeekable.currentItem, hu, Cursor.step]⟩
  have := h1 (n + 1)
  simp only [Cursor.step, CachedPeekable.next, Nat.add_assoc, Nat.add_comm 1 n, List.getElem?_tail]
  exact this

private theorem list_like : Like (listPeekable (α := α))
    (fun c i => (∀ n, c.tape (c.pos + n) = i.rest[n]?) ∧ i.currentItem = c.last) where
  next h := list_next h
  peek h := ⟨by simp only [listPeekable, CachedPeekable.peek, List.head?_eq_getElem?]; exact (h.1 0).symm, h⟩
  peekMut {c i} h f := by
    refine ⟨by simp only [listPeekable, CachedPeekable.peek, List.head?_eq_getElem?]; exact (h.1 0).symm, fun n => ?_, h.2⟩
    have h0 := h.1 0
    have hn := h.1 n
    simp only [listPeekable, Cursor.write]
    cases hr : i.rest with
    | nil =>
      rw [hr] at h0 hn
      cases n with
      | zero =>
        simp only [Nat.add_zero, if_true, Cursor.under]
        rw [show c.tape c.pos = none from h0]
        rfl
      | succ n => rw [if_neg (by omega), hn]
    | cons a r =>
      rw [hr] at h0 hn
      cases n with
      | zero =>
        simp only [Nat.add_zero, if_true, Cursor.under]
        rw [show c.tape c.pos = some a from h0]
        rfl
      | succ n => rw [if_neg (by omega), hn]; rfl
  nextIf h f := list_nextIf h f
  nextIfEq h a := list_nextIf h (· == a)

/-- The model in `Model/Iter.lean` is right: over an iterator that returns the items of a list and then `None` forever,
the caching iterator answers every call as the model over the list does. -/
theorem c84_list (it : RawIter σ α) (s : σ) (items : List α) (hs : ∀ n, RawIter.tape it s n = items[n]?)
    (ops : List (PeekCall α)) :
    let p := Peekableable.afterAll (CachedPeek.peekable it) (.new s) ops
    let q := Peekableable.afterAll listPeekable (.ofList items) ops
    (∀ op, (PeekCall.call (CachedPeek.peekable it) p op).1 = (PeekCall.call listPeekable q op).1) ∧
      p.currentItem = q.currentItem := by
  obtain ⟨h1, h2, _⟩ := c84_cached it s ops
  have h := list_like.calls (c := ⟨RawIter.tape it s, 0, none⟩) (i := .ofList items)
    ⟨fun n => by simpa [CachedPeekable.ofList] using hs n, rfl⟩ ops
  exact ⟨fun op => (h1 op).trans ((list_like.call h op).1).symm, h2.trans h.2.symm⟩

/-- And so are the models of the adapters there. -/
theorem c84_adapters {β : Type} (p : α → Bool) (f : α → Option β) (i : CachedPeekable α) :
    i.cautiousTakeNext p = listPeekable.takeNext p i ∧ i.cautiousMapNext f = listPeekable.mapNext f i := by
  obtain ⟨rest, current⟩ := i
  cases rest <;> exact ⟨rfl, rfl⟩

/-! ## Examples -/

/-- `Chars`: the characters of a string. -/
def listIter {α : Type} : RawIter (List α) α := ⟨fun l => (l.head?, l.tail)⟩

/-- It meets the hypothesis of `c84_list`. -/
theorem listIter_tape {α : Type} [BEq α] (items : List α) (n : Nat) : RawIter.tape listIter items n = items[n]? := by
  have h : ∀ n, RawIter.skip listIter items n = items.drop n := by
    intro n
    induction n with
    | zero => rfl
    | succ n ih =>
      show (RawIter.skip listIter items n).tail = _
      rw [ih, List.tail_drop]
  show (RawIter.skip listIter items n).head? = _
  simp [h]

/-- An iterator that returns `None` and then goes on. -/
def gappy : RawIter Nat Nat := ⟨fun n => (if n % 2 = 0 then some n else none, n + 1)⟩

/-- The calls on `gappy` see the `None`s as items of the tape: `peek` remembers that it saw one, and `next_if` and the
adapters do not get past it. -/
example : Peekableable.afterAll (CachedPeek.peekable gappy) (.new 0) [.next, .peek, .take (fun _ => true),
    .nextIfEq 2, .next, .peekMut (· + 40), .map (fun a => some (a + 1))] = ⟨⟨3, none⟩, some (some 42)⟩ := rfl

/-- From the characters of `12x` digits are taken, or mapped to their values, after a `peek`: `x` stays, however often
the adapter is called. -/
example : let i := Peekableable.afterAll (CachedPeek.peekable listIter) (.new "12x".toList) [.peek]
    (∀ j, ((CachedPeek.peekable listIter).next
      (Peekableable.takeTimes (CachedPeek.peekable listIter) Char.isDigit i (j + 2))).1 = some 'x') ∧
    ∀ j, ((CachedPeek.peekable listIter).next (Peekableable.mapTimes (CachedPeek.peekable listIter)
      (fun a => if a.isDigit then some (a.toNat - 48) else none) i (j + 2))).1 = some 'x' := by
  have ht : ∀ n, RawIter.tape listIter "12x".toList n = "12x".toList[n]? := listIter_tape _
  have hm : ∀ j, min (j + 2) 2 = 2 := fun j => by omega
  have h2 : ∀ n < 2, n = 0 ∨ n = 1 := fun n hn => by omega
  refine ⟨fun j => ?_, fun j => ?_⟩
  · have := (c25_any_take_while listIter "12x".toList [.peek] Char.isDigit 2 (fun n hn => by
      rcases h2 n hn with rfl | rfl
      · exact ⟨'1', ht 0, rfl⟩
      · exact ⟨'2', ht 1, rfl⟩) (fun a ha => by cases (ht 2).symm.trans ha; rfl) (j + 2)).2.1
    rw [hm] at this
    exact this.trans (ht 2)
  · have := (c25_any_map_while listIter "12x".toList [.peek]
      (fun a => if a.isDigit then some (a.toNat - 48) else none) 2 (fun n hn => by
      rcases h2 n hn with rfl | rfl
      · exact ⟨'1', ht 0, rfl⟩
      · exact ⟨'2', ht 1, rfl⟩) (fun a ha => by cases (ht 2).symm.trans ha; rfl) (j + 2)).2.1
    rw [hm] at this
    exact this.trans (ht 2)

end Pango.Props
