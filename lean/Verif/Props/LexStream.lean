import Verif.Proofs.Lexer

/-!
# C16, C17, C18, C19, C20: what holds of the token stream of any lexer

The lexer is generic in the finite-state machine.  What is proved here holds for every machine, for every
token table, and for every number of calls of `next`, also after it has returned `None`.
-/

namespace Pango.Props

open Pango Pango.Lex Pango.Fsm Pango.Regex

variable {σ K : Type}

/-- The tokens among the answers of `next`. -/
def returned (as : List (Option (Tok K))) : List (Tok K) := as.filterMap id

/-- Specification: the tokens lie in the input one behind the other, the first of them at `start`.  None of
them is empty. -/
def Contiguous (input : List Char) : Nat → List (Tok K) → Prop
  | _, [] => True
  | start, t :: ts =>
    t.pos.1 = start ∧ t.pos.1 < t.pos.2 ∧ t.pos.2 ≤ input.length ∧ Contiguous input t.pos.2 ts

theorem calls_held {m : Machine σ} {gs : Generators K} {input : List Char} :
    ∀ {n : Nat} {it it' : InputIter} {as : List (Option (Tok K))}, lexCalls m gs n it = .ok (as, it') →
    Held input it → Held input it' ∧ Contiguous input it.pos.1 (returned as) ∧
      ∀ t ∈ returned as, t.source ≠ [] ∧
        t.source.Sublist ((input.drop t.pos.1).take (t.pos.2 - t.pos.1)) ∧
        ∃ g ∈ gs, t.kind = g.2 t.source := by
  intro n
  induction n with
  | zero =>
    intro it it' as h hh
    simp only [lexCalls, Outcome.ok.injEq, Prod.mk.injEq] at h
    obtain ⟨rfl, rfl⟩ := h
    exact ⟨hh, trivial, by simp [returned]⟩
  | succ n ih =>
    intro it it' as h hh
    simp only [lexCalls, Outcome.bind_eq_ok] at h
    obtain ⟨⟨a, it1⟩, h1, ⟨as1, it2⟩, h2, h3⟩ := h
    simp only [Outcome.pure_eq, Outcome.ok.injEq, Prod.mk.injEq] at h3
    obtain ⟨rfl, rfl⟩ := h3
    obtain ⟨k1, k2⟩ := lexNext_held h1 hh
    obtain ⟨k3, k4, k5⟩ := ih h2 k1
    refine ⟨k3, ?_⟩
    cases a with
    | none =>
      simp only [After] at k2
      rw [k2] at k4
      exact ⟨k4, k5⟩
    | some t =>
      obtain ⟨c1, c2, c3⟩ := k2
      rw [c2] at k4
      refine ⟨⟨c1.start, c1.lt, c1.le, k4⟩, ?_⟩
      intro t' ht'
      simp only [returned, List.filterMap_cons, id, List.mem_cons] at ht'
      rcases ht' with rfl | ht'
      · exact ⟨c1.ne, c1.source, c3⟩
      · exact k5 t' ht'

theorem Contiguous.count {input : List Char} : ∀ {start : Nat} {ts : List (Tok K)},
    Contiguous input start ts → start ≤ input.length → start + ts.length ≤ input.length := by
  intro start ts
  induction ts generalizing start with
  | nil => intro _ h; simpa using h
  | cons t ts ih =>
    intro h hs
    obtain ⟨h1, h2, h3, h4⟩ := h
    have := ih h4 h3
    simp only [List.length_cons]
    omega

/-- A machine that reads words over `a` and accepts all but the empty one, for examples. -/
def wordsOfA : Machine Nat where
  start := .ok 0
  canFeed _ c := .ok (c == 'a')
  feed n _ := .ok (n + 1, true)
  isAccepting n := .ok (n != 0)
  finals _ := [7]

/-- A lexer that returns two tokens, after and before `None`. -/
theorem wordsOfA_calls : lexCalls wordsOfA [(7, List.length)] 3 (InputIter.new "aaxaa".toList) =
    .ok ([some ⟨2, "aa".toList, (0, 2)⟩, none, some ⟨3, "xaa".toList, (2, 5)⟩],
      ⟨[], [], (5, 0), [], []⟩) := by with_unfolding_all rfl

/-! ## C16 -/

/-- C16: no token is empty, over an input of `n` characters there are at most `n` tokens in any number of
calls, and one of the first `n + 1` calls returns `None`. -/
theorem c16_finite (m : Machine σ) (gs : Generators K) (input : List Char) (n : Nat)
    (as : List (Option (Tok K))) (it : InputIter)
    (h : lexCalls m gs n (InputIter.new input) = .ok (as, it)) :
    (∀ t ∈ returned as, t.source ≠ []) ∧ (returned as).length ≤ input.length ∧
      (input.length < n → none ∈ as) := by
  obtain ⟨_, h1, h2⟩ := calls_held h (held_new input)
  have h3 := h1.count (Nat.zero_le _)
  rw [show (InputIter.new input).pos.1 = 0 from rfl, Nat.zero_add] at h3
  refine ⟨fun t ht => (h2 t ht).1, h3, ?_⟩
  intro hn
  have hlen : ∀ {n : Nat} {it it' : InputIter} {as : List (Option (Tok K))},
      lexCalls m gs n it = .ok (as, it') → as.length = n := by
    intro n
    induction n with
    | zero =>
      intro it it' as h
      simp only [lexCalls, Outcome.ok.injEq, Prod.mk.injEq] at h
      simp [← h.1]
    | succ n ih =>
      intro it it' as h
      simp only [lexCalls, Outcome.bind_eq_ok] at h
      obtain ⟨⟨a, it1⟩, h1, ⟨as1, it2⟩, h2, h3⟩ := h
      simp only [Outcome.pure_eq, Outcome.ok.injEq, Prod.mk.injEq] at h3
      rw [← h3.1, List.length_cons, ih h2]
  refine Classical.byContradiction fun hnone => ?_
  have : ∀ as : List (Option (Tok K)), none ∉ as → (returned as).length = as.length := by
    intro as
    induction as with
    | nil => intro _; rfl
    | cons a as ih =>
      intro h
      cases a with
      | none => simp at h
      | some t =>
        simp only [List.mem_cons, not_or] at h
        have := ih h.2
        simp only [returned] at this
        simp [returned, this]
  have := this as hnone
  rw [hlen h] at this
  omega

example : ∃ as it, lexCalls wordsOfA [(7, List.length)] 3 (InputIter.new "aaxaa".toList) = .ok (as, it) ∧
    (returned as).length = 2 := ⟨_, _, wordsOfA_calls, rfl⟩

/-! ## C17 -/

/-- C17: the first token starts at 0, every other one where the one before it ends, and all of them end
behind their start. -/
theorem c17_positions (m : Machine σ) (gs : Generators K) (input : List Char) (n : Nat)
    (as : List (Option (Tok K))) (it : InputIter)
    (h : lexCalls m gs n (InputIter.new input) = .ok (as, it)) : Contiguous input 0 (returned as) :=
  (calls_held h (held_new input)).2.1

example : ∃ as it, lexCalls wordsOfA [(7, List.length)] 3 (InputIter.new "aaxaa".toList) = .ok (as, it) ∧
    (returned as).map Tok.pos = [(0, 2), (2, 5)] := ⟨_, _, wordsOfA_calls, rfl⟩

/-! ## C20 -/

/-- C20: the kind of every token is what one of the functions of the token table gives for exactly the
source of the token. -/
theorem c20_kind_of_source (m : Machine σ) (gs : Generators K) (input : List Char) (n : Nat)
    (as : List (Option (Tok K))) (it : InputIter)
    (h : lexCalls m gs n (InputIter.new input) = .ok (as, it)) :
    ∀ t ∈ returned as, ∃ g ∈ gs, t.kind = g.2 t.source :=
  fun t ht => ((calls_held h (held_new input)).2.2 t ht).2.2

example : ∃ as it, lexCalls wordsOfA [(7, List.length)] 3 (InputIter.new "aaxaa".toList) = .ok (as, it) ∧
    (returned as).map Tok.kind = [2, 3] := ⟨_, _, wordsOfA_calls, rfl⟩

/-! ## C18 -/

variable [Unicode]

/-- C18 as stated, for the tokens up to the first `None`: the source of every token is what the input has
at the position of the token. -/
def NothingLost : Prop :=
  ∀ (K : Type) (p : Profile) (rules : List (List Char × (List Char → K))) (l : Lexer K)
    (input : List Char) (fuel n : Nat) (ts : List (Tok K)) (it : InputIter),
    buildLexer p rules = .ok (.ok l) →
    lexAll (nfaMachine l.nfa fuel) l.tokens n (InputIter.new input) = .ok (ts, it) →
    ∀ t ∈ ts, t.source = (input.drop t.pos.1).take (t.pos.2 - t.pos.1)

/-- The lexer with the rules `a`, `abcd`, `b` and `c`. -/
def lossy : Lexer Nat :=
  ⟨⟨0, [⟨0, false, [(.literal (.mtch 'a'), [2, 4]), (.literal (.mtch 'b'), [7]), (.literal (.mtch 'c'), [8])]⟩,
    ⟨1, true, []⟩, ⟨2, true, []⟩, ⟨3, true, []⟩, ⟨4, false, [(.literal (.mtch 'b'), [5])]⟩,
    ⟨5, false, [(.literal (.mtch 'c'), [6])]⟩, ⟨6, false, [(.literal (.mtch 'd'), [3])]⟩, ⟨7, true, []⟩,
    ⟨8, true, []⟩]⟩, [(2, fun _ => 0), (3, fun _ => 1), (7, fun _ => 2), (8, fun _ => 3)]⟩

omit [Unicode] in
theorem lossy_built : buildLexer .debug [("a".toList, fun _ => 0), ("abcd".toList, fun _ => 1),
    ("b".toList, fun _ => 2), ("c".toList, fun _ => 3)] = .ok (.ok lossy) := rfl

theorem lossy_lexes : lexAll (nfaMachine lossy.nfa 10) lossy.tokens 5 (InputIter.new "abcxa".toList) =
    .ok ([⟨0, ['a'], (0, 1)⟩, ⟨2, ['b'], (1, 2)⟩, ⟨3, ['c'], (2, 3)⟩, ⟨0, ['a'], (3, 5)⟩],
      ⟨[], [], (5, 0), [], []⟩) := by with_unfolding_all rfl

/-- C18 is false: with the rules `a`, `abcd`, `b` and `c` the input `abcxa` becomes the tokens `a`, `b`,
`c` and `a`, the last one at the position of `xa`.  The lexer looks ahead until `x` after the first `a`; the
`x` is lost when `b` is returned. -/
theorem c18_false : ¬ NothingLost := by
  intro h
  have := h Nat .debug _ lossy "abcxa".toList 10 5 _ _ lossy_built lossy_lexes ⟨0, ['a'], (3, 5)⟩ (by simp)
  revert this
  decide

omit [Unicode] in
/-- The part of C18 that holds for all lexers and all histories of calls: the source of every token is made
of characters that are in the input at the position of the token, in their order.  Missing: that it is all of
them. -/
theorem c18_subsequence_partial (m : Machine σ) (gs : Generators K) (input : List Char) (n : Nat)
    (as : List (Option (Tok K))) (it : InputIter)
    (h : lexCalls m gs n (InputIter.new input) = .ok (as, it)) :
    ∀ t ∈ returned as, t.source.Sublist ((input.drop t.pos.1).take (t.pos.2 - t.pos.1)) :=
  fun t ht => ((calls_held h (held_new input)).2.2 t ht).2.1

/-- Some tokens of this lexer. -/
example : ∃ as it, lexCalls (nfaMachine lossy.nfa 10) lossy.tokens 5 (InputIter.new "abcxa".toList) =
    .ok (as, it) ∧ (returned as).length = 4 :=
  ⟨[some ⟨0, ['a'], (0, 1)⟩, some ⟨2, ['b'], (1, 2)⟩, some ⟨3, ['c'], (2, 3)⟩, some ⟨0, ['a'], (3, 5)⟩,
    none], _, by with_unfolding_all rfl, rfl⟩

/-! ## C19 -/

/-- C19 as stated: after the first `None` there are no more tokens. -/
def StaysEnded : Prop :=
  ∀ (K : Type) (p : Profile) (rules : List (List Char × (List Char → K))) (l : Lexer K)
    (input : List Char) (fuel n : Nat) (as : List (Option (Tok K))) (it : InputIter),
    buildLexer p rules = .ok (.ok l) →
    lexCalls (nfaMachine l.nfa fuel) l.tokens n (InputIter.new input) = .ok (as, it) →
    ∀ before after : List (Option (Tok K)), as = before ++ none :: after → ∀ a ∈ after, a = none

/-- The lexer with the rule `a`. -/
def onlyA : Lexer Nat :=
  ⟨⟨0, [⟨0, false, [(.literal (.mtch 'a'), [2])]⟩, ⟨1, true, []⟩, ⟨2, true, []⟩]⟩, [(2, List.length)]⟩

omit [Unicode] in
theorem onlyA_built : buildLexer .debug [("a".toList, List.length)] = .ok (.ok onlyA) := rfl

theorem onlyA_calls : lexCalls (nfaMachine onlyA.nfa 10) onlyA.tokens 2 (InputIter.new "xa".toList) =
    .ok ([none, some ⟨2, ['x', 'a'], (0, 2)⟩], ⟨[], [], (2, 0), [], []⟩) := by with_unfolding_all rfl

/-- C19 is false: with the rule `a` and the input `xa`, `next` returns `None` and then a token with the
source `xa`. -/
theorem c19_false : ¬ StaysEnded := by
  intro h
  have := h Nat .debug _ onlyA "xa".toList 10 2 _ _ onlyA_built onlyA_calls [] _ rfl
    (some ⟨2, ['x', 'a'], (0, 2)⟩) (by simp)
  cases this

omit [Unicode] in
theorem calls_none {m : Machine σ} {gs : Generators K} {n : Nat} : ∀ {it it' : InputIter}
    {as : List (Option (Tok K))}, lexCalls m gs n it = .ok (as, it') → it.pending = 0 →
    ∀ a ∈ as, a = none := by
  induction n with
  | zero =>
    intro it it' as h _ a ha
    simp only [lexCalls, Outcome.ok.injEq, Prod.mk.injEq] at h
    rw [← h.1] at ha
    cases ha
  | succ n ih =>
    intro it it' as h hp a ha
    simp only [lexCalls, Outcome.bind_eq_ok] at h
    obtain ⟨⟨b, it1⟩, h1, ⟨as1, it2⟩, h2, h3⟩ := h
    simp only [Outcome.pure_eq, Outcome.ok.injEq, Prod.mk.injEq] at h3
    obtain ⟨rfl, rfl⟩ := h3
    simp only at h2
    obtain ⟨sim, _, hl⟩ := lexNext_ok h1
    obtain ⟨_, _, k3, k4⟩ := hl.shrinks
    have hb := k4 rfl hp
    rcases List.mem_cons.1 ha with rfl | ha
    · exact hb
    · exact ih h2 (by have := (k3 hb).1; omega) a ha

omit [Unicode] in
theorem calls_end {m : Machine σ} {gs : Generators K} (b : Nat) {n : Nat} : ∀ {it it' : InputIter}
    {as : List (Option (Tok K))}, lexCalls m gs n it = .ok (as, it') → it.waiting ≤ b →
    ∀ a ∈ as.drop (it.waiting * (b + 1) + it.pending), a = none := by
  induction n with
  | zero =>
    intro it it' as h _ a ha
    simp only [lexCalls, Outcome.ok.injEq, Prod.mk.injEq] at h
    rw [← h.1] at ha
    simp at ha
  | succ n ih =>
    intro it it' as h hb a ha
    by_cases hp : it.pending = 0
    · exact calls_none h hp a (List.mem_of_mem_drop ha)
    · simp only [lexCalls, Outcome.bind_eq_ok] at h
      obtain ⟨⟨c, it1⟩, h1, ⟨as1, it2⟩, h2, h3⟩ := h
      simp only [Outcome.pure_eq, Outcome.ok.injEq, Prod.mk.injEq] at h3
      obtain ⟨rfl, rfl⟩ := h3
      simp only at h2
      obtain ⟨sim, _, hl⟩ := lexNext_ok h1
      obtain ⟨k1, k2, k3, _⟩ := hl.shrinks
      have hle : it1.pending ≤ it1.waiting := Nat.le_add_left _ _
      have key : it1.waiting * (b + 1) + it1.pending + 1 ≤ it.waiting * (b + 1) + it.pending := by
        cases c with
        | none =>
          have := (k3 rfl).2 (by omega)
          have := Nat.mul_le_mul_right (b + 1) k1
          omega
        | some t =>
          have h1 := k2 rfl (by simp)
          have := Nat.mul_le_mul_right (b + 1) (show it1.waiting + 1 ≤ it.waiting from h1)
          rw [Nat.add_mul] at this
          omega
      have hs : (c :: as1).drop (it.waiting * (b + 1) + it.pending) =
          as1.drop (it.waiting * (b + 1) + it.pending - 1) := by
        obtain ⟨k, hk⟩ : ∃ k, it.waiting * (b + 1) + it.pending = k + 1 :=
          ⟨it.waiting * (b + 1) + it.pending - 1, by omega⟩
        rw [hk, List.drop_succ_cons, Nat.add_sub_cancel]
      rw [hs] at ha
      refine ih h2 (by omega) a ?_
      refine (List.drop_sublist_drop_left as1 ?_).subset ha
      omega

omit [Unicode] in
/-- The part of C19 that holds for all lexers: over an input of `n` characters only the first `n * (n + 2)`
calls can return a token, and after a token that ends at the end of the input all calls return `None`.
Missing: that there is no token after the first `None`. -/
theorem c19_ends_partial (m : Machine σ) (gs : Generators K) (input : List Char) (n : Nat)
    (as : List (Option (Tok K))) (it : InputIter)
    (h : lexCalls m gs n (InputIter.new input) = .ok (as, it)) :
    (∀ a ∈ as.drop (input.length * (input.length + 2)), a = none) ∧
    ∀ (before after : List (Option (Tok K))) (t : Tok K), as = before ++ some t :: after →
      t.pos.2 = input.length → ∀ a ∈ after, a = none := by
  constructor
  · have hw : (InputIter.new input).waiting = input.length ∧ (InputIter.new input).pending = input.length := by
      have : ∀ i (u : List Char), (enumFrom i u).length = u.length := by
        intro i u
        induction u generalizing i with
        | nil => rfl
        | cons c u ih => simp [enumFrom, ih]
      simp [InputIter.waiting, InputIter.pending, InputIter.new, this]
    intro a ha
    refine calls_end input.length h (by omega) a ?_
    rw [hw.1, hw.2, ← Nat.mul_succ]
    exact ha
  · intro before after t has ht a ha
    have hc := (calls_held h (held_new input)).2.1
    rw [has] at hc
    have key : ∀ (as : List (Option (Tok K))) (start : Nat),
        Contiguous input start (returned (as ++ some t :: after)) → Contiguous input t.pos.2 (returned after) := by
      intro as
      induction as with
      | nil =>
        intro start h
        simp only [returned, List.nil_append, List.filterMap_cons, id, Contiguous] at h
        exact h.2.2.2
      | cons b as ih =>
        intro start h
        cases b with
        | none => exact ih start h
        | some t' =>
          simp only [returned, List.cons_append, List.filterMap_cons, id, Contiguous] at h
          exact ih _ h.2.2.2
    have h1 := key before _ hc
    cases a with
    | none => rfl
    | some t' =>
      have ht' : t' ∈ returned after := List.mem_filterMap.2 ⟨_, ha, rfl⟩
      cases hr : returned after with
      | nil => rw [hr] at ht'; cases ht'
      | cons t2 ts =>
        rw [hr] at h1
        obtain ⟨c1, c2, c3, _⟩ := h1
        omega

/-- Answers with tokens before and after `None`; the last one ends at the end of the input. -/
example : ∃ as it, lexCalls (nfaMachine onlyA.nfa 10) onlyA.tokens 9 (InputIter.new "xa".toList) =
    .ok (as, it) ∧ as = [none] ++ some ⟨2, ['x', 'a'], (0, 2)⟩ :: [none, none, none, none, none, none, none] :=
  ⟨_, ⟨[], [], (2, 0), [], []⟩, by with_unfolding_all rfl, rfl⟩

end Pango.Props
