import Verif.Proofs.Matching
import Verif.Proofs.FragClass
import Verif.Proofs.ClassDec

/-!
# C10, C11: matching
-/

namespace Pango.Props

open Pango Pango.Fsm Pango.Regex Pango.Spec

variable [Unicode]

/-! ## More fuel does not change results -/

theorem flatMapOutcome_congr_ok {α β : Type} {f g : α → Outcome (List β)} {l : List α} {r : List β}
    (h : flatMapOutcome f l = .ok r) (hfg : ∀ a ∈ l, ∀ bs, f a = .ok bs → g a = .ok bs) :
    flatMapOutcome g l = .ok r := by
  induction l generalizing r with
  | nil => exact h
  | cons a l ih =>
    simp only [flatMapOutcome, Outcome.bind_eq_ok] at h ⊢
    obtain ⟨bs, h1, rest, h2, h3⟩ := h
    exact ⟨bs, hfg a (by simp) bs h1, rest, ih h2 (fun a ha => hfg a (by simp [ha])), h3⟩

theorem feed_mono {nfa : Nfa} {n m : Nat} (hnm : n ≤ m) {runs : List Run} {c : Char}
    {r : List Run × Bool} (h : nfa.feed n runs c = .ok r) : nfa.feed m runs c = .ok r := by
  simp only [Nfa.feed, Outcome.bind_eq_ok] at h ⊢
  obtain ⟨runs', h1, h2⟩ := h
  refine ⟨runs', flatMapOutcome_congr_ok h1 ?_, h2⟩
  intro a _ bs hb
  simp only [Outcome.bind_eq_ok] at hb ⊢
  obtain ⟨st, hst, hb⟩ := hb
  exact ⟨st, hst, flatMapOutcome_congr_ok hb (fun d _ cs hc => worklist_mono hc hnm)⟩

theorem feedAll_mono {nfa : Nfa} {n m : Nat} (hnm : n ≤ m) {v : List Char} :
    ∀ {runs : List Run} {last : Option Bool} {r : List Run × Option Bool},
    nfa.feedAll n runs last v = .ok r → nfa.feedAll m runs last v = .ok r := by
  induction v with
  | nil => intro runs last r h; exact h
  | cons c v ih =>
    intro runs last r h
    simp only [Nfa.feedAll, Outcome.bind_eq_ok] at h ⊢
    obtain ⟨x, h1, h2⟩ := h
    exact ⟨x, feed_mono hnm h1, ih h2⟩

theorem simulate_mono {nfa : Nfa} {n m : Nat} (hnm : n ≤ m) {v : List Char} {b : Bool}
    (h : nfa.simulate n v = .ok b) : nfa.simulate m v = .ok b := by
  simp only [Nfa.simulate, Nfa.initRuns, Nfa.feedStr, Outcome.bind_eq_ok] at h ⊢
  obtain ⟨runs, ⟨ids, h0, h1⟩, x, h2, h3⟩ := h
  exact ⟨runs, ⟨ids, worklist_mono h0 hnm, h1⟩, x, feedAll_mono hnm h2, h3⟩

theorem simulate_unique {nfa : Nfa} {n m : Nat} {v : List Char} {b b' : Bool}
    (h : nfa.simulate n v = .ok b) (h' : nfa.simulate m v = .ok b') : b = b' := by
  have h1 := simulate_mono (Nat.le_max_left n m) h
  have h2 := simulate_mono (Nat.le_max_right n m) h'
  rw [h1] at h2
  cases h2
  rfl

/-! ## C10 -/

/-- Compiling the tree and matching the string ends with the answer `b`. -/
def Answers (e : Expr) (v : List Char) (b : Bool) : Prop :=
  ∃ nfa fuel, nfaOfAst e = .ok nfa ∧ nfa.simulate fuel v = .ok b

/-- C10 as stated, for trees that can be compiled at all. -/
def MatchesRegex : Prop :=
  ∀ (e : Expr) (v : List Char), ¬ HasEmptySeq e →
    (Matches e v → Answers e v true) ∧ (¬ Matches e v → Answers e v false)

/-- `(a?b)+`. -/
def optThenB : Expr :=
  .group (.concat [.lit (.mtch 'a') (some .questionMark), .lit (.mtch 'b') none]) (some .plus)

omit [Unicode] in
theorem nfa_optThenB : nfaOfAst optThenB = .ok ⟨0, [⟨0, false, [(.eps, [2])]⟩, ⟨1, true, []⟩,
    ⟨2, false, [(.quantified .plus, [1]), (.eps, [4])]⟩, ⟨3, false, [(.literal (.mtch 'b'), [2])]⟩,
    ⟨4, false, [(.quantified .questionMark, [3]), (.literal (.mtch 'a'), [4])]⟩]⟩ := by decide

/-- C10 is false: `(a?b)+` rejects `b`. -/
theorem c10_false : ¬ MatchesRegex := by
  intro h
  have hm : Matches optThenB ['b'] := by
    have h1 : Matches (.lit (.mtch 'a') (some .questionMark)) [] :=
      .lit (.inl rfl) (by simp)
    have h2 : Matches (.lit (.mtch 'b') none) ['b'] := .lit rfl (by simp [LitSet])
    have h3 : Matches (.concat [.lit (.mtch 'a') (some .questionMark), .lit (.mtch 'b') none]) ['b'] := by
      have := Matches.cons h1 (.cons h2 .nil)
      simpa using this
    have := Matches.group (q := some .plus) (ws := [['b']]) (Nat.le_refl 1) (by simpa using h3)
    unfold optThenB
    simpa using this
  obtain ⟨nfa, fuel, h1, h2⟩ := (h optThenB ['b'] (by simp [optThenB, HasEmptySeq, AnyEmptySeq])).1 hm
  rw [nfa_optThenB] at h1
  cases h1
  have h3 : Nfa.simulate ⟨0, [⟨0, false, [(.eps, [2])]⟩, ⟨1, true, []⟩,
      ⟨2, false, [(.quantified .plus, [1]), (.eps, [4])]⟩, ⟨3, false, [(.literal (.mtch 'b'), [2])]⟩,
      ⟨4, false, [(.quantified .questionMark, [3]), (.literal (.mtch 'a'), [4])]⟩]⟩ 20 ['b'] =
      .ok false := rfl
  have := simulate_unique h2 h3
  cases this

/-- That pattern is what a user writes. -/
example : parse .debug "(a?b)+".toList = .ok (.ok optThenB) := rfl

/-- The part of C10 that holds: if no repeated group matches the empty string, and counted groups at the
start of the pattern begin with a literal, then matching any string ends with the answer of the regular
language.  Missing: the other patterns, for which the claim is false in general. -/
theorem c10_matches_partial (e : Expr) (hc : ¬ HasEmptySeq e) (hr : RepeatsNonEmpty e)
    (hs : CountsAtStart e) :
    ∃ nfa, nfaOfAst e = .ok nfa ∧ ∃ fuel, ∀ m, fuel ≤ m → ∀ v : List Char,
      ∃ b, nfa.simulate m v = .ok b ∧ (b = true ↔ Matches e v) := by
  obtain ⟨nfa, h1, b⟩ := nfaOfAst_bundle hc
  refine ⟨nfa, h1, simFuel nfa [((frag e 0 1 2).1, 1)], fun m hm v => ?_⟩
  obtain ⟨runs, acc, ht, ha, hsim⟩ := b.simulate (by simpa using frag_nonNull e hc hr 0 1 2) hm v
  obtain ⟨acc', ha', hacc⟩ := (b.isAccepting (by simpa using frag_headOk e hc hs 0 1 2) ht).2
  rw [ha] at ha'
  cases ha'
  refine ⟨acc, hsim, hacc.trans ?_⟩
  simp only [List.mem_singleton, exists_eq_left]
  exact frag_lang e hc 0 1 2 v

/-- `(ab?|x(y?z){2,3})+c`, with nested, counted and optional parts. -/
def nested : Expr :=
  .concat [.group (.alt (.concat [.lit (.mtch 'a') none, .lit (.mtch 'b') (some .questionMark)])
    (.concat [.lit (.mtch 'x') none, .group (.concat [.lit (.mtch 'y') (some .questionMark),
      .lit (.mtch 'z') none]) (some (.range 2 3))])) (some .plus), .lit (.mtch 'c') none]

example : ¬ HasEmptySeq nested ∧ RepeatsNonEmpty nested ∧ CountsAtStart nested := by
  rw [← repeatsNonEmptyB_iff, ← countsAtStartB_iff]
  decide

/-- What it matches is not trivial. -/
example : Matches (.group (.concat [.lit (.mtch 'y') (some .questionMark), .lit (.mtch 'z') none])
    (some (.range 2 3))) "zyz".toList := by
  have y0 : Matches (.lit (.mtch 'y') (some .questionMark)) [] := .lit (.inl rfl) (by simp)
  have y1 : Matches (.lit (.mtch 'y') (some .questionMark)) ['y'] := .lit (.inr rfl) (by simp [LitSet])
  have z : Matches (.lit (.mtch 'z') none) ['z'] := .lit rfl (by simp [LitSet])
  have h0 := Matches.cons y0 (.cons z .nil)
  have h1 := Matches.cons y1 (.cons z .nil)
  refine Matches.group (ws := [['z'], ['y', 'z']]) ⟨by decide, by decide⟩ ?_
  intro w hw
  simp only [List.mem_cons, List.not_mem_nil, or_false] at hw
  rcases hw with rfl | rfl
  · simpa using h0
  · simpa using h1

/-! ## C11 -/

/-- C11 as stated, for trees that can be compiled at all: matching any string ends with an answer. -/
def MatchingEnds : Prop :=
  ∀ (e : Expr) (v : List Char), ¬ HasEmptySeq e → ∃ b, Answers e v b

/-- `(a*)*`. -/
def starStar : Expr := .group (.lit (.mtch 'a') (some .asterisk)) (some .asterisk)

/-- The automaton of `(a*)*`. -/
def starStarNfa : Nfa := ⟨0, [⟨0, false, [(.eps, [2])]⟩, ⟨1, true, []⟩,
  ⟨2, false, [(.quantified .asterisk, [1]), (.eps, [3])]⟩,
  ⟨3, false, [(.quantified .asterisk, [2]), (.literal (.mtch 'a'), [3])]⟩]⟩

omit [Unicode] in
theorem nfa_starStar : nfaOfAst starStar = .ok starStarNfa := by decide

omit [Unicode] in
/-- After the first character the loop through the states 2 and 3 can be taken without end, and each
round leaves a different counter. -/
theorem starStar_reaches (k : Nat) :
    Reaches (epsStep starStarNfa) ⟨3, [(3, 1)]⟩ ⟨2, if k = 0 then [(3, 0)] else [(2, k), (3, 0)]⟩ := by
  induction k with
  | zero =>
    refine .tail .refl (news := [⟨2, [(3, 0)]⟩]) ?_ (by simp)
    decide
  | succ k ih =>
    have h1 : Reaches (epsStep starStarNfa) ⟨3, [(3, 1)]⟩ ⟨3, [(2, k + 1), (3, 0)]⟩ := by
      refine .tail ih (news := [⟨1, (2, 0) :: [(3, 0)]⟩, ⟨3, [(2, k + 1), (3, 0)]⟩]) ?_ (by simp)
      cases k with
      | zero => decide
      | succ k => rfl
    refine .tail h1 (news := [⟨2, [(2, k + 1), (3, 0)]⟩]) ?_ (by simp)
    rfl

omit [Unicode] in
theorem starStar_closure (fuel : Nat) (res : List Run) :
    starStarNfa.epsClosure fuel ⟨3, [(3, 1)]⟩ ≠ .ok res := by
  intro h
  rw [epsClosure_eq] at h
  have hm : ∀ k, (⟨2, [(2, k + 1), (3, 0)]⟩ : Run) ∈ res := fun k =>
    ((worklist_single h).1 _).2 (starStar_reaches (k + 1))
  have := nodup_subset_length (l := (List.range (res.length + 1)).map
    (fun k => (⟨2, [(2, k + 1), (3, 0)]⟩ : Run))) (u := res)
    (by
      refine List.Pairwise.map _ ?_ List.nodup_range
      intro a b hab h
      simp at h
      exact hab h)
    (by
      intro a ha
      obtain ⟨k, _, rfl⟩ := List.mem_map.1 ha
      exact hm k)
  simp at this
  omega

/-- C11 is false: matching `(a*)*` against `a` does not end. -/
theorem c11_false : ¬ MatchingEnds := by
  intro h
  obtain ⟨b, nfa, fuel, h1, h2⟩ := h starStar ['a'] (by decide)
  rw [nfa_starStar] at h1
  cases h1
  have h0 : starStarNfa.initRuns 20 = .ok [⟨0, []⟩, ⟨2, []⟩, ⟨1, []⟩, ⟨3, []⟩] := rfl
  simp only [Nfa.simulate, Nfa.initRuns, Nfa.feedStr, Nfa.feedAll, Outcome.bind_eq_ok] at h2 h0
  obtain ⟨ids0, h01, h02⟩ := h0
  obtain ⟨runs, ⟨ids, h3, h4⟩, x, ⟨y, h5, _⟩, _⟩ := h2
  have e1 := worklist_mono h01 (Nat.le_max_left 20 fuel)
  rw [worklist_mono h3 (Nat.le_max_right 20 fuel)] at e1
  cases e1
  rw [h02] at h4
  cases h4
  obtain ⟨h6, _⟩ := feed_ok h5
  obtain ⟨bs, h7⟩ := (flatMapOutcome_ok h6).1 ⟨3, []⟩ (by simp)
  rw [Outcome.bind_eq_ok] at h7
  obtain ⟨st, h8, h9⟩ := h7
  have h10 : st = ⟨3, false, [(.quantified .asterisk, [2]), (.literal (.mtch 'a'), [3])]⟩ := by
    have : starStarNfa.getState 3 =
      .ok ⟨3, false, [(.quantified .asterisk, [2]), (.literal (.mtch 'a'), [3])]⟩ := rfl
    rw [this] at h8
    cases h8
    rfl
  subst h10
  obtain ⟨cs, h11⟩ := (flatMapOutcome_ok h9).1 3 (by
    simp [NState.charMoves, NState.edges, Input.canTake, Lit.contains])
  exact starStar_closure fuel cs h11

/-- That pattern is what a user writes. -/
example : parse .debug "(a*)*".toList = .ok (.ok starStar) := rfl

/-- The part of C11 that holds: if no repeated group matches the empty string, then matching any
string ends, within a number of steps of each closure that depends on the pattern only.  Missing: groups
that repeat something that matches the empty string, for which the claim is false in general. -/
theorem c11_terminates_partial (e : Expr) (hc : ¬ HasEmptySeq e) (hr : RepeatsNonEmpty e) :
    ∃ nfa, nfaOfAst e = .ok nfa ∧ ∃ fuel, ∀ v : List Char, ∃ b, nfa.simulate fuel v = .ok b := by
  obtain ⟨nfa, h1, b⟩ := nfaOfAst_bundle hc
  refine ⟨nfa, h1, simFuel nfa [((frag e 0 1 2).1, 1)], fun v => ?_⟩
  obtain ⟨runs, acc, ht, ha, hsim⟩ :=
    b.simulate (by simpa using frag_nonNull e hc hr 0 1 2) (Nat.le_refl _) v
  exact ⟨acc, hsim⟩

/-- `(a?b)+` is covered here although it is not covered by C10. -/
example : ¬ HasEmptySeq optThenB ∧ RepeatsNonEmpty optThenB ∧ ¬ CountsAtStart optThenB := by
  rw [← repeatsNonEmptyB_iff, ← countsAtStartB_iff]
  decide

end Pango.Props
