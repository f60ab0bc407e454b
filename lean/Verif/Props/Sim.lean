import Verif.Proofs.Sim

/-!
# C12: `can_feed` and `feed` agree
-/

namespace Pango.Props

open Pango.Fsm Pango.Regex

variable [Unicode]

/-- No entry of a transition map has an empty set of destinations.  Every automaton the builder makes
is like this (`c09_builder_no_empty_targets`). -/
def NoEmptyTargets (nfa : Nfa) : Prop :=
  ∀ s ∈ nfa.states, ∀ t ∈ s.transitions, t.2 ≠ []

/-- C12, first part.  Whatever the set of runs is: if feeding `c` finishes, then `can_feed(c)` answered
beforehand whether any run is left afterwards. -/
theorem c12_can_feed_iff_survivor {nfa : Nfa} {fuel : Nat} {runs runs' : List Run} {c : Char}
    {acc : Bool} (hne : NoEmptyTargets nfa) (h : nfa.feed fuel runs c = .ok (runs', acc)) :
    nfa.canFeed runs c = .ok (!runs'.isEmpty) := by
  obtain ⟨hr, _⟩ := feed_ok h
  obtain ⟨h1, _, h3⟩ := feedRuns_ok hr
  obtain ⟨b, hb, hiff⟩ := canFeed_ok (c := c) h1
  rw [hb]
  congr 1
  rw [Bool.eq_iff_iff, hiff]
  constructor
  · rintro ⟨r, hr, st, hst, l, ds, ht, hl⟩
    have hds := hne st (getState_ok hst).1 _ ht
    obtain ⟨d, ds', rfl⟩ : ∃ d ds', ds = d :: ds' := by
      cases ds with
      | nil => exact absurd rfl hds
      | cons d ds' => exact ⟨d, ds', rfl⟩
    have : r.takeTransition d false ∈ runs' :=
      (h3 _).2 ⟨r, hr, st, hst, d, mem_charMoves.2 ⟨l, mem_edges.2 ⟨_, ht, by simp⟩, hl⟩, .refl⟩
    cases runs' with
    | nil => simp at this
    | cons a b => rfl
  · intro h
    cases runs' with
    | nil => simp at h
    | cons a rest =>
      obtain ⟨r, hr, st, hst, d, hd, _⟩ := (h3 a).1 (by simp)
      obtain ⟨l, he, hl⟩ := mem_charMoves.1 hd
      obtain ⟨ds, ht, _⟩ := mem_edges.1 he
      exact ⟨r, hr, st, hst, l, ds, ht, hl⟩

/-- C12, second part.  A simulator without runs answers `false` to everything and stays like that. -/
theorem c12_dead_stays_dead (nfa : Nfa) (fuel : Nat) (c : Char) :
    nfa.canFeed [] c = .ok false ∧ nfa.feed fuel [] c = .ok ([], false) ∧
    nfa.isAccepting [] = .ok false := ⟨rfl, rfl, rfl⟩

/-- Feed the characters one after the other, keep the last answer. -/
def feedOneByOne (nfa : Nfa) (fuel : Nat) (runs : List Run) (last : Bool) :
    List Char → Outcome Bool
  | [] => .ok last
  | c :: cs => do
    let (runs', acc) ← nfa.feed fuel runs c
    feedOneByOne nfa fuel runs' acc cs

omit [Unicode] in
private theorem isAccepting_ne_diverge (nfa : Nfa) (runs : List Run) :
    nfa.isAccepting runs ≠ .diverge := by
  induction runs with
  | nil => simp [Nfa.isAccepting]
  | cons r rs ih =>
    rcases getState_cases (nfa := nfa) r.state with ⟨st, h⟩ | h
    · by_cases hf : st.fin <;> simp [Nfa.isAccepting, h, hf, ih]
    · simp [Nfa.isAccepting, h]

private theorem feedAll_eq (nfa : Nfa) (fuel : Nat) (cs : List Char) (runs : List Run)
    (acc : Bool) (last : Option Bool) (hl : last = none ∨ last = some acc)
    (hacc : nfa.isAccepting runs = .ok acc) :
    (do let (runs, last) ← nfa.feedAll fuel runs last cs
        let acc ← nfa.isAccepting runs
        pure (last.getD acc)) = feedOneByOne nfa fuel runs acc cs := by
  induction cs generalizing runs acc last with
  | nil => rcases hl with rfl | rfl <;> simp [Nfa.feedAll, feedOneByOne, hacc]
  | cons c cs ih =>
    cases hf : nfa.feed fuel runs c with
    | panic => simp [Nfa.feedAll, feedOneByOne, hf]
    | diverge => simp [Nfa.feedAll, feedOneByOne, hf]
    | ok x =>
      obtain ⟨runs', acc'⟩ := x
      have := ih runs' acc' (some acc') (.inr rfl) (feed_ok hf).2
      simpa [Nfa.feedAll, feedOneByOne, hf] using this

/-- C12, third part.  Feeding a string answers what feeding its characters one by one answers last,
and the empty string answers whether the simulator is accepting now. -/
theorem c12_feed_str (nfa : Nfa) (fuel : Nat) (runs : List Run) (acc : Bool) (cs : List Char)
    (h : nfa.isAccepting runs = .ok acc) :
    nfa.feedStr fuel runs cs = feedOneByOne nfa fuel runs acc cs :=
  feedAll_eq nfa fuel cs runs acc none (.inl rfl) h

/-- C12, fourth part.  The answer of `feed` is what `is_accepting` says afterwards. -/
theorem c12_feed_answer {nfa : Nfa} {fuel : Nat} {runs runs' : List Run} {c : Char} {acc : Bool}
    (h : nfa.feed fuel runs c = .ok (runs', acc)) : nfa.isAccepting runs' = .ok acc :=
  (feed_ok h).2

/-- The hypotheses are met: the automaton of `a*`, one character in. -/
example : ∃ nfa, nfaOfAst (.lit (.mtch 'a') (some .asterisk)) = .ok nfa ∧ NoEmptyTargets nfa ∧
    nfa.initRuns 10 = .ok [⟨0, []⟩, ⟨2, []⟩, ⟨1, []⟩] ∧
    nfa.feed 10 [⟨0, []⟩, ⟨2, []⟩, ⟨1, []⟩] 'a' = .ok ([⟨2, [(2, 1)]⟩, ⟨1, [(2, 0)]⟩], true) ∧
    nfa.canFeed [⟨0, []⟩, ⟨2, []⟩, ⟨1, []⟩] 'a' = .ok true ∧
    nfa.canFeed [⟨0, []⟩, ⟨2, []⟩, ⟨1, []⟩] 'b' = .ok false :=
  ⟨⟨0, [⟨0, false, [(.eps, [2])]⟩, ⟨1, true, []⟩,
      ⟨2, false, [(.quantified .asterisk, [1]), (.literal (.mtch 'a'), [2])]⟩]⟩,
    rfl, by unfold NoEmptyTargets; decide, rfl, rfl, rfl, rfl⟩

end Pango.Props
