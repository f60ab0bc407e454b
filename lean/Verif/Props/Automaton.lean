import Verif.Proofs.Viable
import Verif.Props.FirstFollow

/-!
# C30, C32, C33, C34: item sets and the automaton
-/

namespace Pango.Props

open Pango Pango.Parse Pango.Spec

variable {V T : Type} [DecidableEq V] [DecidableEq T]

/-- C30.  Completing a set of items (whose cursors are not in front of epsilons, and whose variables have rules)
always ends, within a number of iterations that depends only on the size of the set and of the grammar, and
gives exactly the items that can be reached from it by bringing in the rules of variables in front of cursors. -/
theorem c30_closure {g : Grammar V T} (hg : Built g) (items : ItemSet V T)
    (hok : ∀ h i, (h, i) ∈ items → ¬ Reads i .eps ∧ ∀ v, Reads i (.var v) → Defined g v) :
    ∀ fuel ≥ items.length + g.rules.length, ∀ ord : HashOrder,
      ∃ r, itemClosure g ord fuel items = .ok r ∧ ∀ p, p ∈ r ↔ Closure g (· ∈ items) p := by
  intro fuel hf ord
  obtain ⟨r, h1, h2, _⟩ := itemClosure_spec hg.wellFormed ord (given := items) (fun p hp => by
    obtain ⟨h3, h4⟩ := hok p.1 p.2 hp
    exact ⟨fun h => h3 (reads_iff.2 h), fun v hv => h4 v (reads_iff.2 hv)⟩) hf
  exact ⟨r, h1, h2⟩

/-- A set of items that brings in the rules of `A` and then of `B`. -/
example : itemClosure exampleGrammar .insertion 20 [("S", ⟨[.var "S", .var "A", .term "c"], 1⟩)] =
    .ok [("S", ⟨[.var "S", .var "A", .term "c"], 1⟩), ("A", ⟨[.var "B", .var "B"], 0⟩), ("B", ⟨[.term "b"], 0⟩),
      ("B", ⟨[.eps], 1⟩)] := by decide

example : ∀ h i, (h, i) ∈ ([("S", ⟨[.var "S", .var "A", .term "c"], 1⟩)] : ItemSet String String) →
    ¬ Reads i .eps ∧ ∀ v, Reads i (.var v) → Defined exampleGrammar v := by
  intro h i hm
  simp only [List.mem_singleton, Prod.mk.injEq] at hm
  rw [hm.2, reads_iff]
  refine ⟨by decide, fun v hv => ?_⟩
  rw [reads_iff] at hv
  simp [Item.cursorSymbol] at hv
  subst hv
  exact ⟨[.var "B", .var "B"], by decide⟩

/-- C32.  Building the automaton always ends, within a number of iterations that does not depend on the iteration
orders, without a crash (the checks of the builder succeed); the states are numbered 0, 1, 2, ... and every
transition leads to one of them. -/
theorem c32_construction {g : Grammar V T} (hg : Built g) :
    ∃ bound, ∀ fuel ≥ bound, ∀ ord : HashOrder,
      ∃ c, Cfsm.fromGrammar g ord fuel = .ok c ∧ c.grammar = g ∧ 0 < c.states.length ∧
        c.states.map CState.id = List.range c.states.length ∧
        ∀ s ∈ c.states, ∀ x d, (x, d) ∈ s.transitions → d < c.states.length := by
  refine ⟨cfsmFuel g, fun fuel hf ord => ?_⟩
  obtain ⟨c, h1, h2⟩ := fromGrammar_spec hg.wellFormed ord hf
  refine ⟨c, h1, h2.grammar, ?_, h2.ids, fun s hs x d hd => ?_⟩
  · obtain ⟨s, h, _⟩ := h2.start
    exact (List.getElem?_eq_some_iff.1 h).1
  · obtain ⟨s', h, _⟩ := h2.dest s hs x d hd
    exact (List.getElem?_eq_some_iff.1 h).1

/-- C33.  Along a string of symbols there is at most one state, there is one exactly if some item can be reached by
reading the string, it holds exactly these items, and it has a transition exactly for the symbols they read.
Every state is the state along some string. -/
theorem c33_viable {g : Grammar V T} (hg : Built g) :
    ∀ (fuel : Nat) (ord : HashOrder) (c : Cfsm V T), Cfsm.fromGrammar g ord fuel = .ok c →
      (∀ s ∈ c.states, ∃ γ, Reached c γ s) ∧
      ∀ γ : List (Sym V T),
        (∀ s s', Reached c γ s → Reached c γ s' → s = s') ∧
        ((∃ s, Reached c γ s) ↔ ∃ p, Viable g γ p) ∧
        ∀ s, Reached c γ s →
          (∀ p, p ∈ s.items ↔ Viable g γ p) ∧
          ∀ x, (∃ d, (x, d) ∈ s.transitions) ↔ ∃ h i, Viable g γ (h, i) ∧ Reads i x := by
  intro fuel ord c hc
  have ok := fromGrammar_ok hg.wellFormed hc
  refine ⟨fun s hs => ok.reached hs, fun γ => ?_⟩
  have htrans : ∀ γ s, Reached c γ s → ∀ x, (∃ d, (x, d) ∈ s.transitions) ↔
      ∃ h i, Viable g γ (h, i) ∧ Reads i x := by
    intro γ s hs x
    have h2 := ok.read s (reached_mem hs) x
    constructor
    · rintro ⟨d, hd⟩
      obtain ⟨p, hp, hx⟩ := h2.1 (List.mem_map.2 ⟨_, hd, rfl⟩)
      exact ⟨p.1, p.2, (reached_viable ok hs p).1 hp, reads_iff.2 hx⟩
    · rintro ⟨h, i, hv, hx⟩
      obtain ⟨⟨x', d⟩, hd, rfl⟩ := List.mem_map.1 (h2.2 ⟨_, (reached_viable ok hs _).2 hv, reads_iff.1 hx⟩)
      exact ⟨d, hd⟩
  refine ⟨fun s s' => ok.reached_unique, ?_, fun s hs => ⟨reached_viable ok hs, htrans γ s hs⟩⟩
  constructor
  · rintro ⟨s, hs⟩
    induction hs with
    | start hs h0 =>
      obtain ⟨β, hβ⟩ := hg.wellFormed.start
      exact ⟨_, .start hβ (fresh_iff.2 rfl)⟩
    | @step γ s1 s2 x d hr ht _ _ ih =>
      obtain ⟨h, i, hv, hx⟩ := (htrans γ s1 hr x).1 ⟨d, ht⟩
      exact ⟨_, .read hv (advanced_iff.2 ⟨reads_iff.1 hx, rfl⟩)⟩
  · rintro ⟨p, hp⟩
    exact ok.exists_reached hp

/-- `S → a S | b`. -/
def rightRecursive : Grammar String String := ⟨"S", [("S", [.term "a", .var "S"]), ("S", [.term "b"])]⟩

theorem rightRecursive_built : Built rightRecursive :=
  ⟨[.setStart "S", .addRules "S" [[.term "a", .var "S"], [.term "b"]]], by decide⟩

/-- Its automaton. -/
def rightRecursiveCfsm : Cfsm String String :=
  let aS : Body String String := [.term "a", .var "S"]
  let b : Body String String := [.term "b"]
  ⟨rightRecursive, [
    ⟨0, [("S", ⟨aS, 0⟩), ("S", ⟨b, 0⟩)], [(.term "a", 1), (.term "b", 2)]⟩,
    ⟨1, [("S", ⟨aS, 1⟩), ("S", ⟨aS, 0⟩), ("S", ⟨b, 0⟩)], [(.var "S", 3), (.term "a", 4), (.term "b", 5)]⟩,
    ⟨2, [("S", ⟨b, 1⟩)], []⟩,
    ⟨3, [("S", ⟨aS, 2⟩)], []⟩,
    ⟨4, [("S", ⟨aS, 1⟩), ("S", ⟨aS, 0⟩), ("S", ⟨b, 0⟩)], [(.var "S", 3), (.term "a", 1), (.term "b", 2)]⟩,
    ⟨5, [("S", ⟨b, 1⟩)], []⟩]⟩

theorem rightRecursive_cfsm : Cfsm.fromGrammar rightRecursive .insertion 20 = .ok rightRecursiveCfsm := by
  decide +kernel

/-- A path of length three in it. -/
example : ∃ s, Reached rightRecursiveCfsm [.term "a", .term "a", .var "S"] s ∧
    s.items = [("S", ⟨[.term "a", .var "S"], 2⟩)] := by
  refine ⟨_, .step (γ := [.term "a", .term "a"]) (d := 3) (.step (γ := [.term "a"]) (d := 4)
    (.step (γ := []) (d := 1) (.start (s := rightRecursiveCfsm.states[0]) (by decide) rfl) (by decide)
      (s' := rightRecursiveCfsm.states[1]) (by decide) rfl) (by decide)
      (s' := rightRecursiveCfsm.states[4]) (by decide) rfl) (by decide)
      (s' := rightRecursiveCfsm.states[3]) (by decide) rfl, rfl⟩

/-- C34 as stated: different states hold different item sets. -/
def C34 : Prop :=
  ∀ (V T : Type) [DecidableEq V] [DecidableEq T] (g : Grammar V T), Built g →
    ∀ (fuel : Nat) (ord : HashOrder) (c : Cfsm V T), Cfsm.fromGrammar g ord fuel = .ok c →
      ∀ s ∈ c.states, ∀ s' ∈ c.states, (∀ p, p ∈ s.items ↔ p ∈ s'.items) → s = s'

/-- C34 is false: the automaton of `S → a S | b` has two equal states behind `a` and `aa`. -/
theorem c34_false : ¬ C34 := by
  intro h
  have := h String String rightRecursive rightRecursive_built 20 .insertion rightRecursiveCfsm
    rightRecursive_cfsm rightRecursiveCfsm.states[1] (by decide) rightRecursiveCfsm.states[4] (by decide)
    (fun p => Iff.rfl)
  exact absurd this (by decide)

/-- C34, the part that holds: states with the same items are interchangeable.  They have transitions for the same
symbols, and these lead again to states with the same items. -/
theorem c34_equivalent_partial {g : Grammar V T} (hg : Built g) :
    ∀ (fuel : Nat) (ord : HashOrder) (c : Cfsm V T), Cfsm.fromGrammar g ord fuel = .ok c →
      ∀ s ∈ c.states, ∀ s' ∈ c.states, (∀ p, p ∈ s.items ↔ p ∈ s'.items) →
        ∀ x d, (x, d) ∈ s.transitions → ∃ d', (x, d') ∈ s'.transitions ∧
          ∃ t ∈ c.states, ∃ t' ∈ c.states, t.id = d ∧ t'.id = d' ∧ ∀ p, p ∈ t.items ↔ p ∈ t'.items := by
  intro fuel ord c hc s hs s' hs' hsame x d hd
  have ok := fromGrammar_ok hg.wellFormed hc
  obtain ⟨p, hp, hx⟩ := (ok.read s hs x).1 (List.mem_map.2 ⟨_, hd, rfl⟩)
  obtain ⟨⟨x', d'⟩, hd', rfl⟩ := List.mem_map.1 ((ok.read s' hs' x).2 ⟨p, (hsame p).1 hp, hx⟩)
  obtain ⟨t, h2, h3⟩ := ok.dest s hs _ d hd
  obtain ⟨t', h4, h5⟩ := ok.dest s' hs' _ d' hd'
  refine ⟨d', hd', t, List.mem_of_getElem? h2, t', List.mem_of_getElem? h4, ok.id_of_index h2, ok.id_of_index h4,
    fun p => (h3 p).trans ((Closure.congr fun q => ?_).trans (h5 p).symm)⟩
  unfold Next
  simp only [hsame]

/-- Such states exist: see `c34_false`. -/
example : ∃ s ∈ rightRecursiveCfsm.states, ∃ s' ∈ rightRecursiveCfsm.states, s.id ≠ s'.id ∧
    ∀ p, p ∈ s.items ↔ p ∈ s'.items :=
  ⟨rightRecursiveCfsm.states[1], by decide, rightRecursiveCfsm.states[4], by decide, by decide, fun _ => Iff.rfl⟩

end Pango.Props
