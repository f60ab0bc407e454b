import Verif.Proofs.Sooner
import Verif.Props.Automaton

/-!
# C34: when different states hold the same items

`Cfsm::from_grammar` compares a new item set only with the states it has finished.  So an item set that waits, or
that is just being finished, is not found, and gets a second state.
-/

namespace Pango.Props

open Pango Pango.Parse Pango.Spec

variable {V T : Type} [DecidableEq V] [DecidableEq T]

/-- C34, the grammars for which it holds in every iteration order: if every item set is entered in only one way, not
counting the ways from item sets further from the start, then different states hold different item sets. -/
theorem c34_unique_partial {g : Grammar V T} (hg : Built g) (one : OneWayIn g) :
    ∀ (fuel : Nat) (ord : HashOrder) (c : Cfsm V T), Cfsm.fromGrammar g ord fuel = .ok c →
      ∀ s ∈ c.states, ∀ s' ∈ c.states, (∀ p, p ∈ s.items ↔ p ∈ s'.items) → s = s' := by
  intro fuel ord c hc s hs s' hs' hsame
  have ok := fromGrammar_ok hg.wellFormed hc
  have main := noDuplicates ok (fromGrammar_grown hc) one
  refine ok.eq_of_id hs hs' ?_
  rcases Nat.lt_trichotomy s.id s'.id with h | h | h
  · exact absurd hsame (main _ s' hs' (Nat.le_refl _) s hs h)
  · exact h
  · exact absurd (fun p => (hsame p).symm) (main _ s hs (Nat.le_refl _) s' hs' h)

/-- C34, the grammars for which it fails in every iteration order: if an item set is entered in two ways from item
sets nearer to the start, or is entered from itself, then two states hold the same items. -/
theorem c34_twice_partial {g : Grammar V T} (hg : Built g) (two : TwoWaysIn g) :
    ∀ (fuel : Nat) (ord : HashOrder) (c : Cfsm V T), Cfsm.fromGrammar g ord fuel = .ok c →
      ∃ s ∈ c.states, ∃ s' ∈ c.states, s ≠ s' ∧ ∀ p, p ∈ s.items ↔ p ∈ s'.items := by
  intro fuel ord c hc
  exact duplicates (fromGrammar_ok hg.wellFormed hc) (fromGrammar_grown hc) two

/-- The ways into the item sets can be read off an automaton without equal states. -/
theorem oneWayIn_of {g : Grammar V T} {c : Cfsm V T} (ok : CfsmOk g c) (depth : Nat → Nat)
    (distinct : ∀ s ∈ c.states, ∀ t ∈ c.states, (∀ p ∈ s.items, p ∈ t.items) → (∀ p ∈ t.items, p ∈ s.items) →
      s.id = t.id)
    (zero : depth 0 = 0)
    (near : ∀ t ∈ c.states, ∃ δ, Reached c δ t ∧ δ.length = depth t.id)
    (far : ∀ s ∈ c.states, ∀ e ∈ s.transitions, depth e.2 ≤ depth s.id + 1)
    (start : ∀ s ∈ c.states, ∀ e ∈ s.transitions, e.2 = 0 → 0 < depth s.id)
    (one : ∀ s ∈ c.states, ∀ e ∈ s.transitions, ∀ s' ∈ c.states, ∀ e' ∈ s'.transitions, e.2 = e'.2 →
      depth s.id ≤ depth e.2 → depth s'.id ≤ depth e.2 → s.id = s'.id ∧ e.1 = e'.1) : OneWayIn g := by
  have depth_le : ∀ {δ t}, Reached c δ t → depth t.id ≤ δ.length := by
    intro δ t h
    induction h with
    | start _ h0 => rw [h0, zero]; exact Nat.zero_le _
    | @step δ s t x d h hx ht hd ih =>
      have := far s (reached_mem h) _ hx
      subst hd
      simp only [List.length_append, List.length_singleton] at this ⊢
      omega
  -- the last step of a string
  have last : ∀ {δ y t}, Reached c (δ ++ [y]) t → ∃ a, Reached c δ a ∧ (y, t.id) ∈ a.transitions := by
    intro δ y t ht
    generalize hδe : δ ++ [y] = δ' at ht
    cases ht with
    | start _ _ => simp at hδe
    | @step δ'' a _ z d ha hz _ hd =>
      obtain ⟨rfl, hyz⟩ := List.append_inj' hδe rfl
      cases hyz
      subst hd
      exact ⟨a, ha, hz⟩
  intro γ ⟨⟨p, hp⟩, hshort⟩ α x hsame hlen
  obtain ⟨t, ht⟩ := ok.exists_reached hp
  obtain ⟨t', ht'⟩ := ok.exists_reached ((hsame p).2 hp)
  have hs := (ok.same_iff ht' ht).2 hsame
  obtain rfl : t' = t := ok.eq_of_id (reached_mem ht') (reached_mem ht)
    (distinct t' (reached_mem ht') t (reached_mem ht) (fun p => (hs p).1) fun p => (hs p).2)
  obtain ⟨a, ha, hax⟩ := last ht'
  obtain ⟨δ, hδ, hδl⟩ := near t' (reached_mem ht)
  have h1 := hshort δ ((ok.same_iff ht hδ).1 fun _ => Iff.rfl)
  have h2 := depth_le ha
  rcases List.eq_nil_or_concat γ with rfl | ⟨β, y, rfl⟩
  · have h0 : t'.id = 0 := by
      generalize hγ : ([] : List (Sym V T)) = γ at ht
      cases ht with
      | start _ h0 => exact h0
      | step _ _ _ _ => simp at hγ
    have := start a (reached_mem ha) _ hax h0
    simp only [List.length_nil] at hlen
    omega
  · rw [List.concat_eq_append] at *
    obtain ⟨b, hb, hby⟩ := last ht
    have h3 := depth_le hb
    simp only [List.length_append, List.length_singleton] at h1
    obtain ⟨h4, h5⟩ := one a (reached_mem ha) _ hax b (reached_mem hb) _ hby rfl
      (by simp only [List.length_append, List.length_singleton] at hlen; simp only; omega) (by simp only; omega)
    simp only at h5
    subst h5
    obtain rfl := ok.eq_of_id (reached_mem ha) (reached_mem hb) h4
    exact ⟨β, rfl, (ok.same_iff ha hb).1 fun _ => Iff.rfl⟩

/-- `S → a b S | c`. -/
def slowRecursive : Grammar String String :=
  ⟨"S", [("S", [.term "a", .term "b", .var "S"]), ("S", [.term "c"])]⟩

theorem slowRecursive_built : Built slowRecursive :=
  ⟨[.setStart "S", .addRules "S" [[.term "a", .term "b", .var "S"], [.term "c"]]], by decide⟩

/-- Its automaton.  It has a loop through three states. -/
def slowRecursiveCfsm : Cfsm String String :=
  let abS : Body String String := [.term "a", .term "b", .var "S"]
  let c : Body String String := [.term "c"]
  ⟨slowRecursive, [
    ⟨0, [("S", ⟨abS, 0⟩), ("S", ⟨c, 0⟩)], [(.term "a", 1), (.term "c", 2)]⟩,
    ⟨1, [("S", ⟨abS, 1⟩)], [(.term "b", 3)]⟩,
    ⟨2, [("S", ⟨c, 1⟩)], []⟩,
    ⟨3, [("S", ⟨abS, 2⟩), ("S", ⟨abS, 0⟩), ("S", ⟨c, 0⟩)], [(.var "S", 4), (.term "a", 1), (.term "c", 2)]⟩,
    ⟨4, [("S", ⟨abS, 3⟩)], []⟩]⟩

theorem slowRecursive_cfsm : Cfsm.fromGrammar slowRecursive .insertion 20 = .ok slowRecursiveCfsm := by
  decide +kernel

/-- It meets the hypothesis of `c34_unique_partial`, although its strings can be arbitrarily long. -/
theorem slowRecursive_oneWayIn : OneWayIn slowRecursive := by
  have r0 : Reached slowRecursiveCfsm [] slowRecursiveCfsm.states[0] := .start (by decide) rfl
  have r1 : Reached slowRecursiveCfsm [.term "a"] slowRecursiveCfsm.states[1] :=
    .step (γ := []) (d := 1) r0 (by decide) (by decide) rfl
  have r2 : Reached slowRecursiveCfsm [.term "c"] slowRecursiveCfsm.states[2] :=
    .step (γ := []) (d := 2) r0 (by decide) (by decide) rfl
  have r3 : Reached slowRecursiveCfsm [.term "a", .term "b"] slowRecursiveCfsm.states[3] :=
    .step (γ := [.term "a"]) (d := 3) r1 (by decide) (by decide) rfl
  have r4 : Reached slowRecursiveCfsm [.term "a", .term "b", .var "S"] slowRecursiveCfsm.states[4] :=
    .step (γ := [.term "a", .term "b"]) (d := 4) r3 (by decide) (by decide) rfl
  refine oneWayIn_of (fromGrammar_ok slowRecursive_built.wellFormed slowRecursive_cfsm)
    (fun n => [0, 1, 1, 2, 3].getD n 0) (by decide) rfl ?_ (by decide) (by decide) (by decide)
  intro t ht
  have : t = slowRecursiveCfsm.states[0] ∨ t = slowRecursiveCfsm.states[1] ∨ t = slowRecursiveCfsm.states[2] ∨
      t = slowRecursiveCfsm.states[3] ∨ t = slowRecursiveCfsm.states[4] := by
    simpa [slowRecursiveCfsm] using ht
  rcases this with rfl | rfl | rfl | rfl | rfl
  · exact ⟨_, r0, rfl⟩
  · exact ⟨_, r1, rfl⟩
  · exact ⟨_, r2, rfl⟩
  · exact ⟨_, r3, rfl⟩
  · exact ⟨_, r4, rfl⟩

/-- So its states differ in every iteration order. -/
example (fuel : Nat) (ord : HashOrder) (c : Cfsm String String) (h : Cfsm.fromGrammar slowRecursive ord fuel = .ok c)
    (s s' : CState String String) (hs : s ∈ c.states) (hs' : s' ∈ c.states) (hne : s ≠ s') :
    ¬ ∀ p, p ∈ s.items ↔ p ∈ s'.items :=
  fun hsame => hne (c34_unique_partial slowRecursive_built slowRecursive_oneWayIn fuel ord c h s hs s' hs' hsame)

/-- `S → a S | b` meets the hypothesis of `c34_twice_partial`: the item set of `a` is entered from itself. -/
theorem rightRecursive_twoWaysIn : TwoWaysIn rightRecursive := by
  have ok := fromGrammar_ok rightRecursive_built.wellFormed rightRecursive_cfsm
  have r0 : Reached rightRecursiveCfsm [] rightRecursiveCfsm.states[0] := .start (by decide) rfl
  have r1 : Reached rightRecursiveCfsm [.term "a"] rightRecursiveCfsm.states[1] :=
    .step (γ := []) (d := 1) r0 (by decide) (by decide) rfl
  have r4 : Reached rightRecursiveCfsm [.term "a", .term "a"] rightRecursiveCfsm.states[4] :=
    .step (γ := [.term "a"]) (d := 4) r1 (by decide) (by decide) rfl
  refine ⟨[.term "a"], ⟨⟨_, (reached_viable ok r1 ("S", ⟨[.term "b"], 0⟩)).1 (by decide)⟩, fun δ hδ => ?_⟩,
    [.term "a"], .term "a", (ok.same_iff r4 r1).1 fun _ => Iff.rfl, .inr fun _ => Iff.rfl⟩
  cases δ with
  | nil =>
    have := ((ok.same_iff r1 r0).2 hδ ("S", ⟨[.term "a", .var "S"], 1⟩)).1 (by decide)
    exact absurd this (by decide)
  | cons _ _ => simp

/-- So it has equal states in every iteration order. -/
example (fuel : Nat) (ord : HashOrder) (c : Cfsm String String) (h : Cfsm.fromGrammar rightRecursive ord fuel = .ok c) :
    ∃ s ∈ c.states, ∃ s' ∈ c.states, s ≠ s' ∧ ∀ p, p ∈ s.items ↔ p ∈ s'.items :=
  c34_twice_partial rightRecursive_built rightRecursive_twoWaysIn fuel ord c h

/-- Whether two states hold the same items is the same for every iteration order. -/
def C34Order : Prop :=
  ∀ (V T : Type) [DecidableEq V] [DecidableEq T] (g : Grammar V T), Built g →
    ∀ (fuel : Nat) (ord ord' : HashOrder) (c c' : Cfsm V T), Cfsm.fromGrammar g ord fuel = .ok c →
      Cfsm.fromGrammar g ord' fuel = .ok c' → c.states.length = c'.states.length ∧
        ((∃ s ∈ c.states, ∃ t ∈ c.states, s ≠ t ∧ ∀ p, p ∈ s.items ↔ p ∈ t.items) →
          ∃ s ∈ c'.states, ∃ t ∈ c'.states, s ≠ t ∧ ∀ p, p ∈ s.items ↔ p ∈ t.items)

/-- `S → a Y | Y`, `Y → c`. -/
def levelGrammar : Grammar String String :=
  ⟨"S", [("S", [.term "a", .var "Y"]), ("S", [.var "Y"]), ("Y", [.term "c"])]⟩

theorem levelGrammar_built : Built levelGrammar :=
  ⟨[.setStart "S", .addRules "S" [[.term "a", .var "Y"], [.var "Y"]], .addRules "Y" [[.term "c"]]], by decide⟩

/-- Its automaton, if `a` is looked at before `c`. -/
def levelCfsm : Cfsm String String :=
  let aY : Body String String := [.term "a", .var "Y"]
  let Y : Body String String := [.var "Y"]
  let c : Body String String := [.term "c"]
  ⟨levelGrammar, [
    ⟨0, [("S", ⟨aY, 0⟩), ("S", ⟨Y, 0⟩), ("Y", ⟨c, 0⟩)], [(.term "a", 1), (.var "Y", 2), (.term "c", 3)]⟩,
    ⟨1, [("S", ⟨aY, 1⟩), ("Y", ⟨c, 0⟩)], [(.var "Y", 4), (.term "c", 5)]⟩,
    ⟨2, [("S", ⟨Y, 1⟩)], []⟩,
    ⟨3, [("Y", ⟨c, 1⟩)], []⟩,
    ⟨4, [("S", ⟨aY, 2⟩)], []⟩,
    ⟨5, [("Y", ⟨c, 1⟩)], []⟩]⟩

theorem levelGrammar_cfsm : Cfsm.fromGrammar levelGrammar .insertion 20 = .ok levelCfsm := by
  decide +kernel

/-- Its automaton, if `c` is looked at before `a`. -/
def levelCfsm' : Cfsm String String :=
  let aY : Body String String := [.term "a", .var "Y"]
  let Y : Body String String := [.var "Y"]
  let c : Body String String := [.term "c"]
  ⟨levelGrammar, [
    ⟨0, [("S", ⟨aY, 0⟩), ("S", ⟨Y, 0⟩), ("Y", ⟨c, 0⟩)], [(.term "c", 1), (.var "Y", 2), (.term "a", 3)]⟩,
    ⟨1, [("Y", ⟨c, 1⟩)], []⟩,
    ⟨2, [("S", ⟨Y, 1⟩)], []⟩,
    ⟨3, [("S", ⟨aY, 1⟩), ("Y", ⟨c, 0⟩)], [(.term "c", 1), (.var "Y", 4)]⟩,
    ⟨4, [("S", ⟨aY, 2⟩)], []⟩]⟩

theorem levelGrammar_cfsm' : Cfsm.fromGrammar levelGrammar .reversed 20 = .ok levelCfsm' := by
  decide +kernel

/-- In between, the iteration order decides: a way from another item set just as far from the start is found or not,
depending on which of the two is finished first.  So even the number of states depends on the order. -/
theorem c34_order_false : ¬ C34Order := by
  intro h
  have := (h String String levelGrammar levelGrammar_built 20 .insertion .reversed _ _ levelGrammar_cfsm
    levelGrammar_cfsm').1
  exact absurd this (by decide)

/-- Equal states in the one order, and none in the other. -/
theorem c34_order_decides_partial :
    (∃ s ∈ levelCfsm.states, ∃ t ∈ levelCfsm.states, s ≠ t ∧ ∀ p, p ∈ s.items ↔ p ∈ t.items) ∧
      ∀ s ∈ levelCfsm'.states, ∀ t ∈ levelCfsm'.states, (∀ p, p ∈ s.items ↔ p ∈ t.items) → s = t := by
  refine ⟨⟨levelCfsm.states[3], by decide, levelCfsm.states[5], by decide, by decide, fun _ => Iff.rfl⟩, ?_⟩
  have : ∀ s ∈ levelCfsm'.states, ∀ t ∈ levelCfsm'.states, (∀ p ∈ s.items, p ∈ t.items) →
      (∀ p ∈ t.items, p ∈ s.items) → s = t := by decide
  exact fun s hs t ht h => this s hs t ht (fun p => (h p).1) fun p => (h p).2

/-- C34, exactly the grammars for which it holds in every iteration order. -/
theorem c34_every_partial {g : Grammar V T} (hg : Built g) :
    (∀ (fuel : Nat) (ord : HashOrder) (c : Cfsm V T), Cfsm.fromGrammar g ord fuel = .ok c →
      ∀ s ∈ c.states, ∀ s' ∈ c.states, (∀ p, p ∈ s.items ↔ p ∈ s'.items) → s = s') ↔ OneWayIn g := by
  refine ⟨fun h => ?_, c34_unique_partial hg⟩
  apply Classical.byContradiction
  intro hnot
  obtain ⟨ord, hord⟩ := duplicates_some hg.wellFormed hnot
  obtain ⟨bound, hb⟩ := c32_construction hg
  obtain ⟨c, hc, _⟩ := hb bound (Nat.le_refl _) ord
  obtain ⟨s, hs, t, ht, hne, hsame⟩ := hord _ c hc
  exact hne (h _ ord c hc s hs t ht hsame)

/-- C34, exactly the grammars for which it holds in some iteration order. -/
theorem c34_some_partial {g : Grammar V T} (hg : Built g) :
    (∃ (fuel : Nat) (ord : HashOrder) (c : Cfsm V T), Cfsm.fromGrammar g ord fuel = .ok c ∧
      ∀ s ∈ c.states, ∀ s' ∈ c.states, (∀ p, p ∈ s.items ↔ p ∈ s'.items) → s = s') ↔ CanBeOrdered g := by
  constructor
  · rintro ⟨fuel, ord, c, hc, h⟩
    exact ordered_of_noDuplicates hg.wellFormed hc h
  · intro h
    obtain ⟨ord, hord⟩ := noDuplicates_some hg.wellFormed h
    obtain ⟨bound, hb⟩ := c32_construction hg
    obtain ⟨c, hc, _⟩ := hb bound (Nat.le_refl _) ord
    exact ⟨bound, ord, c, hc, hord _ c hc⟩

/-- The states of `S → a b S | c` differ in every order, those of `S → a Y | Y`, `Y → c` in some orders and not in all
of them, and those of `S → a S | b` in none. -/
example : OneWayIn slowRecursive ∧ CanBeOrdered slowRecursive ∧ CanBeOrdered levelGrammar ∧ ¬ OneWayIn levelGrammar ∧
    ¬ CanBeOrdered rightRecursive := by
  refine ⟨slowRecursive_oneWayIn, ?_, ?_, ?_, fun h => h.1 rightRecursive_twoWaysIn⟩
  · exact (c34_some_partial slowRecursive_built).1 ⟨20, .insertion, _, slowRecursive_cfsm,
      c34_unique_partial slowRecursive_built slowRecursive_oneWayIn _ _ _ slowRecursive_cfsm⟩
  · exact (c34_some_partial levelGrammar_built).1 ⟨20, .reversed, _, levelGrammar_cfsm', c34_order_decides_partial.2⟩
  · intro h
    obtain ⟨s, hs, t, ht, hne, hsame⟩ := c34_order_decides_partial.1
    exact hne ((c34_every_partial levelGrammar_built).2 h _ _ _ levelGrammar_cfsm s hs t ht hsame)

/-- `S → P | Q`, `P → a Q | c`, `Q → b P`: the item sets of `a` and `b` are entered from one another. -/
def crossGrammar : Grammar String String :=
  ⟨"S", [("S", [.var "P"]), ("S", [.var "Q"]), ("P", [.term "a", .var "Q"]), ("P", [.term "c"]),
    ("Q", [.term "b", .var "P"])]⟩

theorem crossGrammar_built : Built crossGrammar :=
  ⟨[.setStart "S", .addRules "S" [[.var "P"], [.var "Q"]], .addRules "P" [[.term "a", .var "Q"], [.term "c"]],
    .addRules "Q" [[.term "b", .var "P"]]], by decide⟩

/-- Its automaton. -/
def crossCfsm : Cfsm String String :=
  let aQ : Body String String := [.term "a", .var "Q"]
  let bP : Body String String := [.term "b", .var "P"]
  let c : Body String String := [.term "c"]
  ⟨crossGrammar, [
    ⟨0, [("S", ⟨[.var "P"], 0⟩), ("S", ⟨[.var "Q"], 0⟩), ("P", ⟨aQ, 0⟩), ("P", ⟨c, 0⟩), ("Q", ⟨bP, 0⟩)],
      [(.var "P", 1), (.var "Q", 2), (.term "a", 3), (.term "c", 4), (.term "b", 5)]⟩,
    ⟨1, [("S", ⟨[.var "P"], 1⟩)], []⟩,
    ⟨2, [("S", ⟨[.var "Q"], 1⟩)], []⟩,
    ⟨3, [("P", ⟨aQ, 1⟩), ("Q", ⟨bP, 0⟩)], [(.var "Q", 6), (.term "b", 7)]⟩,
    ⟨4, [("P", ⟨c, 1⟩)], []⟩,
    ⟨5, [("Q", ⟨bP, 1⟩), ("P", ⟨aQ, 0⟩), ("P", ⟨c, 0⟩)], [(.var "P", 8), (.term "a", 3), (.term "c", 4)]⟩,
    ⟨6, [("P", ⟨aQ, 2⟩)], []⟩,
    ⟨7, [("Q", ⟨bP, 1⟩), ("P", ⟨aQ, 0⟩), ("P", ⟨c, 0⟩)], [(.var "P", 9), (.term "a", 3), (.term "c", 4)]⟩,
    ⟨8, [("Q", ⟨bP, 2⟩)], []⟩,
    ⟨9, [("Q", ⟨bP, 2⟩)], []⟩]⟩

theorem crossGrammar_cfsm : Cfsm.fromGrammar crossGrammar .insertion 60 = .ok crossCfsm := by
  decide +kernel

/-- The symbols of the start state cannot be ordered: `a` has to come before `b`, and `b` before `a`. -/
example : ¬ CanBeOrdered crossGrammar := by
  have ok := fromGrammar_ok crossGrammar_built.wellFormed crossGrammar_cfsm
  have r0 : Reached crossCfsm [] crossCfsm.states[0] := .start (by decide) rfl
  have ra : Reached crossCfsm [.term "a"] crossCfsm.states[3] :=
    .step (γ := []) (d := 3) r0 (by decide) (by decide) rfl
  have rb : Reached crossCfsm [.term "b"] crossCfsm.states[5] :=
    .step (γ := []) (d := 5) r0 (by decide) (by decide) rfl
  have rab : Reached crossCfsm [.term "a", .term "b"] crossCfsm.states[7] :=
    .step (γ := [.term "a"]) (d := 7) ra (by decide) (by decide) rfl
  have rba : Reached crossCfsm [.term "b", .term "a"] crossCfsm.states[3] :=
    .step (γ := [.term "b"]) (d := 3) rb (by decide) (by decide) rfl
  have short : ∀ {x s}, Reached crossCfsm [x] s → ("S", ⟨[.var "P"], 0⟩) ∉ s.items → s.items ≠ [] →
      Shortest crossGrammar [x] := by
    intro x s hs h1 h2
    obtain ⟨p, hp⟩ := List.exists_mem_of_ne_nil _ h2
    refine ⟨⟨p, (reached_viable ok hs p).1 hp⟩, fun δ hδ => ?_⟩
    cases δ with
    | nil => exact absurd (((ok.same_iff hs r0).2 hδ _).2 (by decide)) h1
    | cons _ _ => simp
  have ha := short ra (by decide) (by decide)
  have hb := short rb (by decide) (by decide)
  intro h
  refine h.2 [] (.term "a") (.tail (.single (b := .term "b") ?_) ?_)
  · exact ⟨by decide, [], [], .term "a", rfl, ha, hb, (ok.same_iff rba ra).1 fun _ => Iff.rfl⟩
  · exact ⟨by decide, [], [], .term "b", rfl, hb, ha, (ok.same_iff rab rb).1 fun _ => Iff.rfl⟩

end Pango.Props
