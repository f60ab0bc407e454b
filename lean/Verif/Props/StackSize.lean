import Verif.Proofs.StackSize
import Verif.Props.Cycle

/-!
# C40 and C82: the time and the memory of the parser
-/

namespace Pango.Props

open Pango Pango.Parse Pango.Spec

variable {V T : Type} [DecidableEq V] [DecidableEq T] [TerminalEq T] [LawfulTerminalEq T] {g : Grammar V T}
  {tbl : Table V T}

/-- C82, the full claim: for every parser there is a factor such that the trees on its stack never have more nodes
than the factor times the number of tokens of the input (plus one). -/
def SmallStacks : Prop :=
  ∀ (V T : Type) [DecidableEq V] [DecidableEq T] [TerminalEq T] [LawfulTerminalEq T] (g : Grammar V T) (tbl : Table V T),
    Built g → IsParser g tbl → ∃ factor, ∀ input fuel, ∀ p ∈ parseStacks tbl fuel input,
      stackNodes p.2 ≤ factor * (input.length + 1)

/-! ## Time -/

/-- C40 for every grammar, also with epsilons: parsing of an input ends within a number of iterations that is linear in
the length of the input, or it never ends. -/
theorem c40_decided_partial (hg : Built g) (hp : IsParser g tbl) (input : List T) :
    (∃ fuel, parseTokens tbl fuel input ≠ .diverge) ↔
      parseTokens tbl ((2 * input.length + 1) * (g.rules.length + 1) + 1) input ≠ .diverge := by
  refine ⟨fun ⟨fuel, h⟩ hd => h ?_, fun h => ⟨_, h⟩⟩
  obtain ⟨n, ord, hn⟩ := hp
  refine loop_decided (slrNew_reducing hg.wellFormed hn) (2 * input.length + 1) (by simp) ?_ hd fuel
  simp

/-- The parser of `S → x A`, `A → A | a` and `U → A t` does not end on `x a t`. -/
example : parseTokens (tableOf unitCycle) 36 ["x", "a", "t"] = .diverge := by decide +kernel

/-! ## Memory -/

/-- The height of the stack: together with the tokens that were not yet read it is never more than the number of tokens,
and one for the node at the bottom.  This holds for every grammar, also while a run does not end. -/
theorem c82_height (hg : Built g) (hp : IsParser g tbl) {input : List T} {fin : InputEnd} {fuel : Nat} {rest : List T}
    {stack : List (ParseNode V T)} (h : (rest, stack) ∈ parseStacks tbl fuel input fin) :
    stack.length + rest.length ≤ input.length + 1 := by
  obtain ⟨n, ord, hn⟩ := hp
  have := loopStacks_depth (slrNew_reducing hg.wellFormed hn) h
  simp only [List.length_cons, List.length_nil] at this
  omega

omit [DecidableEq T] [LawfulTerminalEq T] in
/-- The nodes on the stack: exactly one for every iteration before, and the one at the bottom. -/
theorem c82_nodes {input : List T} {fin : InputEnd} {fuel i : Nat} {rest : List T} {stack : List (ParseNode V T)}
    (h : (parseStacks tbl fuel input fin)[i]? = some (rest, stack)) : stackNodes stack = i + 1 := by
  have := loopStacks_nodes h
  simp only [stackNodes, List.map_cons, List.map_nil, nodesCount, nodeCount] at this
  simp only [stackNodes]
  omega

/-- C82 for those inputs on which the parser ends. -/
theorem c82_partial (hg : Built g) (hp : IsParser g tbl) {input : List T}
    (hend : ∃ fuel, parseTokens tbl fuel input ≠ .diverge) {fuel : Nat} {p : List T × List (ParseNode V T)}
    (h : p ∈ parseStacks tbl fuel input) :
    stackNodes p.2 ≤ (2 * input.length + 1) * (g.rules.length + 1) + 1 := by
  have h1 := loopStacks_length ((c40_decided_partial hg hp input).1 hend) fuel
  obtain ⟨i, hi, rfl⟩ := List.getElem_of_mem h
  have h2 : stackNodes (parseStacks tbl fuel input)[i].2 = i + 1 := c82_nodes (List.getElem?_eq_getElem hi)
  have : (parseStacks tbl fuel input).length ≤ (2 * input.length + 1) * (g.rules.length + 1) + 1 := h1
  omega

omit [DecidableEq T] [LawfulTerminalEq T] in
/-- On inputs on which the parser does not end the stack gets arbitrarily large. -/
theorem c82_endless_partial {input : List T} (hend : ∀ fuel, parseTokens tbl fuel input = .diverge) (size : Nat) :
    ∃ fuel, ∃ p ∈ parseStacks tbl fuel input, stackNodes p.2 = size + 1 := by
  have h1 : (parseStacks tbl (size + 1) input).length = size + 1 := loopStacks_endless (hend (size + 1))
  have h2 : size < (parseStacks tbl (size + 1) input).length := by omega
  exact ⟨size + 1, (parseStacks tbl (size + 1) input)[size], List.getElem_mem _,
    c82_nodes (List.getElem?_eq_getElem h2)⟩

/-- C82, exactly: the memory of a parser is linear in the number of tokens, if and only if it ends on every input. -/
theorem c82_exact_partial (hg : Built g) (hp : IsParser g tbl) :
    (∃ factor, ∀ input fuel, ∀ p ∈ parseStacks tbl fuel input, stackNodes p.2 ≤ factor * (input.length + 1)) ↔
      ∀ input, ∃ fuel, parseTokens tbl fuel input ≠ .diverge := by
  constructor
  · rintro ⟨factor, h⟩ input
    refine Classical.byContradiction fun hn => ?_
    obtain ⟨fuel, p, h1, h2⟩ := c82_endless_partial (tbl := tbl) (input := input)
      (fun fuel => Classical.byContradiction fun hd => hn ⟨fuel, hd⟩) (factor * (input.length + 1))
    have := h input fuel p h1
    omega
  · intro h
    refine ⟨2 * (g.rules.length + 1) + 1, fun input fuel p hp' => ?_⟩
    have h1 := c82_partial hg hp (h input) hp'
    have h2 : (2 * input.length + 1) * (g.rules.length + 1) ≤ (2 * (g.rules.length + 1)) * (input.length + 1) := by
      rw [Nat.mul_comm 2 (g.rules.length + 1), Nat.mul_assoc, Nat.mul_comm (2 * input.length + 1)]
      exact Nat.mul_le_mul_left _ (by omega)
    rw [Nat.add_mul]
    omega

/-- C82 does not hold: the tree of `A` in the parser of `S → x A`, `A → A | a` and `U → A t` grows forever on `x a t`. -/
theorem c82_false : ¬ SmallStacks := fun h =>
  c40_false fun V T _ _ _ _ g tbl hg hp => (c82_exact_partial hg hp).1 (h V T g tbl hg hp)

/-- C82 for grammars without epsilon in which every variable can be reached from the start variable. -/
theorem c82_reachable_partial (hg : Built g) (hp : IsParser g tbl) (he : EpsFree g)
    (hreach : ∀ v β, (v, β) ∈ g.rules → Reachable g v) :
    ∃ factor, ∀ input fuel, ∀ p ∈ parseStacks tbl fuel input, stackNodes p.2 ≤ factor * (input.length + 1) :=
  (c82_exact_partial hg hp).2 fun input => ⟨_, c40_reachable_partial hg hp he hreach input (Nat.lt_succ_self _)⟩

/-- The parser of a grammar of lists needs memory that is linear in the number of tokens. -/
example : ∃ factor, ∀ input fuel, ∀ p ∈ parseStacks (tableOf goodGrammar) fuel input,
    stackNodes p.2 ≤ factor * (input.length + 1) :=
  c82_reachable_partial goodGrammar_built goodGrammar_parser goodGrammar_epsFree goodGrammar_reachable

/-- The heights and sizes of the stacks for `x a t t` in the parser above: the run is endless, but not the height. -/
example : (parseStacks (tableOf unitCycle) 8 ["x", "a", "t", "t"]).map (fun p => (p.1.length, p.2.length, stackNodes p.2)) =
    [(4, 1, 1), (3, 2, 2), (2, 3, 3), (2, 3, 4), (2, 3, 5), (2, 3, 6), (2, 3, 7), (2, 3, 8)] := by decide +kernel

end Pango.Props
