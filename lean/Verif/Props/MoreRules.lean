import Verif.Proofs.MoreRules
import Verif.Props.Orders
import Verif.Props.Trim

/-!
# C94: adding rules to a grammar
-/

namespace Pango.Props

open Pango Pango.Parse Pango.Spec

/-- C94: where a parser of a grammar returns a tree, a parser of a grammar with more rules returns the same tree, after
as many steps; and if the grammar with more rules has a parser, so has the grammar with fewer. -/
def C94 : Prop :=
  ∀ (V T : Type) [DecidableEq V] [DecidableEq T] [TerminalEq T] [LawfulTerminalEq T] (g g' : Grammar V T),
    Built g → Built g' → Extends g g' → ∀ tbl', IsParser g' tbl' →
      (∃ tbl, IsParser g tbl) ∧
      ∀ tbl, IsParser g tbl → ∀ fuel input n,
        parseTokens tbl fuel input = .ok (some n) → parseTokens tbl' fuel input = .ok (some n)

variable {V T : Type} [DecidableEq V] [DecidableEq T] [TerminalEq T] [LawfulTerminalEq T] {g g' : Grammar V T}
  {tbl tbl' : Table V T}

/-- If the grammar with more rules has a parser, so has the one with fewer; and if it has one whatever the iteration
order is, so has the one with fewer. -/
theorem c94_exists (hg : Built g) (hg' : Built g') (he : Extends g g') :
    ((∃ tbl', IsParser g' tbl') → ∃ tbl, IsParser g tbl) ∧
    ∃ bound, ∀ fuel ≥ bound, (∀ ord : HashOrder, ∃ tbl', slrNew g' ord fuel = .ok tbl') →
      ∀ ord : HashOrder, ∃ tbl, slrNew g ord fuel = .ok tbl := by
  obtain ⟨b, h⟩ := c35_orders_partial hg
  obtain ⟨b', h'⟩ := c35_orders_partial hg'
  constructor
  · rintro ⟨tbl', fuel, ord, ht⟩
    have hf := (h' (b' + fuel) (by omega)).2.1 ⟨ord, _, (slrNew_mono (by omega)).ok ht⟩
    obtain ⟨ord, tbl, ht⟩ := (h b (Nat.le_refl b)).2.2 (he.fits (fun hs => he.1 ▸ he.surely hs) hf)
    exact ⟨tbl, b, ord, ht⟩
  · refine ⟨b + b', fun fuel hf ht => ?_⟩
    exact (h fuel (by omega)).1.2
      (he.fits (fun hs => he.1 ▸ he.followable hs) ((h' fuel (by omega)).1.1 ht))

/-- C94, the exact limit: a parser of the grammar with more rules accepts nothing at all, or it returns every tree that
a parser of the one with fewer returns, after as many steps. -/
theorem c94_partial (hg : Built g) (hg' : Built g') (he : Extends g g') (hp : IsParser g tbl)
    (hp' : IsParser g' tbl') (ha : ∃ fuel input n, parseTokens tbl' fuel input = .ok (some n)) {fuel : Nat}
    {input : List T} {n : Node V T} (h : parseTokens tbl fuel input = .ok (some n)) :
    parseTokens tbl' fuel input = .ok (some n) := by
  obtain ⟨f, ord, ht⟩ := hp
  obtain ⟨f', ord', ht'⟩ := hp'
  obtain ⟨a, _, _, hv, _⟩ := slrNew_verdict hg ord
  obtain ⟨a', _, _, hv', _⟩ := slrNew_verdict hg' ord'
  obtain ⟨F, w, m, hm⟩ := ha
  obtain ⟨_, _, hr⟩ := (((hv' _ _ ht').2 F w).1 m).1 hm
  obtain ⟨k, hk, hr'⟩ := (((hv _ _ ht).2 fuel input).1 n).1 h
  exact (((hv' _ _ ht').2 fuel input).1 n).2 ⟨k, hk, he.run (accepts_of_run hr) hr'⟩

/-- C94, a condition on the grammar: if the start variable of the grammar with more rules is surely followed. -/
theorem c94_followed_partial (hg : Built g) (hg' : Built g') (he : Extends g g')
    (hs : SurelyFollowed g' g'.start) (hp : IsParser g tbl)
    (hp' : IsParser g' tbl') {fuel : Nat} {input : List T} {n : Node V T}
    (h : parseTokens tbl fuel input = .ok (some n)) : parseTokens tbl' fuel input = .ok (some n) := by
  obtain ⟨f, ord, ht⟩ := hp
  obtain ⟨f', ord', ht'⟩ := hp'
  obtain ⟨a, _, _, hv, _⟩ := slrNew_verdict hg ord
  obtain ⟨a', hsa, _, hv', _⟩ := slrNew_verdict hg' ord'
  obtain ⟨k, hk, hr'⟩ := (((hv _ _ ht).2 fuel input).1 n).1 h
  exact (((hv' _ _ ht').2 fuel input).1 n).2 ⟨k, hk, he.run (hsa hs) hr'⟩

/-- C94 in both directions: for a tree of the grammar with fewer rules that uses no rule with epsilon, the parsers agree
on whether and when it is returned, if the start variable is surely followed in the grammar with fewer rules. -/
theorem c94_exact_partial (hg : Built g) (hg' : Built g') (he : Extends g g') (hs : SurelyFollowed g g.start)
    (hp : IsParser g tbl) (hp' : IsParser g' tbl') {fuel : Nat} {input : List T} {n : Node V T}
    (ht : ParseTree (dropEps g) n input) :
    parseTokens tbl fuel input = .ok (some n) ↔ parseTokens tbl' fuel input = .ok (some n) := by
  have hs' : SurelyFollowed g' g'.start := he.1 ▸ he.surely hs
  refine ⟨c94_followed_partial hg hg' he hs' hp hp', fun h => ?_⟩
  obtain ⟨c, follow, fo, ok⟩ := hp.ok hg
  obtain ⟨c', follow', fo', ok'⟩ := hp'.ok hg'
  have hi : input ≠ [] := by
    obtain ⟨t, u, r, h1, _⟩ := forest_starts hg.wellFormed ht (by simp) (by simp)
    simp [h1]
  have ht' : ParseTree g' n input := by
    have ht : Forest (dropEps g) [.var g.start] [n] input := ht
    rw [he.1] at ht
    exact forest_mono (fun r hr => he.2 r (List.mem_filter.1 hr).1) ht
  obtain ⟨b, h3⟩ := c37_partial hg hp hs ht (c38_returned hg' hp' hi ht' h).2
  obtain ⟨k, hk, h4⟩ := ((SlrOk.agrees ok b input).1 n).1 (h3 b (Nat.le_refl b))
  obtain ⟨k', hk', h5⟩ := ((SlrOk.agrees ok' fuel input).1 n).1 h
  have h6 := (MachineRun.unique ok' (he.run (fo'.surely hs') h4) h5).1
  exact ((SlrOk.agrees ok fuel input).1 n).2 ⟨k, by omega, h4⟩

/-- With more rules the parser does not stop sooner: where the parser of the grammar with fewer rules is not done after
some number of steps, the one with more is not either. -/
theorem c94_steps (hg : Built g) (hg' : Built g') (he : Extends g g') (hp : IsParser g tbl)
    (hp' : IsParser g' tbl') {fuel : Nat} {input : List T} (h : parseTokens tbl fuel input = .diverge) :
    parseTokens tbl' fuel input = .diverge := by
  obtain ⟨f, ord, ht⟩ := hp
  obtain ⟨f', ord', ht'⟩ := hp'
  obtain ⟨a, _, _, hv, _⟩ := slrNew_verdict hg ord
  obtain ⟨a', _, _, hv', _⟩ := slrNew_verdict hg' ord'
  obtain ⟨x, hx⟩ := ((hv _ _ ht).2 fuel input).2.2.2.1 h
  exact ((hv' _ _ ht').2 fuel input).2.2.2.2 ⟨x, he.shiftReduces hx⟩

/-- With fewer rules nothing more is accepted: what a parser of the grammar with more rules, that accepts something,
rejects, a parser of the one with fewer rejects as well, or it panics, which it does not if its grammar is trim. -/
theorem c94_rejected_partial (hg : Built g) (hg' : Built g') (he : Extends g g') (hp : IsParser g tbl)
    (hp' : IsParser g' tbl') (ha : ∃ fuel input n, parseTokens tbl' fuel input = .ok (some n)) {fuel : Nat}
    {input : List T} (h : parseTokens tbl' fuel input = .ok none ∨ parseTokens tbl' fuel input = .panic) :
    (parseTokens tbl fuel input = .ok none ∨ parseTokens tbl fuel input = .panic) ∧
    (Trim g → parseTokens tbl fuel input = .ok none) := by
  have h1 : parseTokens tbl fuel input = .ok none ∨ parseTokens tbl fuel input = .panic := by
    cases hr : parseTokens tbl fuel input with
    | ok r =>
      cases r with
      | none => exact .inl rfl
      | some n =>
        have := c94_partial hg hg' he hp hp' ha hr
        rcases h with h | h <;> rw [h] at this <;> cases this
    | panic => exact .inr rfl
    | diverge =>
      have := c94_steps hg hg' he hp hp' hr
      rcases h with h | h <;> rw [h] at this <;> cases this
  refine ⟨h1, fun ht => h1.resolve_right (c41_trim_partial hg hp ht fuel input)⟩

/-- `S → a | b`, `X → B ε`, `B → C` and `C → S`. -/
def emptyFollowMore : Grammar String String :=
  ⟨"S", [("S", [.term "a"]), ("S", [.term "b"]), ("X", [.var "B", .eps]), ("B", [.var "C"]), ("C", [.var "S"])]⟩

theorem emptyFollowMore_built : Built emptyFollowMore :=
  ⟨[.setStart "S", .addRules "S" [[.term "a"], [.term "b"]], .addRules "X" [[.var "B", .eps]],
    .addRules "B" [[.var "C"]], .addRules "C" [[.var "S"]]], by decide⟩

/-- C94 does not hold: `emptyFollow` has a parser that returns a tree for `a`; with the rule `S → b` in addition there is
a parser that accepts nothing (as there is without the rule, see C42). -/
theorem c94_false : ¬ C94 := by
  intro h
  have h1 : slrNew emptyFollow .insertion 100 = .ok (tableOf emptyFollow) := by decide +kernel
  have h2 : slrNew emptyFollowMore dependenciesReversed 100 = .ok (tableOf emptyFollowMore dependenciesReversed) := by
    decide +kernel
  have h3 := (h _ _ emptyFollow emptyFollowMore emptyFollow_built emptyFollowMore_built ⟨rfl, by decide⟩ _
    ⟨_, _, h2⟩).2 _ ⟨_, _, h1⟩ 10 ["a"] (.mk (.var "S") [.mk (.term "a") []]) (by decide +kernel)
  exact absurd h3 (by decide +kernel)

/-- `S → S + n | n`, and in addition `S → S - n`. -/
def sumsMore : Grammar String String :=
  ⟨"S", [("S", [.var "S", .term "+", .term "n"]), ("S", [.term "n"]),
    ("S", [.var "S", .term "-", .term "n"])]⟩

theorem sums_built : Built sums :=
  ⟨[.setStart "S", .addRules "S" [[.var "S", .term "+", .term "n"], [.term "n"]]], by decide⟩

theorem sumsMore_built : Built sumsMore :=
  ⟨[.setStart "S", .addRules "S" [[.var "S", .term "+", .term "n"], [.term "n"],
    [.var "S", .term "-", .term "n"]]], by decide⟩

theorem sums_more : Extends sums sumsMore := ⟨rfl, by decide⟩

theorem sumsMore_parser : IsParser sumsMore (tableOf sumsMore) := ⟨100, .insertion, by decide +kernel⟩

theorem sums_parser : IsParser sums (tableOf sums) := ⟨100, .insertion, by decide +kernel⟩

/-- The parser with more rules accepts something, and so what the one with fewer accepts. -/
example : ∃ n, parseTokens (tableOf sums) 10 ["n", "+", "n"] = .ok (some n) ∧
    parseTokens (tableOf sumsMore) 10 ["n", "+", "n"] = .ok (some n) := by
  refine ⟨.mk (.var "S") [.mk (.term "n") [], .mk (.term "+") [], .mk (.var "S") [.mk (.term "n") []]], ?_, ?_⟩
  · decide +kernel
  · exact c94_partial sums_built sumsMore_built sums_more sums_parser sumsMore_parser
      ⟨20, ["n", "-", "n"], .mk (.var "S") [.mk (.term "n") [], .mk (.term "-") [], .mk (.var "S") [.mk (.term "n") []]],
        by decide +kernel⟩
      (by decide +kernel)

/-- When `n + n` is returned does not depend on the additional rule. -/
example (fuel : Nat) :
    let n := Node.mk (.var "S") [.mk (.term "n") [], .mk (.term "+") [], .mk (.var "S") [.mk (.term "n") []]]
    parseTokens (tableOf sums) fuel ["n", "+", "n"] = .ok (some n) ↔
      parseTokens (tableOf sumsMore) fuel ["n", "+", "n"] = .ok (some n) :=
  c94_exact_partial sums_built sumsMore_built sums_more (.inr (.inl ⟨"S", [], .term "+", [.term "n"], by decide⟩))
    sums_parser sumsMore_parser
    (Forest.var (β := [.var "S", .term "+", .term "n"]) (α := []) (ns := []) (x := ["n", "+", "n"]) (w := [])
      (cs := [.mk (.var "S") [.mk (.term "n") []], .mk (.term "+") [], .mk (.term "n") []]) (by decide)
      (Forest.var (β := [.term "n"]) (x := ["n"]) (cs := [.mk (.term "n") []]) (by decide) (.term rfl .nil)
        (.term rfl (.term rfl .nil))) .nil)

/-- The start variable of the grammar with more rules is followed. -/
example : SurelyFollowed sumsMore sumsMore.start :=
  .inr (.inl ⟨"S", [], .term "+", [.term "n"], by decide⟩)

/-- There are parsers whatever the order is. -/
example : ∃ tbl, IsParser sums tbl := (c94_exists sums_built sumsMore_built sums_more).1 ⟨_, sumsMore_parser⟩

/-- After two steps neither is done with `n + n`; both reject `n n`. -/
example : parseTokens (tableOf sums) 2 ["n", "+", "n"] = .diverge ∧
    parseTokens (tableOf sumsMore) 2 ["n", "+", "n"] = .diverge ∧
    parseTokens (tableOf sumsMore) 9 ["n", "n"] = .ok none ∧ parseTokens (tableOf sums) 9 ["n", "n"] = .ok none := by
  decide +kernel

end Pango.Props
