import Verif.Props.Parse

/-!
# C36: grammars with epsilon

`c36_suffix_partial` needs that no rule contains an epsilon: otherwise a returned tree may be no parse tree of
anything.
-/

namespace Pango.Props

open Pango Pango.Parse Pango.Spec

/-- What is left of C36 in `c36_suffix_partial`, for all grammars: a returned tree is a parse tree of some tokens. -/
def C36Trees : Prop :=
  ∀ (V T : Type) [DecidableEq V] [DecidableEq T] [TerminalEq T] [LawfulTerminalEq T] (g : Grammar V T) (tbl : Table V T),
    Built g → IsParser g tbl → ∀ fuel input n, parseTokens tbl fuel input = .ok (some n) → ∃ w, ParseTree g n w

/-- `S → A t | x A t`, `A → ε` and `U → S u`. -/
def popGrammar : Grammar String String :=
  ⟨"S", [("S", [.var "A", .term "t"]), ("S", [.term "x", .var "A", .term "t"]), ("A", [.eps]),
    ("U", [.var "S", .term "u"])]⟩

theorem popGrammar_built : Built popGrammar :=
  ⟨[.setStart "S", .addRules "S" [[.var "A", .term "t"], [.term "x", .var "A", .term "t"]], .addRules "A" [[.eps]],
    .addRules "U" [[.var "S", .term "u"]]], by decide⟩

theorem popGrammar_parser : IsParser popGrammar (tableOf popGrammar) := ⟨100, .insertion, by decide +kernel⟩

/-- The tree that is returned for `x t`: `x` is below `A`. -/
def popTree : Node String String := .mk (.var "S") [.mk (.term "t") [], .mk (.var "A") [.mk (.term "x") []]]

theorem popGrammar_returns : parseTokens (tableOf popGrammar) 10 ["x", "t"] = .ok (some popTree) := by
  decide +kernel

/-- `x t` is a sentence, with another tree. -/
example : ParseTree popGrammar (.mk (.var "S") [.mk (.term "t") [], .mk (.var "A") [], .mk (.term "x") []]) ["x", "t"] :=
  .var (β := [.term "x", .var "A", .term "t"]) (cs := [_, _, _]) (x := ["x", "t"]) (w := []) (by decide)
    (.term rfl (.var (β := [.eps]) (cs := []) (x := []) (by decide) (.eps .nil) (.term rfl .nil))) .nil

/-- The claim is false: the reduction of `A → ε` takes `x` from the stack and puts it below `A`. -/
theorem c36_epsilon_false : ¬ C36Trees := by
  intro h
  obtain ⟨w, hw⟩ := h _ _ popGrammar _ popGrammar_built popGrammar_parser _ _ _ popGrammar_returns
  obtain ⟨β, cs, h1, h2, h3⟩ := parseTree_iff.1 hw
  -- the children are `A t` of the first rule
  have hcs : cs = [.mk (.var "A") [.mk (.term "x") []], .mk (.term "t") []] := by
    have := congrArg List.reverse (Node.mk.inj h2).2
    simpa using this.symm
  subst hcs
  simp only [popGrammar, List.mem_cons, List.not_mem_nil, or_false, Prod.mk.injEq] at h1
  -- the rules of `A` have no terminal
  have hA : ∀ {β : Body String String} {w : List String}, ("A", β) ∈ popGrammar.rules →
      ¬ Forest popGrammar β [.mk (.term "x") []] w := by
    intro β w hr hf
    simp [popGrammar] at hr
    subst hr
    cases hf with
    | eps h => cases h
  rcases h1 with ⟨_, rfl⟩ | ⟨_, rfl⟩ | ⟨h, _⟩ | ⟨h, _⟩
  · generalize hn : (Node.mk (.var "A") [.mk (.term "x") []] : Node String String) = n at h3
    cases h3 with
    | @var _ β' _ cs' _ _ _ hr hf _ =>
      have : cs' = [.mk (.term "x") []] := by
        have := congrArg List.reverse (Node.mk.inj hn).2
        simpa using this.symm
      subst this
      exact hA hr hf
  · cases h3
  · exact absurd h (by decide)
  · exact absurd h (by decide)

end Pango.Props
