import Verif.Proofs.Spine
import Verif.Props.IfElse

/-!
# C140: recursion on both sides, through other variables
-/

namespace Pango.Props

open Pango Pango.Parse Pango.Spec

section

variable {V T : Type} [DecidableEq V] [DecidableEq T] [TerminalEq T] [LawfulTerminalEq T] {g : Grammar V T}

/-- C140.  If a variable that can be reached begins with itself and ends with itself, through any number of other
variables, then there is no parser. -/
theorem c140_both (hg : Built g) (he : EpsFree g) (hprod : Productive g) {v : V} (hv : Reachable g v)
    (h1 : StartsBy g v v) (h2 : EndsBy g v v) {z : V} {e f : T} (hn : NotIn g z e f) :
    ¬ ∃ tbl, IsParser (withEnd g z e f) tbl := by
  obtain ⟨n, n', x, h3, h4, h5⟩ := both_sides_two hprod LawfulTerminalEq.refl hg.wellFormed h1 h2
  exact c123_two_trees hg he hprod hv h5 h3 h4 hn

/-- C140.  A variable that is replaced by itself, through any number of other variables, is a special case. -/
theorem c140_cycle (hg : Built g) (he : EpsFree g) (hprod : Productive g) {v : V} (hv : Reachable g v)
    (h : UnitChain g v v) {z : V} {e f : T} (hn : NotIn g z e f) : ¬ ∃ tbl, IsParser (withEnd g z e f) tbl := by
  have h1 : ∀ {a b : V}, UnitChain g a b → StartsBy g a b ∧ EndsBy g a b := by
    intro a b h
    induction h with
    | one hr => exact ⟨.one hr, .one (α := []) hr⟩
    | step hr _ ih => exact ⟨.step hr ih.1, .step (α := []) hr ih.2⟩
  exact c140_both hg he hprod hv (h1 h).1 (h1 h).2 hn

end

/-! ## The hypotheses are met by non-trivial cases -/

/-- `E → T | E - T`, `T → E + T | x`: the sums are grouped to the right, but `E` is written on their left. -/
def mixedGrammar : Grammar String String := ⟨"E", [("E", [.var "T"]), ("E", [.var "E", .term "-", .var "T"]),
  ("T", [.var "E", .term "+", .var "T"]), ("T", [.term "x"])]⟩

private theorem mixed_rules {v : String} {β : Body String String} (h : (v, β) ∈ mixedGrammar.rules) :
    v = "E" ∧ (β = [.var "T"] ∨ β = [.var "E", .term "-", .var "T"]) ∨
      v = "T" ∧ (β = [.var "E", .term "+", .var "T"] ∨ β = [.term "x"]) := by
  simp only [mixedGrammar, List.mem_cons, List.not_mem_nil, or_false, Prod.mk.injEq] at h
  rcases h with ⟨rfl, rfl⟩ | ⟨rfl, rfl⟩ | ⟨rfl, rfl⟩ | ⟨rfl, rfl⟩ <;> simp

private theorem mixed_notIn : NotIn mixedGrammar "Z" "$" "#" where
  head β h := by
    rcases mixed_rules h with ⟨h, _⟩ | ⟨h, _⟩ <;> exact absurd h (by decide)
  marker v β t h ht := by
    rcases mixed_rules h with ⟨_, rfl | rfl⟩ | ⟨_, rfl | rfl⟩ <;> simp at ht <;> subst ht <;> decide
  never v β t h ht := by
    rcases mixed_rules h with ⟨_, rfl | rfl⟩ | ⟨_, rfl | rfl⟩ <;> simp at ht <;> subst ht <;> decide
  differ := by decide

private theorem mixed_productive : Productive mixedGrammar := by
  have hT : Forest mixedGrammar [.var "T"] [.mk (.var "T") [.mk (.term "x") []]] ["x"] :=
    .var (β := [.term "x"]) (w := []) (x := ["x"]) (by decide) (.term rfl .nil) .nil
  have hE : Forest mixedGrammar [.var "E"] [.mk (.var "E") [.mk (.var "T") [.mk (.term "x") []]]] ["x"] :=
    .var (β := [.var "T"]) (w := []) (x := ["x"]) (by decide) hT .nil
  intro v β h
  rcases mixed_rules h with ⟨rfl, _⟩ | ⟨rfl, _⟩
  · exact ⟨_, _, hE⟩
  · exact ⟨_, _, hT⟩

/-- `T` begins with itself through `E` only. -/
example : ¬ ∃ tbl, IsParser (withEnd mixedGrammar "Z" "$" "#") tbl := by
  refine c140_both ⟨[.setStart "E", .addRules "E" [[.var "T"], [.var "E", .term "-", .var "T"]],
    .addRules "T" [[.var "E", .term "+", .var "T"], [.term "x"]]], by decide⟩ ?_ mixed_productive
    (v := "T") (.step .start (β := [.var "T"]) (by decide) (by simp))
    (.step (u := "E") (β := [.term "+", .var "T"]) (by decide) (.one (β := []) (by decide)))
    (.one (α := [.var "E", .term "+"]) (by decide)) mixed_notIn
  intro v β h
  rcases mixed_rules h with ⟨_, rfl | rfl⟩ | ⟨_, rfl | rfl⟩ <;> simp

/-- `E → F | x`, `F → E`. -/
example : ¬ ∃ tbl, IsParser (withEnd (⟨"E", [("E", [.var "F"]), ("E", [.term "x"]), ("F", [.var "E"])]⟩ :
    Grammar String String) "Z" "$" "#") tbl := by
  have hE : Forest (⟨"E", [("E", [.var "F"]), ("E", [.term "x"]), ("F", [.var "E"])]⟩ : Grammar String String) [.var "E"]
      [.mk (.var "E") [.mk (.term "x") []]] ["x"] :=
    .var (β := [.term "x"]) (w := []) (x := ["x"]) (by decide) (.term rfl .nil) .nil
  refine c140_cycle ⟨[.setStart "E", .addRules "E" [[.var "F"], [.term "x"]], .addRules "F" [[.var "E"]]], by decide⟩
    ?_ ?_ .start (.step (v := "F") (by decide) (.one (by decide))) ⟨?_, ?_, ?_, by decide⟩
  · intro v β h
    simp at h
    rcases h with ⟨_, rfl⟩ | ⟨_, rfl⟩ | ⟨_, rfl⟩ <;> simp
  · intro v β h
    simp at h
    rcases h with ⟨rfl, _⟩ | ⟨rfl, _⟩ | ⟨rfl, _⟩
    · exact ⟨_, _, hE⟩
    · exact ⟨_, _, hE⟩
    · exact ⟨_, _, .var (β := [.var "E"]) (w := []) (by decide) hE .nil⟩
  · intro β h
    simp at h
  all_goals
    intro v β t h ht
    simp at h
    rcases h with ⟨_, rfl⟩ | ⟨_, rfl⟩ | ⟨_, rfl⟩ <;> simp at ht <;> subst ht <;> decide

end Pango.Props
