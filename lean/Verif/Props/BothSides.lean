import Verif.Props.IfElse

/-!
# C125: a variable that repeats itself on both sides
-/

namespace Pango.Props

open Pango Pango.Parse Pango.Spec

variable {V T : Type} [DecidableEq V] [DecidableEq T] [TerminalEq T] [LawfulTerminalEq T] {g : Grammar V T}

omit [DecidableEq V] [DecidableEq T] [TerminalEq T] [LawfulTerminalEq T] in
private theorem node_size {x : Sym V T} {cs : List (Node V T)} {n : Node V T} (h : n ∈ cs) : n ≠ .mk x cs := by
  intro heq
  have h1 := List.sizeOf_lt_of_mem h
  have h2 := congrArg sizeOf heq
  simp only [Node.mk.sizeOf_spec] at h2
  omega

/-- C125.  If a variable that can be reached has a rule that ends with the variable itself, and one that begins with it
(which may be the same rule), then there is no parser. -/
theorem c125_both (hg : Built g) (he : EpsFree g) (hprod : Productive g) {v : V} (hv : Reachable g v)
    {α β : List (Sym V T)} (h1 : (v, α ++ [.var v]) ∈ g.rules) (h2 : (v, .var v :: β) ∈ g.rules) {z : V} {e f : T}
    (hn : NotIn g z e f) : ¬ ∃ tbl, IsParser (withEnd g z e f) tbl := by
  have wf := hg.wellFormed
  obtain ⟨as, u, k1⟩ := productive_all hprod LawfulTerminalEq.refl (α := α)
    fun w hw => wf.closed _ _ w h1 (by simp [hw])
  obtain ⟨bs, y, k2⟩ := productive_all hprod LawfulTerminalEq.refl (α := β)
    fun w hw => wf.closed _ _ w h2 (by simp [hw])
  obtain ⟨s, x, k3⟩ := hprod v _ h1
  have front : ∀ {n : Node V T} {w : List T}, Forest g [.var v] [n] w →
      Forest g [.var v] [.mk (.var v) (as ++ [n]).reverse] (u ++ w) := fun h => by
    simpa using Forest.var h1 (forest_append k1 h) .nil
  have back : ∀ {n : Node V T} {w : List T}, Forest g [.var v] [n] w →
      Forest g [.var v] [.mk (.var v) ([n] ++ bs).reverse] (w ++ y) := fun h => by
    simpa using Forest.var (β := [.var v] ++ β) h2 (forest_append h k2) .nil
  by_cases hu : as = []
  · subst hu
    cases k1 with
    | nil => exact c123_two_trees hg he hprod hv (node_size (by simp)) k3 (front k3) hn
    | eps _ => exact absurd (by simp) (he _ _ h1)
  · refine c123_two_trees hg he hprod hv (fun h => ?_) (front (back k3)) ((List.append_assoc u x y) ▸ back (front k3)) hn
    simp only [Node.mk.injEq, true_and, List.reverse_inj] at h
    cases as with
    | nil => exact hu rfl
    | cons a as =>
      simp only [List.cons_append, List.nil_append, List.cons.injEq] at h
      exact node_size (by simp) h.1

/-- C125.  A rule for an operator between two expressions, `E → E op E`, whatever symbols are written for the operator,
even none: there is no parser, whatever the other rules are. -/
theorem c125_infix (hg : Built g) (he : EpsFree g) (hprod : Productive g) {v : V} (hv : Reachable g v)
    {op : List (Sym V T)} (h : (v, .var v :: op ++ [.var v]) ∈ g.rules) {z : V} {e f : T} (hn : NotIn g z e f) :
    ¬ ∃ tbl, IsParser (withEnd g z e f) tbl :=
  c125_both hg he hprod hv (α := .var v :: op) (β := op ++ [Sym.var v]) h (by simpa using h) hn

/-! ## Examples -/

/-- `E → E + E | x`. -/
def flatGrammar : Grammar String String := ⟨"E", [("E", [.var "E", .term "+", .var "E"]), ("E", [.term "x"])]⟩

private theorem flat_rules {v : String} {β : Body String String} (h : (v, β) ∈ flatGrammar.rules) :
    v = "E" ∧ (β = [.var "E", .term "+", .var "E"] ∨ β = [.term "x"]) := by
  simp only [flatGrammar, List.mem_cons, List.not_mem_nil, or_false, Prod.mk.injEq] at h
  rcases h with ⟨rfl, rfl⟩ | ⟨rfl, rfl⟩ <;> simp

private theorem flat_notIn : NotIn flatGrammar "Z" "$" "#" where
  head β h := absurd (flat_rules h).1 (by decide)
  marker v β t h ht := by
    obtain ⟨_, rfl | rfl⟩ := flat_rules h <;> simp at ht <;> subst ht <;> decide
  never v β t h ht := by
    obtain ⟨_, rfl | rfl⟩ := flat_rules h <;> simp at ht <;> subst ht <;> decide
  differ := by decide

private theorem flat_productive : Productive flatGrammar := by
  intro v β h
  obtain ⟨rfl, _⟩ := flat_rules h
  exact ⟨_, ["x"], .var (β := [.term "x"]) (w := []) (x := ["x"]) (by decide) (.term rfl .nil) .nil⟩

example : ¬ ∃ tbl, IsParser (withEnd flatGrammar "Z" "$" "#") tbl := by
  refine c125_infix ⟨[.setStart "E", .addRules "E" [[.var "E", .term "+", .var "E"], [.term "x"]]], by decide⟩ ?_
    flat_productive .start (v := "E") (op := [.term "+"]) (by decide) flat_notIn
  intro v β h
  obtain ⟨_, rfl | rfl⟩ := flat_rules h <;> simp

/-- `E → - E | E ! | x`. -/
def signGrammar : Grammar String String :=
  ⟨"E", [("E", [.term "-", .var "E"]), ("E", [.var "E", .term "!"]), ("E", [.term "x"])]⟩

private theorem sign_rules {v : String} {β : Body String String} (h : (v, β) ∈ signGrammar.rules) :
    v = "E" ∧ (β = [.term "-", .var "E"] ∨ β = [.var "E", .term "!"] ∨ β = [.term "x"]) := by
  simp only [signGrammar, List.mem_cons, List.not_mem_nil, or_false, Prod.mk.injEq] at h
  rcases h with ⟨rfl, rfl⟩ | ⟨rfl, rfl⟩ | ⟨rfl, rfl⟩ <;> simp

private theorem sign_notIn : NotIn signGrammar "Z" "$" "#" where
  head β h := absurd (sign_rules h).1 (by decide)
  marker v β t h ht := by
    obtain ⟨_, rfl | rfl | rfl⟩ := sign_rules h <;> simp at ht <;> subst ht <;> decide
  never v β t h ht := by
    obtain ⟨_, rfl | rfl | rfl⟩ := sign_rules h <;> simp at ht <;> subst ht <;> decide
  differ := by decide

/-- A prefix and a postfix operator in the same place. -/
example : ¬ ∃ tbl, IsParser (withEnd signGrammar "Z" "$" "#") tbl := by
  refine c125_both ⟨[.setStart "E", .addRules "E" [[.term "-", .var "E"], [.var "E", .term "!"], [.term "x"]]], by decide⟩
    ?_ ?_ .start (v := "E") (α := [.term "-"]) (β := [.term "!"]) (by decide) (by decide) sign_notIn
  · intro v β h
    obtain ⟨_, rfl | rfl | rfl⟩ := sign_rules h <;> simp
  · intro v β h
    obtain ⟨rfl, _⟩ := sign_rules h
    exact ⟨_, ["x"], .var (β := [.term "x"]) (w := []) (x := ["x"]) (by decide) (.term rfl .nil) .nil⟩

end Pango.Props
