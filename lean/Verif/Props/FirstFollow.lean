import Verif.Proofs.Follow
import Verif.Props.GrammarBuild

/-!
# C28, C29: FIRST and FOLLOW
-/

namespace Pango.Props

open Pango Pango.Parse Pango.Spec

variable {V T : Type} [DecidableEq V] [DecidableEq T]

/-- Specification: the grammar comes from a builder. -/
def Built (g : Grammar V T) : Prop :=
  ∃ calls : List (BuilderCall V T), (runCalls calls).build = .ok g

/-- Specification: the grammar has a rule for the variable. -/
def Defined (g : Grammar V T) (v : V) : Prop := ∃ β, (v, β) ∈ g.rules

theorem Built.wellFormed {g : Grammar V T} (h : Built g) : WellFormed g := by
  obtain ⟨calls, h⟩ := h
  rcases c26_build calls with ⟨h', _⟩ | ⟨g', h', hu, hs, hn, hr⟩
  · rw [h] at h'; cases h'
  · rw [h] at h'
    cases h'
    refine ⟨?_, ?_, ?_, hn⟩
    · obtain ⟨β, hβ⟩ := hu g.start (.inl hs)
      exact ⟨β, (hr _ _).2 hβ⟩
    · intro h β v h1 h2
      obtain ⟨γ, hγ⟩ := hu v (.inr ⟨h, β, (hr _ _).1 h1, h2⟩)
      exact ⟨γ, (hr _ _).2 hγ⟩
    · intro h β h1
      obtain ⟨b, _, rfl⟩ := (hr _ _).1 h1
      cases b <;> simp

omit [DecidableEq V] [DecidableEq T] in
private theorem defined_mem {g : Grammar V T} {v : V} (h : Defined g v) : v ∈ g.rules.map Prod.fst := by
  obtain ⟨β, h⟩ := h
  exact List.mem_map.2 ⟨_, h, rfl⟩

/-- C28.  For every grammar that was built and every non-empty string of symbols whose variables have rules,
there is a number of iterations within which the computation of FIRST always ends, whatever the iteration
orders; it contains exactly the terminals that begin a derived string, and epsilon exactly if the empty string
can be derived. -/
theorem c28_first_of_string {g : Grammar V T} (hg : Built g) :
    ∃ bound, ∀ fuel ≥ bound, ∀ (ord : HashOrder) (α : List (Sym V T)), α ≠ [] →
      (∀ v, Sym.var v ∈ α → Defined g v) →
      ∃ r, firstBodies g ord fuel none [α] = .ok r ∧ ∀ x, x ∈ r ↔ InFirst g α x := by
  refine ⟨firstFuel g, fun fuel hf ord α hne hv => ?_⟩
  obtain ⟨r, h1, h2⟩ := firstBodies_string hg.wellFormed ord hf hne fun v h => defined_mem (hv v h)
  exact ⟨r, h1, fun x => (h2 x).trans inFirst_iff.symm⟩

/-- C28 for the set of one variable, which the code computes by another entry point. -/
theorem c28_first_of_variable {g : Grammar V T} (hg : Built g) :
    ∃ bound, ∀ fuel ≥ bound, ∀ (ord : HashOrder) (v : V), Defined g v →
      ∃ r, g.first ord fuel v = .ok r ∧ ∀ x, x ∈ r ↔ InFirst g [.var v] x := by
  refine ⟨firstFuel g, fun fuel hf ord v hv => ?_⟩
  obtain ⟨r, h1, h2⟩ := first_variable hg.wellFormed ord hf (defined_mem hv)
  exact ⟨r, h1, fun x => (h2 x).trans inFirst_iff.symm⟩

/-- C29.  The computation of FOLLOW always ends; the set of a variable (empty if the map has no entry for it)
contains exactly the terminals that stand directly behind it in a string derived from some variable. -/
theorem c29_follow {g : Grammar V T} (hg : Built g) :
    ∃ bound, ∀ fuel ≥ bound, ∀ ord : HashOrder,
      ∃ r, g.followSet ord fuel = .ok r ∧ ∀ v x, x ∈ (mapGet r v).getD [] ↔ InFollow g v x := by
  refine ⟨followFuel g, fun fuel hf ord => ?_⟩
  obtain ⟨r, h1, h2, _⟩ := followSet_spec hg.wellFormed ord hf
  refine ⟨r, h1, fun v x => (h2 v x).trans ?_⟩
  cases x with
  | term t => simpa [InFollow] using (derives_follow (g := g) (v := v) (t := t)).symm
  | var w => simp [InFollow]
  | eps => simp [InFollow]

/-- A grammar with nullable and left recursive variables. -/
def exampleGrammar : Grammar String String :=
  ⟨"S", [("S", [.var "S", .var "A", .term "c"]), ("S", [.term "s"]), ("A", [.var "B", .var "B"]),
    ("B", [.term "b"]), ("B", [.eps])]⟩

theorem exampleGrammar_built : Built exampleGrammar :=
  ⟨[.setStart "S", .addRules "S" [[.var "S", .var "A", .term "c"], [.term "s"]],
    .addRule "A" [.var "B", .var "B"], .addRule "B" [.term "b"], .addRule "B" []], by decide⟩

/-- The hypotheses are met by a non-trivial case. -/
example : Built exampleGrammar ∧ (∀ v, Sym.var v ∈ [.var "A", (.var "S" : Sym String String)] →
    Defined exampleGrammar v) := by
  refine ⟨exampleGrammar_built, ?_⟩
  intro v hv
  simp only [List.mem_cons, Sym.var.injEq, List.not_mem_nil, or_false] at hv
  rcases hv with rfl | rfl
  · exact ⟨[.var "B", .var "B"], by decide⟩
  · exact ⟨[.term "s"], by decide⟩

example : firstBodies exampleGrammar .insertion 50 none [[.var "A", .var "S"]] =
    .ok [.term "b", .term "s"] := by decide
example : exampleGrammar.followSet .reversed 50 =
    .ok [("B", [.term "b", .term "c"]), ("S", [.term "b", .term "c"]), ("A", [.term "c"])] := by decide

end Pango.Props
