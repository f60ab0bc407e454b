import Verif.Proofs.Useful
import Verif.Props.IfElse
import Verif.Props.ErrorAt
import Verif.Props.MoreRules

/-!
# C136: every grammar can be cleaned, and its parser with it
-/

namespace Pango.Props

open Pango Pango.Parse Pango.Spec

section

variable {V T : Type} [DecidableEq V] [DecidableEq T] [TerminalEq T] {g : Grammar V T}

/-- C136.  Some of the rules of a grammar with a sentence make a grammar with the same trees, in which every variable can
be reached and stands for some tokens. -/
theorem c136_clean (hg : Built g) (hs : ∃ n w, ParseTree g n w) :
    ∃ g' : Grammar V T, Built g' ∧ Extends g' g ∧ (∀ v β, (v, β) ∈ g'.rules → Reachable g' v) ∧ Productive g' ∧
      ∀ n w, ParseTree g' n w ↔ ParseTree g n w :=
  clean_grammar hg hs

variable [LawfulTerminalEq T] {z : V} {e f : T} {tbl : Table V T}

/-- C136.  If the grammar has a parser, then some of its rules make a grammar that has one too, which accepts the same
inputs with the same trees, returns on all inputs after a number of iterations that is linear in their lengths, and finds
errors as soon as no sentence begins with what has been read. -/
theorem c136_parser (hg : Built g) (he : EpsFree g) (hn : NotIn g z e f) (hs : ∃ n w, ParseTree g n w)
    (hp : IsParser (withEnd g z e f) tbl) :
    ∃ (g' : Grammar V T) (tbl' : Table V T), Built g' ∧ Extends g' g ∧ IsParser (withEnd g' z e f) tbl' ∧
      (∀ input : List T, (∀ t ∈ input, teq f t = false) → ∀ fuel, (2 * input.length + 1) * (g'.rules.length + 4) < fuel →
        ∃ r, parseTokens tbl' fuel input = .ok r ∧
          ∀ n, r = some n ↔ ∃ fuel', parseTokens tbl fuel' input = .ok (some n)) ∧
      ∀ w : List T, ¬ BeginsSentence g w → (∀ t ∈ w, teq e t = false ∧ teq f t = false) → ∀ (more : List T) (fuel : Nat),
        (2 * w.length + 1) * (g'.rules.length + 4) < fuel → parseTokens tbl' fuel (w ++ more) = .ok none := by
  obtain ⟨g', h1, h2, h3, h4, h5⟩ := clean_grammar hg hs
  have he' : EpsFree g' := fun v β h => he v β (h2.2 _ h)
  have hn' : NotIn g' z e f :=
    ⟨fun β h => hn.head β (h2.2 _ h), fun h β t h1 => hn.marker h β t (h2.2 _ h1),
      fun h β t h1 => hn.never h β t (h2.2 _ h1), hn.differ⟩
  obtain ⟨tbl', hp'⟩ : ∃ tbl, IsParser (withEnd g' z e f) tbl := by
    refine (c94_exists (h1.withEnd hn'.head) (hg.withEnd hn.head) ⟨rfl, fun ⟨v, β⟩ h => ?_⟩).1 ⟨tbl, hp⟩
    rcases withEnd_mem.1 h with h | h
    · exact withEnd_mem.2 (.inl (h2.2 _ h))
    · exact withEnd_mem.2 (.inr (by rw [← h2.1]; exact h))
  have hfirst : ∀ v β, (v, β) ∈ g'.rules → ∃ t, InFirst g' [.var v] (.term t) := by
    intro v β hr
    obtain ⟨n, u, h⟩ := h4 v β hr
    obtain ⟨t, ht⟩ := forest_first h1 he' h (by simp) (by simp)
    exact ⟨t, derives_starts.2 ht⟩
  refine ⟨g', tbl', h1, h2, hp', fun input hi fuel hf => ?_, fun w hw hi more fuel hf => ?_⟩
  · obtain ⟨r, h6, h7⟩ := c86_reads h1 he' h3 hfirst hn' hp' hi hf
    refine ⟨r, h6, fun n => ?_⟩
    rw [h7, c86_accepts hg he hn hp hi]
    simp only [h5]
  · refine c86_early h1 he' h3 h4 hn' hp' (fun h => hw ?_) hi more hf
    obtain ⟨rest, n, h⟩ := h
    exact ⟨rest, n, (h5 _ _).1 h⟩

end

/-! ## The grammars -/

private theorem endless_notIn : NotIn endless "Z" "$" "#" := by
  refine ⟨?_, ?_, ?_, by decide⟩
  · intro β h
    simp [endless] at h
  all_goals
    intro h β t hr ht
    simp [endless] at hr
    rcases hr with ⟨_, rfl⟩ | ⟨_, rfl⟩ | ⟨_, rfl⟩ <;> simp at ht <;> subst ht <;> decide

private theorem endless_epsFree : EpsFree endless := by
  intro v β h
  simp [endless] at h
  rcases h with ⟨_, rfl⟩ | ⟨_, rfl⟩ | ⟨_, rfl⟩ <;> simp

private theorem endless_tree : ParseTree endless (.mk (.var "S") [.mk (.term "c") []]) ["c"] :=
  .var (x := ["c"]) (w := []) (β := [.term "c"]) (by decide) (.term rfl .nil) .nil

/-- The parser for `S → a B | c`, `B → b B` reads on behind `a`, that for the clean grammar does not. -/
example : ∃ (g' : Grammar String String) (tbl' : Table String String), Extends g' endless ∧
    IsParser (withEnd g' "Z" "$" "#") tbl' ∧ ∀ more, ∃ fuel, parseTokens tbl' fuel (["a"] ++ more) = .ok none := by
  obtain ⟨g', tbl', _, h1, h2, _, h3⟩ := c136_parser endless_built endless_epsFree endless_notIn ⟨_, _, endless_tree⟩
    (tbl := tableOf (withEnd endless "Z" "$" "#")) ⟨100, .insertion, by decide +kernel⟩
  exact ⟨g', tbl', h1, h2, fun more => ⟨_, h3 ["a"] endless_not_a (by decide) more _ (Nat.lt_succ_self _)⟩⟩

/-- `S → x | x B`, `B → B b`. -/
def idle : Grammar String String :=
  ⟨"S", [("S", [.term "x"]), ("S", [.term "x", .var "B"]), ("B", [.var "B", .term "b"])]⟩

/-- The claim that a grammar has a parser if the clean grammar with the same trees has one. -/
def C136Back : Prop :=
  ∀ (V T : Type) [DecidableEq V] [DecidableEq T] [TerminalEq T] [LawfulTerminalEq T] (g g' : Grammar V T) (z : V) (e f : T),
    Built g → EpsFree g → NotIn g z e f → Built g' → Extends g' g → (∀ n w, ParseTree g' n w ↔ ParseTree g n w) →
    (∃ tbl, IsParser (withEnd g' z e f) tbl) → ∃ tbl, IsParser (withEnd g z e f) tbl

/-- C136, it may not: the rules `S → x B` and `B → B b` are not in any tree, but there is no parser with them. -/
theorem c136_back_false : ¬ C136Back := by
  intro h
  have hb : Built idle :=
    ⟨[.setStart "S", .addRules "S" [[.term "x"], [.term "x", .var "B"]], .addRules "B" [[.var "B", .term "b"]]], by decide⟩
  have he : EpsFree idle := by
    intro v β h
    simp [idle] at h
    rcases h with ⟨_, rfl⟩ | ⟨_, rfl⟩ | ⟨_, rfl⟩ <;> simp
  have hn : NotIn idle "Z" "$" "#" := by
    refine ⟨?_, ?_, ?_, by decide⟩
    · intro β h
      simp [idle] at h
    all_goals
      intro h β t hr ht
      simp [idle] at hr
      rcases hr with ⟨_, rfl⟩ | ⟨_, rfl⟩ | ⟨_, rfl⟩ <;> simp at ht <;> subst ht <;> decide
  refine c123_direct hb he (v := "S") .start (t := "x") (u := "x") (α := []) (β := [.var "B"]) (by decide) (by decide) rfl
    (by simp) hn ?_
  let a : Grammar String String := ⟨"S", [("S", [.term "x"])]⟩
  have hno : ∀ {α : List (Sym String String)} {ns : List (Node String String)} {w : List String},
      Forest idle α ns w → .var "B" ∉ α := by
    intro α ns w hf
    induction hf with
    | nil => simp
    | eps _ ih => simpa using ih
    | term _ _ ih => simpa using ih
    | @var v β α _ _ _ _ hr _ _ ih1 ih2 =>
      simp only [idle, List.mem_cons, Prod.mk.injEq, List.not_mem_nil, or_false] at hr
      rcases hr with ⟨rfl, rfl⟩ | ⟨rfl, rfl⟩ | ⟨rfl, rfl⟩
      · simpa using ih2
      · simp at ih1
      · simp at ih1
  have hsub : ∀ r ∈ a.rules, r ∈ idle.rules := by decide
  have same : ∀ {α : List (Sym String String)} {ns : List (Node String String)} {w : List String},
      Forest idle α ns w → Forest a α ns w := by
    intro α ns w hf
    induction hf with
    | nil => exact .nil
    | eps _ ih => exact .eps ih
    | term ht _ ih => exact .term ht ih
    | @var v β α _ _ _ _ hr hb _ ih1 ih2 =>
      refine .var ?_ ih1 ih2
      simp only [idle, List.mem_cons, Prod.mk.injEq, List.not_mem_nil, or_false] at hr
      rcases hr with ⟨rfl, rfl⟩ | ⟨rfl, rfl⟩ | ⟨rfl, rfl⟩
      · decide
      · exact absurd (by simp) (hno hb)
      · exact absurd (by simp) (hno hb)
  exact h _ _ idle a "Z" "$" "#" hb he hn ⟨[.setStart "S", .addRules "S" [[.term "x"]]], by decide⟩ ⟨rfl, hsub⟩
    (fun n w => ⟨forest_mono hsub, same⟩) ⟨tableOf (withEnd a "Z" "$" "#"), 100, .insertion, by decide +kernel⟩

end Pango.Props
