import Verif.Proofs.Complete
import Verif.Spec.MoreRules
import Verif.Props.RegularTokens

/-!
# The rules that stand for something
-/

namespace Pango.Parse

open Pango Pango.Spec

variable {V T : Type} [TerminalEq T] {g : Grammar V T}

/-- A variable in a body that stands for some tokens has a rule whose body does. -/
theorem forest_inner {α : List (Sym V T)} {ns : List (Node V T)} {u : List T} (h : Forest g α ns u) {v : V}
    (hv : .var v ∈ α) : ∃ γ, (v, γ) ∈ g.rules ∧ ∃ ms x, Forest g γ ms x := by
  induction h with
  | nil => simp at hv
  | eps _ ih => exact ih (by simpa using hv)
  | term _ _ ih => exact ih (by simpa using hv)
  | var h1 h2 _ _ ih =>
    rcases List.mem_cons.1 hv with hv | hv
    · cases hv
      exact ⟨_, h1, _, _, h2⟩
    · exact ih hv

/-- Without the rules that stand for nothing, a grammar with a sentence has the same trees. -/
theorem useful_grammar [DecidableEq V] [DecidableEq T] (hg : Props.Built g) (hs : ∃ n w, ParseTree g n w) :
    ∃ g' : Grammar V T, Props.Built g' ∧ Extends g' g ∧ Productive g' ∧ ∀ n w, ParseTree g' n w ↔ ParseTree g n w := by
  classical
  have hmem : ∀ v β, (v, β) ∈ g.rules.filter (fun r => decide (∃ ns w, Forest g r.2 ns w)) ↔
      (v, β) ∈ g.rules ∧ ∃ ns w, Forest g β ns w := by
    intro v β
    simp [List.mem_filter]
  obtain ⟨g', h1, h2, h3⟩ := Props.built_rules g.start
    (g.rules.filter fun r => decide (∃ ns w, Forest g r.2 ns w))
    (by
      obtain ⟨n, w, h⟩ := hs
      obtain ⟨γ, h1, h2⟩ := forest_inner (v := g.start) h (by simp)
      exact ⟨γ, (hmem _ _).2 ⟨h1, h2⟩⟩)
    (by
      intro v β w h hw
      obtain ⟨_, ns, u, h1⟩ := (hmem _ _).1 h
      obtain ⟨γ, h2, h3⟩ := forest_inner h1 hw
      exact ⟨γ, (hmem _ _).2 ⟨h2, h3⟩⟩)
    (fun v β h => hg.wellFormed.nonempty _ _ ((hmem _ _).1 h).1)
  have sub : ∀ r ∈ g'.rules, r ∈ g.rules := fun ⟨v, β⟩ h => ((hmem _ _).1 ((h3 _ _).1 h)).1
  have same : ∀ {α : List (Sym V T)} {ns : List (Node V T)} {w : List T}, Forest g α ns w → Forest g' α ns w := by
    intro α ns w h
    induction h with
    | nil => exact .nil
    | eps _ ih => exact .eps ih
    | term ht _ ih => exact .term ht ih
    | var hr hb _ ih1 ih2 => exact .var ((h3 _ _).2 ((hmem _ _).2 ⟨hr, _, _, hb⟩)) ih1 ih2
  refine ⟨g', h1, ⟨h2, sub⟩, ?_, fun n w => ?_⟩
  · intro v β h
    obtain ⟨_, ns, w, hf⟩ := (hmem _ _).1 ((h3 _ _).1 h)
    exact ⟨_, _, .var h (same hf) .nil⟩
  · unfold ParseTree
    rw [h2]
    exact ⟨forest_mono sub, same⟩

/-- Only the rules of the variables in the body, and of those in their bodies, matter. -/
theorem forest_within_rules {g' : Grammar V T} (ok : V → Prop)
    (hr : ∀ v β, ok v → (v, β) ∈ g.rules → (v, β) ∈ g'.rules ∧ ∀ w, .var w ∈ β → ok w) {α : List (Sym V T)}
    {ns : List (Node V T)} {w : List T} (h : Forest g α ns w) (hα : ∀ v, .var v ∈ α → ok v) : Forest g' α ns w := by
  induction h with
  | nil => exact .nil
  | eps _ ih => exact .eps (ih fun v hv => hα v (List.mem_cons_of_mem _ hv))
  | term ht _ ih => exact .term ht (ih fun v hv => hα v (List.mem_cons_of_mem _ hv))
  | var h1 _ _ ih1 ih2 =>
    obtain ⟨h3, h4⟩ := hr _ _ (hα _ (by simp)) h1
    exact .var h3 (ih1 h4) (ih2 fun v hv => hα v (List.mem_cons_of_mem _ hv))

/-- Without the rules that are not needed, a grammar with a sentence has the same trees. -/
theorem clean_grammar [DecidableEq V] [DecidableEq T] (hg : Props.Built g) (hs : ∃ n w, ParseTree g n w) :
    ∃ g' : Grammar V T, Props.Built g' ∧ Extends g' g ∧ (∀ v β, (v, β) ∈ g'.rules → Reachable g' v) ∧ Productive g' ∧
      ∀ n w, ParseTree g' n w ↔ ParseTree g n w := by
  classical
  obtain ⟨a, ha, hx, hprod, hsame⟩ := useful_grammar hg hs
  have wf := ha.wellFormed
  have hmem : ∀ v β, (v, β) ∈ a.rules.filter (fun r => decide (Reachable a r.1)) ↔ (v, β) ∈ a.rules ∧ Reachable a v := by
    intro v β
    simp [List.mem_filter]
  obtain ⟨g', h1, h2, h3⟩ := Props.built_rules a.start (a.rules.filter fun r => decide (Reachable a r.1))
    (by
      obtain ⟨β, h⟩ := wf.start
      exact ⟨β, (hmem _ _).2 ⟨h, .start⟩⟩)
    (by
      intro v β w h hw
      obtain ⟨h1, h2⟩ := (hmem _ _).1 h
      obtain ⟨γ, h3⟩ := wf.closed _ _ _ h1 hw
      exact ⟨γ, (hmem _ _).2 ⟨h3, .step h2 h1 hw⟩⟩)
    (fun v β h => wf.nonempty _ _ ((hmem _ _).1 h).1)
  have sub : ∀ r ∈ g'.rules, r ∈ a.rules := fun ⟨v, β⟩ h => ((hmem _ _).1 ((h3 _ _).1 h)).1
  have hreach : ∀ v, Reachable a v → Reachable g' v := by
    intro v h
    induction h with
    | start => rw [← h2]; exact .start
    | step h hr hv ih => exact .step ih ((h3 _ _).2 ((hmem _ _).2 ⟨hr, h⟩)) hv
  have same : ∀ {α : List (Sym V T)} {ns : List (Node V T)} {w : List T}, Forest a α ns w →
      (∀ v, .var v ∈ α → Reachable a v) → Forest g' α ns w :=
    forest_within_rules (Reachable a) fun v β hv hr =>
      ⟨(h3 _ _).2 ((hmem _ _).2 ⟨hr, hv⟩), fun w hw => .step hv hr hw⟩
  refine ⟨g', h1, ⟨h2.trans hx.1, fun r h => hx.2 r (sub r h)⟩, ?_, ?_, fun n w => ?_⟩
  · intro v β h
    exact hreach v ((hmem _ _).1 ((h3 _ _).1 h)).2
  · intro v β h
    obtain ⟨h4, h5⟩ := (hmem _ _).1 ((h3 _ _).1 h)
    obtain ⟨n, w, hf⟩ := hprod v β h4
    refine ⟨n, w, same hf fun u hu => ?_⟩
    cases List.mem_singleton.1 hu
    exact h5
  · rw [← hsame]
    unfold ParseTree
    rw [h2]
    refine ⟨forest_mono sub, fun h => same h fun u hu => ?_⟩
    cases List.mem_singleton.1 hu
    exact .start

end Pango.Parse
