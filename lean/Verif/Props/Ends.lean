import Verif.Props.Exact
import Verif.Proofs.FragSpin

/-!
# C11 for all patterns: on which strings matching ends
-/

namespace Pango.Props

open Pango Pango.Fsm Pango.Regex Pango.Spec

variable [Unicode]

/-- C11 for all patterns that can be compiled: matching a string ends exactly if no beginning of it brings the
matcher to a repeated group that matches the empty string.  Missing: that there is no such string, which is
false in general. -/
theorem c11_exact_partial (e : Expr) (hc : ¬ HasEmptySeq e) (v : List Char) :
    (∃ b, Answers e v b) ↔ ¬ ∃ w, w <+: v ∧ SpinsFirst e w := by
  obtain ⟨nfa, h1, bd⟩ := nfaOfAst_bundle hc
  have key : (∃ b, Answers e v b) ↔ ∃ fuel acc, nfa.simulate fuel v = .ok acc := by
    constructor
    · rintro ⟨b, nfa', fuel, h2, h3⟩
      rw [h1] at h2
      cases h2
      exact ⟨fuel, b, h3⟩
    · rintro ⟨fuel, b, h⟩
      exact ⟨b, nfa, fuel, h1, h⟩
  rw [key, bd.simulate_ends v]
  have hs : ∀ w, Bundle.Spinning nfa [((frag e 0 1 2).1, 1)] w ↔ SpinsFirst e w := by
    intro w
    rw [bd.spinning_iff w, ← frag_firstSpins e hc 0 1 2 w]
    simp
  constructor
  · rintro h ⟨w, h2, h3⟩
    exact h w h2 ((hs w).2 h3)
  · intro h w h2 h3
    exact h ⟨w, h2, (hs w).1 h3⟩

/-- Together with C10: the answer to a string, for all patterns that can be compiled and all strings. -/
theorem c11_answers_partial (e : Expr) (hc : ¬ HasEmptySeq e) (v : List Char) (b : Bool) :
    Answers e v b ↔ (¬ ∃ w, w <+: v ∧ SpinsFirst e w) ∧ (b = true ↔ Taken e v) := by
  have hx := (c10_exact_partial e hc).1
  constructor
  · intro h
    exact ⟨(c11_exact_partial e hc v).1 ⟨b, h⟩, hx v b h⟩
  · rintro ⟨h1, h2⟩
    obtain ⟨b', h⟩ := (c11_exact_partial e hc v).2 h1
    have : b = b' := by
      rw [Bool.eq_iff_iff, h2, hx v b' h]
    exact this ▸ h

/-- Where it stops, it stops for all longer strings as well. -/
theorem c11_stuck_partial (e : Expr) (hc : ¬ HasEmptySeq e) (v x : List Char) (h : ¬ ∃ b, Answers e v b) :
    ¬ ∃ b, Answers e (v ++ x) b := by
  rw [c11_exact_partial e hc] at h ⊢
  intro hn
  refine h ?_
  rintro ⟨w, h1, h2⟩
  exact hn ⟨w, h1.trans (List.prefix_append _ _), h2⟩

theorem starStar_first {w : List Char} (h : SpinsFirst starStar w) : w.head? = some 'a' := by
  have hb : ∀ {b : Bool} {u : List Char}, Begins (.lit (.mtch 'a') (some .asterisk)) b u →
      u.head? = some 'a' := by
    intro b u h
    cases h with
    | rep hne _ h =>
      cases u with
      | nil => exact absurd rfl hne
      | cons c u =>
        have := h c (by simp)
        simp only [LitSet] at this
        simp [this]
  cases h with
  | first h => cases h
  | rounds h => simp [hb h]
  | inside h => simp [hb h]

/-- Matching `(a*)*` against a string does not end exactly if the string begins with `a`. -/
example (v : List Char) : (∃ b, Answers starStar v b) ↔ v.head? ≠ some 'a' := by
  rw [c11_exact_partial starStar (by decide) v]
  refine not_congr ⟨?_, ?_⟩
  · rintro ⟨w, ⟨x, rfl⟩, h⟩
    simp [starStar_first h]
  · intro h
    cases v with
    | nil => cases h
    | cons c v =>
      cases h
      refine ⟨['a'], ⟨v, rfl⟩, ?_⟩
      have hb : Begins (.lit (.mtch 'a') (some .asterisk)) false ['a'] :=
        .rep (by simp) trivial (by simp [LitSet])
      exact SpinsFirst.rounds (ws := []) (u := ['a']) hb (by simp) (.lit trivial (by simp))

end Pango.Props
