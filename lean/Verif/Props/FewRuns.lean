import Verif.Props.Memory
import Verif.Props.Quoted
import Verif.Proofs.FragWays

/-!
# C58: patterns for which the simulator holds few runs
-/

namespace Pango.Props

open Pango Pango.Fsm Pango.Regex Pango.Spec

variable [Unicode]

private theorem few {e : Expr} {nfa : Nfa} (h1 : nfaOfAst e = .ok nfa) {rs : List (Fr × Nat)} (b : Bundle nfa rs)
    (nn : ∀ r ∈ rs, r.1.NonNull) {rk : Nat → Nat} (t : Tame nfa (fun p κ => Quiets rs κ p) rk) {R : Nat}
    (hR : ∀ x, rk x ≤ R) : ∃ c, ∀ v runs, RunsAfter e v runs → runs.length ≤ c * (v.length + 1) ^ R := by
  refine ⟨simFuel nfa rs * (1 + nfa.degree * simFuel nfa rs) * (1 + simFuel nfa rs * nfa.degree) ^ R, fun v runs h => ?_⟩
  obtain ⟨runs0, last, h3, h4, h5⟩ := runsAfter_fuel h1 b nn h
  have init : runs0.length ≤ simFuel nfa rs := by
    simp only [Nfa.initRuns, Outcome.bind_eq_ok] at h3
    obtain ⟨ids, e1, e2⟩ := h3
    cases e2
    have := worklist_length e1
    simp only [List.length_singleton] at this
    rw [List.length_map]
    omega
  refine Nat.le_trans (t.feedAll_length hR (fun r hr => ⟨h4.lt b hr, h4.sorted r hr, h4.quiet b hr⟩) h5) ?_
  rw [Nat.mul_assoc _ (_ ^ R), ← Nat.mul_pow]
  refine Nat.mul_le_mul (Nat.mul_le_mul_right _ init) (Nat.pow_le_pow_left ?_ _)
  rw [Nat.add_mul, Nat.mul_add (simFuel nfa rs * nfa.degree)]
  omega

/-- What holds of C58, for patterns in which no repeated group matches the empty string and every repeated group
can be read in one way only: the number of runs is bounded by a polynomial in the length of the string.  Missing:
other patterns, for which it need not hold (`c58_false`). -/
theorem c58_polynomial_partial (e : Expr) (hc : ¬ HasEmptySeq e) (hr : RepeatsNonEmpty e) (ho : RepeatsOneWay e) :
    ∃ c k, ∀ v runs, RunsAfter e v runs → runs.length ≤ c * (v.length + 1) ^ k := by
  obtain ⟨nfa, h1, b⟩ := nfaOfAst_bundle hc
  have nn := frag_nonNull e hc hr 0 1 2
  obtain ⟨rk, hR, t⟩ := b.tame (nfaOfAst_clean h1) nn (frag_loopsOneWay e hc ho 0 1 2)
  obtain ⟨c, h⟩ := few h1 b (by simpa using nn) t hR
  exact ⟨c, _, h⟩

/-- If the whole pattern can be read in one way only, then the number of runs is bounded by a constant.  Missing:
other patterns. -/
theorem c58_constant_partial (e : Expr) (hc : ¬ HasEmptySeq e) (hr : RepeatsNonEmpty e)
    (ho : OneWay e fun _ => False) : ∃ K, ∀ v runs, RunsAfter e v runs → runs.length ≤ K := by
  obtain ⟨nfa, h1, b⟩ := nfaOfAst_bundle hc
  have nn := frag_nonNull e hc hr 0 1 2
  have t := b.tame_whole (nfaOfAst_clean h1) nn (frag_oneWay e hc ho 0 1 2)
  obtain ⟨c, h⟩ := few h1 b (by simpa using nn) t (R := 0) (fun _ => Nat.le_refl _)
  exact ⟨c, fun v runs hv => by simpa using h v runs hv⟩

/-! ## Examples -/

private theorem lit_nonempty (l : Lit) : ¬ Matches (.lit l none) [] := by
  intro h
  cases h with
  | lit h _ => cases h

private theorem seq_nonempty (l : Lit) (es : List Expr) : ¬ Matches (.concat (.lit l none :: es)) [] := by
  intro h
  generalize hw : ([] : List Char) = w at h
  cases h with
  | cons h1 _ =>
    obtain ⟨rfl, _⟩ := List.append_eq_nil_iff.1 hw.symm
    exact lit_nonempty l h1

/-- `\d+(\.\d+)?`. -/
def decimalPattern : Expr := .concat [.lit (.cls .digit) (some .plus),
  .group (.concat [.lit (.mtch '.') none, .lit (.cls .digit) (some .plus)]) (some .questionMark)]

example : parse .debug "\\d+(\\.\\d+)?".toList = .ok (.ok decimalPattern) := rfl

/-- A decimal number is read with a constant number of runs. -/
example : ¬ HasEmptySeq decimalPattern ∧ RepeatsNonEmpty decimalPattern ∧ OneWay decimalPattern fun _ => False := by
  refine ⟨by decide, by rw [← repeatsNonEmptyB_iff]; decide, ?_⟩
  simp [decimalPattern, OneWay, OneWaySeq, Opens, OpensSeq, LitSet, ClassSet, lit_nonempty]

/-- So is a string literal, `"([^"\\]|\\.)*"`. -/
example : ¬ HasEmptySeq stringTree ∧ RepeatsNonEmpty stringTree ∧ OneWay stringTree fun _ => False := by
  refine ⟨by decide, by rw [← repeatsNonEmptyB_iff]; decide, ?_⟩
  simp [stringTree, escapesTree, plainChars, OneWay, OneWaySeq, Opens, OpensSeq, LitSet, ClassSet, Spec.ItemSet, lit_nonempty, seq_nonempty]
  intro c h
  rcases h with h | rfl
  · exact h.1
  · decide

/-- `\w*\w*(ab|cd)*`: which part reads a character is not clear, but inside of the group it is. -/
def wordsPattern : Expr := .concat [.lit (.cls .word) (some .asterisk), .lit (.cls .word) (some .asterisk),
  .group (.alt (.concat [.lit (.mtch 'a') none, .lit (.mtch 'b') none])
    (.concat [.lit (.mtch 'c') none, .lit (.mtch 'd') none])) (some .asterisk)]

/-- It is read with polynomially many runs. -/
example : ¬ HasEmptySeq wordsPattern ∧ RepeatsNonEmpty wordsPattern ∧ RepeatsOneWay wordsPattern := by
  refine ⟨by decide, by rw [← repeatsNonEmptyB_iff]; decide, ?_⟩
  simp [wordsPattern, RepeatsOneWay, RepeatsOneWayAll, OneWay, OneWaySeq, Opens, OpensSeq, LitSet, lit_nonempty, seq_nonempty]

/-- `(a|[a])*` is not such a pattern. -/
example : ¬ RepeatsOneWay twiceA := by
  intro h
  simp only [twiceA, RepeatsOneWay, OneWay] at h
  refine h.2.2 'a' ⟨.inl ?_, .inl ?_⟩ <;> simp [Opens, LitSet, Spec.ItemSet]

end Pango.Props
