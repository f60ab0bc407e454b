import Verif.Props.FewRuns
import Verif.Proofs.ManyRunsFrag

/-!
# C58: patterns for which the simulator holds many runs
-/

namespace Pango.Props

open Pango Pango.Fsm Pango.Regex Pango.Spec

variable [Unicode]

/-- The general reason why C58 fails: some word is ambiguous for the rounds of some group of the pattern.  Then every time
this word is read inside of the group doubles the number of runs, no matter what the quantifier of the group is and what comes
after the group.  Missing: the patterns that are neither like this nor as in `c58_unambiguous_partial`. -/
theorem c58_exponential_partial (e : Expr) (hc : ¬ HasEmptySeq e) (hr : RepeatsNonEmpty e) {b : Expr} {z w : List Char}
    (hz : Enters e b z) (hw : Ambiguous (.group b (some .asterisk)) w) (n : Nat) {runs : List Run}
    (h : RunsAfter e (z ++ (List.replicate n w).flatten) runs) : 2 ^ n ≤ runs.length := by
  obtain ⟨nfa, h1, bu⟩ := nfaOfAst_bundle hc
  have nn : ∀ r ∈ [((frag e 0 1 2).1, 1)], r.1.NonNull := by simpa using frag_nonNull e hc hr 0 1 2
  obtain ⟨runs0, last, _, h4, h5⟩ := runsAfter_fuel h1 bu nn h
  obtain ⟨hb, hbe, hbr⟩ := enters_class hz hc hr
  obtain ⟨x, m, κ, k1, k2, ⟨p, j, d, c, v, κ0, rfl, g1, g2, g3⟩, k4⟩ := enters_path (E := nfa.HasEdge) hz hc
    (κ := fun _ => 0) (bu.ok (r := ((frag e 0 1 2).1, 1)) (by simp))
    (fun x i y h => (bu.edges x i y).2 ⟨((frag e 0 1 2).1, 1), by simp, h⟩) (fun _ _ => rfl)
  exact bu.doubles nn (Nat.le_refl _) (A := fun κ => ∀ h ∈ (frag b x x m).1.heads, κ h = 0)
    (fun κ hk => (rounds_fork hw hb hbr hbe k1 hk).mono k2) h4 g1 g2 g3 k4 h5

/-- So for such a pattern there is no polynomial bound. -/
theorem c58_no_polynomial (e : Expr) (hc : ¬ HasEmptySeq e) (hr : RepeatsNonEmpty e) {b : Expr} {z w : List Char}
    (hz : Enters e b z) (hw : Ambiguous (.group b (some .asterisk)) w) :
    ¬ ∃ c k, ∀ v runs, RunsAfter e v runs → runs.length ≤ c * (v.length + 1) ^ k := by
  rintro ⟨c, k, h⟩
  obtain ⟨n, hn⟩ := exp_beats_poly (c * (z.length + w.length + 1) ^ k) k
  obtain ⟨runs, hruns⟩ := (c58_partial e hc hr).1 (z ++ (List.replicate n w).flatten)
  have h1 := c58_exponential_partial e hc hr hz hw n hruns
  have h2 := h _ _ hruns
  have h3 : (z ++ (List.replicate n w).flatten).length + 1 ≤ (z.length + w.length + 1) * (n + 1) := by
    simp only [List.length_append, List.length_flatten, List.map_replicate, List.sum_replicate_nat,
      Nat.add_mul, Nat.mul_add, Nat.mul_one, Nat.one_mul]
    have := Nat.mul_comm n w.length
    omega
  have h4 := Nat.mul_le_mul_left c (Nat.pow_le_pow_left h3 k)
  rw [Nat.mul_pow, ← Nat.mul_assoc] at h4
  omega

/-! ## Examples -/

private theorem lit_one {l : Lit} {c : Char} (h : LitSet l c) : Matches (.lit l none) [c] :=
  .lit rfl (by simpa using h)

/-- `(a+)+`. -/
def plusPlus : Expr := .group (.lit (.mtch 'a') (some .plus)) (some .plus)

example : parse .debug "(a+)+".toList = .ok (.ok plusPlus) := rfl

/-- `aa` is one round of `(a+)+` or two. -/
example : ¬ HasEmptySeq plusPlus ∧ RepeatsNonEmpty plusPlus ∧ Enters plusPlus (.lit (.mtch 'a') (some .plus)) ['a'] ∧
    Ambiguous (.group (.lit (.mtch 'a') (some .plus)) (some .asterisk)) ['a', 'a'] := by
  refine ⟨by decide, by rw [← repeatsNonEmptyB_iff]; decide, .here (.rep (by simp) ?_ (by simp [LitSet])),
    .rounds (us := [['a', 'a']]) (vs := [['a'], ['a']]) (by simp) rfl ?_ ?_ (by simp [QuantSet]) (by simp [QuantSet])⟩
  · simp [QuantSet]
  · simp only [List.mem_singleton, forall_eq]
    exact .lit (by simp [QuantSet]) (by simp [LitSet])
  · intro v hv
    obtain rfl : v = ['a'] := by simpa using hv
    exact .lit (by simp [QuantSet]) (by simp [LitSet])

/-- `x(a|aa)*y`. -/
def inTheMiddle : Expr := .concat [.lit (.mtch 'x') none,
  .group (.alt (.lit (.mtch 'a') none) (.concat [.lit (.mtch 'a') none, .lit (.mtch 'a') none])) (some .asterisk),
  .lit (.mtch 'y') none]

example : parse .debug "x(a|aa)*y".toList = .ok (.ok inTheMiddle) := by
  unfold parse
  rw [show scan .debug "x(a|aa)*y".toList = ⟨[⟨.mtch 'x', (0, 1)⟩, ⟨.operator .leftParen, (1, 2)⟩, ⟨.mtch 'a', (2, 3)⟩,
    ⟨.operator .vertical, (3, 4)⟩, ⟨.mtch 'a', (4, 5)⟩, ⟨.mtch 'a', (5, 6)⟩, ⟨.operator .rightParen, (6, 7)⟩,
    ⟨.quantifier .asterisk, (7, 8)⟩, ⟨.mtch 'y', (8, 9)⟩], .eof⟩ by decide +kernel]
  rfl

/-- The text `xaaaa`, with `n` pairs of `a`, takes `2 ^ n` runs of `x(a|aa)*y`. -/
example (n : Nat) {runs : List Run} (h : RunsAfter inTheMiddle ('x' :: (List.replicate n ['a', 'a']).flatten) runs) :
    2 ^ n ≤ runs.length := by
  refine c58_exponential_partial inTheMiddle (by decide) (by rw [← repeatsNonEmptyB_iff]; decide) (z := ['x'])
    (.tail (u := ['x']) (.lit (by simp [LitSet])) (.head .here)) (w := ['a', 'a']) ?_ n h
  refine .rounds (us := [['a', 'a']]) (vs := [['a'], ['a']]) (by simp) rfl ?_ ?_ (by simp [QuantSet]) (by simp [QuantSet])
  · simp only [List.mem_singleton, forall_eq]
    refine .altR ?_
    exact .cons (lit_one (by simp [LitSet])) (.cons (v := []) (lit_one (by simp [LitSet])) .nil)
  · intro v hv
    obtain rfl : v = ['a'] := by simpa using hv
    exact .altL (lit_one (by simp [LitSet]))

/-- `(a|[a])*` is covered as well. -/
example : Enters twiceA (.alt (.lit (.mtch 'a') none) (.lit (.group false [.mtch 'a']) none)) ['a'] ∧
    Ambiguous (.group (.alt (.lit (.mtch 'a') none) (.lit (.group false [.mtch 'a']) none)) (some .asterisk)) ['a'] := by
  refine ⟨.here (.altL (.lit (by simp [LitSet]))), ?_⟩
  refine .round (us := []) (w := ['a']) (vs := []) (by simp) (.alts (lit_one (by simp [LitSet])) (lit_one ?_) (by simp) ?_)
    (by simp) (by simp [QuantSet])
  · simp [LitSet, Spec.ItemSet]
  · intro _ t _ _ h1 h2
    cases h1
    cases h2

/-- `\d+,?`. -/
def numberAndComma : Expr := .concat [.lit (.cls .digit) (some .plus), .lit (.mtch ',') (some .questionMark)]

private theorem numberAndComma_ones (n : Nat) : Matches numberAndComma (List.replicate (n + 1) '1') := by
  have : Matches numberAndComma (List.replicate (n + 1) '1' ++ ([] ++ [])) := by
    refine .cons (.lit (by simp [QuantSet]) fun c hc => ?_) (.cons (.lit (by simp [QuantSet]) (by simp)) .nil)
    rw [List.eq_of_mem_replicate hc]
    simp [LitSet, ClassSet]
  simpa using this

/-- `11` is one number or two. -/
theorem numberAndComma_ambiguous : Enters (.group numberAndComma (some .plus)) numberAndComma ['1'] ∧
    Ambiguous (.group numberAndComma (some .asterisk)) ['1', '1'] := by
  refine ⟨.here (f := false) ?_, ?_⟩
  · refine .here (u := ['1']) (v := []) (.rep (by simp) (by simp [QuantSet]) (by simp [LitSet, ClassSet])) ?_
    exact .cons (v := []) (.lit (w := []) (by simp [QuantSet]) (by simp)) .nil
  · refine .rounds (us := [['1', '1']]) (vs := [['1'], ['1']]) (by simp) rfl ?_ ?_ (by simp [QuantSet]) (by simp [QuantSet])
    · simp only [List.mem_singleton, forall_eq]
      exact numberAndComma_ones 1
    · intro v hv
      obtain rfl : v = ['1'] := by simpa using hv
      exact numberAndComma_ones 0

/-- The pattern `(\d+,?)+`, for which the comma was meant to be between the numbers, needs `2 ^ n` runs for `2 * n + 1` digits. -/
example (n : Nat) {runs : List Run} (h : RunsAfter (.group numberAndComma (some .plus))
    (['1'] ++ (List.replicate n ['1', '1']).flatten) runs) : 2 ^ n ≤ runs.length :=
  c58_exponential_partial _ (by simp [numberAndComma, HasEmptySeq, AnyEmptySeq])
    (by rw [← repeatsNonEmptyB_iff]; decide) numberAndComma_ambiguous.1 numberAndComma_ambiguous.2 n h

/-- Patterns that are read in one way only are not like this. -/
example (e : Expr) (hc : ¬ HasEmptySeq e) (hr : RepeatsNonEmpty e) (ho : RepeatsOneWay e) {b : Expr} {z w : List Char}
    (hz : Enters e b z) : ¬ Ambiguous (.group b (some .asterisk)) w :=
  fun hw => c58_no_polynomial e hc hr hz hw (c58_polynomial_partial e hc hr ho)

end Pango.Props
