import Verif.Props.ManyWork
import Verif.Proofs.TracesRuns
import Verif.Proofs.Alive

/-!
# C58, C121 and C122: which patterns need exponentially many runs
-/

namespace Pango.Lex

open Pango Pango.Fsm Pango.Regex Pango.Spec

variable [Unicode] {K : Type} {p : Profile} {rules : List (List Char × (List Char → K))} {l : Lexer K} {es : List Expr}

/-- If every repetition is unambiguous there are polynomially many runs. -/
theorem Built.fed_few (b : Built p rules l es) (hl : buildLexer p rules = .ok (.ok l)) (hu : ∀ e ∈ es, RepeatsUnambiguous e) :
    ∃ c k, ∀ fuel v runs, Fed l.nfa fuel v runs → runs.length ≤ c * (v.length + 1) ^ k := by
  refine b.parts.bundle.fed_few (buildLexer_clean hl) ?_ ?_
  · intro r h
    obtain ⟨e, f, h1, rfl⟩ := mem_fragTrees.1 h
    exact frag_nonNull e (b.compiles e (mem_finalsFrom h1)) (unambiguous_nonEmpty e (hu e (mem_finalsFrom h1))) _ _ _
  · intro r h
    obtain ⟨e, f, h1, rfl⟩ := mem_fragTrees.1 h
    exact frag_once e (b.compiles e (mem_finalsFrom h1)) (hu e (mem_finalsFrom h1)) _ _ _

end Pango.Lex

namespace Pango.Props

open Pango Pango.Lex Pango.Fsm Pango.Parse Pango.Regex Pango.Spec

variable [Unicode]

/-- What holds of C58 for patterns that repeat only what can be read in one way, however the pattern is written: the number
of runs is bounded by a polynomial in the length of the string.  Missing: patterns with an ambiguous repetition, for which it
does not hold (`c58_no_polynomial`), and repeated groups with a choice of two parts that both match the empty string. -/
theorem c58_unambiguous_partial (e : Expr) (hc : ¬ HasEmptySeq e) (hn : ∀ b, Repeats e b → NoEmptyChoice b)
    (hu : ∀ b w, Repeats e b → ¬ Ambiguous (.group b (some .asterisk)) w) :
    ∃ c k, ∀ v runs, RunsAfter e v runs → runs.length ≤ c * (v.length + 1) ^ k := by
  obtain ⟨nfa, h1, b⟩ := nfaOfAst_bundle hc
  have un := repeatsUnambiguous_of e fun b hb => ⟨fun w => hu b w hb, hn b hb⟩
  have nn := frag_nonNull e hc (unambiguous_nonEmpty e un) 0 1 2
  obtain ⟨c, k, h⟩ := b.fed_few (nfaOfAst_clean h1) (by simpa using nn) (by simpa using frag_once e hc un 0 1 2)
  refine ⟨c, k, fun v runs hv => ?_⟩
  obtain ⟨runs0, last, h3, _, h5⟩ := runsAfter_fuel h1 b (by simpa using nn) hv
  have := ((Fed.init h3).feedAll h5 (by simp)).1
  exact h _ v runs (by simpa using this)

/-- A pattern needs polynomially many runs exactly if none of its repetitions is ambiguous.  Missing: repeated groups that
match the empty string, or with a choice of two parts that both match it, and patterns with parts that never match. -/
theorem c58_exact_partial (e : Expr) (hc : ¬ HasEmptySeq e) (hr : RepeatsNonEmpty e)
    (hn : ∀ b, Repeats e b → NoEmptyChoice b) (ha : Alive e) :
    (∃ c k, ∀ v runs, RunsAfter e v runs → runs.length ≤ c * (v.length + 1) ^ k) ↔
    ∀ b w, Repeats e b → ¬ Ambiguous (.group b (some .asterisk)) w := by
  constructor
  · intro h b w hb hw
    obtain ⟨z, hz⟩ := Alive.enters hb ha hc hr
    exact c58_no_polynomial e hc hr hz hw h
  · exact c58_unambiguous_partial e hc hn

/-- There is nothing in between: the number of runs is bounded by a polynomial, or it doubles with every round.  Missing: as
before. -/
theorem c58_dichotomy_partial (e : Expr) (hc : ¬ HasEmptySeq e) (hr : RepeatsNonEmpty e)
    (hn : ∀ b, Repeats e b → NoEmptyChoice b) (ha : Alive e) :
    (∃ c k, ∀ v runs, RunsAfter e v runs → runs.length ≤ c * (v.length + 1) ^ k) ∨
    ∃ z w, ∀ n runs, RunsAfter e (z ++ (List.replicate n w).flatten) runs → 2 ^ n ≤ runs.length := by
  by_cases h : ∀ b w, Repeats e b → ¬ Ambiguous (.group b (some .asterisk)) w
  · exact .inl (c58_unambiguous_partial e hc hn h)
  · simp only [Classical.not_forall, Classical.not_not] at h
    obtain ⟨b, w, hb, hw⟩ := h
    obtain ⟨z, hz⟩ := Alive.enters hb ha hc hr
    exact .inr ⟨z, w, fun n runs hv => c58_exponential_partial e hc hr hz hw n hv⟩

variable {K : Type} {p : Profile} {rules : List (List Char × (List Char → K))} {es : List Expr} {l : Lexer K}

/-- Lexing with rules that repeat only what can be read in one way is polynomial work.  Missing: other rules. -/
theorem c121_unambiguous_partial (hl : LexerFor p rules es l) (hn : ∀ e ∈ es, ∀ b, Repeats e b → NoEmptyChoice b)
    (hu : ∀ e ∈ es, ∀ b w, Repeats e b → ¬ Ambiguous (.group b (some .asterisk)) w) :
    ∃ c k, ∀ input as t, CallsWork l input as t → t ≤ c * (input.length + as.length + 1) ^ k :=
  work_polynomial (hl.toBuilt.fed_few hl.built fun e he =>
    repeatsUnambiguous_of e fun b hb => ⟨fun w => hu e he b w hb, hn e he b hb⟩)

/-- Exactly then, if no part of a rule is dead.  Missing: as before. -/
theorem c121_exact_partial (hl : LexerFor p rules es l) (hr : ∀ e ∈ es, RepeatsNonEmpty e)
    (hn : ∀ e ∈ es, ∀ b, Repeats e b → NoEmptyChoice b) (ha : ∀ e ∈ es, Alive e) :
    (∃ c k, ∀ input as t, CallsWork l input as t → t ≤ c * (input.length + as.length + 1) ^ k) ↔
    ∀ e ∈ es, ∀ b w, Repeats e b → ¬ Ambiguous (.group b (some .asterisk)) w := by
  constructor
  · rintro ⟨c, k, h⟩ e he b w hb hw
    obtain ⟨z, hz⟩ := Alive.enters hb (ha e he) (hl.toBuilt.compiles e he) (hr e he)
    refine c121_ambiguous_no_polynomial hl hr he hz hw ⟨c * 2 ^ k, k, fun input a t ht => ?_⟩
    refine Nat.le_trans (h input [a] t ht) ?_
    rw [Nat.mul_assoc, ← Nat.mul_pow]
    refine Nat.mul_le_mul_left _ (Nat.pow_le_pow_left ?_ _)
    simp only [List.length_singleton]
    omega
  · exact c121_unambiguous_partial hl hn

variable {V : Type} [DecidableEq V] [DecidableEq K] [TerminalEq K] [LawfulTerminalEq K] {g : Grammar V K} {tbl : Table V K}

/-- Parsing with rules that repeat only what can be read in one way is polynomial work.  Missing: other rules. -/
theorem c122_unambiguous_partial (hl : LexerFor p rules es l) (hn : ∀ e ∈ es, ∀ b, Repeats e b → NoEmptyChoice b)
    (hu : ∀ e ∈ es, ∀ b w, Repeats e b → ¬ Ambiguous (.group b (some .asterisk)) w) (hg : Pango.Props.Built g)
    (hp : IsParser g tbl) : ∃ c k, ∀ input r t, ParsesWork l tbl input r t → t ≤ c * (input.length + 1) ^ k :=
  polynomial_of hg hp (c121_unambiguous_partial hl hn hu)

/-! ## Examples -/

private theorem lit_word {l : Lit} {w : List Char} (h : Matches (.lit l none) w) : w.length = 1 := by
  cases h with
  | lit h _ => exact h

/-- A sequence of literals is matched in one way. -/
private theorem lits_unambiguous : ∀ (ls : List Lit) (w : List Char), ¬ Ambiguous (.concat (ls.map fun l => .lit l none)) w
  | [], w => fun h => by cases h
  | l :: ls, w => fun h => by
    rw [List.map_cons] at h
    cases h with
    | split h1 _ h3 _ hne =>
      have h1 := lit_word h1
      have h3 := lit_word h3
      rw [List.length_append, h1] at h3
      exact hne (List.length_eq_zero_iff.1 (by omega))
    | head h _ => cases h
    | tail _ h => exact lits_unambiguous ls _ h

/-- Words of the same length are put together in one way. -/
private theorem same_length {k : Nat} : ∀ {us vs : List (List Char)}, (∀ u ∈ us, u.length = k + 1) → (∀ v ∈ vs, v.length = k + 1) →
    us.flatten = vs.flatten → us = vs
  | [], [], _, _, _ => rfl
  | [], v :: vs, _, hv, h => by
    have h1 := congrArg List.length h
    have h2 := hv v List.mem_cons_self
    rw [List.flatten_nil, List.flatten_cons, List.length_append, List.length_nil] at h1
    omega
  | u :: us, [], hu, _, h => by
    have h1 := congrArg List.length h
    have h2 := hu u List.mem_cons_self
    rw [List.flatten_nil, List.flatten_cons, List.length_append, List.length_nil] at h1
    omega
  | u :: us, v :: vs, hu, hv, h => by
    rw [List.flatten_cons, List.flatten_cons] at h
    obtain ⟨h1, h2⟩ := List.append_inj h (by rw [hu u List.mem_cons_self, hv v List.mem_cons_self])
    rw [h1, same_length (fun u h => hu u (List.mem_cons_of_mem _ h)) (fun v h => hv v (List.mem_cons_of_mem _ h)) h2]

/-- `ab|ac`. -/
def abOrAc : Expr := .alt (.concat ([.mtch 'a', .mtch 'b'].map fun l => .lit l none))
  (.concat ([.mtch 'a', .mtch 'c'].map fun l => .lit l none))

example : parse .debug "(ab|ac)*".toList = .ok (.ok (.group abOrAc (some .asterisk))) := by
  unfold parse
  rw [show scan .debug "(ab|ac)*".toList = ⟨[⟨.operator .leftParen, (0, 1)⟩, ⟨.mtch 'a', (1, 2)⟩, ⟨.mtch 'b', (2, 3)⟩,
    ⟨.operator .vertical, (3, 4)⟩, ⟨.mtch 'a', (4, 5)⟩, ⟨.mtch 'c', (5, 6)⟩, ⟨.operator .rightParen, (6, 7)⟩,
    ⟨.quantifier .asterisk, (7, 8)⟩], .eof⟩ by decide +kernel]
  rfl

private theorem two_lits {a b : Char} {w : List Char}
    (h : Matches (.concat ([.mtch a, .mtch b].map fun l => .lit l none)) w) : w = [a, b] := by
  cases h with
  | cons h1 h2 =>
    cases h2 with
    | cons h2 h3 =>
      cases h3
      cases h1 with
      | lit q1 h1 =>
        cases h2 with
        | lit q2 h2 =>
          obtain ⟨x, rfl⟩ := List.length_eq_one_iff.1 q1
          obtain ⟨y, rfl⟩ := List.length_eq_one_iff.1 q2
          have e1 : x = a := h1 x (by simp)
          have e2 : y = b := h2 y (by simp)
          rw [e1, e2]
          rfl

private theorem abOrAc_words {w : List Char} (h : Matches abOrAc w) : w = ['a', 'b'] ∨ w = ['a', 'c'] := by
  cases h with
  | altL h => exact .inl (two_lits h)
  | altR h => exact .inr (two_lits h)

/-- The choice between `ab` and `ac` is made at the second character only, so this is not read in one way only, but it is not
ambiguous. -/
theorem abOrAc_unambiguous (w : List Char) : ¬ Ambiguous (.group abOrAc (some .asterisk)) w := by
  have len : ∀ {u}, Matches abOrAc u → u.length = 2 := by
    intro u hu
    rcases abOrAc_words hu with rfl | rfl <;> rfl
  intro h
  cases h with
  | rounds hne hf hus hvs _ _ => exact hne (same_length (fun u hu => len (hus u hu)) (fun v hv => len (hvs v hv)) hf)
  | round _ h _ _ =>
    cases h with
    | alts h1 h2 _ _ =>
      rw [two_lits h1] at h2
      exact absurd (two_lits h2) (by decide)
    | altL h => exact lits_unambiguous _ _ h
    | altR h => exact lits_unambiguous _ _ h

/-- The hypotheses hold for `(ab|ac)*`, which is outside of `c58_polynomial_partial`. -/
example : ¬ HasEmptySeq (.group abOrAc (some .asterisk)) ∧ RepeatsNonEmpty (.group abOrAc (some .asterisk)) ∧
    (∀ b, Repeats (.group abOrAc (some .asterisk)) b → NoEmptyChoice b) ∧
    (∀ b w, Repeats (.group abOrAc (some .asterisk)) b → ¬ Ambiguous (.group b (some .asterisk)) w) ∧
    Alive (.group abOrAc (some .asterisk)) ∧ ¬ RepeatsOneWay (.group abOrAc (some .asterisk)) := by
  have only : ∀ b, Repeats (.group abOrAc (some .asterisk)) b → b = abOrAc := by
    intro b h
    cases h with
    | here => rfl
    | group h =>
      cases h with
      | altL h =>
        cases h with
        | seq hm h =>
          simp only [List.map_cons, List.map_nil, List.mem_cons, List.not_mem_nil, or_false] at hm
          rcases hm with rfl | rfl <;> cases h
      | altR h =>
        cases h with
        | seq hm h =>
          simp only [List.map_cons, List.map_nil, List.mem_cons, List.not_mem_nil, or_false] at hm
          rcases hm with rfl | rfl <;> cases h
  refine ⟨by simp [abOrAc, HasEmptySeq, AnyEmptySeq], by rw [← repeatsNonEmptyB_iff]; decide, ?_, ?_, ?_, ?_⟩
  · intro b h
    rw [only b h]
    simp only [abOrAc, NoEmptyChoice, List.map_cons, List.map_nil, NoEmptyChoices, and_true]
    exact fun h => absurd (two_lits h.1) (by decide)
  · intro b w h
    rw [only b h]
    exact abOrAc_unambiguous w
  · simp [abOrAc, Alive, AllAlive, LitSet, QuantSet]
  · intro h
    simp only [abOrAc, RepeatsOneWay, OneWay] at h
    refine h.2.2 'a' ⟨.inl ?_, .inl ?_⟩ <;> simp [Spec.Opens, OpensSeq, LitSet]

end Pango.Props
