import Verif.Props.Cycle

/-!
# Trim grammars: C40, C41, C42, C46, C62 in full

No epsilon, no variable that cannot be reached or that derives nothing with a first terminal, and something follows the
start variable.
-/

namespace Pango.Props

open Pango Pango.Parse Pango.Spec

variable {V T : Type}

/-- A grammar without epsilon in which every variable can be reached from the start variable and has a FIRST set, and
something can follow the start variable. -/
structure Trim (g : Grammar V T) : Prop where
  epsFree : EpsFree g
  reachable : ∀ v β, (v, β) ∈ g.rules → Reachable g v
  first : ∀ v β, (v, β) ∈ g.rules → ∃ t, InFirst g [.var v] (.term t)
  start : ∃ t, InFollow g g.start (.term t)

variable [DecidableEq V] [DecidableEq T] {g : Grammar V T}

/-- Then something can follow every variable. -/
theorem Trim.follow (ht : Trim g) (hg : Built g) : ∀ v β, (v, β) ∈ g.rules → ∃ t, InFollow g v (.term t) := by
  intro v β hr
  suffices ∀ {v}, Reachable g v → ∃ t, Fol g t v by
    obtain ⟨t, h⟩ := this (ht.reachable v β hr)
    exact ⟨t, inFollow_iff.2 h⟩
  intro v hv
  induction hv with
  | start =>
    obtain ⟨t, h⟩ := ht.start
    exact ⟨t, inFollow_iff.1 h⟩
  | @step h v β _ hr hv ih =>
    obtain ⟨pre, post, rfl⟩ := List.append_of_mem hv
    cases post with
    | nil =>
      obtain ⟨t, hf⟩ := ih
      exact ⟨t, .up hr .nil hf⟩
    | cons x post =>
      cases x with
      | term t => exact ⟨t, .here hr .term⟩
      | eps => exact absurd (by simp) (ht.epsFree _ _ hr)
      | var w =>
        obtain ⟨β', hβ⟩ := hg.wellFormed.closed _ _ w hr (by simp)
        obtain ⟨t, h1⟩ := ht.first _ _ hβ
        have h2 : Starts g t [.var w] := derives_starts.1 h1
        exact ⟨t, .here hr (starts_append (α := [.var w]).2 (.inl h2))⟩

omit [DecidableEq V] [DecidableEq T] in
/-- And a rule of the start variable has a variable. -/
theorem Trim.var (ht : Trim g) : ∃ β v, (g.start, β) ∈ g.rules ∧ .var v ∈ β := by
  have key : ∀ {v}, Reachable g v → v = g.start ∨ ∃ β v, (g.start, β) ∈ g.rules ∧ .var v ∈ β := by
    intro v hv
    induction hv with
    | start => exact .inl rfl
    | step _ hr hv ih =>
      rcases ih with rfl | h
      · exact .inr ⟨_, _, hr, hv⟩
      · exact .inr h
  obtain ⟨t, h⟩ := ht.start
  cases inFollow_iff.1 h with
  | here hr _ =>
    rcases key (ht.reachable _ _ hr) with rfl | h
    · exact ⟨_, g.start, hr, by simp⟩
    · exact h
  | up hr _ _ =>
    rcases key (ht.reachable _ _ hr) with rfl | h
    · exact ⟨_, g.start, hr, by simp⟩
    · exact h

variable [TerminalEq T] [LawfulTerminalEq T] {tbl tbl' : Table V T}

/-- C41 for trim grammars: the parser never panics. -/
theorem c41_trim_partial (hg : Built g) (hp : IsParser g tbl) (ht : Trim g) (fuel : Nat) (input : List T) :
    parseTokens tbl fuel input ≠ .panic :=
  c41_partial hg hp ht.epsFree ht.first (ht.follow hg) ht.var fuel input

/-- C40 and C41 for trim grammars: on every input the parser returns, within a number of iterations that is linear in
the length of the input. -/
theorem c40_trim_partial (hg : Built g) (hp : IsParser g tbl) (ht : Trim g) (input : List T) {fuel : Nat}
    (hf : (2 * input.length + 1) * (g.rules.length + 2) < fuel) : ∃ r, parseTokens tbl fuel input = .ok r := by
  cases h : parseTokens tbl fuel input with
  | ok r => exact ⟨r, rfl⟩
  | panic => exact absurd h (c41_trim_partial hg hp ht fuel input)
  | diverge => exact absurd h (c40_reachable_partial hg hp ht.epsFree ht.reachable input hf)

/-- C42 for trim grammars, in full: all parsers of the grammar return the same on every input. -/
theorem c42_trim_partial (hg : Built g) (hp : IsParser g tbl) (hp' : IsParser g tbl') (ht : Trim g) (fuel : Nat)
    (input : List T) : parseTokens tbl fuel input = parseTokens tbl' fuel input := by
  have h1 := c41_trim_partial hg hp ht fuel input
  have h2 := c41_trim_partial hg hp' ht fuel input
  rcases c42_same_partial hg hp hp' (.inl (.inl ht.start)) fuel input with h | ⟨h | h, h' | h'⟩
  · exact h
  · rw [h, h']
  · exact absurd h' h2
  · exact absurd h h1
  · exact absurd h h1

/-- C62 for trim grammars, in full. -/
theorem c62_trim_partial (hg : Built g) (hp : IsParser g tbl) (ht : Trim g) (fuel : Nat) (input : List T) :
    (∀ n, parseTokens tbl fuel input = .ok (some n) ↔ ∃ k < fuel, MachineRun g True input k (.tree n)) ∧
    (parseTokens tbl fuel input = .ok none ↔ ∃ k < fuel, MachineRun g True input k .error) ∧
    (parseTokens tbl fuel input = .diverge ↔ ∃ x, ShiftReduces g fuel (.start input) x) :=
  c62_exact_partial hg hp ht.epsFree ht.first (ht.follow hg) ht.var fuel input

/-! ## Examples -/

theorem goodGrammar_trim : Trim goodGrammar where
  epsFree := goodGrammar_epsFree
  reachable := goodGrammar_reachable
  first := goodGrammar_first
  start := goodGrammar_follow _ _ (show ("P", [.var "Q", .term ";"]) ∈ goodGrammar.rules by simp [goodGrammar])

/-- All parsers of `P → P Q ; | Q ;`, `Q → x | ( Q )` do the same as the machine of this grammar. -/
example (input : List String) : ∃ r, parseTokens (tableOf goodGrammar) ((2 * input.length + 1) * 6 + 1) input = .ok r :=
  c40_trim_partial goodGrammar_built goodGrammar_parser goodGrammar_trim input (Nat.lt_succ_self _)

end Pango.Props
