import Verif.Proofs.MachineWordParseEnds
import Verif.Props.Overflow

/-!
# C98: no number overflows while a text is parsed
-/

namespace Pango.Props

open Pango Pango.Fsm Pango.Lex Pango.Regex Pango.Parse Pango.Spec

variable {V T : Type} [DecidableEq V] [TerminalEq T] [Unicode]

/-- The parser returns the result for the text, with machine words: a tree, or `none` for an error. -/
def ParsesW (w : Words) (l : Lexer T) (tbl : Table V T) (input : List Char) (r : Option (Node V T)) : Prop :=
  ∃ sim fuel, parseTextW w l tbl sim fuel input = .ok r

/-- The parser panics on the text, with machine words. -/
def PanicsW (w : Words) (l : Lexer T) (tbl : Table V T) (input : List Char) : Prop :=
  ∃ sim fuel, parseTextW w l tbl sim fuel input = .panic

theorem parseTextW_unique {w : Words} {l : Lexer T} {tbl : Table V T} {input : List Char} {s s' n n' : Nat}
    {x y : Outcome (Option (Node V T))} (hx : x ≠ .diverge) (hy : y ≠ .diverge)
    (h : parseTextW w l tbl s n input = x) (h' : parseTextW w l tbl s' n' input = y) : x = y := by
  have h1 := parseTextW_le (w := w) (l := l) (tbl := tbl) (input := input) (Nat.le_max_left s s') (Nat.le_max_left n n')
  have h2 := parseTextW_le (w := w) (l := l) (tbl := tbl) (input := input) (Nat.le_max_right s s')
    (Nat.le_max_right n n')
  rw [h] at h1
  rw [h'] at h2
  rcases h1 with h1 | h1
  · exact absurd h1 hx
  rcases h2 with h2 | h2
  · exact absurd h2 hy
  rw [h1, h2]

variable {p : Profile} {rules : List (List Char × (List Char → T))} {es : List Expr} {l : Lexer T} {w : Words}
  {tbl : Table V T}

/-- C98 for parsing: if parsing the text ends if there is no end to the numbers, then it ends in the same way with
machine words, with the same result or with a panic in both cases.  Missing: texts for which it does not end. -/
theorem c98_parse_partial (hl : LexerFor p rules es l) {input : List Char} (room : Room w input) :
    (∀ r, Parses l tbl input r → (∀ r', ParsesW w l tbl input r' ↔ r' = r) ∧ ¬ PanicsW w l tbl input) ∧
    (Panics l tbl input → PanicsW w l tbl input ∧ ¬ ∃ r, ParsesW w l tbl input r) := by
  have hle (s n : Nat) : (parseText l tbl s n input).Le (parseTextW w l tbl s n input) :=
    lexParseLoopW_same hl.toBuilt.parts.bundle room (fun it => ((hl.toBuilt.safe s).lexNext it).1)
      (InputIter.below_new input)
  refine ⟨?_, ?_⟩
  · rintro r ⟨s, n, h⟩
    have h1 := (hle s n).ok h
    refine ⟨fun r' => ⟨?_, ?_⟩, ?_⟩
    · rintro ⟨s', n', h'⟩
      have := parseTextW_unique (by simp) (by simp) h' h1
      cases this
      rfl
    · rintro rfl
      exact ⟨s, n, h1⟩
    · rintro ⟨s', n', h'⟩
      have := parseTextW_unique (by simp) (by simp) h' h1
      cases this
  · rintro ⟨s, n, h⟩
    have h1 : parseTextW w l tbl s n input = .panic := by
      rcases hle s n with h2 | h2
      · rw [h] at h2; cases h2
      · rw [← h2, h]
    refine ⟨⟨s, n, h1⟩, ?_⟩
    rintro ⟨r, s', n', h'⟩
    have := parseTextW_unique (by simp) (by simp) h' h1
    cases this

/-- C98 for parsing texts of any length, with overflow checks: what the parser returns is always right. -/
theorem c98_parse_checked_partial (hw : w.profile = .debug) (hs : 0 < w.size) {input : List Char}
    {r : Option (Node V T)} (h : ParsesW w l tbl input r) : Parses l tbl input r := by
  obtain ⟨s, n, h⟩ := h
  exact ⟨s, n, lexParseLoopW_debug hw ⟨0, input, rfl, hs⟩ h⟩

section trim

variable [DecidableEq T] [LawfulTerminalEq T] {g : Grammar V T}

/-- With machine words parsing a text of any length always ends, in both profiles, for trim grammars: it returns or
panics.  Missing: other grammars, with which the parser may reduce forever. -/
theorem c98_parse_ends_partial (hg : Built g) (hp : IsParser g tbl) (ht : Trim g) (hl : LexerFor p rules es l)
    (hs : 0 < w.size) (input : List Char) : PanicsW w l tbl input ∨ ∃ r, ParsesW w l tbl input r := by
  cases h : parseTextW w l tbl (w.fuel l.nfa) ((2 * input.length + 1) * (g.rules.length + 2) + 1) input with
  | panic => exact .inl ⟨_, _, h⟩
  | ok r => exact .inr ⟨r, _, _, h⟩
  | diverge =>
    obtain ⟨ts, h1, h2⟩ := lexParseLoopW_diverge
      (lexNextW_ends hs hl.toBuilt.parts.bundle.wf (Nat.le_refl _)) h
    have h3 : ts.length ≤ input.length := by
      have : (InputIter.new input).held = input.length := by
        simp [InputIter.held, InputIter.pending, InputIter.new, Lex.enumFrom_length]
      omega
    have h4 : (2 * ts.length + 1) * (g.rules.length + 2) ≤ (2 * input.length + 1) * (g.rules.length + 2) :=
      Nat.mul_le_mul_right _ (by omega)
    exact absurd h2 (c40_reachable_partial hg hp ht.epsFree ht.reachable ts (Nat.lt_succ_of_le h4))

/-- C98 for parsing with overflow checks, exactly, for trim grammars: the results are those that there are if there is
no end to the numbers, and the panics are where the parser would wait for the lexer forever. -/
theorem c98_parse_exact_partial (hg : Built g) (hp : IsParser g tbl) (ht : Trim g) (hl : LexerFor p rules es l)
    (hw : w.profile = .debug) {input : List Char} (room : Room w input) :
    (∀ r, ParsesW w l tbl input r ↔ Parses l tbl input r) ∧
    (PanicsW w l tbl input ↔ TextWaits g es rules input) := by
  have hs : 0 < w.size := by simp only [Room] at room; omega
  have h1 := (c49_trim_partial hg hp ht hl input).2
  refine ⟨fun r => ⟨c98_parse_checked_partial hw hs, fun h => (((c98_parse_partial hl room).1 r h).1 r).2 rfl⟩, ?_, ?_⟩
  · intro h
    apply Classical.byContradiction
    intro h2
    obtain ⟨r, h3⟩ := h1.2 h2
    exact ((c98_parse_partial hl room).1 r h3).2 h
  · intro h
    rcases c98_parse_ends_partial hg hp ht hl hs input with h2 | ⟨r, h2⟩
    · exact h2
    · exact absurd h (h1.1 ⟨r, c98_parse_checked_partial hw hs h2⟩)

end trim

/-- Parsing the text `a` with the lexer that has `(a*)*` panics with the checks, and returns or panics without them. -/
example : PanicsW (word64 .debug) stuckLexer (tableOf goodGrammar) ['a'] ∧
    (PanicsW (word64 .release) stuckLexer (tableOf goodGrammar) ['a'] ∨
      ∃ r, ParsesW (word64 .release) stuckLexer (tableOf goodGrammar) ['a'] r) := by
  refine ⟨(c98_parse_exact_partial goodGrammar_built goodGrammar_parser goodGrammar_trim stuck_for rfl
    (by simp [Room, word64])).2.2 ⟨[], 0, _, .done, .refl, rfl, fun a ha => ?_⟩,
    c98_parse_ends_partial goodGrammar_built goodGrammar_parser goodGrammar_trim stuck_for (by simp [word64]) _⟩
  cases ha with
  | next hp _ _ =>
    refine hp starStar (by simp [stuckTrees]) ['a'] (List.prefix_refl _) ?_
    have hb : Begins (.lit (.mtch 'a') (some .asterisk)) false ['a'] := .rep (by simp) trivial (by simp [LitSet])
    exact SpinsFirst.rounds (ws := []) (u := ['a']) hb (by simp) (.lit trivial (by simp))

/-- Parsing `x;?` with the words of a real machine. -/
example (p : Profile) : (∀ r, ParsesW (word64 p) semis (tableOf goodGrammar) "x;?".toList r ↔
      r = some (.mk (.var "P") [.mk (.term ";") [], .mk (.var "Q") [.mk (.term "x") []]])) ∧
    ¬ PanicsW (word64 p) semis (tableOf goodGrammar) "x;?".toList :=
  (c98_parse_partial semis_for (by simp [Room, word64])).1 _ semis_parses

/-- The text `xxa` is rejected at the second `x`, with the words of a real machine: the counter does not overflow, as
the parser does not ask for another token. -/
example (p : Profile) : (∀ r, ParsesW (word64 p) stuckLexer (tableOf goodGrammar) "xxa".toList r ↔ r = none) ∧
    ¬ PanicsW (word64 p) stuckLexer (tableOf goodGrammar) "xxa".toList := by
  refine (c98_parse_partial stuck_for (by simp [Room, word64])).1 _ ⟨30, 10, ?_⟩
  rw [parseText_eq (k := 10) (Nat.le_refl _)]
  have h : streamOf (nfaMachine stuckLexer.nfa 30) stuckLexer.tokens 10 (InputIter.new "xxa".toList) =
      ([⟨"x", ['x'], (0, 1)⟩, ⟨"x", ['x'], (1, 2)⟩], .diverge) := by
    with_unfolding_all rfl
  rw [h]
  decide +kernel

end Pango.Props
