import Verif.Proofs.MachineWordFuel
import Verif.Props.Ends
import Verif.Props.Bar
import Verif.Props.TextMachine

/-!
# C98: no number overflows
-/

namespace Pango.Props

open Pango Pango.Fsm Pango.Lex Pango.Regex Pango.Spec

variable {K : Type} [Unicode]

/-- As many calls of `next` as there are answers return just these, with machine words. -/
def CallsReturnW (w : Words) (l : Lexer K) (input : List Char) (as : List (Option (Tok K))) : Prop :=
  ∃ fuel it, lexCallsW w (nfaMachineW w l.nfa fuel) l.tokens as.length (InputIter.new input) = .ok (as, it)

/-- One of the first `n` calls of `next` panics, with machine words. -/
def CallsPanicW (w : Words) (l : Lexer K) (input : List Char) (n : Nat) : Prop :=
  ∃ fuel, lexCallsW w (nfaMachineW w l.nfa fuel) l.tokens n (InputIter.new input) = .panic

/-- Compiling the tree and matching the string ends with the answer `b`, with machine words. -/
def AnswersW (w : Words) (e : Expr) (v : List Char) (b : Bool) : Prop :=
  ∃ nfa fuel, nfaOfAst e = .ok nfa ∧ nfa.simulateW w fuel v = .ok b

/-- Matching the string panics, with machine words. -/
def MatchPanicsW (w : Words) (e : Expr) (v : List Char) : Prop :=
  ∃ nfa fuel, nfaOfAst e = .ok nfa ∧ nfa.simulateW w fuel v = .panic

/-- The string is short enough for the words: those of Rust are, as a string has at most half as many bytes as there are
words. -/
def Room (w : Words) (v : List Char) : Prop := v.length + 1 < w.size

/-- Strings of Rust are of at most `isize::MAX` bytes, and no character is shorter than a byte. -/
example (p : Profile) (v : List Char) (h : v.length ≤ 2 ^ 63 - 1) : Room ⟨2 ^ 64, p⟩ v := by
  simp only [Room]
  omega

/-- C98 as stated: with machine words the calls return what they would return if there was no end to the numbers, and
do not panic. -/
def NoOverflow (K : Type) : Prop :=
  ∀ (w : Words) (p : Profile) (rules : List (List Char × (List Char → K))) (es : List Expr) (l : Lexer K),
    LexerFor p rules es l → ∀ (input : List Char), Room w input → ∀ n : Nat, ¬ CallsPanicW w l input n ∧
      ∀ as : List (Option (Tok K)), as.length = n → (CallsReturnW w l input as ↔ CallsReturn l input as)

/-! ## The two do not depend on the bound on the loops -/

theorem lexCallsW_unique {w : Words} {l : Lexer K} {n fuel fuel' : Nat} {it : InputIter}
    {x y : Outcome (List (Option (Tok K)) × InputIter)} (hx : x ≠ .diverge) (hy : y ≠ .diverge)
    (h : lexCallsW w (nfaMachineW w l.nfa fuel) l.tokens n it = x)
    (h' : lexCallsW w (nfaMachineW w l.nfa fuel') l.tokens n it = y) : x = y := by
  have h1 := lexCallsW_le (w := w) (gs := l.tokens) (n := n) (it := it)
    (nfaMachineW_le (w := w) (nfa := l.nfa) (Nat.le_max_left fuel fuel'))
  have h2 := lexCallsW_le (w := w) (gs := l.tokens) (n := n) (it := it)
    (nfaMachineW_le (w := w) (nfa := l.nfa) (Nat.le_max_right fuel fuel'))
  rw [h] at h1
  rw [h'] at h2
  rcases h1 with h1 | h1
  · exact absurd h1 hx
  rcases h2 with h2 | h2
  · exact absurd h2 hy
  rw [h1, h2]

theorem simulateW_unique {w : Words} {nfa : Nfa} {fuel fuel' : Nat} {v : List Char}
    {x y : Outcome Bool} (hx : x ≠ .diverge) (hy : y ≠ .diverge)
    (h : nfa.simulateW w fuel v = x) (h' : nfa.simulateW w fuel' v = y) : x = y := by
  have h1 := simulateW_le (w := w) (nfa := nfa) (v := v) (Nat.le_max_left fuel fuel')
  have h2 := simulateW_le (w := w) (nfa := nfa) (v := v) (Nat.le_max_right fuel fuel')
  rw [h] at h1
  rw [h'] at h2
  rcases h1 with h1 | h1
  · exact absurd h1 hx
  rcases h2 with h2 | h2
  · exact absurd h2 hy
  rw [h1, h2]

/-! ## Lexers -/

variable {p : Profile} {rules : List (List Char × (List Char → K))} {es : List Expr} {l : Lexer K} {w : Words}

/-- C98 for all calls that return if there is no end to the numbers: they return the same with machine words, and
nothing panics.  Missing: calls that would not return, for which the claim is false. -/
theorem c98_calls_partial (hl : LexerFor p rules es l) {input : List Char} (room : Room w input)
    {as : List (Option (Tok K))} (h : CallsReturn l input as) :
    CallsReturnW w l input as ∧ (∀ as', as'.length = as.length → CallsReturnW w l input as' → as' = as) ∧
      ¬ CallsPanicW w l input as.length := by
  obtain ⟨fuel, it, h⟩ := h
  have h := lexCallsW_ok hl.toBuilt.parts.bundle room (InputIter.below_new input) h
  refine ⟨⟨fuel, it, h⟩, ?_, ?_⟩
  · rintro as' e ⟨fuel', it', h'⟩
    rw [e] at h'
    have := lexCallsW_unique (by simp) (by simp) h' h
    cases this
    rfl
  · rintro ⟨fuel', h'⟩
    have := lexCallsW_unique (by simp) (by simp) h' h
    cases this

/-- C98 for texts of any length, with overflow checks: what the calls return is always right. -/
theorem c98_checked_partial (hw : w.profile = .debug) (hs : 0 < w.size) {input : List Char}
    {as : List (Option (Tok K))} (h : CallsReturnW w l input as) : CallsReturn l input as := by
  obtain ⟨fuel, it, h⟩ := h
  exact ⟨fuel, it, lexCallsW_debug hw ⟨0, input, rfl, hs⟩ h⟩

/-- With machine words every call of `next` ends: it returns or panics. -/
theorem c98_ends (hl : LexerFor p rules es l) (hs : 0 < w.size) (input : List Char) (n : Nat) :
    CallsPanicW w l input n ∨ ∃ as, as.length = n ∧ CallsReturnW w l input as := by
  have := lexCallsW_ends (gs := l.tokens) (k := n) (it := InputIter.new input) hs hl.toBuilt.parts.bundle.wf
    (Nat.le_refl _)
  generalize hx : lexCallsW w (nfaMachineW w l.nfa (w.fuel l.nfa)) l.tokens n (InputIter.new input) = x at this
  cases x with
  | diverge => exact absurd rfl this
  | panic => exact .inl ⟨_, hx⟩
  | ok x =>
    obtain ⟨as, it⟩ := x
    have hlen : as.length = n := by
      clear hl
      generalize InputIter.new input = it0 at hx
      clear this
      induction n generalizing as it it0 with
      | zero => cases hx; rfl
      | succ n ih =>
        simp only [lexCallsW, Outcome.bind_eq_ok] at hx
        obtain ⟨⟨a, it1⟩, _, ⟨as', it2⟩, h2, h3⟩ := hx
        cases h3
        simp [ih _ _ _ h2]
    exact .inr ⟨as, hlen, _, it, by rw [hlen]; exact hx⟩

/-- C98 with overflow checks, exactly: the calls that would not return if there was no end to the numbers are those that
panic.  Missing: without the checks. -/
theorem c98_exact_partial (hl : LexerFor p rules es l) (hw : w.profile = .debug) {input : List Char}
    (room : Room w input) (n : Nat) :
    (CallsPanicW w l input n ↔ ¬ ∃ as, as.length = n ∧ CallsReturn l input as) ∧
      ∀ as, CallsReturnW w l input as ↔ CallsReturn l input as := by
  have hs : 0 < w.size := by simp only [Room] at room; omega
  refine ⟨⟨?_, ?_⟩, fun as => ⟨c98_checked_partial hw hs, fun h => (c98_calls_partial hl room h).1⟩⟩
  · rintro h ⟨as, e, h'⟩
    exact (c98_calls_partial hl room h').2.2 (e ▸ h)
  · intro h
    rcases c98_ends hl hs input n with h' | ⟨as, e, h'⟩
    · exact h'
    · exact absurd ⟨as, e, c98_checked_partial hw hs h'⟩ h

/-! ## Patterns -/

/-- C98 for matching a string against a pattern: the answer that there is without an end to the numbers is also that
with machine words.  Missing: strings for which there is none. -/
theorem c98_match_partial {e : Expr} (he : ¬ HasEmptySeq e) {v : List Char} (room : Room w v) {b : Bool}
    (h : Answers e v b) : (∀ b', AnswersW w e v b' ↔ b' = b) ∧ ¬ MatchPanicsW w e v := by
  obtain ⟨nfa, fuel, h1, h2⟩ := h
  obtain ⟨nfa', h1', bundle⟩ := nfaOfAst_bundle he
  rw [h1] at h1'
  cases h1'
  have h3 := bundle.simulateW (w := w) room h2
  refine ⟨fun b' => ⟨?_, ?_⟩, ?_⟩
  · rintro ⟨nfa', fuel', h4, h5⟩
    rw [h1] at h4
    cases h4
    have := simulateW_unique (by simp) (by simp) h5 h3
    cases this
    rfl
  · rintro rfl
    exact ⟨nfa, fuel, h1, h3⟩
  · rintro ⟨nfa', fuel', h4, h5⟩
    rw [h1] at h4
    cases h4
    have := simulateW_unique (by simp) (by simp) h5 h3
    cases this

/-- Without overflow checks there is always an answer, with them there is one or a panic; and with them the panics are
where there would be no answer otherwise. -/
theorem c98_endless {e : Expr} (he : ¬ HasEmptySeq e) (hs : 0 < w.size) (v : List Char) :
    (w.profile = .release → (∃ b, AnswersW w e v b) ∧ ¬ MatchPanicsW w e v) ∧
    (w.profile = .debug → (∀ b, AnswersW w e v b → Answers e v b) ∧
      ((¬ ∃ b, Answers e v b) → MatchPanicsW w e v)) := by
  obtain ⟨nfa, h1, bundle⟩ := nfaOfAst_bundle he
  obtain ⟨h2, h3⟩ := simulateW_fine hs bundle.wf (Nat.le_refl (w.fuel nfa)) v
  have debug : w.profile = .debug → ∀ b, AnswersW w e v b → Answers e v b := by
    rintro hw b ⟨nfa', fuel, h4, h5⟩
    exact ⟨nfa', fuel, h4, simulateW_debug hw h5⟩
  generalize hx : nfa.simulateW w (w.fuel nfa) v = x at h2 h3
  cases x with
  | diverge => exact absurd rfl h2
  | panic =>
    refine ⟨fun hr => absurd rfl (h3 hr), fun hd => ⟨debug hd, fun _ => ⟨nfa, _, h1, hx⟩⟩⟩
  | ok b =>
    refine ⟨fun hr => ⟨⟨b, nfa, _, h1, hx⟩, ?_⟩, fun hd => ⟨debug hd, fun h => ?_⟩⟩
    · rintro ⟨nfa', fuel', h4, h5⟩
      rw [h1] at h4
      cases h4
      have := simulateW_unique (by simp) (by simp) h5 hx
      cases this
    · exact absurd ⟨b, debug hd b ⟨nfa, _, h1, hx⟩⟩ h

/-! ## Cases -/

/-- Machine words of 64 bits. -/
def word64 (p : Profile) : Words := ⟨2 ^ 64, p⟩

theorem stuck_never (as : List (Option (Tok String))) (n : Nat) (hn : as.length = n + 1) :
    ¬ CallsReturn stuckLexer ['a'] as := by
  intro h
  have h := ((c23_calls_partial .debug _ _ _ stuck_for _ _ _).1 h).2
  cases as with
  | nil => cases hn
  | cons a as =>
    unfold Scans at h
    cases h with
    | next hp _ _ =>
      refine hp starStar (by simp [stuckTrees]) ['a'] (List.prefix_refl _) ?_
      have hb : Begins (.lit (.mtch 'a') (some .asterisk)) false ['a'] := .rep (by simp) trivial (by simp [LitSet])
      exact SpinsFirst.rounds (ws := []) (u := ['a']) hb (by simp) (.lit trivial (by simp))

/-- C98 is false: with `(a*)*` the counter goes on until it overflows, on the text `a`, with the words of a real
machine. -/
theorem c98_false : ¬ NoOverflow String := by
  intro h
  have room : Room (word64 .debug) ['a'] := by simp [Room, word64]
  refine (h (word64 .debug) _ _ _ _ stuck_for ['a'] room 1).1 ?_
  refine (c98_exact_partial stuck_for rfl room 1).1.2 ?_
  rintro ⟨as, e, h⟩
  exact stuck_never as 0 e h

/-- Without the checks that call returns in the end, or panics for another reason; with numbers without an end it does
neither. -/
example : (CallsPanicW (word64 .release) stuckLexer ['a'] 1 ∨
      ∃ as, as.length = 1 ∧ CallsReturnW (word64 .release) stuckLexer ['a'] as) ∧
    ¬ ∃ as, as.length = 1 ∧ CallsReturn stuckLexer ['a'] as :=
  ⟨c98_ends stuck_for (by simp [word64]) ['a'] 1, fun ⟨as, e, h⟩ => stuck_never as 0 e h⟩

/-- Texts of that lexer that are read, with the words of a real machine. -/
example (p : Profile) : CallsReturnW (word64 p) stuckLexer ['x', ';']
    [some ⟨"x", ['x'], (0, 1)⟩, some ⟨";", [';'], (1, 2)⟩, none] ∧
    ¬ CallsPanicW (word64 p) stuckLexer ['x', ';'] 3 := by
  have h : CallsReturn stuckLexer ['x', ';'] [some ⟨"x", ['x'], (0, 1)⟩, some ⟨";", [';'], (1, 2)⟩, none] :=
    ⟨20, _, by with_unfolding_all rfl⟩
  obtain ⟨h1, _, h3⟩ := c98_calls_partial stuck_for (w := word64 p) (by simp [Room, word64]) h
  exact ⟨h1, h3⟩

/-- The hypothesis on the length is needed, and so are the checks: with two words and without checks, `a+` does not match
`aa`, and with the checks it panics. -/
example : AnswersW ⟨2, .release⟩ (.lit (.mtch 'a') (some .plus)) ['a', 'a'] false ∧
    MatchPanicsW ⟨2, .debug⟩ (.lit (.mtch 'a') (some .plus)) ['a', 'a'] ∧
    Answers (.lit (.mtch 'a') (some .plus)) ['a', 'a'] true :=
  ⟨⟨_, 10, rfl, by with_unfolding_all rfl⟩, ⟨_, 10, rfl, by with_unfolding_all rfl⟩,
    ⟨_, 10, rfl, by with_unfolding_all rfl⟩⟩

/-- Matching `a{2,3}` against `aaa`, with the words of a real machine. -/
example (p : Profile) : (∀ b, AnswersW (word64 p) (.lit (.mtch 'a') (some (.range 2 3))) ['a', 'a', 'a'] b ↔ b = true) ∧
    ¬ MatchPanicsW (word64 p) (.lit (.mtch 'a') (some (.range 2 3))) ['a', 'a', 'a'] :=
  c98_match_partial (by decide) (by simp [Room, word64]) ⟨_, 10, rfl, by with_unfolding_all rfl⟩

/-- Matching `(a*)*` against `a` panics with the checks, and has an answer without them. -/
example : MatchPanicsW (word64 .debug) starStar ['a'] ∧ ∃ b, AnswersW (word64 .release) starStar ['a'] b := by
  refine ⟨((c98_endless (by decide) (by simp [word64]) ['a']).2 rfl).2 ?_,
    ((c98_endless (by decide) (by simp [word64]) ['a']).1 rfl).1⟩
  intro h
  refine (c11_exact_partial starStar (by decide) ['a']).1 h ⟨['a'], List.prefix_refl _, ?_⟩
  have hb : Begins (.lit (.mtch 'a') (some .asterisk)) false ['a'] := .rep (by simp) trivial (by simp [LitSet])
  exact SpinsFirst.rounds (ws := []) (u := ['a']) hb (by simp) (.lit trivial (by simp))

end Pango.Props
