import Verif.Proofs.Debug
import Verif.Props.Reads

/-!
# C111: what a lexer writes to the standard error
-/

namespace Pango.Props

open Pango Pango.Lex Pango.Spec Pango.Regex Pango.Fsm

variable [Unicode] {K : Type}

/-- The calls return `as`, and `out` is written. -/
def CallsWrite (build : Profile) (l : Lexer K) (input : List Char) (as : List (Option (Tok K)))
    (out : List (Dbg (List Run))) : Prop :=
  ∃ fuel it, lexCallsD build (nfaMachine l.nfa fuel) l.tokens as.length (InputIter.new input) [] = .ok ((as, it), out)

omit [Unicode] in
/-- C111, writing changes nothing: the calls return, panic or go on forever as those of the lexer. -/
theorem c111_same {σ : Type} (build : Profile) (m : Machine σ) (gs : Generators K) (calls : Nat) (it : InputIter)
    (out : List (Dbg σ)) :
    (lexCallsD build m gs calls it out >>= fun r => pure r.1) = lexCalls m gs calls it := lexCallsD_fst

/-- C111, a build without debug assertions writes nothing. -/
theorem c111_release (l : Lexer K) (input : List Char) (as : List (Option (Tok K))) (out : List (Dbg (List Run)))
    (h : CallsWrite .release l input as out) : out = [] := by
  obtain ⟨fuel, it, h⟩ := h
  exact lexCallsD_release h

theorem writing_of {p : Profile} {rules : List (List Char × (List Char → K))} {es : List Expr} {l : Lexer K}
    (hl : LexerFor p rules es l) {fuel n : Nat} : ∀ {sc : Scanner} {it it' : InputIter} {as : List (Option (Tok K))}
    {out0 out1 : List (Dbg (List Run))}, Rep sc it →
    lexCallsD .debug (nfaMachine l.nfa fuel) l.tokens n it out0 = .ok ((as, it'), out1) →
    ∃ out, out1 = out0 ++ out ∧
      WritingCalls (taken es) (Readable es) (Passes es) (kindAt rules) sc as out := by
  have b := hl.toBuilt
  have kinds : ∀ i src k, KindOf l.tokens i src k → Lex.kindAt rules i src = some k := fun i src k => b.kindAt
  induction n with
  | zero =>
    intro sc it it' as out0 out1 hr h
    cases h
    exact ⟨[], by simp, .done⟩
  | succ n ih =>
    intro sc it it' as out0 out1 hr h
    simp only [lexCallsD, Outcome.bind_eq_ok] at h
    obtain ⟨⟨⟨a, it1⟩, out2⟩, h1, ⟨⟨as1, it2⟩, out3⟩, h2, h3⟩ := h
    cases h3
    have h4 : lexNext (nfaMachine l.nfa fuel) l.tokens it = .ok (a, it1) := by
      rw [← lexNextD_fst (p := .debug) (out := out0), h1]
      rfl
    obtain ⟨sim, h5, h6⟩ := lexNext_ok h4
    obtain ⟨u, ds, e1, e2, e3, e4, e5⟩ := h6.written (b.readsTaken fuel) ((b.readsTaken fuel).start h5) (.inl rfl)
    have h7 : out2 = out0 ++ ds := by
      simp only [lexNextD, h5, Outcome.bind_ok, e1, Outcome.ok.injEq, Prod.mk.injEq, true_and] at h1
      exact h1.symm
    obtain ⟨sc', hc, hr'⟩ := lexNext_call (b.readsTaken fuel) kinds hr h4
    obtain ⟨out, h8, h9⟩ := ih hr' h2
    have hbig : lexNext (nfaMachine l.nfa (fuel + simFuel l.nfa (fragTrees 2 es))) l.tokens it = .ok (a, it1) :=
      (lexNext_le (nfaMachine_le (Nat.le_add_right _ _))).ok h4
    rw [hr.chars] at e2 e4
    refine ⟨ds ++ out, by rw [h8, h7, List.append_assoc],
      .next ((b.next_iff (Nat.le_add_left _ _) hr).1 ⟨_, hbig⟩) hc ⟨e2, e3, ?_⟩ e5 h9⟩
    rcases e4 with e4 | ⟨x, e4, e6⟩
    · exact .inl e4
    · exact .inr ⟨x, e4, e6⟩

/-- C111, a build with debug assertions: each call writes something for every character up to the place where it stops,
and nothing else: the character, and whether some pattern matches what the call has read. -/
theorem c111_debug {p : Profile} {rules : List (List Char × (List Char → K))} {es : List Expr} {l : Lexer K}
    (hl : LexerFor p rules es l) (input : List Char) (as : List (Option (Tok K))) (out : List (Dbg (List Run)))
    (h : CallsWrite .debug l input as out) :
    WritingCalls (taken es) (Readable es) (Passes es) (kindAt rules) (Scanner.new input) as out := by
  obtain ⟨fuel, it, h⟩ := h
  obtain ⟨out', rfl, h2⟩ := writing_of hl (rep_new input) h
  exact h2

/-- In both builds, exactly the calls of the lexer. -/
theorem c111_calls (build : Profile) (l : Lexer K) (input : List Char) (as : List (Option (Tok K))) :
    (∃ out, CallsWrite build l input as out) ↔
      ∃ fuel it, lexCalls (nfaMachine l.nfa fuel) l.tokens as.length (InputIter.new input) = .ok (as, it) := by
  constructor
  · rintro ⟨out, fuel, it, h⟩
    exact ⟨fuel, it, by rw [← lexCallsD_fst (p := build) (out := []), h]; rfl⟩
  · rintro ⟨fuel, it, h⟩
    rw [← lexCallsD_fst (p := build) (out := [])] at h
    simp only [Outcome.bind_eq_ok] at h
    obtain ⟨⟨r, out⟩, h1, h2⟩ := h
    cases h2
    exact ⟨out, fuel, it, h1⟩

/-- C111, how much is written: one record for each character that is read in the sense of C80, apart from those at which
the calls stop. -/
theorem c111_count (l : Lexer K) (input : List Char) (as : List (Option (Tok K))) (out : List (Dbg (List Run)))
    (h : CallsWrite .debug l input as out) :
    ∃ n, CallsRead l input as n ∧ out.length ≤ n ∧ n ≤ out.length + as.length := by
  obtain ⟨fuel, it, h⟩ := h
  have h1 : lexCalls (nfaMachine l.nfa fuel) l.tokens as.length (InputIter.new input) = .ok (as, it) := by
    rw [← lexCallsD_fst (p := .debug) (out := []), h]
    rfl
  rw [← lexCallsN_fst (n := 0)] at h1
  simp only [Outcome.bind_eq_ok] at h1
  obtain ⟨⟨r, n⟩, h2, h3⟩ := h1
  cases h3
  obtain ⟨k, d, e1, e2, e3, e4⟩ := lexCallsD_counted h2 h
  simp only [List.length_nil, Nat.zero_add] at e1 e2
  exact ⟨n, ⟨fuel, it, h2⟩, by omega, by omega⟩

/-- So a debug build writes at most half of the square of the length of the text. -/
theorem c111_square (l : Lexer K) (input : List Char) (as : List (Option (Tok K))) (out : List (Dbg (List Run)))
    (h : CallsWrite .debug l input as out) : 2 * out.length ≤ input.length * (input.length + 1) := by
  obtain ⟨n, h1, h2, _⟩ := c111_count l input as out h
  have := c80_square_partial l input as n h1
  omega

/-! ## Examples -/

/-- With the rules `a`, `abcd`, `b` and `c`, what is written for the five calls on `abcxa`. -/
example : ∃ out, CallsWrite .debug lossy "abcxa".toList
      ([⟨0, ['a'], (0, 1)⟩, ⟨2, ['b'], (1, 2)⟩, ⟨3, ['c'], (2, 3)⟩, ⟨0, ['a'], (3, 5)⟩].map some ++ [none]) out ∧
    out.map (fun d => (d.input, d.accepting)) =
      [('a', true), ('b', false), ('c', false), ('b', true), ('c', true), ('a', true)] :=
  ⟨_, ⟨10, _, by with_unfolding_all rfl⟩, by with_unfolding_all rfl⟩

/-- The same in a build without debug assertions. -/
example : CallsWrite .release lossy "abcxa".toList
      ([⟨0, ['a'], (0, 1)⟩, ⟨2, ['b'], (1, 2)⟩, ⟨3, ['c'], (2, 3)⟩, ⟨0, ['a'], (3, 5)⟩].map some ++ [none]) [] :=
  ⟨10, _, by with_unfolding_all rfl⟩

/-- Much can be written: for `k` times `a` and a `c`, with the rules `a` and `a*b`. -/
example (k : Nat) : ∃ (as : List (Option (Tok Nat))) (out : List (Dbg (List Run))),
    CallsWrite .debug slow (List.replicate k 'a' ++ ['c']) as out ∧ (k + 1) * (k + 2) ≤ 2 * (out.length + as.length) := by
  obtain ⟨as, n, ⟨fuel, it, h1⟩, h2⟩ := c80_reached k
  have h3 := lexCallsN_ok h1
  rw [← lexCallsD_fst (p := .debug) (out := [])] at h3
  simp only [Outcome.bind_eq_ok] at h3
  obtain ⟨⟨r, out⟩, h3, h4⟩ := h3
  cases h4
  obtain ⟨k', d, e1, e2, e3, e4⟩ := lexCallsD_counted h1 h3
  simp only [List.length_nil, Nat.zero_add] at e1 e2
  exact ⟨as, out, ⟨fuel, it, h3⟩, by omega⟩

end Pango.Props
