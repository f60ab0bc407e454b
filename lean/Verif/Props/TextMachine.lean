import Verif.Proofs.TextMachine
import Verif.Props.Ends
import Verif.Props.Trim
import Verif.Props.Machine
import Verif.Props.ParseText
import Verif.Props.Scanning

/-!
# C44, C48, C49 for all lexers and grammars: parsing text, exactly

`TextStops`, `TextLoops` and `TextWaits` say what a parser on a lexer does in terms of the specification of the lexer
(`Scans`) and of the SLR(1) machine (`Spec/ShiftReduce.lean`).
-/

namespace Pango.Props

open Pango Pango.Lex Pango.Fsm Pango.Parse Pango.Spec

variable [Unicode] {V T : Type}

/-- The machine stops on the tokens of the text.  It sees no more of them than it asks for: it stops before a token,
or at the end, where the lexer returns `None`. -/
def TextStops [TerminalEq T] (g : Grammar V T) (accepts : Prop) (es : List Regex.Expr)
    (rules : List (List Char × (List Char → T))) (input : List Char) (s : Halt V T) : Prop :=
  ∃ (ts : List (Tok T)) (k : Nat) (c : Config V T), ShiftReduces g k (.start (ts.map Tok.kind)) c ∧ Halts g accepts c s ∧
    (Scans es rules input (ts.map some ++ [none]) ∨ c.input ≠ [] ∧ Scans es rules input (ts.map some))

/-- The machine goes on forever on the tokens of the text. -/
def TextLoops [TerminalEq T] (g : Grammar V T) (es : List Regex.Expr)
    (rules : List (List Char × (List Char → T))) (input : List Char) : Prop :=
  ∀ k, ∃ (ts : List (Tok T)) (c : Config V T), Scans es rules input (ts.map some) ∧ ShiftReduces g k (.start (ts.map Tok.kind)) c

/-- The machine has read all tokens so far, and the lexer does not return from the next call. -/
def TextWaits [TerminalEq T] (g : Grammar V T) (es : List Regex.Expr)
    (rules : List (List Char × (List Char → T))) (input : List Char) : Prop :=
  ∃ (ts : List (Tok T)) (k : Nat) (c : Config V T), Scans es rules input (ts.map some) ∧ ShiftReduces g k (.start (ts.map Tok.kind)) c ∧ c.input = [] ∧
    ∀ a, ¬ Scans es rules input (ts.map some ++ [a])

/-! ## Scans -/

theorem Scans.prefix {es : List Regex.Expr} {rules : List (List Char × (List Char → T))} {input : List Char}
    {as bs : List (Option (Tok T))} (h : Scans es rules input (as ++ bs)) : Scans es rules input as := by
  unfold Scans at h ⊢
  generalize Scanner.new input = sc at h
  induction as generalizing sc with
  | nil => exact .done
  | cons a as ih =>
    cases h with
    | next h1 h2 h3 => exact .next h1 h2 (ih _ h3)

section

variable {p : Profile} {rules : List (List Char × (List Char → T))} {es : List Regex.Expr} {l : Lexer T}

/-- Of two lists of answers one continues the other. -/
theorem scans_linear (hl : LexerFor p rules es l) {input : List Char} {as bs : List (Option (Tok T))}
    (ha : Scans es rules input as) (hb : Scans es rules input bs) : as <+: bs ∨ bs <+: as := by
  rcases Nat.le_total as.length bs.length with h | h
  · have h1 : Scans es rules input (bs.take as.length) :=
      Scans.prefix (bs := bs.drop as.length) (by rwa [List.take_append_drop])
    have h2 := c23_unique p rules es l hl input _ _ ha h1 (by simp; omega)
    exact .inl (h2 ▸ List.take_prefix _ _)
  · have h1 : Scans es rules input (as.take bs.length) :=
      Scans.prefix (bs := as.drop bs.length) (by rwa [List.take_append_drop])
    have h2 := c23_unique p rules es l hl input _ _ hb h1 (by simp; omega)
    exact .inr (h2 ▸ List.take_prefix _ _)

omit [Unicode] in
theorem somes_prefix {ts us : List (Tok T)} (h : ts.map some <+: us.map some) : ∃ more, us = ts ++ more := by
  induction ts generalizing us with
  | nil => exact ⟨us, rfl⟩
  | cons t ts ih =>
    cases us with
    | nil => simp at h
    | cons u us =>
      rw [List.map_cons, List.map_cons, List.cons_prefix_cons] at h
      cases h.1
      obtain ⟨more, rfl⟩ := ih h.2
      exact ⟨more, rfl⟩

omit [Unicode] in
theorem end_not_prefix {ts us : List (Tok T)} : ¬ ts.map some ++ [none] <+: us.map some := by
  rintro ⟨r, hr⟩
  have : none ∈ us.map some := by rw [← hr]; simp
  simp at this

/-- The tokens of one list are a beginning of those of the other. -/
theorem tokens_linear (hl : LexerFor p rules es l) {input : List Char} {ts us : List (Tok T)}
    (ha : Scans es rules input (ts.map some)) (hb : Scans es rules input (us.map some)) :
    (∃ more, us = ts ++ more) ∨ ∃ more, ts = us ++ more :=
  (scans_linear hl ha hb).imp somes_prefix somes_prefix

/-- At the end there are no more tokens. -/
theorem tokens_end (hl : LexerFor p rules es l) {input : List Char} {ts us : List (Tok T)}
    (ha : Scans es rules input (ts.map some ++ [none])) (hb : Scans es rules input (us.map some)) :
    ∃ more, ts = us ++ more := by
  rcases scans_linear hl ha hb with h | h
  · exact absurd h end_not_prefix
  · rcases List.prefix_concat_iff.1 h with h | h
    · have : none ∈ us.map some := by rw [h]; simp
      simp at this
    · exact somes_prefix h

end

/-! ## The theorems -/

variable [DecidableEq V] [DecidableEq T] [TerminalEq T] [LawfulTerminalEq T] {g : Grammar V T} {tbl : Table V T}
  {p : Profile} {rules : List (List Char × (List Char → T))} {es : List Regex.Expr} {l : Lexer T}
  {c : Cfsm V T} {entry : Prop}

/-- What is returned is where the machine stops. -/
theorem text_stops (ok : SlrOk g c entry tbl) (hl : LexerFor p rules es l) {sim fuel : Nat} {input : List Char}
    (h : parseText l tbl sim fuel input ≠ .diverge) :
    ∃ s, TextStops g entry es rules input s ∧ Gives s (parseText l tbl sim fuel input) := by
  rw [parseText_eq (Nat.le_refl fuel)] at h ⊢
  have hno : (streamOf (nfaMachine l.nfa sim) l.tokens fuel (InputIter.new input)).2 ≠ .panic :=
    streamOf_no_panic fun n it => ((hl.toBuilt.safe sim).lexCalls n it).1
  generalize hs : streamOf (nfaMachine l.nfa sim) l.tokens fuel (InputIter.new input) = st at h hno ⊢
  obtain ⟨ts, fin⟩ := st
  simp only at h hno ⊢
  obtain ⟨⟨it1, h1⟩, h2⟩ := streamOf_calls hs
  rcases parse_run_stream ok fuel (ts.map Tok.kind) fin hno with h3 | ⟨k, _, x, s, h3, h4, h5, h6⟩
  · exact absurd h3 h
  · refine ⟨s, ⟨ts, k, x, h3, h4, ?_⟩, h6⟩
    by_cases hx : x.input = []
    · obtain ⟨it2, h7⟩ := h2 (h5 hx)
      exact .inl ((c23_calls_partial p rules es l hl input _ _).1 ⟨sim, it2, h7⟩).2
    · exact .inr ⟨hx, ((c23_calls_partial p rules es l hl input _ _).1 ⟨sim, it1, h1⟩).2⟩

/-- Where the machine stops, something is returned. -/
theorem stops_text (ok : SlrOk g c entry tbl) (hl : LexerFor p rules es l) {input : List Char} {s : Halt V T}
    (h : TextStops g entry es rules input s) : ∃ sim fuel, Gives s (parseText l tbl sim fuel input) := by
  obtain ⟨ts, k, x, h1, h2, h3 | ⟨hx, h3⟩⟩ := h
  · obtain ⟨sim, it, h4⟩ := (c23_calls_partial p rules es l hl input (ts.length + 1) _).2 ⟨by simp, h3⟩
    refine ⟨sim, k + ts.length + 1, ?_⟩
    rw [parseText_eq (Nat.le_refl _), calls_streamOf_end h4 (by omega)]
    exact gives_stream ok h1 h2 (fun _ => rfl) (by omega)
  · obtain ⟨sim, it, h4⟩ := (c23_calls_partial p rules es l hl input ts.length _).2 ⟨by simp, h3⟩
    refine ⟨sim, k + ts.length + 1, ?_⟩
    obtain ⟨more, h5⟩ := calls_streamOf h4 (n := k + ts.length + 1) (by omega)
    rw [parseText_eq (Nat.le_refl _), h5, List.map_append]
    exact gives_stream ok (h1.append (more.map Tok.kind)) (h2.append hx _)
      (fun h => by simp [Config.append] at h; exact absurd h.1 hx) (by omega)

/-- What parsing the text may return is determined. -/
theorem text_unique (ok : SlrOk g c entry tbl) (hl : LexerFor p rules es l) {input : List Char} {s s' : Halt V T}
    (h : TextStops g entry es rules input s) (h' : TextStops g entry es rules input s') : s = s' := by
  have key : ∀ {ts us : List (Tok T)} {k k' : Nat} {x y : Config V T}, ShiftReduces g k (.start (ts.map Tok.kind)) x →
      Halts g entry x s → ShiftReduces g k' (.start (us.map Tok.kind)) y → Halts g entry y s' →
      (x.input ≠ [] ∨ ts = us) → (∃ more, us = ts ++ more) → s = s' := by
    rintro ts us k k' x y h1 h2 h3 h4 hx ⟨more, rfl⟩
    obtain ⟨z, h5, h6⟩ : ∃ z, ShiftReduces g k (.start ((ts ++ more).map Tok.kind)) z ∧ Halts g entry z s := by
      rcases hx with hx | hx
      · exact ⟨_, by rw [List.map_append]; exact h1.append _, h2.append hx _⟩
      · rw [← hx]
        exact ⟨x, h1, h2⟩
    exact (MachineRun.unique ok ⟨z, h5, h6⟩ ⟨y, h3, h4⟩).2
  obtain ⟨ts, k, x, h1, h2, h3⟩ := h
  obtain ⟨us, k', y, h4, h5, h6⟩ := h'
  have key' : ∀ {ts us : List (Tok T)} {k k' : Nat} {x y : Config V T}, ShiftReduces g k (.start (ts.map Tok.kind)) x →
      Halts g entry x s → ShiftReduces g k' (.start (us.map Tok.kind)) y → Halts g entry y s' →
      (y.input ≠ [] ∨ us = ts) → (∃ more, ts = us ++ more) → s = s' := by
    rintro ts us k k' x y h1 h2 h3 h4 hx ⟨more, rfl⟩
    obtain ⟨z, h5, h6⟩ : ∃ z, ShiftReduces g k' (.start ((us ++ more).map Tok.kind)) z ∧ Halts g entry z s' := by
      rcases hx with hx | hx
      · exact ⟨_, by rw [List.map_append]; exact h3.append _, h4.append hx _⟩
      · rw [← hx]
        exact ⟨y, h3, h4⟩
    exact (MachineRun.unique ok ⟨x, h1, h2⟩ ⟨z, h5, h6⟩).2
  rcases h3 with h3 | ⟨hx, h3⟩ <;> rcases h6 with h6 | ⟨hy, h6⟩
  · obtain ⟨m, hm⟩ := tokens_end hl h3 h6.prefix
    obtain ⟨m', hm'⟩ := tokens_end hl h6 h3.prefix
    have : ts = us := by
      have h7 := congrArg List.length hm
      have h8 := congrArg List.length hm'
      simp only [List.length_append] at h7 h8
      have h9 : m = [] := List.length_eq_zero_iff.1 (by omega)
      rw [hm, h9, List.append_nil]
    exact key h1 h2 h4 h5 (.inr this) ⟨[], by simp [this]⟩
  · exact key' h1 h2 h4 h5 (.inl hy) (tokens_end hl h3 h6)
  · exact key h1 h2 h4 h5 (.inl hx) (tokens_end hl h6 h3)
  · rcases tokens_linear hl h3 h6 with h | h
    · exact key h1 h2 h4 h5 (.inl hx) h
    · exact key' h1 h2 h4 h5 (.inl hy) h

/-- The machine stops, goes on forever, or waits. -/
theorem text_all (ok : SlrOk g c entry tbl) (input : List Char) :
    (∃ s, TextStops g entry es rules input s) ∨ TextLoops g es rules input ∨ TextWaits g es rules input := by
  apply Classical.byContradiction
  intro hn
  simp only [not_or] at hn
  obtain ⟨hs, hloop, hw⟩ := hn
  refine hloop fun k => ?_
  induction k with
  | zero => exact ⟨[], _, .done, .refl⟩
  | succ k ih =>
    obtain ⟨ts, x, h1, h2⟩ := ih
    by_cases hx : x.input = []
    · have h3 : ∃ a, Scans es rules input (ts.map some ++ [a]) := by
        apply Classical.byContradiction
        intro h3
        exact hw ⟨ts, k, x, h1, h2, hx, fun a ha => h3 ⟨a, ha⟩⟩
      obtain ⟨a, h3⟩ := h3
      cases a with
      | none =>
        rcases steps_or_halts ok h2 with ⟨y, h4⟩ | ⟨s, h4⟩
        · exact ⟨ts, y, h1, h4⟩
        · exact absurd ⟨s, ts, k, x, h2, h4, .inl h3⟩ hs
      | some t =>
        have h3' : Scans es rules input ((ts ++ [t]).map some) := by simpa using h3
        have h2' : ShiftReduces g k (.start ((ts ++ [t]).map Tok.kind)) (x.append [t.kind]) := by
          rw [List.map_append]
          exact h2.append _
        rcases steps_or_halts ok h2' with ⟨y, h4⟩ | ⟨s, h4⟩
        · exact ⟨_, y, h3', h4⟩
        · exact absurd ⟨s, _, k, _, h2', h4, .inr ⟨by simp [Config.append], h3'⟩⟩ hs
    · rcases steps_or_halts ok h2 with ⟨y, h4⟩ | ⟨s, h4⟩
      · exact ⟨ts, y, h1, h4⟩
      · exact absurd ⟨s, ts, k, x, h2, h4, .inr ⟨hx, h1⟩⟩ hs

theorem text_stops_loops (ok : SlrOk g c entry tbl) (hl : LexerFor p rules es l) {input : List Char} {s : Halt V T}
    (h : TextStops g entry es rules input s) : ¬ TextLoops g es rules input ∧ ¬ TextWaits g es rules input := by
  obtain ⟨ts, k, x, h1, h2, h3⟩ := h
  have hpre : Scans es rules input (ts.map some) := by
    rcases h3 with h | ⟨_, h⟩
    · exact h.prefix
    · exact h
  have key : ∀ {us : List (Tok T)} {k' : Nat} {y : Config V T}, ShiftReduces g k' (.start (us.map Tok.kind)) y →
      Scans es rules input (us.map some) → k' ≤ k := by
    intro us k' y h4 h5
    rcases h3 with h3 | ⟨hx, h3⟩
    · obtain ⟨more, rfl⟩ := tokens_end hl h3 h5
      rw [List.map_append] at h1
      exact (ShiftReduces.stops ok h1 h2 (h4.append _)).1
    · rcases tokens_linear hl h3 h5 with ⟨more, rfl⟩ | ⟨more, rfl⟩
      · rw [List.map_append] at h4
        exact (ShiftReduces.stops ok (h1.append _) (h2.append hx _) h4).1
      · rw [List.map_append] at h1
        exact (ShiftReduces.stops ok h1 h2 (h4.append _)).1
  constructor
  · intro hloop
    obtain ⟨us, y, h4, h5⟩ := hloop (k + 1)
    have := key h5 h4
    omega
  · rintro ⟨us, k', y, h4, h5, hy, h6⟩
    have hdet : ∀ {x y y' : Config V T}, ShiftReduce g x y → ShiftReduce g x y' → y = y' :=
      fun h h' => ShiftReduce.det ok h h'
    rcases h3 with h3 | ⟨hx, h3⟩
    · obtain ⟨more, rfl⟩ := tokens_end hl h3 h4
      cases more with
      | nil => exact h6 none (by simpa using h3)
      | cons t more =>
        exact h6 (some t) (Scans.prefix (bs := more.map some ++ [none]) (by simpa using h3))
    · rcases tokens_linear hl h3 h4 with ⟨more, rfl⟩ | ⟨more, rfl⟩
      · rw [List.map_append] at h5
        have h7 := h1.append (more.map Tok.kind)
        have h8 := ShiftReduces.last hdet h5 h7 hy
        obtain ⟨h9, h10⟩ := ShiftReduces.stops ok h7 (h2.append hx _) h5
        cases h10 (by omega)
        simp [Config.append] at hy
        exact hx hy.1
      · cases more with
        | nil =>
          rw [List.append_nil] at h1
          have h8 := ShiftReduces.last hdet h5 h1 hy
          obtain ⟨h9, h10⟩ := ShiftReduces.stops ok h1 h2 h5
          cases h10 (by omega)
          exact hx hy
        | cons t more =>
          exact h6 (some t) (Scans.prefix (bs := more.map some) (by simpa using h3))

/-- The parser panics on the text. -/
def Panics (l : Lexer T) (tbl : Table V T) (input : List Char) : Prop :=
  ∃ sim fuel, parseText l tbl sim fuel input = .panic

/-- Parsing the text does not end. -/
def RunsOn (l : Lexer T) (tbl : Table V T) (input : List Char) : Prop :=
  ∀ sim fuel, parseText l tbl sim fuel input = .diverge

/-- The parser on the lexer does what the machine does on the tokens of the specification. -/
def TextAgrees (g : Grammar V T) (tbl : Table V T) (accepts : Prop) (es : List Regex.Expr)
    (rules : List (List Char × (List Char → T))) (l : Lexer T) (input : List Char) : Prop :=
  (∀ n, Parses l tbl input (some n) ↔ TextStops g accepts es rules input (.tree n)) ∧
  (Parses l tbl input none ∨ Panics l tbl input ↔
    TextStops g accepts es rules input .error ∨ TextStops g accepts es rules input .underflow) ∧
  (TextStops g accepts es rules input .underflow → Panics l tbl input) ∧
  (RunsOn l tbl input ↔ TextLoops g es rules input ∨ TextWaits g es rules input)

theorem text_agrees (ok : SlrOk g c entry tbl) (hl : LexerFor p rules es l) (input : List Char) :
    TextAgrees g tbl entry es rules l input := by
  have h1 : ∀ n, Parses l tbl input (some n) ↔ TextStops g entry es rules input (.tree n) := by
    intro n
    constructor
    · rintro ⟨sim, fuel, h⟩
      obtain ⟨s, h1, h2⟩ := text_stops ok hl (sim := sim) (fuel := fuel) (input := input) (by rw [h]; simp)
      rw [h] at h2
      cases h2
      exact h1
    · intro h
      obtain ⟨sim, fuel, h1⟩ := stops_text ok hl h
      generalize hr : parseText l tbl sim fuel input = r at h1
      cases h1
      exact ⟨sim, fuel, hr⟩
  have h2 : TextStops g entry es rules input .underflow → Panics l tbl input := by
    intro h
    obtain ⟨sim, fuel, h1⟩ := stops_text ok hl h
    generalize hr : parseText l tbl sim fuel input = r at h1
    cases h1
    exact ⟨sim, fuel, hr⟩
  have h3 : TextStops g entry es rules input .error → Parses l tbl input none ∨ Panics l tbl input := by
    intro h
    obtain ⟨sim, fuel, h1⟩ := stops_text ok hl h
    generalize hr : parseText l tbl sim fuel input = r at h1
    cases h1
    · exact .inl ⟨sim, fuel, hr⟩
    · exact .inr ⟨sim, fuel, hr⟩
  refine ⟨h1, ⟨?_, fun h => h.elim h3 fun h => .inr (h2 h)⟩, h2, ?_, ?_⟩
  · rintro (⟨sim, fuel, h⟩ | ⟨sim, fuel, h⟩)
    · obtain ⟨s, h1, h2⟩ := text_stops ok hl (sim := sim) (fuel := fuel) (input := input) (by rw [h]; simp)
      rw [h] at h2
      cases h2
      exact .inl h1
    · obtain ⟨s, h1, h2⟩ := text_stops ok hl (sim := sim) (fuel := fuel) (input := input) (by rw [h]; simp)
      rw [h] at h2
      cases h2
      · exact .inl h1
      · exact .inr h1
  · intro h
    rcases text_all ok input with ⟨s, hs⟩ | h4
    · obtain ⟨sim, fuel, h5⟩ := stops_text ok hl hs
      rw [h sim fuel] at h5
      cases h5
    · exact h4
  · intro h sim fuel
    apply Classical.byContradiction
    intro hne
    obtain ⟨s, h4, _⟩ := text_stops ok hl hne
    obtain ⟨h5, h6⟩ := text_stops_loops ok hl h4
    exact h.elim h5 h6

/-- C48 for all lexers and grammars, in place of sentences and maximal munch: what parsing a text returns, exactly, up
to the choice between an error and a panic.  Missing: that this is a tree of the tokens of maximal munch, which is false
in general. -/
theorem c48_machine_partial (hg : Built g) (hp : IsParser g tbl) :
    ∃ accepts : Prop, (SurelyFollowed g g.start → accepts) ∧
      (accepts → Followable g g.start) ∧
      ∀ (p : Profile) (rules : List (List Char × (List Char → T))) (es : List Regex.Expr) (l : Lexer T),
        LexerFor p rules es l → ∀ input, TextAgrees g tbl accepts es rules l input := by
  obtain ⟨c, follow, fo, ok⟩ := hp.ok hg
  refine ⟨Entry g follow, ?_, fun h => (fo.entered _ h).followable, fun p rules es l hl input => text_agrees ok hl input⟩
  exact fo.surely

/-- C48 for grammars without epsilon, and all lexers: the accepted texts are those whose tokens, as the lexer makes them,
are a sentence.  Missing: as for C37 and C23. -/
theorem c48_scans_partial (hg : Built g) (hp : IsParser g tbl) (he : EpsFree g) (hs : SurelyFollowed g g.start)
    (hi : ¬ Inside g g.start) (hl : LexerFor p rules es l) {input : List Char} {n : Node V T} :
    Parses l tbl input (some n) ↔
      ∃ ts : List (Tok T), Scans es rules input (ts.map some ++ [none]) ∧ ParseTree g n (ts.map Tok.kind) ∧ EndsInToken n := by
  constructor
  · intro h
    obtain ⟨ts, h1, h2⟩ := c44_tokens_partial hg hp l h
    exact ⟨ts, (c23_tokens_partial p rules es l hl input ts).1 h1, (c37_exact_partial hg hp he hs hi).1 h2⟩
  · rintro ⟨ts, h1, h2⟩
    obtain ⟨fuel, h3⟩ := (c37_exact_partial hg hp he hs hi).2 h2
    exact parses_of_tokens ((c23_tokens_partial p rules es l hl input ts).2 h1) h3

/-- C44 for all patterns for which one character of lookahead is enough: the tokens are those of the text up to the
first place at which no pattern matches; what comes behind it is ignored. -/
theorem c44_ahead_partial (hg : Built g) (hp : IsParser g tbl) (hl : LexerFor p rules es l) (ha : LooksOneAhead es)
    {input : List Char} {n : Node V T} (h : Parses l tbl input (some n)) :
    ∃ ts rest, Tokens l input ts ∧ (ts.map Tok.source).flatten ++ rest = input ∧ NoMatch (taken es) rest ∧
      ∃ fuel, parseTokens tbl fuel (ts.map Tok.kind) = .ok (some n) := by
  obtain ⟨ts, h1, h2⟩ := c44_tokens_partial hg hp l h
  exact ⟨ts, _, h1, (c18_ahead_partial p rules es l hl ha input ts h1).2,
    (c15_exact_partial p rules es l hl).2 ha input ts h1, h2⟩

omit [DecidableEq T] [TerminalEq T] [LawfulTerminalEq T] in
/-- No pattern gets stuck if none repeats something empty. -/
theorem passes_of (hl : LexerFor p rules es l) (hr : ∀ e ∈ es, RepeatsNonEmpty e) (w : List Char) : Passes es w := by
  intro e he v hv hs
  have hc := hl.toBuilt.compiles e he
  exact (c11_exact_partial e hc v).1 ((c10_exact_partial e hc).2 (hr e he) v) ⟨v, List.prefix_refl _, hs⟩

omit [DecidableEq T] [TerminalEq T] [LawfulTerminalEq T] in
/-- A lexer whose patterns do not get stuck returns from every call. -/
theorem scans_more (hl : LexerFor p rules es l) (hpass : ∀ w, Passes es w) {input : List Char}
    {as : List (Option (Tok T))} (h : Scans es rules input as) : ∃ a, Scans es rules input (as ++ [a]) := by
  have b := hl.toBuilt
  have kinds : ∀ i src k, KindOf l.tokens i src k → kindAt rules i src = some k := fun i src k => b.kindAt
  unfold Scans at h ⊢
  have hr := rep_new input
  generalize InputIter.new input = it at hr
  generalize Scanner.new input = sc at h hr
  induction h generalizing it with
  | @done sc =>
    obtain ⟨⟨a, it1⟩, h1⟩ := (b.next_iff (Nat.le_refl _) hr).2 (hpass (word sc.left))
    obtain ⟨sc', hc, _⟩ := lexNext_call (b.readsTaken _) kinds hr h1
    exact ⟨a, .next (hpass _) hc .done⟩
  | @next sc sc' a as hp hc _ ih =>
    obtain ⟨⟨a', it1⟩, h1⟩ := (b.next_iff (Nat.le_refl _) hr).2 hp
    obtain ⟨sc'', hc', hr'⟩ := lexNext_call (b.readsTaken _) kinds hr h1
    obtain ⟨rfl, rfl⟩ := Call.unique (fun _ _ h => b.readable_mono h) hc hc'
    obtain ⟨a1, h2⟩ := ih it1 hr'
    exact ⟨a1, .next hp hc h2⟩

/-- C49 for trim grammars and all lexers: parsing text never panics, and returns if and only if the lexer returns from
every call that the parser makes. -/
theorem c49_trim_partial (hg : Built g) (hp : IsParser g tbl) (ht : Trim g) (hl : LexerFor p rules es l)
    (input : List Char) :
    ¬ Panics l tbl input ∧ ((∃ r, Parses l tbl input r) ↔ ¬ TextWaits g es rules input) := by
  obtain ⟨c, follow, _, ok⟩ := hp.ok hg
  have hno : ¬ Panics l tbl input := by
    rintro ⟨sim, fuel, h⟩
    rw [parseText_eq (Nat.le_refl fuel)] at h
    refine parse_no_panic hg.wellFormed ok ht.epsFree (fun v β hr => ?_) (fun v β hr => ?_) ht.var ?_ h
    · obtain ⟨t, ht⟩ := ht.first v β hr
      exact ⟨t, derives_starts.1 ht⟩
    · obtain ⟨t, ht⟩ := ht.follow hg v β hr
      exact ⟨t, inFollow_iff.1 ht⟩
    · exact streamOf_no_panic fun n it => ((hl.toBuilt.safe sim).lexCalls n it).1
  refine ⟨hno, ?_, ?_⟩
  · rintro ⟨r, sim, fuel, h⟩ hw
    have := (text_agrees ok hl input).2.2.2.2 (.inr hw) sim fuel
    rw [h] at this
    cases this
  · intro hw
    apply Classical.byContradiction
    intro hr
    have : RunsOn l tbl input := by
      intro sim fuel
      cases h : parseText l tbl sim fuel input with
      | ok r => exact absurd ⟨r, sim, fuel, h⟩ hr
      | panic => exact absurd ⟨sim, fuel, h⟩ hno
      | diverge => rfl
    rcases (text_agrees ok hl input).2.2.2.1 this with h | h
    · obtain ⟨ts, x, h1, h2⟩ := h ((2 * input.length + 1) * (g.rules.length + 2) + 1)
      obtain ⟨sim, it, h3⟩ := (c23_calls_partial p rules es l hl input ts.length _).2 ⟨by simp, h1⟩
      have h4 := (c16_finite _ _ _ _ _ _ h3).2.1
      simp only [returned, List.filterMap_map, Function.comp_def, id, List.filterMap_some] at h4
      have h5 : (2 * (ts.map Tok.kind).length + 1) * (g.rules.length + 2) ≤
          (2 * input.length + 1) * (g.rules.length + 2) := Nat.mul_le_mul_right _ (by simp; omega)
      refine c40_reachable_partial hg hp ht.epsFree ht.reachable (ts.map Tok.kind) (Nat.lt_succ_of_le h5) ?_
      exact (SlrOk.agrees ok _ _).2.2.2.2 ⟨x, h2⟩
    · exact hw h

/-- C49 for trim grammars and lexers none of whose patterns repeats something empty. -/
theorem c49_returns_partial (hg : Built g) (hp : IsParser g tbl) (ht : Trim g) (hl : LexerFor p rules es l)
    (hr : ∀ e ∈ es, RepeatsNonEmpty e) (input : List Char) :
    ¬ Panics l tbl input ∧ ∃ r, Parses l tbl input r := by
  obtain ⟨h1, h2⟩ := c49_trim_partial hg hp ht hl input
  refine ⟨h1, h2.2 ?_⟩
  rintro ⟨ts, _, _, h3, _, _, h4⟩
  obtain ⟨a, ha⟩ := scans_more hl (passes_of hl hr) h3
  exact h4 a ha

/-! ## Examples -/

/-- The lexer with the rules `x`, `;` and `(a*)*`. -/
def stuckLexer : Lexer String :=
  ⟨⟨0, [⟨0, false, [(.literal (.mtch 'x'), [2]), (.literal (.mtch ';'), [3]), (.eps, [5])]⟩, ⟨1, true, []⟩,
    ⟨2, true, []⟩, ⟨3, true, []⟩, ⟨4, true, []⟩, ⟨5, false, [(.quantified .asterisk, [4]), (.eps, [6])]⟩,
    ⟨6, false, [(.quantified .asterisk, [5]), (.literal (.mtch 'a'), [6])]⟩]⟩,
    [(2, String.ofList), (3, String.ofList), (4, String.ofList)]⟩

def stuckRules : List (List Char × (List Char → String)) :=
  [("x".toList, String.ofList), (";".toList, String.ofList), ("(a*)*".toList, String.ofList)]

def stuckTrees : List Regex.Expr := [.lit (.mtch 'x') none, .lit (.mtch ';') none, starStar]

omit [Unicode] in
theorem stuck_for : LexerFor .debug stuckRules stuckTrees stuckLexer := ⟨rfl, rfl⟩

/-- On the text `a` the parser of `P → P Q ; | Q ;`, `Q → x | ( Q )` waits for the lexer forever. -/
example : TextWaits goodGrammar stuckTrees stuckRules ['a'] ∧ RunsOn stuckLexer (tableOf goodGrammar) ['a'] := by
  have h : TextWaits goodGrammar stuckTrees stuckRules ['a'] := by
    refine ⟨[], 0, _, .done, .refl, rfl, fun a ha => ?_⟩
    cases ha with
    | next hp _ _ =>
      refine hp starStar (by simp [stuckTrees]) ['a'] (List.prefix_refl _) ?_
      have hb : Begins (.lit (.mtch 'a') (some .asterisk)) false ['a'] := .rep (by simp) trivial (by simp [LitSet])
      exact SpinsFirst.rounds (ws := []) (u := ['a']) hb (by simp) (.lit trivial (by simp))
  obtain ⟨_, _, _, h1⟩ := c48_machine_partial goodGrammar_built goodGrammar_parser
  exact ⟨h, (h1 _ _ _ _ stuck_for _).2.2.2.2 (.inr h)⟩

/-- On the text `xxa` it returns an error at the second `x`: it does not ask for the next token. -/
example : Parses stuckLexer (tableOf goodGrammar) "xxa".toList none := by
  refine ⟨30, 10, ?_⟩
  rw [parseText_eq (k := 10) (Nat.le_refl _)]
  have h : streamOf (nfaMachine stuckLexer.nfa 30) stuckLexer.tokens 10 (InputIter.new "xxa".toList) =
      ([⟨"x", ['x'], (0, 1)⟩, ⟨"x", ['x'], (1, 2)⟩], .diverge) := by
    with_unfolding_all rfl
  rw [h]
  decide +kernel

/-- No pattern of `x` and `;` repeats anything: texts are always parsed or rejected, and no more of them is accepted
than the specification says. -/
example (input : List Char) : (¬ Panics semis (tableOf goodGrammar) input ∧
    ∃ r, Parses semis (tableOf goodGrammar) input r) ∧
    ∀ n, Parses semis (tableOf goodGrammar) input (some n) ↔
      ∃ ts : List (Tok String), Scans semisTrees [("x".toList, String.ofList), (";".toList, String.ofList)] input
        (ts.map some ++ [none]) ∧ ParseTree goodGrammar n (ts.map Tok.kind) ∧ EndsInToken n :=
  ⟨c49_returns_partial goodGrammar_built goodGrammar_parser goodGrammar_trim semis_for
    (fun e he => (literals_regular semis_literals e he).1) input,
    fun _ => c48_scans_partial goodGrammar_built goodGrammar_parser goodGrammar_epsFree goodGrammar_followed.surely
      goodGrammar_not_inside semis_for⟩

/-- `c44_ahead_partial` applies to them. -/
example : LooksOneAhead semisTrees :=
  looksOneAhead_of semis_for (literals_regular semis_literals) (literals_oneLookahead semis_literals)

end Pango.Props
