import Verif.Proofs.Caught
import Verif.Proofs.EffectLog
import Verif.Props.Lossless
import Verif.Props.LexStream

/-!
# C88: lexers that are used again after a panic of a function of the user
-/

namespace Pango.Props

open Pango Pango.Lex Pango.Fsm Pango.Regex Pango.Spec

variable [Unicode] {W K : Type} {p : Profile} {rules : List (List Char × (List Char → Fallible W K))}
  {es : List Expr} {l : Lexer (Fallible W K)}

/-- The first calls of `next`, each of them inside of `catch_unwind`, do `as` and turn the world into `world'`. -/
def Catches (l : Lexer (Fallible W K)) (input : List Char) (world : W) (as : List (Answer K)) (world' : W) : Prop :=
  ∃ fuel it, lexCallsC (nfaMachine l.nfa fuel) l.tokens as.length (InputIter.new input) world = .ok ((as, it), world')

/-- The tokens among the answers. -/
def caughtTokens (as : List (Answer K)) : List (Tok K) :=
  as.filterMap fun
    | .returned a => a
    | .panicked => none

/-- Rules with functions that return the number of the rule, but for the rules in `bad`, which panic. -/
def panicking (patterns : List (List Char)) (bad : List Nat) : List (List Char × (List Char → Fallible Unit Nat)) :=
  patterns.mapIdx fun i pattern => (pattern, fun _ world => (if i ∈ bad then none else some i, world))

/-- C88, the full claim: a panic costs the token at which it happens, and nothing else.  Each call returns what it
returns if no function panics, or panics. -/
def C88 : Prop :=
  ∀ (p : Profile) (patterns : List (List Char)) (bad : List Nat) (es : List Expr) (l calm : Lexer (Fallible Unit Nat)),
    LexerFor p (panicking patterns bad) es l → LexerFor p (panicking patterns []) es calm →
    ∀ (input : List Char) (as bs : List (Answer Nat)), Catches l input () as () → Catches calm input () bs () →
    as.length = bs.length → ∀ (i : Nat) (a : Option (Tok Nat)), as[i]? = some (.returned a) →
    bs[i]? = some (.returned a)

/-! ## Examples -/

/-- The lexer with the rules `a+`, `=` and `==`, where the function of `=` panics. -/
def panickyWords : Lexer (Fallible Unit Nat) :=
  ⟨words.nfa, [(2, fun _ w => (some 0, w)), (4, fun _ w => (none, w)), (5, fun _ w => (some 2, w))]⟩

/-- The same without panics. -/
def calmWords : Lexer (Fallible Unit Nat) :=
  ⟨words.nfa, [(2, fun _ w => (some 0, w)), (4, fun _ w => (some 1, w)), (5, fun _ w => (some 2, w))]⟩

omit [Unicode] in
theorem panickyWords_for : LexerFor .debug (panicking ["a+".toList, "=".toList, "==".toList] [1]) wordsTrees
    panickyWords := ⟨rfl, rfl⟩

omit [Unicode] in
theorem calmWords_for : LexerFor .debug (panicking ["a+".toList, "=".toList, "==".toList] []) wordsTrees
    calmWords := ⟨rfl, rfl⟩

/-- The token behind the panic has the text of the panic in front of it. -/
theorem panickyWords_catches : Catches panickyWords "=aa=a".toList ()
    [.panicked, .returned (some ⟨0, "=aa".toList, (0, 3)⟩), .panicked, .returned (some ⟨0, "=a".toList, (3, 5)⟩),
      .returned none] () :=
  ⟨10, ⟨[], [], (5, 0), [], []⟩, by with_unfolding_all rfl⟩

theorem calmWords_catches : Catches calmWords "=aa=a".toList ()
    [.returned (some ⟨1, "=".toList, (0, 1)⟩), .returned (some ⟨0, "aa".toList, (1, 3)⟩),
      .returned (some ⟨1, "=".toList, (3, 4)⟩), .returned (some ⟨0, "a".toList, (4, 5)⟩), .returned none] () :=
  ⟨10, ⟨[], [], (5, 0), [], []⟩, by with_unfolding_all rfl⟩

/-- C88 is false: the source of the token behind a panic begins with the text at which it happened. -/
theorem c88_false : ¬ C88 := by
  intro h
  have := h _ _ _ _ _ _ panickyWords_for calmWords_for _ _ _ panickyWords_catches calmWords_catches rfl 1 _ rfl
  exact absurd this (by decide)

/-! ## What is true -/

/-- C88 for all lexers, all functions that may panic and all inputs, in place of what is claimed: the calls of `next` do
`as` and turn the world into `world'` if and only if this is what `CallsC` says.  Missing: that a panic costs a
token and nothing else, which is false in general. -/
theorem c88_calls_partial (hl : LexerFor p rules es l) (input : List Char) (as : List (Answer K)) (world world' : W) :
    Catches l input world as world' ↔
      ∃ sc, CallsC (taken es) (Readable es) (Passes es) (kindAt rules) (Scanner.new input) world as sc world' := by
  rw [Catches, hl.toBuilt.callsC_iff (rep_new input)]
  simp

example : ∃ sc, CallsC (taken wordsTrees) (Readable wordsTrees) (Passes wordsTrees)
    (kindAt (panicking ["a+".toList, "=".toList, "==".toList] [1])) (Scanner.new "=aa=a".toList) ()
    [.panicked, .returned (some ⟨0, "=aa".toList, (0, 3)⟩), .panicked, .returned (some ⟨0, "=a".toList, (3, 5)⟩),
      .returned none] sc () :=
  (c88_calls_partial panickyWords_for _ _ _ _).1 panickyWords_catches

/-- C88: no call panics unless a function of the user does.  Catching all of these, no panic is left. -/
theorem c88_no_panic (hl : buildLexer p rules = .ok (.ok l)) (input : List Char) (fuel n : Nat) (world : W) :
    lexCallsC (nfaMachine l.nfa fuel) l.tokens n (InputIter.new input) world ≠ .panic := by
  obtain ⟨es, b⟩ := buildLexer_built hl
  exact (b.safe fuel).lexCallsC n _ world

example : ∃ l, buildLexer .debug (panicking ["a+".toList, "=".toList, "==".toList] [1]) = .ok (.ok l) :=
  ⟨_, panickyWords_for.built⟩

omit [Unicode] in
/-- C88: as long as no function panics, the calls do what they do without `catch_unwind` (C69). -/
theorem c88_same {σ : Type} (m : Machine σ) (gs : Generators (Fallible W K)) (n : Nat) (it it' : InputIter) (world world' : W)
    (as : List (Option (Tok K))) :
    lexCallsC m gs n it world = .ok ((as.map .returned, it'), world') ↔
      lexCallsE m (gs.map fun g => (g.1, fun source => uncaught (g.2 source))) n it world = .ok ((as, it'), world') :=
  lexCallsC_uncaught

/-! ## Where the tokens are -/

omit [Unicode] in
theorem left_drop (sc : Scanner) (skipped : List (Nat × Char)) (start n : Nat) :
    (Scanner.mk skipped (sc.again.drop n) (sc.ahead.drop (n - sc.again.length)) start).left = sc.left.drop n := by
  simp [Scanner.left, List.drop_append]

section

variable {rs : List (List Char → Prop)} {Live Ends : List Char → Prop} {A : Type}
  {kind : Nat → List Char → Option A} {act : Nat → List Char → Option (Fallible W K)}

omit [Unicode] in
/-- What a call that returns a token takes. -/
theorem _root_.Pango.Spec.Call.step_some {sc sc' : Scanner} {t : Tok A} (h : Call rs Live kind sc (some t) sc') :
    ∃ w, w ≠ [] ∧ w <+: sc.left ∧ sc'.left.Sublist (sc.left.drop w.length) ∧ t.pos = (sc.start, stop w) ∧
      sc'.start = stop w := by
  cases h with
  | @token w back x i k h1 h2 h3 h4 h5 h6 =>
    obtain ⟨rest, hrest⟩ := h1
    refine ⟨w, fun h0 => h4.nonempty (by rw [h0]; rfl), ⟨_, by rw [← hrest]; simp only [List.append_assoc]; rfl⟩, ?_, rfl, rfl⟩
    have h7 : rest = sc.left.drop (w ++ back ++ [x]).length := by rw [← hrest]; simp
    have h8 : (sc.ahead.drop ((w ++ back ++ [x]).length - sc.again.length)).Sublist rest := by
      rw [h7, Scanner.left, List.drop_append]
      exact List.sublist_append_right _ _
    have h9 : sc.left.drop w.length = back ++ [x] ++ rest := by rw [← hrest]; simp
    rw [h9]
    exact (List.Sublist.refl _).append h8
  | last h1 h2 h3 h4 => exact ⟨sc.left, h1, List.prefix_refl _, by simp [Scanner.left], rfl, rfl⟩

omit [Unicode] in
/-- What a call takes that finds nothing. -/
theorem _root_.Pango.Spec.Call.step_none {sc sc' : Scanner} (h : Call rs Live kind sc none sc') :
    ∃ w, w <+: sc.left ∧ sc'.left = sc.left.drop w.length ∧ sc'.start = sc.start ∧ sc'.skipped = sc.skipped ++ w ∧
      sc'.again.length ≤ sc.again.length := by
  cases h with
  | @nothing u x h1 => exact ⟨u ++ [x], h1, left_drop .., rfl, by simp, by simp⟩
  | over => exact ⟨sc.left, List.prefix_refl _, by simp [Scanner.left], rfl, rfl, by simp⟩

omit [Unicode] in
/-- A token comes with a kind. -/
theorem _root_.Pango.Spec.Call.kind_some (mono : ∀ w v, Live (w ++ v) → Live w) {sc sc' : Scanner}
    {act : Nat → List Char → Option (Action W K)} {kind : Nat → List Char → Option A} {t : Tok A}
    {u : List (Nat × Char)} {log : List (Nat × List Char)} (hc : Call rs Live kind sc (some t) sc')
    (hu : ReadsUpTo Live sc.left u) (hlog : Applies rs (word sc.skipped) [] (word u) log) {world world' : W}
    {k : Option K} (hrun : runAll act log none world = .ok (k, world')) : ∃ k', k = some k' := by
  obtain ⟨log', i, rfl, _⟩ := hc.log mono hu hlog
  rw [runAll_append, Outcome.bind_eq_ok] at hrun
  obtain ⟨x, _, hrun⟩ := hrun
  simp only [runAll] at hrun
  split at hrun
  · cases hrun
  · split at hrun
    · cases hrun; exact ⟨_, rfl⟩
    · cases hrun
    · cases hrun

omit [Unicode] in
/-- A property of what is left and of where tokens begin, and what it says of the tokens. -/
theorem _root_.Pango.Spec.CallsC.rec_on (mono : ∀ w v, Live (w ++ v) → Live w) {I : Scanner → Prop}
    {P : Scanner → List (Answer K) → Prop} (h0 : ∀ sc, I sc → P sc [])
    (h1 : ∀ sc sc' (a : Tok (Action W K)) (k : K) as, I sc → Ends (word sc.left) →
      Call rs Live (fun i source => (act i source).map uncaught) sc (some a) sc' →
      I sc' ∧ (P sc' as → P sc (.returned (some ⟨k, a.source, a.pos⟩) :: as)))
    (h2 : ∀ sc sc' w as, I sc → w <+: sc.left → sc'.left = sc.left.drop w.length → sc'.start = sc.start →
      sc'.skipped = sc.skipped ++ w → sc'.again.length ≤ sc.again.length →
      I sc' ∧ (P sc' as → P sc (.returned none :: as) ∧ (w ≠ [] → P sc (.panicked :: as))))
    {sc sc' : Scanner} {world world' : W} {as : List (Answer K)}
    (h : CallsC rs Live Ends act sc world as sc' world') (hi : I sc) : P sc as := by
  induction h with
  | done => exact h0 _ hi
  | @returned sc sc' sc'' world world' world'' a as u log k hp hc hu hlog hrun _ ih =>
    cases a with
    | some t =>
      obtain ⟨k', rfl⟩ := hc.kind_some mono hu hlog hrun
      obtain ⟨e1, e2⟩ := h1 sc sc' t k' as hi hp hc
      exact e2 (ih e1)
    | none =>
      obtain ⟨w, e1, e2, e3, e4, e5⟩ := hc.step_none
      obtain ⟨e6, e7⟩ := h2 sc sc' w as hi e1 e2 e3 e4 e5
      have : withKind (none : Option (Tok (Action W K))) k = none := by cases k <;> rfl
      rw [this]
      exact (e7 (ih e6)).1
  | @panicked sc _ _ _ _ _ as u x _ _ _ _ g1 g2 _ _ _ _ _ _ ih =>
    obtain ⟨e6, e7⟩ := h2 sc ⟨sc.skipped ++ u ++ [x], sc.again.drop (u ++ [x]).length,
      sc.ahead.drop ((u ++ [x]).length - sc.again.length), sc.start⟩ (u ++ [x]) as hi g1 (left_drop ..) rfl
      (by simp) (by simp)
    exact (e7 (ih e6)).2 (by simp)

end

/-- C88: whatever panics, the tokens lie in the input one behind the other, without gaps. -/
theorem c88_positions (hl : LexerFor p rules es l) (input : List Char) (as : List (Answer K)) (world world' : W)
    (h : Catches l input world as world') : Contiguous input 0 (caughtTokens as) := by
  obtain ⟨sc, h⟩ := (c88_calls_partial hl _ _ _ _).1 h
  refine h.rec_on (fun _ _ h => hl.toBuilt.readable_mono h)
    (I := fun sc => (sc.left.map Prod.fst).Pairwise (· < ·) ∧ ∀ x ∈ sc.left, sc.start ≤ x.1 ∧ x.1 < input.length)
    (P := fun sc as => Contiguous input sc.start (caughtTokens as)) (fun _ _ => trivial) ?_ ?_ ?_
  · rintro sc sc' t k as ⟨i1, i2⟩ _ hc
    obtain ⟨w, e1, ⟨r, hr⟩, e3, e4, e5⟩ := hc.step_some
    obtain ⟨w', y, rfl⟩ : ∃ w' y, w = w' ++ [y] := ⟨w.dropLast, w.getLast e1, (List.dropLast_concat_getLast e1).symm⟩
    rw [stop_snoc] at e4 e5
    have hd : sc.left.drop (w' ++ [y]).length = r := by rw [← hr]; simp
    rw [hd] at e3
    have hy := i2 y (by rw [← hr]; simp)
    refine ⟨⟨?_, ?_⟩, ?_⟩
    · refine i1.sublist (List.Sublist.map _ (e3.trans ?_))
      rw [← hr]
      exact List.sublist_append_right _ _
    · intro x hx
      have hx := e3.subset hx
      rw [← hr, List.map_append, List.pairwise_append] at i1
      have := i1.2.2 y.1 (by simp) x.1 (List.mem_map_of_mem hx)
      rw [e5]
      exact ⟨this, (i2 x (by rw [← hr]; exact List.mem_append_right _ hx)).2⟩
    · intro ih
      rw [e5] at ih
      simp only [caughtTokens, List.filterMap_cons, Contiguous, e4]
      exact ⟨trivial, by omega, by omega, ih⟩
  · rintro sc sc' w as ⟨i1, i2⟩ _ e2 e3 _ _
    refine ⟨⟨?_, ?_⟩, ?_⟩
    · rw [e2]
      exact i1.sublist ((List.drop_sublist _ _).map _)
    · intro x hx
      rw [e2] at hx
      rw [e3]
      exact i2 x (List.mem_of_mem_drop hx)
    · intro ih
      rw [e3] at ih
      exact ⟨ih, fun _ => ih⟩
  · have key : ∀ (s : List Char) (n : Nat), ((numbered n s).map Prod.fst).Pairwise (· < ·) ∧
        ∀ x ∈ numbered n s, n ≤ x.1 ∧ x.1 < n + s.length := by
      intro s
      induction s with
      | nil => intro n; simp [numbered]
      | cons c s ih =>
        intro n
        obtain ⟨h1, h2⟩ := ih (n + 1)
        simp only [numbered, List.map_cons, List.pairwise_cons, List.mem_map, List.mem_cons, List.length_cons]
        refine ⟨⟨?_, h1⟩, ?_⟩
        · rintro _ ⟨x, hx, rfl⟩
          exact (h2 x hx).1
        · rintro x (rfl | hx)
          · simp
          · have := h2 x hx
            omega
    have := key input 0
    simpa [Scanner.new, Scanner.left] using this

example : Contiguous "=aa=a".toList 0 [(⟨0, "=aa".toList, (0, 3)⟩ : Tok Nat), ⟨0, "=a".toList, (3, 5)⟩] :=
  c88_positions panickyWords_for _ _ _ _ panickyWords_catches

/-- The number of panics. -/
def panics (as : List (Answer K)) : Nat :=
  as.countP fun
    | .panicked => true
    | .returned _ => false

/-- C88: there are not more panics and tokens than characters.  So a loop that catches panics and goes on until `next`
returns `None` ends. -/
theorem c88_bound (hl : LexerFor p rules es l) (input : List Char) (as : List (Answer K)) (world world' : W)
    (h : Catches l input world as world') : panics as + (caughtTokens as).length ≤ input.length := by
  obtain ⟨sc, h⟩ := (c88_calls_partial hl _ _ _ _).1 h
  have := h.rec_on (fun _ _ h => hl.toBuilt.readable_mono h) (I := fun _ => True)
    (P := fun sc as => panics as + (caughtTokens as).length ≤ sc.left.length) (fun _ _ => by simp [panics, caughtTokens])
    (by
      rintro sc sc' t k as _ _ hc
      obtain ⟨w, e1, e2, e3, _⟩ := hc.step_some
      have h3 := e3.length_le
      have h2 := e2.length_le
      have h1 : 0 < w.length := List.length_pos_iff.2 e1
      rw [List.length_drop] at h3
      refine ⟨trivial, fun ih => ?_⟩
      simp only [panics, caughtTokens, List.countP_cons, List.filterMap_cons, List.length_cons] at ih ⊢
      simp only [Bool.false_eq_true, if_false]
      omega)
    (by
      rintro sc sc' w as _ e1 e2 _ _ _
      have h2 := e1.length_le
      refine ⟨trivial, fun ih => ?_⟩
      rw [e2, List.length_drop] at ih
      simp only [panics, caughtTokens, List.countP_cons, List.filterMap_cons] at ih ⊢
      refine ⟨by simp only [Bool.false_eq_true, if_false]; omega, fun hw => ?_⟩
      have h1 : 0 < w.length := List.length_pos_iff.2 hw
      simp only [if_true]
      omega) trivial
  have hn : (Scanner.new input).left.length = input.length := by
    rw [show (Scanner.new input).left = numbered 0 input from rfl, ← word_length, word_numbered]
  omega

example : panics [Answer.panicked, .returned (some ⟨0, "=aa".toList, (0, 3)⟩), .panicked,
    .returned (some ⟨0, "=a".toList, (3, 5)⟩), .returned none] = 2 := rfl

/-- C88 for the lexers that put nothing back: no text is lost.  The source of each token is what stands in the input at
its position, and together they are the input up to the end of the last token.  Missing: the other lexers. -/
theorem c88_sources_partial (hl : LexerFor p rules es l) (hb : PutsNothingBack es) (input : List Char)
    (as : List (Answer K)) (world world' : W) (h : Catches l input world as world') :
    (∀ t ∈ caughtTokens as, t.source = (input.drop t.pos.1).take (t.pos.2 - t.pos.1)) ∧
    ((caughtTokens as).map Tok.source).flatten ++ input.drop (endOf 0 (caughtTokens as)) = input := by
  obtain ⟨sc, h⟩ := (c88_calls_partial hl _ _ _ _).1 h
  have := h.rec_on (fun _ _ h => hl.toBuilt.readable_mono h)
    (I := fun sc => word sc.skipped ++ word sc.left = input.drop sc.start ∧
      sc.left = numbered (sc.start + sc.skipped.length) (word sc.left) ∧ sc.again.length ≤ 1)
    (P := fun sc as => (∀ t ∈ caughtTokens as, t.source = (input.drop t.pos.1).take (t.pos.2 - t.pos.1)) ∧
      ((caughtTokens as).map Tok.source).flatten ++ input.drop (endOf sc.start (caughtTokens as)) =
        input.drop sc.start) (fun _ _ => by simp [caughtTokens, endOf])
    (by
      rintro sc sc' t k as ⟨i1, i2, i3⟩ hp hc
      -- what the token takes
      have key : ∃ w, w ≠ [] ∧ w <+: sc.left ∧ t.source = word (sc.skipped ++ w) ∧ t.pos = (sc.start, stop w) ∧
          sc'.start = stop w ∧ sc'.skipped = [] ∧ sc'.left = sc.left.drop w.length ∧ sc'.again.length ≤ 1 := by
        cases hc with
        | @token w back x i k h1 h2 h3 h4 h5 h6 =>
          have hback : back = [] := by
            have := hb (word w) (word back) x.2 (by simpa using h2) (by simpa using h3) (by
              refine passes_mono es _ (word (sc.left.drop (w ++ back ++ [x]).length)) ?_
              have : word (w ++ back ++ [x]) ++ word (sc.left.drop (w ++ back ++ [x]).length) = word sc.left := by
                obtain ⟨r, hr⟩ := h1
                rw [← hr, ← word_append]
                simp
              simp only [word_append] at this
              rw [show [x.2] = word [x] from rfl, this]
              exact hp) (by simpa using h4)
            simpa using this
          subst hback
          rw [List.append_nil] at h1 h2 h3 h4
          have hne : w ≠ [] := fun h0 => h4.nonempty (by rw [h0]; rfl)
          obtain ⟨r, hr⟩ := h1
          refine ⟨w, hne, ⟨[x] ++ r, by rw [← hr]; simp⟩, rfl, rfl, rfl, rfl, ?_, by simp⟩
          have hlen : 0 < w.length := List.length_pos_iff.2 hne
          have hr' : r = sc.left.drop (w ++ [x]).length := by rw [← hr]; simp
          have e : sc.again.drop (w ++ [x]).length = [] := by
            rw [List.drop_eq_nil_iff, List.length_append, List.length_singleton]
            omega
          have hr'' : r = sc.ahead.drop ((w ++ [x]).length - sc.again.length) := by
            rw [hr', Scanner.left, List.drop_append, e, List.nil_append]
          have e2 : sc.left.drop w.length = [x] ++ r := by rw [← hr]; simp
          rw [e2, hr'']
          simp [Scanner.left]
        | last h1 h2 h3 h4 => exact ⟨sc.left, h1, List.prefix_refl _, rfl, rfl, rfl, rfl, by simp [Scanner.left], by simp⟩
      obtain ⟨w, e1, ⟨r, hr⟩, e3, e4, e5, e6, e7, e8⟩ := key
      have hd : sc.left.drop w.length = r := by rw [← hr]; simp
      rw [hd] at e7
      obtain ⟨n1, n2⟩ := numbered_split (i2.symm.trans hr.symm)
      have hstop : stop w = sc.start + sc.skipped.length + w.length := by
        have := congrArg stop n1
        rw [stop_numbered (by simpa using e1)] at this
        simpa using this
      have hin : input.drop sc.start = word (sc.skipped ++ w) ++ word r := by
        rw [← i1, ← hr]
        simp
      have hin' : input.drop (stop w) = word r := by
        rw [hstop, Nat.add_assoc, ← List.drop_drop, hin]
        have : sc.skipped.length + w.length = (word (sc.skipped ++ w)).length := by simp
        rw [this, List.drop_left]
      refine ⟨⟨?_, ?_, e8⟩, ?_⟩
      · rw [e6, e7, e5, hin']
        rfl
      · rw [e6, e7, e5, hstop]
        simpa using n2
      · rintro ⟨ih1, ih2⟩
        have hc : caughtTokens (.returned (some ⟨k, t.source, t.pos⟩) :: as) =
            ⟨k, t.source, t.pos⟩ :: caughtTokens as := rfl
        rw [hc]
        refine ⟨?_, ?_⟩
        · intro t' ht'
          rcases List.mem_cons.1 ht' with rfl | ht'
          · simp only [e3, e4, hin]
            have : stop w - sc.start = (word (sc.skipped ++ w)).length := by
              rw [hstop]
              simp
              omega
            rw [this, List.take_left]
          · exact ih1 t' ht'
        · rw [e5, hin'] at ih2
          simp only [List.map_cons, List.flatten_cons, endOf, e4, List.append_assoc, ih2, e3, hin])
    (by
      rintro sc sc' w as ⟨i1, i2, i3⟩ ⟨r, hr⟩ e2 e3 e4 e5
      have hd : sc.left.drop w.length = r := by rw [← hr]; simp
      rw [hd] at e2
      obtain ⟨n1, n2⟩ := numbered_split (i2.symm.trans hr.symm)
      refine ⟨⟨?_, ?_, Nat.le_trans e5 i3⟩, ?_⟩
      · rw [e4, e2, e3, ← i1, ← hr]
        simp
      · rw [e4, e2, e3, List.length_append, ← Nat.add_assoc]
        exact n2
      · intro ih
        rw [e3] at ih
        exact ⟨ih, fun _ => ih⟩)
    (by
      refine ⟨?_, ?_, by simp [Scanner.new]⟩
      · simp [Scanner.new, Scanner.left]
      · simp [Scanner.new, Scanner.left])
  exact this

example : PutsNothingBack wordsTrees ∧ "=aa".toList ++ "=a".toList = "=aa=a".toList := ⟨words_kept, rfl⟩

/-- C88 for all lexers: the token behind a panic.  If the first call panics and the second one returns a token, then a
rule matches the text at which the panic happened.  The token has this text in front of the longest match
behind it. -/
theorem c88_next_partial (hl : LexerFor p rules es l) (input : List Char) (t : Tok K) (as : List (Answer K))
    (world world' : W) (h : Catches l input world (.panicked :: .returned (some t) :: as) world') :
    ∃ k, 0 < k ∧ k < t.pos.2 ∧ AnyMatch (taken es) (input.take k) ∧ t.pos.1 = 0 ∧ t.source = input.take t.pos.2 ∧
      Longest (taken es) (input.drop k) (t.source.drop k) := by
  have mono : ∀ w v, Readable es (w ++ v) → Readable es w := fun _ _ h => hl.toBuilt.readable_mono h
  have live : ∀ w, AnyMatch (taken es) w → Readable es w := fun _ h => hl.toBuilt.readable_taken h
  obtain ⟨sc, h⟩ := (c88_calls_partial hl _ _ _ _).1 h
  cases h with
  | @panicked _ _ _ _ _ _ _ u x log _ _ _ g1 g2 _ _ g5 _ _ h =>
    generalize hv : u ++ [x] = v at *
    have hvne : v ≠ [] := by rw [← hv]; simp
    have hskip : (Scanner.new input).skipped ++ u ++ [x] = v := by simpa [Scanner.new] using hv
    rw [hskip] at h
    obtain ⟨r, hr⟩ := g1
    have hleft0 : (Scanner.new input).left = numbered 0 input := rfl
    obtain ⟨n1, n2⟩ := numbered_split (hleft0.symm.trans hr.symm)
    have hin : input = word v ++ word r := by
      have := congrArg word (hleft0.symm.trans hr.symm)
      simpa using this
    have hd : (Scanner.new input).left.drop v.length = r := by rw [← hr]; simp
    have htake : input.take v.length = word v := by
      rw [hin, show v.length = (word v).length by simp, List.take_left]
    have hdrop : input.drop v.length = word r := by
      rw [hin, show v.length = (word v).length by simp, List.drop_left]
    have hpos : 0 < v.length := List.length_pos_iff.2 hvne
    generalize hsc : Scanner.mk v ((Scanner.new input).again.drop v.length)
      ((Scanner.new input).ahead.drop (v.length - (Scanner.new input).again.length)) (Scanner.new input).start = sc1 at h
    have hl1 : sc1.left = r := by rw [← hsc, left_drop, hd]
    have hs1 : sc1.skipped = v := by rw [← hsc]
    have hst : sc1.start = 0 := by rw [← hsc]; rfl
    generalize hx : Answer.returned (some t) :: as = xs at h
    cases h with
    | done => cases hx
    | panicked => cases hx
    | @returned _ sc2 _ _ _ _ a as' u' log' k hp hc hu hlog hrun _ =>
      simp only [List.cons.injEq, Answer.returned.injEq] at hx
      obtain ⟨hx, rfl⟩ := hx
      cases a with
      | none => cases k <;> simp [withKind] at hx
      | some t' =>
        obtain ⟨k', rfl⟩ := hc.kind_some mono hu hlog hrun
        simp only [withKind, Option.some.injEq] at hx
        subst hx
        have key : ∃ w, w ≠ [] ∧ w <+: r ∧ t'.source = word (v ++ w) ∧ t'.pos = (0, stop w) ∧
            Longest (taken es) (word r) (word w) := by
          cases hc with
          | @token w back y i k h1 h2 h3 h4 h5 h6 =>
            rw [hl1] at h1
            obtain ⟨rest, hrest⟩ := h1
            have hne : w ≠ [] := fun h0 => h4.nonempty (by rw [h0]; rfl)
            refine ⟨w, hne, ⟨back ++ [y] ++ rest, by rw [← hrest]; simp⟩, by rw [hs1], by rw [hst], ?_⟩
            have h7 : FoundIn (taken es) (Readable es) (word w) (word back ++ y.2 :: word rest) :=
              .inr ⟨_, _, _, rfl, by simpa using h2, by simpa using h3, by simpa using h4⟩
            have := h7.longest mono live (by simpa using hne) h5.anyMatch
            rw [← hrest]
            simpa using this
          | @last i k h1 h2 h3 h4 =>
            rw [hl1] at h1 h2 h3
            refine ⟨r, h1, List.prefix_refl _, by rw [hs1, hl1], by rw [hst, hl1], ?_⟩
            exact ⟨by simpa using h1, List.prefix_refl _, h3.anyMatch, fun v hv _ => hv.length_le⟩
        obtain ⟨w, e1, ⟨r', hr'⟩, e3, e4, e5⟩ := key
        have n3 : w = numbered v.length (word w) := by
          have : numbered (0 + v.length) (word r) = w ++ r' := by rw [hr', ← n2]
          rw [Nat.zero_add] at this
          exact (numbered_split this).1
        have hstop : stop w = v.length + w.length := by
          have := congrArg stop n3
          rw [stop_numbered (by simpa using e1)] at this
          simpa using this
        have hw : 0 < w.length := List.length_pos_iff.2 e1
        refine ⟨v.length, hpos, ?_, ?_, by simp [e4], ?_, ?_⟩
        · simp only [e4, hstop]
          omega
        · rw [htake]
          exact g5.anyMatch
        · simp only [e4, e3, hstop, hin, ← hr']
          rw [show v.length + w.length = (word (v ++ w)).length by simp, word_append w, ← List.append_assoc,
            ← word_append, List.take_left]
        · rw [hdrop]
          simp only [e3, word_append]
          rw [show v.length = (word v).length by simp, List.drop_left]
          exact e5

/-- `=aa` is `=`, at which the panic happened, and `aa`. -/
example : ∃ k, 0 < k ∧ k < 3 ∧ AnyMatch (taken wordsTrees) ("=aa=a".toList.take k) ∧ 0 = 0 ∧
    "=aa".toList = "=aa=a".toList.take 3 ∧ Longest (taken wordsTrees) ("=aa=a".toList.drop k) ("=aa".toList.drop k) :=
  c88_next_partial panickyWords_for _ _ _ _ _ panickyWords_catches

end Pango.Props
