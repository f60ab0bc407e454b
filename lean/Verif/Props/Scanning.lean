import Verif.Props.Lexing
import Verif.Proofs.Tokenizes

/-!
# C13, C15, C18, C23 for all patterns: what every call returns

`Call` and `Calls` (`Spec/Scanning.lean`) say what a lexer does in terms of the words that its patterns take
(`taken`), can be read up to (`Readable`) and get stuck on (`Passes`).
-/

namespace Pango.Props

open Pango Pango.Lex Pango.Fsm Pango.Regex Pango.Spec

variable [Unicode] {K : Type}

/-- What the calls of `next` on all of the input return, as a specification. -/
def Scans (es : List Expr) (rules : List (List Char × (List Char → K))) (input : List Char)
    (as : List (Option (Tok K))) : Prop :=
  Calls (taken es) (Readable es) (Passes es) (kindAt rules) (Scanner.new input) as

/-- C23 for all lexers and all inputs, in place of maximal munch: what the calls of `next` return, exactly.  A
call returns if and only if no beginning of what is left makes a pattern get stuck.  Missing: that the tokens
are those of maximal munch, which is false in general. -/
theorem c23_calls_partial (p : Profile) (rules : List (List Char × (List Char → K))) (es : List Expr)
    (l : Lexer K) (hl : LexerFor p rules es l) (input : List Char) (n : Nat) (as : List (Option (Tok K))) :
    (∃ fuel it, lexCalls (nfaMachine l.nfa fuel) l.tokens n (InputIter.new input) = .ok (as, it)) ↔
      as.length = n ∧ Scans es rules input as :=
  hl.toBuilt.calls_iff (rep_new input)

/-- The same for the tokens up to the first `None`. -/
theorem c23_tokens_partial (p : Profile) (rules : List (List Char × (List Char → K))) (es : List Expr)
    (l : Lexer K) (hl : LexerFor p rules es l) (input : List Char) (ts : List (Tok K)) :
    Tokens l input ts ↔ Scans es rules input (ts.map some ++ [none]) := by
  have h := c23_calls_partial p rules es l hl input (ts.length + 1) (ts.map some ++ [none])
  simp only [List.length_append, List.length_map, List.length_singleton, true_and] at h
  rw [← h, Tokens]
  constructor
  · rintro ⟨fuel, n, it, h⟩
    exact ⟨fuel, it, lexAll_iff_calls.1 ⟨n, h⟩⟩
  · rintro ⟨fuel, it, h⟩
    obtain ⟨n, hn⟩ := lexAll_iff_calls.2 h
    exact ⟨fuel, n, it, hn⟩

/-- The specification determines the answers. -/
theorem c23_unique (p : Profile) (rules : List (List Char × (List Char → K))) (es : List Expr)
    (l : Lexer K) (hl : LexerFor p rules es l) (input : List Char) (as as' : List (Option (Tok K)))
    (h : Scans es rules input as) (h' : Scans es rules input as') (hlen : as.length = as'.length) : as = as' := by
  have b := hl.toBuilt
  unfold Scans at h h'
  generalize Scanner.new input = sc at h h'
  induction h generalizing as' with
  | done => exact (List.length_eq_zero_iff.1 hlen.symm).symm
  | next _ hc _ ih =>
    cases h' with
    | done => simp at hlen
    | next _ hc' hcs' =>
      obtain ⟨rfl, rfl⟩ := Call.unique (fun _ _ h => b.readable_mono h) hc hc'
      rw [ih _ (by simpa using hlen) hcs']

omit [Unicode] in
theorem enumerated (input : List Char) : (Scanner.new input).left = numbered 0 (input.drop 0) := rfl

theorem ahead_of {p : Profile} {rules : List (List Char × (List Char → K))} {es : List Expr}
    {l : Lexer K} (hl : LexerFor p rules es l) (ha : LooksOneAhead es) {input : List Char} {ts : List (Tok K)}
    (ht : Tokens l input ts) : ∃ ws, Munch (taken es) input ws (input.drop (endOf 0 ts)) ∧
      ts.map (fun t => (t.source, some t.kind)) = ws.map (fun w => (w.1, kindAt rules w.2 w.1)) ∧
      ∀ t ∈ ts, t.source = (input.drop t.pos.1).take (t.pos.2 - t.pos.1) ∧
        Longest (taken es) (input.drop t.pos.1) t.source := by
  have b := hl.toBuilt
  have emono : ∀ w v, Passes es (w ++ v) → Passes es w :=
    fun w v h e he u hu => h e he u (hu.trans (List.prefix_append _ _))
  exact Calls.tokenizes (Live := Readable es) (Ends := Passes es) ha (fun _ _ h => b.readable_mono h) emono
    (fun _ h => b.readable_taken h) ((c23_tokens_partial p rules es l hl input ts).1 ht) rfl (by simp [Scanner.new])
    (enumerated input)

/-- The input on which a lexer that does not look one character ahead fails. -/
theorem not_ahead {p : Profile} {rules : List (List Char × (List Char → K))} {es : List Expr}
    {l : Lexer K} (hl : LexerFor p rules es l) (h : ¬ LooksOneAhead es) :
    ∃ input, Tokens l input [] ∧ ¬ NoMatch (taken es) input := by
  simp only [LooksOneAhead, Classical.not_forall] at h
  obtain ⟨w, c, h1, h2, h3, h4, h5⟩ := h
  refine ⟨w ++ [c], ?_, fun hn => hn w h1 (List.prefix_append _ _) h2⟩
  have hw : word (Scanner.new (w ++ [c])).left = w ++ [c] := word_numbered _ 0
  refine (c23_tokens_partial p rules es l hl _ []).2 (.next ?_ (.over ?_ (.inr ?_)) .done)
  · rw [hw]; exact h4
  · rw [hw]; exact h3
  · rw [hw]; exact h5

/-- C23, exactly: the tokens of a lexer are those of maximal munch on all inputs if and only if one character of
lookahead is enough for its patterns.  Missing: that this is so for all lexers, which is false in general. -/
theorem c23_exact_partial (p : Profile) (rules : List (List Char × (List Char → K))) (es : List Expr)
    (l : Lexer K) (hl : LexerFor p rules es l) :
    (∀ input ts, Tokens l input ts → IsTokenization (taken es) rules input ts) ↔ LooksOneAhead es := by
  constructor
  · intro h
    apply Classical.byContradiction
    intro ha
    obtain ⟨input, h1, h2⟩ := not_ahead hl ha
    obtain ⟨ws, tail, h3, h4⟩ := h input [] h1
    cases ws with
    | cons w ws => simp at h4
    | nil =>
      have h5 := h3.flatten
      simp only [List.map_nil, List.flatten_nil, List.nil_append] at h5
      subst h5
      exact h2 h3.noMatch
  · intro ha input ts ht
    obtain ⟨ws, h1, h2, _⟩ := ahead_of hl ha ht
    exact ⟨ws, _, h1, h2⟩

/-- C15, exactly: the stream ends only where no pattern matches if and only if one character of lookahead is
enough.  Missing: as for C23. -/
theorem c15_exact_partial (p : Profile) (rules : List (List Char × (List Char → K))) (es : List Expr)
    (l : Lexer K) (hl : LexerFor p rules es l) :
    (∀ input ts, Tokens l input ts → NoMatch (taken es) (input.drop (endOf 0 ts))) ↔ LooksOneAhead es := by
  constructor
  · intro h
    apply Classical.byContradiction
    intro ha
    obtain ⟨input, h1, h2⟩ := not_ahead hl ha
    exact h2 (h input [] h1)
  · intro ha input ts ht
    obtain ⟨ws, h1, _⟩ := ahead_of hl ha ht
    exact h1.noMatch

/-- C13 for all patterns for which one character of lookahead is enough.  Missing: the other lexers, for which
the claim is false in general. -/
theorem c13_ahead_partial (p : Profile) (rules : List (List Char × (List Char → K))) (es : List Expr)
    (l : Lexer K) (hl : LexerFor p rules es l) (ha : LooksOneAhead es) (input : List Char) (ts : List (Tok K))
    (ht : Tokens l input ts) : ∀ t ∈ ts, Longest (taken es) (input.drop t.pos.1) t.source := by
  obtain ⟨ws, _, _, h⟩ := ahead_of hl ha ht
  exact fun t ht => (h t ht).2

/-- C18 for all patterns for which one character of lookahead is enough.  Missing: the other lexers, for which
the claim is false in general, and the calls after the first `None`. -/
theorem c18_ahead_partial (p : Profile) (rules : List (List Char × (List Char → K))) (es : List Expr)
    (l : Lexer K) (hl : LexerFor p rules es l) (ha : LooksOneAhead es) (input : List Char) (ts : List (Tok K))
    (ht : Tokens l input ts) :
    (∀ t ∈ ts, t.source = (input.drop t.pos.1).take (t.pos.2 - t.pos.1)) ∧
    (ts.map Tok.source).flatten ++ input.drop (endOf 0 ts) = input := by
  obtain ⟨ws, h1, h2, h3⟩ := ahead_of hl ha ht
  refine ⟨fun t ht => (h3 t ht).1, ?_⟩
  have : ts.map Tok.source = ws.map Prod.fst := by
    have := congrArg (List.map Prod.fst) h2
    simpa [Function.comp_def] using this
  rw [this]
  exact h1.flatten

/-! ## Examples -/

theorem taken_languages {p : Profile} {rules : List (List Char × (List Char → K))} {es : List Expr}
    {l : Lexer K} (hl : LexerFor p rules es l) (hr : Regular es) : taken es = languages es := by
  have b := hl.toBuilt
  refine List.map_congr_left fun e he => funext fun w => propext ?_
  have hc := b.compiles e he
  obtain ⟨h1, h2⟩ := c10_exact_partial e hc
  obtain ⟨b', hb⟩ := h2 (hr e he).1 w
  rw [← answers_iff hc (hr e he).1 (hr e he).2 w, ← h1 w b' hb]
  constructor
  · rintro rfl
    exact hb
  · intro ha
    exact ((h1 w b' hb).2 ((h1 w true ha).1 rfl))

/-- The condition follows from the earlier one. -/
theorem looksOneAhead_of {p : Profile} {rules : List (List Char × (List Char → K))} {es : List Expr}
    {l : Lexer K} (hl : LexerFor p rules es l) (hr : Regular es) (ho : OneLookahead es) : LooksOneAhead es := by
  intro w c hw hm hread _
  rw [taken_languages hl hr] at hm ⊢
  exact ho w c hw hm (hl.toBuilt.mayRead hr (by simp) ((hl.toBuilt.live _).2 hread))

/-- One character is enough for `a+`, `=` and `==`, and not for `a` and `abc`. -/
example : LooksOneAhead wordsTrees ∧ ¬ LooksOneAhead earlyTrees := by
  refine ⟨looksOneAhead_of words_for words_regular words_oneLookahead, ?_⟩
  intro h
  have := (c15_exact_partial _ _ _ _ early_for).2 h _ _ early_tokens ['a'] (by simp) (by decide)
  refine this ⟨_, List.mem_cons_self .., .inr ⟨_, .lit rfl⟩⟩

/-- The calls on `abcxa` with the rules `a`, `abcd`, `b` and `c`: the first one reads `abcx` and puts back `bcx`,
the second one reads `bc` of that and puts back `c`, and `x` is lost. -/
example : Scans lossyTrees [("a".toList, fun _ => 0), ("abcd".toList, fun _ => 1), ("b".toList, fun _ => 2),
    ("c".toList, fun _ => 3)] "abcxa".toList
    ([⟨0, ['a'], (0, 1)⟩, ⟨2, ['b'], (1, 2)⟩, ⟨3, ['c'], (2, 3)⟩, ⟨0, ['a'], (3, 5)⟩].map some ++ [none]) :=
  (c23_tokens_partial _ _ _ _ lossy_for _ _).1 lossy_tokens

end Pango.Props
