import Verif.Proofs.Stream
import Verif.Proofs.SimOrder
import Verif.Proofs.ClassDec

/-!
# C13, C14, C15, C18, C21, C22, C23: what a lexer made by the builder does

"Pattern `e` matches `w`" is said in two ways: `Answers e w true`, the automaton made from `e` alone accepts
`w`, and `Matches e w`, the word is in the regular language of `e`.  Property C10 is about the difference.
-/

namespace Pango.Props

open Pango Pango.Lex Pango.Fsm Pango.Regex Pango.Spec

variable [Unicode] {K : Type}

/-- A lexer built from rules whose patterns have the trees `es`. -/
structure LexerFor (p : Profile) (rules : List (List Char × (List Char → K))) (es : List Expr)
    (l : Lexer K) : Prop where
  built : buildLexer p rules = .ok (.ok l)
  trees : rules.map (fun r => parse p r.1) = es.map (fun e => .ok (.ok e))

omit [Unicode] in
theorem LexerFor.toBuilt {p : Profile} {rules : List (List Char × (List Char → K))} {es : List Expr}
    {l : Lexer K} (h : LexerFor p rules es l) : Built p rules l es := by
  obtain ⟨es', hb⟩ := buildLexer_built h.built
  rw [parsed_unique h.trees hb.parsed]
  exact hb

/-- The tokens up to the first `None`, for some number of calls of `next` and some bound on the loops of the
simulator. -/
def Tokens (l : Lexer K) (input : List Char) (ts : List (Tok K)) : Prop :=
  ∃ fuel n it, lexAll (nfaMachine l.nfa fuel) l.tokens n (InputIter.new input) = .ok (ts, it)

/-! ## Examples -/

/-- The trees of `a`, `abcd`, `b` and `c`. -/
def lossyTrees : List Expr :=
  [.lit (.mtch 'a') none, .concat [.lit (.mtch 'a') none, .lit (.mtch 'b') none, .lit (.mtch 'c') none,
    .lit (.mtch 'd') none], .lit (.mtch 'b') none, .lit (.mtch 'c') none]

omit [Unicode] in
theorem lossy_for : LexerFor .debug [("a".toList, fun _ => 0), ("abcd".toList, fun _ => 1),
    ("b".toList, fun _ => 2), ("c".toList, fun _ => 3)] lossyTrees lossy := ⟨lossy_built, rfl⟩

theorem lossy_tokens : Tokens lossy "abcxa".toList
    [⟨0, ['a'], (0, 1)⟩, ⟨2, ['b'], (1, 2)⟩, ⟨3, ['c'], (2, 3)⟩, ⟨0, ['a'], (3, 5)⟩] :=
  ⟨10, 5, _, lossy_lexes⟩

/-- The lexer with the rules `a` and `abc`. -/
def early : Lexer Nat :=
  ⟨⟨0, [⟨0, false, [(.literal (.mtch 'a'), [2, 4])]⟩, ⟨1, true, []⟩, ⟨2, true, []⟩, ⟨3, true, []⟩,
    ⟨4, false, [(.literal (.mtch 'b'), [5])]⟩, ⟨5, false, [(.literal (.mtch 'c'), [3])]⟩]⟩,
    [(2, fun _ => 0), (3, fun _ => 1)]⟩

/-- Their trees. -/
def earlyTrees : List Expr :=
  [.lit (.mtch 'a') none, .concat [.lit (.mtch 'a') none, .lit (.mtch 'b') none, .lit (.mtch 'c') none]]

omit [Unicode] in
theorem early_for : LexerFor .debug [("a".toList, fun _ => 0), ("abc".toList, fun _ => 1)] earlyTrees early :=
  ⟨rfl, rfl⟩

theorem early_tokens : Tokens early "ab".toList [] :=
  ⟨10, 5, ⟨[], ['a'], (0, 1), [(1, 'b')], []⟩, by with_unfolding_all rfl⟩

theorem answers_a : Answers (.lit (.mtch 'a') none) ['a'] true := ⟨_, 5, rfl, by with_unfolding_all rfl⟩

/-- The lexer with the rules `a+`, `=` and `==`.  The kind of `a+` is its length. -/
def words : Lexer Nat :=
  ⟨⟨0, [⟨0, false, [(.eps, [3]), (.literal (.mtch '='), [4, 6])]⟩, ⟨1, true, []⟩, ⟨2, true, []⟩,
    ⟨3, false, [(.quantified .plus, [2]), (.literal (.mtch 'a'), [3])]⟩, ⟨4, true, []⟩, ⟨5, true, []⟩,
    ⟨6, false, [(.literal (.mtch '='), [5])]⟩]⟩, [(2, List.length), (4, fun _ => 100), (5, fun _ => 200)]⟩

/-- Their trees. -/
def wordsTrees : List Expr :=
  [.lit (.mtch 'a') (some .plus), .lit (.mtch '=') none, .concat [.lit (.mtch '=') none, .lit (.mtch '=') none]]

omit [Unicode] in
theorem words_for : LexerFor .debug [("a+".toList, List.length), ("=".toList, fun _ => 100),
    ("==".toList, fun _ => 200)] wordsTrees words := ⟨rfl, rfl⟩

theorem words_tokens : Tokens words "aa===axa".toList
    [⟨2, "aa".toList, (0, 2)⟩, ⟨200, "==".toList, (2, 4)⟩, ⟨100, "=".toList, (4, 5)⟩, ⟨1, "a".toList, (5, 6)⟩] :=
  ⟨10, 9, ⟨[(7, 'a')], [], (6, 0), [(6, 'x')], []⟩, by with_unfolding_all rfl⟩

theorem words_regular : Regular wordsTrees := by
  intro e he
  rw [← repeatsNonEmptyB_iff, ← countsAtStartB_iff]
  simp only [wordsTrees, List.mem_cons, List.not_mem_nil, or_false] at he
  rcases he with rfl | rfl | rfl <;> decide

theorem mayRead_lit {l : Lit} {w : List Char} (h : MayRead (.lit l none) w) :
    w = [] ∨ ∃ c, w = [c] ∧ LitSet l c := by
  cases h with
  | nothing => exact .inl rfl
  | char h => exact .inr ⟨_, rfl, h⟩

theorem matches_lit {l : Lit} {w : List Char} (h : Matches (.lit l none) w) : ∃ c, w = [c] ∧ LitSet l c := by
  cases h with
  | lit h1 h2 =>
    obtain ⟨c, rfl⟩ := List.length_eq_one_iff.1 h1
    exact ⟨c, rfl, h2 c (by simp)⟩

theorem words_oneLookahead : OneLookahead wordsTrees := by
  have one : ∀ {w : List Char} {c d : Char}, w ≠ [] → w ++ [c] ≠ [d] := by
    intro w c d hw h
    cases w with
    | nil => exact hw rfl
    | cons _ _ => simp at h
  rintro w c hw _ ⟨e, he, hr⟩
  simp only [wordsTrees, List.mem_cons, List.not_mem_nil, or_false] at he
  rcases he with rfl | rfl | rfl
  · refine ⟨_, List.mem_cons_self .., ?_⟩
    generalize hv : w ++ [c] = v at hr
    cases hr with
    | nothing => simp at hv
    | chars h =>
      refine Matches.lit ?_ h
      rw [← hv]
      simp [QuantSet]
  · rcases mayRead_lit hr with h | ⟨d, h, _⟩
    · simp at h
    · exact absurd h (one hw)
  · generalize hv : w ++ [c] = v at hr
    have eqeq : AnyMatch (languages wordsTrees) ['=', '='] := by
      refine ⟨_, List.mem_cons_of_mem _ (List.mem_cons_of_mem _ (List.mem_cons_self ..)), ?_⟩
      have h := Matches.lit (l := .mtch '=') (q := none) (w := ['=']) rfl (by simp [LitSet])
      exact Matches.cons (u := ['=']) h (Matches.cons (u := ['=']) h .nil)
    cases hr with
    | nothing => simp at hv
    | here h =>
      rcases mayRead_lit h with rfl | ⟨d, rfl, _⟩
      · simp at hv
      · exact absurd hv (one hw)
    | @later _ _ u v' h1 h2 =>
      obtain ⟨d, rfl, hd⟩ := matches_lit h1
      have hd : d = '=' := hd
      subst hd
      cases h2 with
      | nothing => exact absurd hv (one hw)
      | here h =>
        rcases mayRead_lit h with rfl | ⟨d, rfl, hd⟩
        · exact absurd hv (one hw)
        · have hd : d = '=' := hd
          subst hd
          exact eqeq
      | @later _ _ u v'' h1 h2 =>
        obtain ⟨d, rfl, hd⟩ := matches_lit h1
        have hd : d = '=' := hd
        subst hd
        cases h2
        exact eqeq

/-! ## C13 -/

/-- C13 as stated, for the tokens up to the first `None`. -/
def MaximalMunch : Prop :=
  ∀ (K : Type) (p : Profile) (rules : List (List Char × (List Char → K))) (es : List Expr) (l : Lexer K)
    (input : List Char) (ts : List (Tok K)), LexerFor p rules es l → Tokens l input ts →
    ∀ t ∈ ts, Longest (alone es) (input.drop t.pos.1) t.source

/-- C13 is false: with the rules `a`, `abcd`, `b` and `c` the last token of `abcxa` is `a`, at the position
of `xa`. -/
theorem c13_false : ¬ MaximalMunch := by
  intro h
  have := (h Nat _ _ _ _ _ _ lossy_for lossy_tokens ⟨0, ['a'], (3, 5)⟩ (by simp)).isPrefix
  revert this
  decide

/-- The part of C13 that holds for all lexers: every token up to the first `None` is the longest match at the
front of what is left.  Missing: that what is left is all of the input behind the last token. -/
theorem c13_longest_partial (p : Profile) (rules : List (List Char × (List Char → K))) (es : List Expr)
    (l : Lexer K) (input : List Char) (ts : List (Tok K)) (hl : LexerFor p rules es l)
    (ht : Tokens l input ts) : ∃ tail, LossyMunch (alone es) input (ts.map Tok.source) tail := by
  obtain ⟨fuel, n, it, h⟩ := ht
  obtain ⟨tail, h1, _⟩ := lexAll_lossy (hl.toBuilt.reads fuel) ⟨rfl, rfl⟩ h
  refine ⟨tail, ?_⟩
  have : chars (InputIter.new input).rest = input := chars_enumFrom 0 input
  rwa [this] at h1

/-- Those tokens again: a lexer and an input with four of them. -/
example : LexerFor .debug [("a".toList, fun _ => 0), ("abcd".toList, fun _ => 1),
    ("b".toList, fun _ => 2), ("c".toList, fun _ => 3)] lossyTrees lossy ∧ Tokens lossy "abcxa".toList
    [⟨0, ['a'], (0, 1)⟩, ⟨2, ['b'], (1, 2)⟩, ⟨3, ['c'], (2, 3)⟩, ⟨0, ['a'], (3, 5)⟩] :=
  ⟨lossy_for, lossy_tokens⟩

/-- The part of C13 that holds for patterns for which one character of lookahead is enough: every token is
the longest prefix of the input behind the last token that a pattern matches.  Missing: the other lexers, for
which the claim is false in general. -/
theorem c13_lookahead_partial (p : Profile) (rules : List (List Char × (List Char → K))) (es : List Expr)
    (l : Lexer K) (input : List Char) (ts : List (Tok K)) (hl : LexerFor p rules es l)
    (hr : Regular es) (ho : OneLookahead es) (ht : Tokens l input ts) :
    ∀ t ∈ ts, Longest (languages es) (input.drop t.pos.1) t.source := by
  obtain ⟨fuel, n, it, h⟩ := ht
  have b := hl.toBuilt
  obtain ⟨ws, _, _, _, h4⟩ := lexAll_exact (b.readsLanguages hr fuel) (b.oneAhead hr ho) (exact_new input) h
  exact fun t ht => (h4 t ht).2

/-- `a+`, `=` and `==` are such patterns. -/
example : LexerFor .debug [("a+".toList, List.length), ("=".toList, fun _ => 100),
    ("==".toList, fun _ => 200)] wordsTrees words ∧ Regular wordsTrees ∧ OneLookahead wordsTrees ∧
    ∃ ts, Tokens words "aa===axa".toList ts ∧ ts.length = 4 :=
  ⟨words_for, words_regular, words_oneLookahead, _, words_tokens, rfl⟩

/-! ## C14 -/

/-- C14: the kind of every token, also of those returned after a `None`, is the one of the first rule whose
pattern matches the source of the token, and up to the first `None` there is such a rule. -/
theorem c14_first_rule (p : Profile) (rules : List (List Char × (List Char → K))) (es : List Expr)
    (l : Lexer K) (input : List Char) (hl : LexerFor p rules es l) :
    (∀ fuel n as it, lexCalls (nfaMachine l.nfa fuel) l.tokens n (InputIter.new input) = .ok (as, it) →
      ∀ t ∈ returned as, ∀ i, FirstMatch (alone es) t.source i → kindAt rules i t.source = some t.kind) ∧
    ∀ ts, Tokens l input ts → ∀ t ∈ ts, ∃ i, FirstMatch (alone es) t.source i := by
  have b := hl.toBuilt
  constructor
  · intro fuel n as it h t ht i hi
    exact b.kindAt (lexCalls_first (b.reads fuel) (.inl ⟨rfl, rfl⟩) h t ht i hi)
  · rintro ts ⟨fuel, n, it, h⟩ t ht
    obtain ⟨_, _, _, h3⟩ := lexAll_lossy (b.reads fuel) ⟨rfl, rfl⟩ h
    obtain ⟨i, hi, _⟩ := h3 t ht
    exact ⟨i, hi⟩

/-- Two rules that match the same word, and the token that is returned. -/
example : ∃ l : Lexer Nat, LexerFor .debug [("b|a".toList, fun _ => 7), ("a".toList, fun _ => 8)]
    [.alt (.lit (.mtch 'b') none) (.lit (.mtch 'a') none), .lit (.mtch 'a') none] l ∧
    Tokens l ['a'] [⟨7, ['a'], (0, 1)⟩] :=
  ⟨⟨⟨0, [⟨0, false, [(.literal (.mtch 'b'), [2]), (.literal (.mtch 'a'), [2, 3])]⟩, ⟨1, true, []⟩,
    ⟨2, true, []⟩, ⟨3, true, []⟩]⟩, [(2, fun _ => 7), (3, fun _ => 8)]⟩, ⟨rfl, rfl⟩, 10, 3, _, by with_unfolding_all rfl⟩

/-! ## C15 -/

/-- C15 as stated: when the stream ends, no pattern matches a non-empty prefix of the input behind the last
token. -/
def FindsTokens : Prop :=
  ∀ (K : Type) (p : Profile) (rules : List (List Char × (List Char → K))) (es : List Expr) (l : Lexer K)
    (input : List Char) (ts : List (Tok K)), LexerFor p rules es l → Tokens l input ts →
    NoMatch (alone es) (input.drop (endOf 0 ts))

/-- C15 is false: with the rules `a` and `abc` the lexer finds nothing in `ab`.  It reads on for `abc`, and
does not go back when the input ends. -/
theorem c15_false : ¬ FindsTokens := by
  intro h
  refine h Nat _ _ _ _ _ _ early_for early_tokens ['a'] (by simp) (by decide) ?_
  exact ⟨_, List.mem_cons_self .., answers_a⟩

/-- The simulator of the pattern reads all of the word. -/
def StillReads (e : Expr) (w : List Char) : Prop :=
  ∃ nfa fuel runs, nfaOfAst e = .ok nfa ∧ Fed nfa fuel w runs ∧ runs ≠ []

/-- The part of C15 that holds for all lexers: when the stream ends, no pattern matches a non-empty prefix of
what is left, or some pattern reads all of it and none matches it.  Missing: that this second case does not
happen if there is a match. -/
theorem c15_none_partial (p : Profile) (rules : List (List Char × (List Char → K))) (es : List Expr)
    (l : Lexer K) (input : List Char) (ts : List (Tok K)) (hl : LexerFor p rules es l)
    (ht : Tokens l input ts) : ∃ tail, LossyMunch (alone es) input (ts.map Tok.source) tail ∧
      (NoMatch (alone es) tail ∨ ((∃ e ∈ es, StillReads e tail) ∧ ¬ AnyMatch (alone es) tail)) := by
  obtain ⟨fuel, n, it, h⟩ := ht
  have b := hl.toBuilt
  obtain ⟨tail, h1, h2, _⟩ := lexAll_lossy (b.reads fuel) ⟨rfl, rfl⟩ h
  have : chars (InputIter.new input).rest = input := chars_enumFrom 0 input
  rw [this] at h1
  refine ⟨tail, h1, ?_⟩
  rcases h2 with h2 | ⟨⟨r, hr⟩, ⟨runs, hfed⟩, h3⟩
  · exact .inl h2
  · rcases b.parts.runs_out hr with ⟨rfl, _⟩ | ⟨e, f, one, r', he, part, _, hr', _⟩
    · exact .inl fun w hw hp => absurd (List.prefix_nil.1 hp) hw
    · obtain ⟨runs1, h4⟩ := part.fed hfed
      have hmem := (h4.mem part.single.wf r').2 hr'
      refine .inr ⟨⟨e, ?_, one, _, runs1, part.compiled, h4, ?_⟩, h3⟩
      · rw [← finalsFrom_fst 2 es]
        exact List.mem_map.2 ⟨_, he, rfl⟩
      · rintro rfl
        cases hmem

example : LexerFor .debug [("a".toList, fun _ => 0), ("abc".toList, fun _ => 1)] earlyTrees early ∧
    Tokens early "ab".toList [] := ⟨early_for, early_tokens⟩

/-- The part of C15 that holds for patterns for which one character of lookahead is enough: the stream ends
where no pattern matches.  Missing: the other lexers, for which the claim is false in general. -/
theorem c15_lookahead_partial (p : Profile) (rules : List (List Char × (List Char → K))) (es : List Expr)
    (l : Lexer K) (input : List Char) (ts : List (Tok K)) (hl : LexerFor p rules es l)
    (hr : Regular es) (ho : OneLookahead es) (ht : Tokens l input ts) :
    NoMatch (languages es) (input.drop (endOf 0 ts)) := by
  obtain ⟨fuel, n, it, h⟩ := ht
  have b := hl.toBuilt
  obtain ⟨ws, h1, _⟩ := lexAll_exact (b.readsLanguages hr fuel) (b.oneAhead hr ho) (exact_new input) h
  exact h1.noMatch

example : ∃ ts, Tokens words "aa===axa".toList ts ∧ "aa===axa".toList.drop (endOf 0 ts) = "xa".toList :=
  ⟨_, words_tokens, by decide⟩

/-! ## C18 -/

/-- The part of C18 that holds for patterns for which one character of lookahead is enough: the source of
every token up to the first `None` is what the input has at its position, and the sources together are the
input up to the end of the last token.  Missing: the other lexers, for which the claim is false in general,
and the calls after the first `None`. -/
theorem c18_lookahead_partial (p : Profile) (rules : List (List Char × (List Char → K))) (es : List Expr)
    (l : Lexer K) (input : List Char) (ts : List (Tok K)) (hl : LexerFor p rules es l)
    (hr : Regular es) (ho : OneLookahead es) (ht : Tokens l input ts) :
    (∀ t ∈ ts, t.source = (input.drop t.pos.1).take (t.pos.2 - t.pos.1)) ∧
    (ts.map Tok.source).flatten ++ input.drop (endOf 0 ts) = input := by
  obtain ⟨fuel, n, it, h⟩ := ht
  have b := hl.toBuilt
  obtain ⟨ws, h1, h2, _, h4⟩ := lexAll_exact (b.readsLanguages hr fuel) (b.oneAhead hr ho) (exact_new input) h
  refine ⟨fun t ht => (h4 t ht).1, ?_⟩
  rw [← h2]
  exact h1.flatten

example : ∃ ts, Tokens words "aa===axa".toList ts ∧ ts.map Tok.source = ["aa".toList, "==".toList, ['='], ['a']] :=
  ⟨_, words_tokens, rfl⟩

/-! ## C21 -/

/-- C21: no call of `next` on a lexer made by the builder crashes. -/
theorem c21_no_panic (p : Profile) (rules : List (List Char × (List Char → K))) (l : Lexer K)
    (hl : buildLexer p rules = .ok (.ok l)) (input : List Char) (fuel n : Nat) :
    lexCalls (nfaMachine l.nfa fuel) l.tokens n (InputIter.new input) ≠ .panic := by
  obtain ⟨es, b⟩ := buildLexer_built hl
  exact ((b.safe fuel).lexCalls n _).1

/-- A lexer made by the builder, and calls that return tokens. -/
example : buildLexer .debug [("a".toList, fun _ => 0), ("abcd".toList, fun _ => 1), ("b".toList, fun _ => 2),
    ("c".toList, fun _ => 3)] = .ok (.ok lossy) ∧ ∃ ts, Tokens lossy "abcxa".toList ts ∧ ts.length = 4 :=
  ⟨lossy_built, _, lossy_tokens, rfl⟩

/-- A lexer that the builder does not make: there is no kind for the final state. -/
example : lexCalls (nfaMachine onlyA.nfa 10) ([] : Generators Nat) 1 (InputIter.new ['a']) = .panic := by
  with_unfolding_all rfl

/-! ## C22 -/

/-- C22: whatever the orders in which the simulator iterates hash maps and hash sets in each call, all calls
of `next` return what they return with the orders of insertion. -/
theorem c22_hash_order (p : Profile) (rules : List (List Char × (List Char → K))) (l : Lexer K)
    (hl : buildLexer p rules = .ok (.ok l)) (ord : Nat → HashOrder) (input : List Char) (fuel n : Nat) :
    lexCallsH ord l.nfa fuel l.tokens n (InputIter.new input) =
      lexCalls (nfaMachine l.nfa fuel) l.tokens n (InputIter.new input) := by
  obtain ⟨es, b⟩ := buildLexer_built hl
  have wf := b.parts.bundle.wf
  generalize InputIter.new input = it
  induction n generalizing it with
  | zero => rfl
  | succ n ih =>
    rw [lexCallsH, lexCalls, (nfaMachineH_alike wf (ord n) fuel).lexNext l.tokens it]
    simp only [ih]

/-- With reversed orders the runs come in another order. -/
example : words.nfa.initRunsH .reversed 10 = .ok (3, [⟨3, []⟩, ⟨0, []⟩]) ∧
    words.nfa.initRuns 10 = .ok [⟨0, []⟩, ⟨3, []⟩] := ⟨rfl, rfl⟩

/-! ## C23 -/

/-- The tokens are the tokenization of the input by maximal munch, up to the first place where no rule
matches; the kind of each is given by its rule. -/
def IsTokenization (matchers : List (List Char → Prop)) (rules : List (List Char × (List Char → K)))
    (input : List Char) (ts : List (Tok K)) : Prop :=
  ∃ ws tail, Munch matchers input ws tail ∧
    ts.map (fun t => (t.source, some t.kind)) = ws.map (fun w => (w.1, kindAt rules w.2 w.1))

/-- C23 as stated. -/
def TokenizesInput : Prop :=
  ∀ (K : Type) (p : Profile) (rules : List (List Char × (List Char → K))) (es : List Expr) (l : Lexer K)
    (input : List Char) (ts : List (Tok K)), LexerFor p rules es l → Tokens l input ts →
    IsTokenization (alone es) rules input ts

/-- C23 is false: with the rules `a` and `abc` there are no tokens in `ab`. -/
theorem c23_false : ¬ TokenizesInput := by
  intro h
  obtain ⟨ws, tail, h1, h2⟩ := h Nat _ _ _ _ _ _ early_for early_tokens
  cases ws with
  | cons w ws => simp at h2
  | nil =>
    have h3 := h1.flatten
    have h4 := h1.noMatch
    simp only [List.map_nil, List.flatten_nil, List.nil_append] at h3
    rw [h3] at h4
    exact h4 ['a'] (by simp) (by decide) ⟨_, List.mem_cons_self .., answers_a⟩

/-- The part of C23 that holds for patterns for which one character of lookahead is enough: on every input the
stream ends, and its tokens are the only tokenization of the input by maximal munch.  Missing: the other
lexers, for which the claim is false in general. -/
theorem c23_tokenizes_partial (p : Profile) (rules : List (List Char × (List Char → K))) (es : List Expr)
    (l : Lexer K) (hl : LexerFor p rules es l) (hr : Regular es) (ho : OneLookahead es) :
    (∀ input, ∃ ts, Tokens l input ts) ∧
    (∀ input ts, Tokens l input ts → IsTokenization (languages es) rules input ts) ∧
    ∀ input ts ts', IsTokenization (languages es) rules input ts → IsTokenization (languages es) rules input ts' →
      ts.map (fun t => (t.source, t.kind)) = ts'.map (fun t => (t.source, t.kind)) := by
  have b := hl.toBuilt
  refine ⟨?_, ?_, ?_⟩
  · intro input
    obtain ⟨⟨as, it⟩, h⟩ := ((b.safe _).lexCalls (input.length + 1) (InputIter.new input)).2
      (b.total (fun e he => (hr e he).1) (Nat.le_refl _))
    obtain ⟨⟨ts, it'⟩, h'⟩ := lexAll_of_calls h ((c16_finite _ _ _ _ _ _ h).2.2 (Nat.lt_succ_self _))
    exact ⟨ts, _, _, it', h'⟩
  · rintro input ts ⟨fuel, n, it, h⟩
    obtain ⟨ws, h1, h2, h3, _⟩ :=
      lexAll_exact (b.readsLanguages hr fuel) (b.oneAhead hr ho) (exact_new input) h
    refine ⟨ws, _, h1, List.ext_getElem? fun k => ?_⟩
    have e := congrArg (fun l => l[k]?) h2
    simp only [List.getElem?_map] at e ⊢
    cases hw : ws[k]? with
    | none =>
      rw [hw] at e
      cases ht : ts[k]? with
      | none => rfl
      | some t => rw [ht] at e; cases e
    | some w =>
      rw [hw] at e
      cases ht : ts[k]? with
      | none => rw [ht] at e; cases e
      | some t =>
        rw [ht] at e
        simp only [Option.map_some, Option.some.injEq] at e ⊢
        rw [e, b.kindAt (h3 k w t hw ht)]
  · rintro input ts ts' ⟨ws, tail, h1, h2⟩ ⟨ws', tail', h3, h4⟩
    obtain ⟨rfl, _⟩ := h1.unique h3
    have := congrArg (List.map (fun x : List Char × Option K => x.2.map fun k => (x.1, k))) (h2.trans h4.symm)
    simp only [List.map_map] at this
    refine (List.map_inj_right (f := some) (fun _ _ h => by simpa using h)).1 ?_
    simpa [Function.comp_def] using this

example : ∃ ts, Tokens words "aa===axa".toList ts ∧ ts.map Tok.kind = [2, 200, 100, 1] :=
  ⟨_, words_tokens, rfl⟩

end Pango.Props
