import Verif.Proofs.LexFuel
import Verif.Props.Lexing
import Verif.Props.Parse

/-!
# C44, C48, C49: parsing text

`parseText l tbl sim fuel input` is the parser `tbl` reading from the lexer `l` over the text.
-/

namespace Pango.Props

open Pango Pango.Lex Pango.Parse Pango.Spec

variable [Unicode]

/-- The parser returns the result for the text: a tree, or `none` for an error. -/
def Parses {V T : Type} [DecidableEq V] [TerminalEq T] (l : Lexer T) (tbl : Table V T) (input : List Char)
    (r : Option (Node V T)) : Prop :=
  ∃ sim fuel, parseText l tbl sim fuel input = .ok r

/-- The number of iterations that is allowed does not matter: the tokens of a text are determined. -/
theorem tokens_unique {K : Type} {l : Lexer K} {input : List Char} {ts ts' : List (Tok K)} (h : Tokens l input ts)
    (h' : Tokens l input ts') : ts = ts' := by
  obtain ⟨s, n, it, h⟩ := h
  obtain ⟨s', n', it', h'⟩ := h'
  have h1 := (lexAll_le (gs := l.tokens) (nfaMachine_le (nfa := l.nfa) (Nat.le_max_left s s')) (Nat.le_max_left n n')).ok h
  have h2 := (lexAll_le (gs := l.tokens) (nfaMachine_le (nfa := l.nfa) (Nat.le_max_right s s')) (Nat.le_max_right n n')).ok h'
  rw [h1] at h2
  cases h2
  rfl

/-- So is the result of parsing it. -/
theorem parses_unique {V T : Type} [DecidableEq V] [TerminalEq T] {l : Lexer T} {tbl : Table V T} {input : List Char}
    {r r' : Option (Node V T)} (h : Parses l tbl input r) (h' : Parses l tbl input r') : r = r' := by
  obtain ⟨s, n, h⟩ := h
  obtain ⟨s', n', h'⟩ := h'
  have h1 := (parseText_le (Nat.le_max_left s s') (Nat.le_max_left n n')).ok h
  have h2 := (parseText_le (Nat.le_max_right s s') (Nat.le_max_right n n')).ok h'
  rw [h1] at h2
  cases h2
  rfl

/-! ## C44 -/

/-- C44, the full claim: a tree is returned only if the tokens of the lexer make up the whole text. -/
def C44 : Prop :=
  ∀ (V T : Type) [DecidableEq V] [DecidableEq T] [TerminalEq T] [LawfulTerminalEq T] (g : Grammar V T) (tbl : Table V T)
    (p : Profile) (rules : List (List Char × (List Char → T))) (l : Lexer T), Built g → IsParser g tbl →
    buildLexer p rules = .ok (.ok l) → ∀ input n, Parses l tbl input (some n) →
      ∃ ts, Tokens l input ts ∧ (ts.map Tok.source).flatten = input

/-- The lexer with the rules `x` and `;`. -/
def semis : Lexer String :=
  ⟨⟨0, [⟨0, false, [(.literal (.mtch 'x'), [2]), (.literal (.mtch ';'), [3])]⟩, ⟨1, true, []⟩, ⟨2, true, []⟩,
    ⟨3, true, []⟩]⟩, [(2, String.ofList), (3, String.ofList)]⟩

omit [Unicode] in
theorem semis_built : buildLexer .debug [("x".toList, String.ofList), (";".toList, String.ofList)] = .ok (.ok semis) :=
  rfl

theorem semis_lexes : lexAll (nfaMachine semis.nfa 10) semis.tokens 5 (InputIter.new "x;?".toList) =
    .ok ([⟨"x", ['x'], (0, 1)⟩, ⟨";", [';'], (1, 2)⟩], ⟨[], [], (2, 0), [(2, '?')], []⟩) := by
  with_unfolding_all rfl

theorem semis_parses : Parses semis (tableOf goodGrammar) "x;?".toList (some (.mk (.var "P")
    [.mk (.term ";") [], .mk (.var "Q") [.mk (.term "x") []]])) :=
  ⟨10, 10, by rw [parseText_tokens semis_lexes]; decide +kernel⟩

/-- C44 does not hold: with the rules `x` and `;` and the grammar `P → P Q ; | Q ;`, `Q → x | ( Q )` the text `x;?` is
accepted.  The lexer returns `None` at `?`, as it does at the end. -/
theorem c44_false : ¬ C44 := by
  intro h
  obtain ⟨ts, h2, h3⟩ := h _ _ goodGrammar _ .debug _ semis goodGrammar_built goodGrammar_parser semis_built _ _ semis_parses
  rw [tokens_unique h2 ⟨10, 5, _, semis_lexes⟩] at h3
  exact absurd h3 (by decide)

variable {V T : Type} [DecidableEq V] [DecidableEq T] [TerminalEq T] [LawfulTerminalEq T] {g : Grammar V T}
  {tbl : Table V T}

/-- What holds for all parsers and lexers: a tree is returned only if the tokens up to the first `None` of the lexer
are parsed to this tree. -/
theorem c44_tokens_partial (hg : Built g) (hp : IsParser g tbl) (l : Lexer T) {input : List Char} {n : Node V T}
    (h : Parses l tbl input (some n)) :
    ∃ ts, Tokens l input ts ∧ ∃ fuel, parseTokens tbl fuel (ts.map Tok.kind) = .ok (some n) := by
  obtain ⟨sim, fuel, h⟩ := h
  rw [parseText_eq (Nat.le_refl fuel)] at h
  obtain ⟨_, _, _, ok⟩ := hp.ok hg
  obtain ⟨_, _, _, _, _, h1, _⟩ := parseTokens_some ok h
  generalize hs : streamOf (nfaMachine l.nfa sim) l.tokens fuel (InputIter.new input) = s at h h1
  obtain ⟨ts, fin⟩ := s
  simp only at h h1
  subst h1
  obtain ⟨it, h2⟩ := lexAll_streamOf hs
  exact ⟨ts, ⟨sim, fuel, it, h2⟩, fuel, h⟩

omit [DecidableEq T] [LawfulTerminalEq T] in
theorem parses_of_tokens {l : Lexer T} {input : List Char} {ts : List (Tok T)} (ht : Tokens l input ts)
    {fuel : Nat} {r : Option (Node V T)} (h : parseTokens tbl fuel (ts.map Tok.kind) = .ok r) :
    Parses l tbl input r := by
  obtain ⟨sim, n, it, h1⟩ := ht
  exact ⟨sim, fuel, by rw [parseText_tokens h1, h]⟩

/-- C44 for patterns that need one character of lookahead: the tokens are those of the text up to the first place at
which no pattern matches; what comes behind it is ignored. -/
theorem c44_rest_partial (hg : Built g) (hp : IsParser g tbl) {p : Profile}
    {rules : List (List Char × (List Char → T))} {es : List Regex.Expr} {l : Lexer T} (hl : LexerFor p rules es l)
    (hr : Regular es) (ho : OneLookahead es) {input : List Char} {n : Node V T} (h : Parses l tbl input (some n)) :
    ∃ ts rest, Tokens l input ts ∧ (ts.map Tok.source).flatten ++ rest = input ∧ NoMatch (languages es) rest ∧
      ∃ fuel, parseTokens tbl fuel (ts.map Tok.kind) = .ok (some n) := by
  obtain ⟨ts, h1, h2⟩ := c44_tokens_partial hg hp l h
  exact ⟨ts, _, h1, (c18_lookahead_partial p rules es l input ts hl hr ho h1).2,
    c15_lookahead_partial p rules es l input ts hl hr ho h1, h2⟩

/-- C44 for such patterns, if some pattern matches at the front of every text. -/
theorem c44_whole_partial (hg : Built g) (hp : IsParser g tbl) {p : Profile}
    {rules : List (List Char × (List Char → T))} {es : List Regex.Expr} {l : Lexer T} (hl : LexerFor p rules es l)
    (hr : Regular es) (ho : OneLookahead es) (hm : ∀ text, text ≠ [] → ¬ NoMatch (languages es) text)
    {input : List Char} {n : Node V T} (h : Parses l tbl input (some n)) :
    ∃ ts, Tokens l input ts ∧ (ts.map Tok.source).flatten = input := by
  obtain ⟨ts, rest, h1, h2, h3, _⟩ := c44_rest_partial hg hp hl hr ho h
  refine ⟨ts, h1, ?_⟩
  by_cases hrest : rest = []
  · rw [← h2, hrest, List.append_nil]
  · exact absurd h3 (hm rest hrest)

/-! ## C48 -/

/-- C48, the full claim: the accepted texts are those that are divided into tokens completely, and whose tokens are a
sentence. -/
def C48 : Prop :=
  ∀ (V T : Type) [DecidableEq V] [DecidableEq T] [TerminalEq T] [LawfulTerminalEq T] (g : Grammar V T) (tbl : Table V T)
    (p : Profile) (rules : List (List Char × (List Char → T))) (es : List Regex.Expr) (l : Lexer T), Built g →
    IsParser g tbl → LexerFor p rules es l → ∀ input n,
      Parses l tbl input (some n) ↔ ∃ ts, IsTokenization (languages es) rules input ts ∧
        (ts.map Tok.source).flatten = input ∧ ParseTree g n (ts.map Tok.kind)

/-- C48 does not hold: `x;?` is accepted. -/
theorem c48_false : ¬ C48 := by
  intro h
  have hb : LexerFor .debug [("x".toList, String.ofList), (";".toList, String.ofList)]
      [.lit (.mtch 'x') none, .lit (.mtch ';') none] semis := ⟨semis_built, rfl⟩
  obtain ⟨ts, ⟨ws, tail, h1, h2⟩, h3, _⟩ :=
    (h _ _ goodGrammar _ _ _ _ semis goodGrammar_built goodGrammar_parser hb _ _).1 semis_parses
  have h4 : ws.map Prod.fst = ts.map Tok.source := by
    have := congrArg (List.map Prod.fst) h2
    simp only [List.map_map] at this
    exact this.symm
  have h5 : ∀ {input : List Char} {ws tail}, Munch (languages [.lit (.mtch 'x') none, .lit (.mtch ';') none]) input ws tail →
      ∀ w ∈ ws, w.1 = ['x'] ∨ w.1 = [';'] := by
    intro input ws tail hm
    induction hm with
    | stop _ => simp
    | token hl _ _ ih =>
      intro w hw
      rcases List.mem_cons.1 hw with rfl | hw
      · obtain ⟨M, hM, hw⟩ := hl.isMatch
        simp only [languages, List.map_cons, List.map_nil, List.mem_cons, List.not_mem_nil, or_false] at hM
        rcases hM with rfl | rfl
        · obtain ⟨c, h1, h2⟩ := matches_lit hw
          exact .inl (by rw [h1, show c = 'x' from h2])
        · obtain ⟨c, h1, h2⟩ := matches_lit hw
          exact .inr (by rw [h1, show c = ';' from h2])
      · exact ih w hw
  rw [← h4] at h3
  have h6 : '?' ∈ (ws.map Prod.fst).flatten := by rw [h3]; decide
  obtain ⟨w, hw, hc⟩ := List.mem_flatten.1 h6
  obtain ⟨w, hw', rfl⟩ := List.mem_map.1 hw
  rcases h5 h1 w hw' with h | h <;> rw [h] at hc <;> exact absurd hc (by decide)

/-- C48 under the conditions of the exact theorems about lexers and parsers. -/
theorem c48_partial (hg : Built g) (hp : IsParser g tbl) (he : EpsFree g) (hs : SurelyFollowed g g.start)
    (hi : ¬ Inside g g.start) {p : Profile} {rules : List (List Char × (List Char → T))} {es : List Regex.Expr}
    {l : Lexer T} (hl : LexerFor p rules es l) (hr : Regular es) (ho : OneLookahead es) {input : List Char}
    {n : Node V T} :
    Parses l tbl input (some n) ↔
      ∃ ts, IsTokenization (languages es) rules input ts ∧ ParseTree g n (ts.map Tok.kind) ∧ EndsInToken n := by
  obtain ⟨c1, c2, c3⟩ := c23_tokenizes_partial p rules es l hl hr ho
  constructor
  · intro h
    obtain ⟨ts, h1, h2⟩ := c44_tokens_partial hg hp l h
    exact ⟨ts, c2 _ _ h1, (c37_exact_partial hg hp he hs hi).1 h2⟩
  · rintro ⟨ts, h1, h2⟩
    obtain ⟨ts', h3⟩ := c1 input
    have h4 := congrArg (List.map Prod.snd) (c3 _ _ _ h1 (c2 _ _ h3))
    simp only [List.map_map] at h4
    have h5 : ts.map Tok.kind = ts'.map Tok.kind := h4
    rw [h5] at h2
    obtain ⟨fuel, h6⟩ := (c37_exact_partial hg hp he hs hi).2 h2
    exact parses_of_tokens h3 h6

/-! ## C49 -/

/-- C49, the full claim: parsing text returns, and never panics. -/
def C49 : Prop :=
  ∀ (V T : Type) [DecidableEq V] [DecidableEq T] [TerminalEq T] [LawfulTerminalEq T] (g : Grammar V T) (tbl : Table V T)
    (p : Profile) (rules : List (List Char × (List Char → T))) (l : Lexer T), Built g → IsParser g tbl →
    buildLexer p rules = .ok (.ok l) → ∀ input,
      (∃ r, Parses l tbl input r) ∧ ∀ sim fuel, parseText l tbl sim fuel input ≠ .panic

/-- The lexer with the rules `a` and `b`. -/
def lettersAB : Lexer String :=
  ⟨⟨0, [⟨0, false, [(.literal (.mtch 'a'), [2]), (.literal (.mtch 'b'), [3])]⟩, ⟨1, true, []⟩, ⟨2, true, []⟩,
    ⟨3, true, []⟩]⟩, [(2, String.ofList), (3, String.ofList)]⟩

theorem lettersAB_lexes : lexAll (nfaMachine lettersAB.nfa 10) lettersAB.tokens 5 (InputIter.new "ab".toList) =
    .ok ([⟨"a", ['a'], (0, 1)⟩, ⟨"b", ['b'], (1, 2)⟩], ⟨[], [], (2, 0), [], []⟩) := by
  with_unfolding_all rfl

/-- C49 does not hold: the parser of `S → a S | b` panics on `ab`. -/
theorem c49_false : ¬ C49 := by
  intro h
  have h1 := (h _ _ rightRec _ .debug [("a".toList, String.ofList), ("b".toList, String.ofList)] lettersAB
    rightRec_built rightRec_parser rfl "ab".toList).2 10 10
  rw [parseText_tokens lettersAB_lexes] at h1
  exact h1 (by decide +kernel)

/-- C49 under the conditions of the theorems about termination and panics. -/
theorem c49_partial (hg : Built g) (hp : IsParser g tbl) (he : EpsFree g) (hno : ∀ v, ¬ UnitChain g v v)
    (hfirst : ∀ v β, (v, β) ∈ g.rules → ∃ t, InFirst g [.var v] (.term t))
    (hfollow : ∀ v β, (v, β) ∈ g.rules → ∃ t, InFollow g v (.term t))
    (hvar : ∃ β v, (g.start, β) ∈ g.rules ∧ .var v ∈ β) {p : Profile}
    {rules : List (List Char × (List Char → T))} {es : List Regex.Expr} {l : Lexer T} (hl : LexerFor p rules es l)
    (hr : Regular es) (ho : OneLookahead es) (input : List Char) :
    (∃ r, Parses l tbl input r) ∧
      ∀ sim fuel, parseText l tbl sim fuel input ≠ .panic := by
  obtain ⟨c1, c2, c3⟩ := c23_tokenizes_partial p rules es l hl hr ho
  obtain ⟨ts, h1⟩ := c1 input
  have h2 := c41_partial hg hp he hfirst hfollow hvar
  have h3 := c40_partial hg hp hno (fun h hr => he _ _ hr (by simp)) (ts.map Tok.kind)
    (Nat.lt_add_one _)
  constructor
  · cases h4 : parseTokens tbl ((2 * (ts.map Tok.kind).length + 1) * (g.rules.length + 2) + 1) (ts.map Tok.kind) with
    | ok r => exact ⟨r, parses_of_tokens h1 h4⟩
    | panic => exact absurd h4 (h2 _ _)
    | diverge => exact absurd h4 h3
  · intro sim fuel h4
    rw [parseText_eq (Nat.le_refl fuel)] at h4
    obtain ⟨c, follow, _, ok⟩ := hp.ok hg
    refine parse_no_panic hg.wellFormed ok he (fun v β hr => ?_) (fun v β hr => ?_) hvar ?_ h4
    · obtain ⟨t, ht⟩ := hfirst v β hr
      exact ⟨t, derives_starts.1 ht⟩
    · obtain ⟨t, ht⟩ := hfollow v β hr
      exact ⟨t, inFollow_iff.1 ht⟩
    · exact streamOf_no_panic fun n it => ((hl.toBuilt.safe sim).lexCalls n it).1

/-! ## Examples -/

/-- Patterns that are single literals without quantifiers are regular. -/
theorem literals_regular {es : List Regex.Expr} (h : ∀ e ∈ es, ∃ a, e = .lit a none) : Regular es := by
  intro e he
  obtain ⟨a, rfl⟩ := h e he
  exact ⟨(repeatsNonEmptyB_iff _).1 rfl, (countsAtStartB_iff _).1 rfl⟩

/-- They need no lookahead. -/
theorem literals_oneLookahead {es : List Regex.Expr} (h : ∀ e ∈ es, ∃ a, e = .lit a none) : OneLookahead es := by
  rintro w c hw _ ⟨e, he, hr⟩
  obtain ⟨a, rfl⟩ := h e he
  rcases mayRead_lit hr with h1 | ⟨d, h1, _⟩
  · simp at h1
  · cases w with
    | nil => exact absurd rfl hw
    | cons _ _ => simp at h1

/-- The trees of `x` and `;`. -/
def semisTrees : List Regex.Expr := [.lit (.mtch 'x') none, .lit (.mtch ';') none]

omit [Unicode] in
theorem semis_for : LexerFor .debug [("x".toList, String.ofList), (";".toList, String.ofList)] semisTrees semis :=
  ⟨semis_built, rfl⟩

theorem semis_literals : ∀ e ∈ semisTrees, ∃ a, e = .lit a none := by
  simp [semisTrees]

/-- `x;?` is parsed, `?` is what is ignored. -/
example : ∃ ts rest n, Tokens semis "x;?".toList ts ∧ (ts.map Tok.source).flatten ++ rest = "x;?".toList ∧
    rest = ['?'] ∧ Parses semis (tableOf goodGrammar) "x;?".toList (some n) :=
  ⟨_, _, _, ⟨10, 5, _, semis_lexes⟩, rfl, rfl, semis_parses⟩

/-- The hypotheses of `c44_rest_partial`, `c48_partial` and `c49_partial` hold for this lexer and grammar. -/
example (input : List Char) : ∃ r, Parses semis (tableOf goodGrammar) input r :=
  (c49_partial goodGrammar_built goodGrammar_parser goodGrammar_epsFree (fun v => goodGrammar_no_unit v v)
    goodGrammar_first goodGrammar_follow goodGrammar_var semis_for (literals_regular semis_literals)
    (literals_oneLookahead semis_literals) input).1

example (input : List Char) (n : Node String String) : Parses semis (tableOf goodGrammar) input (some n) ↔
    ∃ ts, IsTokenization (languages semisTrees) [("x".toList, String.ofList), (";".toList, String.ofList)] input ts ∧
      ParseTree goodGrammar n (ts.map Tok.kind) ∧ EndsInToken n :=
  c48_partial goodGrammar_built goodGrammar_parser goodGrammar_epsFree goodGrammar_followed.surely goodGrammar_not_inside
    semis_for (literals_regular semis_literals) (literals_oneLookahead semis_literals)

/-- The pattern `.` matches at the front of every text, as `c44_whole_partial` asks for. -/
example : (∀ text, text ≠ [] → ¬ NoMatch (languages [.lit (.cls .wildcard) none]) text) ∧
    ∃ l, LexerFor .debug [(".".toList, String.ofList)] [.lit (.cls .wildcard) none] l := by
  refine ⟨?_, ⟨⟨0, [⟨0, false, [(.literal (.cls .wildcard), [2])]⟩, ⟨1, true, []⟩, ⟨2, true, []⟩]⟩,
    [(2, String.ofList)]⟩, rfl, rfl⟩
  intro text ht hn
  cases text with
  | nil => exact ht rfl
  | cons c text =>
    refine hn [c] (by simp) ⟨text, rfl⟩ ⟨_, List.mem_cons_self .., ?_⟩
    exact Matches.lit rfl (by simp [LitSet, ClassSet])

end Pango.Props
