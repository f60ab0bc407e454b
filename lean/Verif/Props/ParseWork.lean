import Verif.Props.Work
import Verif.Props.StackSize
import Verif.Props.TextMachine
import Verif.Proofs.ParseWork

/-!
# C122: how much work it is to parse a text
-/

namespace Pango.Props

open Pango Pango.Lex Pango.Fsm Pango.Parse Pango.Regex Pango.Spec

variable [Unicode] {V T : Type} [DecidableEq V] [DecidableEq T] [TerminalEq T] {g : Grammar V T} {tbl : Table V T}
  {p : Profile} {rules : List (List Char × (List Char → T))} {es : List Expr} {l : Lexer T}

omit [DecidableEq T] in
/-- The parser returns `r` on the text.  Together `t` characters have been read, runs of the simulator made, steps made
by the parser and nodes taken from its stack. -/
def ParsesWork (l : Lexer T) (tbl : Table V T) (input : List Char) (r : Option (Node V T)) (t : Nat) : Prop :=
  ∃ sim fuel, parseTextT l tbl sim fuel input = .ok (r, t)

/-- C122, the full claim: the work of parsing a text is proportional to its length. -/
def C122 : Prop :=
  ∀ (p : Profile) (rules : List (List Char × (List Char → String))) (es : List Expr) (l : Lexer String)
    (g : Grammar String String) (tbl : Table String String), LexerFor p rules es l → Built g → IsParser g tbl →
    ∃ k, ∀ (input : List Char) (r : Option (Node String String)) (t : Nat), ParsesWork l tbl input r t →
      t ≤ k * (input.length + 1)

omit [DecidableEq T] in
/-- C122, the work is that of the parser: it returns exactly what it returns with a counter, and the number is
determined. -/
theorem c122_erased (input : List Char) (r : Option (Node V T)) :
    (Parses l tbl input r ↔ ∃ t, ParsesWork l tbl input r t) ∧
    ∀ t r' t', ParsesWork l tbl input r t → ParsesWork l tbl input r' t' → r = r' ∧ t = t' := by
  refine ⟨⟨?_, ?_⟩, ?_⟩
  · rintro ⟨sim, fuel, h⟩
    rw [← parseTextT_fst, Outcome.bind_eq_ok] at h
    obtain ⟨⟨r', t⟩, h1, h2⟩ := h
    cases h2
    exact ⟨t, sim, fuel, h1⟩
  · rintro ⟨t, sim, fuel, h⟩
    refine ⟨sim, fuel, ?_⟩
    rw [← parseTextT_fst, h]
    rfl
  · rintro t r' t' ⟨s1, f1, h1⟩ ⟨s2, f2, h2⟩
    have e1 := (parseTextT_le (Nat.le_max_left s1 s2) (Nat.le_max_left f1 f2)).ok h1
    have e2 := (parseTextT_le (Nat.le_max_right s1 s2) (Nat.le_max_right f1 f2)).ok h2
    rw [e1] at e2
    simpa using e2

omit [Unicode] [DecidableEq V] [DecidableEq T] [TerminalEq T] in
private theorem height_le (rest : List (ParseNode V T)) : rest.length ≤ stackNodes rest := by
  induction rest with
  | nil => exact Nat.zero_le _
  | cons x rest ih =>
    obtain ⟨⟨s, cs⟩, k⟩ := x
    simp only [stackNodes, List.map_cons, nodesCount, nodeCount, List.length_cons] at ih ⊢
    omega

private theorem share (n k : Nat) : 2 * ((2 * n + 1) * (k + 1) + 1) + 1 ≤ 4 * (n + 1) * (k + 2) := by
  simp only [Nat.mul_add, Nat.add_mul, Nat.mul_assoc, Nat.one_mul, Nat.mul_one]
  omega

/-- C122, the share of the parser, for every lexer and every grammar: what is not work of the lexer is at least one step,
and proportional to the length of the text and the number of rules.  The lexer is called once per token and once more at
most.  If a tree is returned, then there are two steps for each node: it has been made, and, if it is not the root, taken
from the stack. -/
theorem c122_parser [LawfulTerminalEq T] (hg : Built g) (hp : IsParser g tbl) {input : List Char}
    {r : Option (Node V T)} {t : Nat} (h : ParsesWork l tbl input r t) :
    ∃ as w, CallsWork l input as w ∧ as.length ≤ input.length + 1 ∧ w < t ∧
      t ≤ w + 4 * (input.length + 1) * (g.rules.length + 2) ∧
      ∀ n, r = some n → w + 2 * nodeCount n ≤ t + 2 := by
  obtain ⟨sim, fuel, h⟩ := h
  have h0 : parseText l tbl sim fuel input = .ok r := by
    rw [← parseTextT_fst, h]
    rfl
  have hlen : ∀ ts : List (Tok T), (∃ it, lexCalls (nfaMachine l.nfa sim) l.tokens ts.length (InputIter.new input) =
      .ok (ts.map some, it)) → ts.length ≤ input.length := by
    rintro ts ⟨it, h⟩
    have := (c16_finite _ _ _ _ _ _ h).2.1
    simpa [returned] using this
  obtain ⟨f, hf, hle⟩ : ∃ f, parseTextT l tbl sim f input = .ok (r, t) ∧
      f ≤ (2 * input.length + 1) * (g.rules.length + 1) + 1 := by
    rcases Nat.le_total fuel ((2 * input.length + 1) * (g.rules.length + 1) + 1) with hle | hle
    · exact ⟨fuel, h, hle⟩
    refine ⟨(2 * input.length + 1) * (g.rules.length + 1) + 1, ?_, Nat.le_refl _⟩
    generalize hF : (2 * input.length + 1) * (g.rules.length + 1) + 1 = F at hle ⊢
    rcases hst : streamOf (nfaMachine l.nfa sim) l.tokens fuel (InputIter.new input) with ⟨ts, fin⟩
    have hts := hlen ts (streamOf_calls hst).1
    have e0 := h0
    rw [parseText_eq (Nat.le_refl fuel), hst] at e0
    have e1 : ∀ k, parseTokens tbl k (ts.map Tok.kind) fin = parseTokens tbl k (ts.map Tok.kind) := by
      by_cases hfin : fin = .ok ()
      · rw [hfin]
        exact fun _ => rfl
      · exact parseLoop_early hfin e0
    rw [e1] at e0
    have e2 := (c40_decided_partial hg hp (ts.map Tok.kind)).1 ⟨fuel, by rw [e0]; exact fun h => nomatch h⟩
    have e3 : parseText l tbl sim F input ≠ .diverge := by
      rw [parseText_eq hle, hst, e1]
      intro hd
      refine e2 ?_
      rcases parseTokens_mono (tbl := tbl) (w := ts.map Tok.kind) (fin := .ok ())
        (show (2 * (ts.map Tok.kind).length + 1) * (g.rules.length + 1) + 1 ≤ F by
          rw [← hF, List.length_map]
          exact Nat.add_le_add_right (Nat.mul_le_mul_right _ (by omega)) _) with e | e
      · exact e
      · rw [e]; exact hd
    have e4 : parseTextT l tbl sim F input ≠ .diverge := by
      intro hd
      refine e3 ?_
      rw [← parseTextT_fst, hd]
      rfl
    rcases parseTextT_le (l := l) (tbl := tbl) (input := input) (Nat.le_refl sim) hle with e | e
    · exact absurd e e4
    · rw [e]; exact h
  obtain ⟨ts, as, it', w, e1, _, e2, e3, e4, e6⟩ := lexParseLoopT_work hf
  rw [Nat.zero_add] at e3 e4
  have e5 : lexCalls (nfaMachine l.nfa sim) l.tokens as.length (InputIter.new input) = .ok (as, it') := by
    rw [← lexCallsT_fst (size := List.length) (t := 0), e2]
    rfl
  refine ⟨as, w, ⟨sim, it', e2⟩, ?_, e3, ?_, fun n hn => ?_⟩
  · have := (c16_finite _ _ _ _ _ _ e5).2.1
    rcases e1 with rfl | rfl
    · simp [returned] at this
      simp only [List.length_map]
      omega
    · simp [returned] at this
      simp only [List.length_append, List.length_map, List.length_singleton]
      omega
  · rw [List.length_singleton] at e4
    have := share input.length g.rules.length
    omega
  · obtain ⟨rest, e7⟩ := e6 n hn
    have := height_le rest
    simp only [stackNodes, List.map_cons, List.map_nil, nodesCount, nodeCount, List.length_singleton] at e7 this
    omega

private theorem linear_of [LawfulTerminalEq T] (hg : Built g) (hp : IsParser g tbl)
    (h : ∃ k, ∀ input as t, CallsWork l input as t → t ≤ k * (input.length + as.length)) :
    ∃ k, ∀ input r t, ParsesWork l tbl input r t → t ≤ k * (input.length + 1) := by
  obtain ⟨k, hk⟩ := h
  refine ⟨2 * k + 4 * (g.rules.length + 2), fun input r t h => ?_⟩
  obtain ⟨as, w, h1, h2, _, h4, _⟩ := c122_parser hg hp h
  have h5 := hk _ _ _ h1
  have h6 : k * (input.length + as.length) ≤ k * (2 * (input.length + 1)) := Nat.mul_le_mul_left _ (by omega)
  rw [Nat.add_mul]
  have h7 : 2 * k * (input.length + 1) = k * (2 * (input.length + 1)) := by rw [Nat.mul_comm 2 k, Nat.mul_assoc]
  have h8 : 4 * (g.rules.length + 2) * (input.length + 1) = 4 * (input.length + 1) * (g.rules.length + 2) :=
    Nat.mul_right_comm ..
  omega

/-- What holds of C122: with a lexer as in `c121_linear_partial` the work is proportional to the length of the text, for
every grammar.  Missing: other lexers, for which it need not hold (`c122_exponential`). -/
theorem c122_linear_partial [LawfulTerminalEq T] (hl : LexerFor p rules es l) (hr : ∀ e ∈ es, RepeatsNonEmpty e)
    (ho : ∀ e ∈ es, OneWay e fun _ => False) {b : Nat} (hb : PutsBackAtMost es b) (hg : Built g) (hp : IsParser g tbl) :
    ∃ k, ∀ input r t, ParsesWork l tbl input r t → t ≤ k * (input.length + 1) :=
  linear_of hg hp (c121_linear_partial hl hr ho hb).2

/-- If lexing is polynomial work, then so is parsing. -/
theorem polynomial_of [LawfulTerminalEq T] (hg : Built g) (hp : IsParser g tbl)
    (h : ∃ c k, ∀ input as t, CallsWork l input as t → t ≤ c * (input.length + as.length + 1) ^ k) :
    ∃ c k, ∀ input r t, ParsesWork l tbl input r t → t ≤ c * (input.length + 1) ^ k := by
  obtain ⟨c, k, hk⟩ := h
  refine ⟨c * 2 ^ k + 4 * (g.rules.length + 2), k + 1, fun input r t h => ?_⟩
  obtain ⟨as, w, h1, h2, _, h4, _⟩ := c122_parser hg hp h
  have h5 := hk _ _ _ h1
  generalize hX : input.length + 1 = X at *
  have hpos : 1 ≤ X ^ k := Nat.one_le_pow _ _ (by omega)
  have h6 : c * (input.length + as.length + 1) ^ k ≤ c * 2 ^ k * X ^ (k + 1) := by
    calc c * (input.length + as.length + 1) ^ k ≤ c * (2 * X) ^ k := Nat.mul_le_mul_left _ (Nat.pow_le_pow_left (by omega) _)
      _ = c * 2 ^ k * X ^ k := by rw [Nat.mul_pow, Nat.mul_assoc]
      _ ≤ c * 2 ^ k * X ^ (k + 1) := Nat.mul_le_mul_left _ (Nat.pow_le_pow_right (by omega) (by omega))
  have h7 : 4 * X * (g.rules.length + 2) ≤ 4 * (g.rules.length + 2) * X ^ (k + 1) := by
    rw [Nat.mul_right_comm]
    refine Nat.mul_le_mul_left _ ?_
    rw [Nat.pow_succ]
    exact Nat.le_mul_of_pos_left _ hpos
  rw [Nat.add_mul]
  omega

/-- With a lexer as in `c121_polynomial_partial` the work is bounded by a polynomial.  Missing: other lexers. -/
theorem c122_polynomial_partial [LawfulTerminalEq T] (hl : LexerFor p rules es l) (hr : ∀ e ∈ es, RepeatsNonEmpty e)
    (ho : ∀ e ∈ es, RepeatsOneWay e) (hg : Built g) (hp : IsParser g tbl) :
    ∃ c k, ∀ input r t, ParsesWork l tbl input r t → t ≤ c * (input.length + 1) ^ k :=
  polynomial_of hg hp (c121_polynomial_partial hl hr ho)

/-! ## Lexers for which it is not linear -/

omit [DecidableEq T] in
/-- With the rule `(a|[a])*` reading `aaa...a` is exponential work, whatever the parser returns. -/
theorem c122_exponential (x : T) (n : Nat) {r : Option (Node V T)} {t : Nat}
    (h : ParsesWork (twice x) tbl (List.replicate n 'a') r t) : 2 ^ n ≤ t := by
  obtain ⟨sim, fuel, h⟩ := h
  obtain ⟨_, as, it', w, _, hne, e2, e3, _⟩ := lexParseLoopT_work h
  obtain ⟨as1, t1, ⟨fuel1, it1, h1⟩, h2, h3⟩ := c121_exponential x n
  cases as with
  | nil => exact absurd rfl (hne rfl)
  | cons a as =>
    have k1 := (lexCallsT_le (nfaMachine_le (Nat.le_max_left sim fuel1))).ok e2
    have k2 := (lexCallsT_le (nfaMachine_le (Nat.le_max_right sim fuel1))).ok h1
    rw [List.length_cons, lexCallsT, Outcome.bind_eq_ok] at k1
    rw [h2, lexCallsT, Outcome.bind_eq_ok] at k2
    obtain ⟨⟨⟨a1, i1⟩, w1⟩, f1, f2⟩ := k1
    obtain ⟨y, g1, g2⟩ := k2
    rw [f1] at g1
    cases g1
    simp only [lexCallsT, Outcome.bind_ok, Outcome.pure_eq, Outcome.ok.injEq, Prod.mk.injEq] at g2
    simp only [Outcome.bind_eq_ok] at f2
    obtain ⟨⟨⟨as2, i2⟩, w2⟩, f3, f4⟩ := f2
    simp only [Outcome.pure_eq, Outcome.ok.injEq, Prod.mk.injEq] at f4
    obtain ⟨_, k, j1, _⟩ := lexCallsT_ok (inv := fun _ _ => False) (B := 0) ⟨fun h => h.elim, fun h => h.elim⟩ f3 0
    omega

/-- C122 is false. -/
theorem c122_false : ¬ C122 := by
  intro h
  obtain ⟨k, hk⟩ := h _ _ _ _ goodGrammar _ (twice_for "x") goodGrammar_built goodGrammar_parser
  obtain ⟨n, hn⟩ := exp_beats_poly k 1
  obtain ⟨_, r, hr⟩ := c49_returns_partial goodGrammar_built goodGrammar_parser goodGrammar_trim (twice_for "x") (by
    intro e he
    rw [List.mem_singleton.1 he, ← repeatsNonEmptyB_iff]
    decide) (List.replicate n 'a')
  obtain ⟨t, ht⟩ := (c122_erased _ _).1.1 hr
  have h1 := hk _ _ _ ht
  have h2 := c122_exponential _ _ ht
  rw [List.length_replicate] at h1
  rw [Nat.pow_one] at hn
  omega

/-! ## Examples -/

/-- The example of `c49_partial`: lexing `x` and `;` is linear, so parsing lists of them is. -/
example : ∃ k, ∀ input, ∃ r t, ParsesWork semis (tableOf goodGrammar) input r t ∧ t ≤ k * (input.length + 1) := by
  obtain ⟨k, hk⟩ := c122_linear_partial (b := 0) semis_for (by simp [semisTrees, RepeatsNonEmpty])
    (by simp [semisTrees, OneWay])
    (fun w back x h1 h2 h3 h4 => by
      rw [(looksOneAhead_of semis_for (literals_regular semis_literals)
        (literals_oneLookahead semis_literals)).putsNothingBack semis_for w back x h1 h2 h3 h4]
      exact Nat.le_refl _) goodGrammar_built goodGrammar_parser
  refine ⟨k, fun input => ?_⟩
  obtain ⟨_, r, hr⟩ := c49_returns_partial goodGrammar_built goodGrammar_parser goodGrammar_trim semis_for
    (by simp [semisTrees, RepeatsNonEmpty]) input
  obtain ⟨t, ht⟩ := (c122_erased _ _).1.1 hr
  exact ⟨r, t, ht, hk _ _ _ ht⟩

/-- The reader for data in the style of JSON of C120 returns on every text, with work that is proportional to the length
of the text. -/
theorem c122_json {l : Lexer JsonTok} {tbl : Table JsonVar JsonTok} (hl : LexerFor .debug jsonRules jsonTrees l)
    (hp : IsParser (withEnd jsonGrammar .document .stop .never) tbl) :
    ∃ k, ∀ text, ∃ r t, ParsesWork l tbl text r t ∧ t ≤ k * (text.length + 1) ∧
      ∀ n, r = some n ↔ ∃ (j : Json) (w tail : List Char), text = w ++ tail ∧
        JsonText (j.tokens ++ [.stop]) w ∧ BeginsWithNone tail ∧ n = .mk (.var .document) [leaf .stop, j.tree] := by
  have document : ∀ r ∈ jsonGrammar.rules, r.1 ≠ JsonVar.document := by decide +kernel
  obtain ⟨k, hk⟩ := linear_of (json_built.withEnd fun β h => document _ h rfl) hp (c121_json hl).2
  refine ⟨k, fun text => ?_⟩
  obtain ⟨r, h1, h2⟩ := c120_reads hl hp text
  obtain ⟨t, ht⟩ := (c122_erased _ _).1.1 h1
  exact ⟨r, t, ht, hk _ _ _ ht, h2⟩

end Pango.Props
