import Verif.Props.ManyRuns
import Verif.Props.ParseWork
import Verif.Proofs.ManyWork

/-!
# C121 and C122: rules for which lexing and parsing are exponential work
-/

namespace Pango.Props

open Pango Pango.Lex Pango.Fsm Pango.Parse Pango.Regex Pango.Spec

variable [Unicode] {K : Type} {p : Profile} {rules : List (List Char × (List Char → K))} {es : List Expr} {l : Lexer K}

omit [Unicode] in
private theorem text_new (input : List Char) : (InputIter.new input).text = input := by
  have : ∀ (cs : List Char) (n : Nat), (enumFrom n cs).map Prod.snd = cs := by
    intro cs
    induction cs with
    | nil => exact fun _ => rfl
    | cons c cs ih => exact fun n => by rw [enumFrom, List.map_cons, ih]
  simp [InputIter.text, InputIter.new, this]

/-- The general reason why C121 fails for other than one way rules: some word is ambiguous for the rounds of a group of one
of the rules.  Then a call at a text that begins with `n` of these rounds takes at least `2 ^ n` steps, whatever the other
rules are, whatever the text goes on with, and whether or not a token is returned.  Missing: rules that are neither like
this nor as in `c121_unambiguous_partial`. -/
theorem c121_ambiguous_partial (hl : LexerFor p rules es l) (hr : ∀ e ∈ es, RepeatsNonEmpty e) {e b : Expr} (he : e ∈ es)
    {z w : List Char} (hz : Enters e b z) (hw : Ambiguous (.group b (some .asterisk)) w) (n : Nat) (rest : List Char)
    {as : List (Option (Tok K))} {t : Nat} (ha : as ≠ [])
    (h : CallsWork l (z ++ (List.replicate n w).flatten ++ rest) as t) : 2 ^ n ≤ t := by
  obtain ⟨fuel, it, h⟩ := h
  cases as with
  | nil => exact absurd rfl ha
  | cons a as =>
    rw [List.length_cons, lexCallsT, Outcome.bind_eq_ok] at h
    obtain ⟨⟨⟨a1, it1⟩, t1⟩, h1, h2⟩ := h
    simp only [Outcome.bind_eq_ok] at h2
    obtain ⟨⟨⟨as1, it2⟩, t2⟩, h3, h4⟩ := h2
    cases h4
    have e1 := hl.toBuilt.next_doubles hr he hz hw h1 (text_new _)
    have e2 := lexCallsT_grows h3
    omega

private theorem rounds_length (z w : List Char) (n c k : Nat)
    (hn : c * (z.length + w.length + 2) ^ k * (n + 1) ^ k < 2 ^ n) :
    c * ((z ++ (List.replicate n w).flatten).length + 2) ^ k < 2 ^ n := by
  have h3 : (z ++ (List.replicate n w).flatten).length + 2 ≤ (z.length + w.length + 2) * (n + 1) := by
    simp only [List.length_append, List.length_flatten, List.map_replicate, List.sum_replicate_nat,
      Nat.add_mul, Nat.mul_add, Nat.mul_one, Nat.one_mul]
    have := Nat.mul_comm n w.length
    omega
  have h4 := Nat.mul_le_mul_left c (Nat.pow_le_pow_left h3 k)
  rw [Nat.mul_pow, ← Nat.mul_assoc] at h4
  omega

/-- So for such rules no polynomial bounds the work, already of one call. -/
theorem c121_ambiguous_no_polynomial (hl : LexerFor p rules es l) (hr : ∀ e ∈ es, RepeatsNonEmpty e) {e b : Expr} (he : e ∈ es)
    {z w : List Char} (hz : Enters e b z) (hw : Ambiguous (.group b (some .asterisk)) w) :
    ¬ ∃ c k, ∀ input a t, CallsWork l input [a] t → t ≤ c * (input.length + 1) ^ k := by
  rintro ⟨c, k, h⟩
  obtain ⟨n, hn⟩ := exp_beats_poly (c * (z.length + w.length + 2) ^ k) k
  have bt := hl.toBuilt
  obtain ⟨⟨as, it⟩, h1⟩ := ((bt.safe _).lexCalls 1 (InputIter.new (z ++ (List.replicate n w).flatten))).2
    (bt.total hr (Nat.le_refl _))
  have hlen : as.length = 1 := ((c23_calls_partial _ _ _ _ hl _ 1 as).1 ⟨_, _, h1⟩).1
  obtain ⟨t, ht⟩ := lexCallsT_of (size := List.length) 0 h1
  obtain ⟨a, rfl⟩ := List.length_eq_one_iff.1 hlen
  have hc : CallsWork l (z ++ (List.replicate n w).flatten) [a] t := ⟨_, it, ht⟩
  have h2 := c121_ambiguous_partial hl hr he hz hw n [] (List.cons_ne_nil a []) (by rw [List.append_nil]; exact hc)
  have h3 := h _ _ _ hc
  have h4 := rounds_length z w n c k hn
  have h5 := Nat.mul_le_mul_left c (Nat.pow_le_pow_left
    (show (z ++ (List.replicate n w).flatten).length + 1 ≤ (z ++ (List.replicate n w).flatten).length + 2 by omega) k)
  omega

variable {V : Type} [DecidableEq V] [TerminalEq K] {tbl : Table V K}

/-- The same for parsing a text, whatever the parser is and whatever it returns.  Missing: as before. -/
theorem c122_ambiguous_partial (hl : LexerFor p rules es l) (hr : ∀ e ∈ es, RepeatsNonEmpty e) {e b : Expr} (he : e ∈ es)
    {z w : List Char} (hz : Enters e b z) (hw : Ambiguous (.group b (some .asterisk)) w) (n : Nat) (rest : List Char)
    {r : Option (Node V K)} {t : Nat} (h : ParsesWork l tbl (z ++ (List.replicate n w).flatten ++ rest) r t) :
    2 ^ n ≤ t := by
  obtain ⟨sim, fuel, h⟩ := h
  obtain ⟨_, as, it', t1, _, hne, e2, e3, _⟩ := lexParseLoopT_work h
  have := c121_ambiguous_partial hl hr he hz hw n rest (hne rfl) ⟨sim, it', e2⟩
  omega

/-- So no polynomial bounds the work of parsing. -/
theorem c122_ambiguous_no_polynomial (hl : LexerFor p rules es l) (hr : ∀ e ∈ es, RepeatsNonEmpty e) {e b : Expr} (he : e ∈ es)
    {z w : List Char} (hz : Enters e b z) (hw : Ambiguous (.group b (some .asterisk)) w) (c k : Nat) :
    ∃ input, ∀ (r : Option (Node V K)) (t : Nat), ParsesWork l tbl input r t → c * (input.length + 1) ^ k < t := by
  obtain ⟨n, hn⟩ := exp_beats_poly (c * (z.length + w.length + 2) ^ k) k
  refine ⟨z ++ (List.replicate n w).flatten, fun r t h => ?_⟩
  have h2 := c122_ambiguous_partial hl hr he hz hw n [] (by rw [List.append_nil]; exact h)
  have h4 := rounds_length z w n c k hn
  have h5 := Nat.mul_le_mul_left c (Nat.pow_le_pow_left
    (show (z ++ (List.replicate n w).flatten).length + 1 ≤ (z ++ (List.replicate n w).flatten).length + 2 by omega) k)
  omega

/-! ## Examples -/

private theorem numbers_parse : parse .debug "(\\d+,?)+".toList = .ok (.ok (.group numberAndComma (some .plus))) := by
  unfold parse
  rw [show scan .debug "(\\d+,?)+".toList = ⟨[⟨.operator .leftParen, (0, 1)⟩, ⟨.cls .digit, (1, 3)⟩,
    ⟨.quantifier .plus, (3, 4)⟩, ⟨.mtch ',', (4, 5)⟩, ⟨.quantifier .questionMark, (5, 6)⟩, ⟨.operator .rightParen, (6, 7)⟩,
    ⟨.quantifier .plus, (7, 8)⟩], .eof⟩ by decide +kernel]
  rfl

/-- A lexer of numbers and blanks. -/
theorem numbers_for : ∃ l, LexerFor .debug [("(\\d+,?)+".toList, fun _ => 0), (" +".toList, fun _ => 1)]
    [.group numberAndComma (some .plus), .lit (.mtch ' ') (some .plus)] l := by
  have h2 : parse .debug " +".toList = .ok (.ok (.lit (.mtch ' ') (some .plus))) := by with_unfolding_all rfl
  obtain ⟨l, hl⟩ := (c55_partial (K := Nat) .debug
      [("(\\d+,?)+".toList, fun _ => 0), (" +".toList, fun _ => 1)]).2.1 (by
    intro r hr
    simp only [List.mem_cons, List.not_mem_nil, or_false] at hr
    rcases hr with rfl | rfl
    · exact ⟨_, numbers_parse, by rw [← hasEmptySeqB_iff]; decide⟩
    · exact ⟨_, h2, by rw [← hasEmptySeqB_iff]; decide⟩)
  exact ⟨l, hl, by simp only [List.map_cons, List.map_nil, numbers_parse, h2]⟩

/-- Finding the first token of a text that begins with `2 * n + 1` digits takes `2 ^ n` steps. -/
example {l : Lexer Nat} (hl : LexerFor .debug [("(\\d+,?)+".toList, fun _ => 0), (" +".toList, fun _ => 1)]
    [.group numberAndComma (some .plus), .lit (.mtch ' ') (some .plus)] l) (n : Nat) (rest : List Char)
    {a : Option (Tok Nat)} {t : Nat} (h : CallsWork l (['1'] ++ (List.replicate n ['1', '1']).flatten ++ rest) [a] t) :
    2 ^ n ≤ t := by
  obtain ⟨h1, h2⟩ := numberAndComma_ambiguous
  refine c121_ambiguous_partial hl ?_ (.head _) h1 h2 n rest (by simp) h
  intro e he
  rw [← repeatsNonEmptyB_iff]
  simp only [List.mem_cons, List.not_mem_nil, or_false] at he
  rcases he with rfl | rfl <;> decide

end Pango.Props
