import Verif.Props.RegexParser
import Verif.Proofs.RegexError

/-!
# C52: where errors in patterns are reported
-/

namespace Pango.Props

open Pango Pango.Regex Pango.Spec

/-- Specification: the tokens begin a sentence of the syntax, in which empty sequences and empty bracket
groups are allowed as well. -/
def Begins (ts : List Token) : Prop :=
  ∃ e w, Expression ⟨true, true⟩ e (ts.map Token.kind ++ w)

/-- C52 as stated: a rejected pattern has a first token that does not continue any sentence, and the
error has its span; or the pattern ends too early, and the error has the span of its last character. -/
def ErrorsAtPlace : Prop :=
  ∀ p input err, parse p input = .ok (.error [err]) →
    (∃ pre t post, (scan p input).toks = pre ++ t :: post ∧ Begins pre ∧ ¬ Begins (pre ++ [t]) ∧
      err.pos = t.pos) ∨
    (Begins (scan p input).toks ∧ err.pos = (input.length - 1, input.length))

/-- C52 is false: in the pattern `a(b` the right parenthesis is missing at the end, and the error is
reported at the `a`. -/
theorem c52_false : ¬ ErrorsAtPlace := by
  intro h
  have hp : parse .release "a(b".toList = .ok (.error [⟨.rightParan, (0, 1)⟩]) := rfl
  have ht : (scan .release "a(b".toList).toks =
    [⟨.mtch 'a', (0, 1)⟩, ⟨.operator .leftParen, (1, 2)⟩, ⟨.mtch 'b', (2, 3)⟩] := by decide
  rcases h _ _ _ hp with ⟨pre, t, post, h1, _, h2, h3⟩ | ⟨_, h⟩
  · rw [ht] at h1
    rcases pre with _ | ⟨t1, pre⟩
    · simp only [List.nil_append, List.cons.injEq] at h1
      refine h2 ⟨.lit (.mtch 'a') none, [], ?_⟩
      rw [← h1.1]
      exact .sub (.one (.mtch (.chr 'a') .none))
    · simp only [List.cons_append, List.cons.injEq] at h1
      rcases pre with _ | ⟨t2, pre⟩
      · simp only [List.nil_append, List.cons.injEq] at h1
        rw [← h1.2.1] at h3
        simp at h3
      · simp only [List.cons_append, List.cons.injEq] at h1
        rcases pre with _ | ⟨t3, pre⟩
        · simp only [List.nil_append, List.cons.injEq] at h1
          rw [← h1.2.2.1] at h3
          simp at h3
        · simp at h1
  · simp at h

/-- C52 as far as it holds.  Missing: an unclosed parenthesis or bracket, which is reported at the first
character of the pattern; a wrong token behind `-` in brackets, where the token behind it is reported;
and a cut off last token, whose span ends before it begins.

If a pattern is rejected, its tokens are split in two such that the first part begins a sentence, with
the first token of the second part it does not, and the error is
* that a parenthesis or bracket is not closed: then the second part is empty, and the span is that of
  the first character;
* that an expression or the items of a bracket group are missing: then the second part is empty, and
  the span is that of the last character of the last token;
* that the token is not one of those expected: then the span is that of the first token of the second
  part;
* that the end of a range is missing: then the span is that of the second token of the second part, of
  the last character of its only token, or of the first character if it is empty. -/
theorem c52_place_partial (p : Profile) (input : List Char) (err : ParseError)
    (h : parse p input = .ok (.error [err])) :
    ∃ pre rest, (scan p input).toks = pre ++ rest ∧ Begins pre ∧
      (∀ t post, rest = t :: post → ¬ Begins (pre ++ [t])) ∧
      ((err.kind ∈ [ParseErrorKind.rightParan, .rightBracket] ∧ rest = [] ∧ err.pos = (0, 1)) ∨
       (err.kind ∈ [ParseErrorKind.subExpression, .characterGroupItem] ∧ rest = [] ∧
         ∃ t, (scan p input).toks.getLast? = some t ∧ err.pos = (t.pos.2 - 1, t.pos.2)) ∨
       (err.kind ∈ [ParseErrorKind.matchCharacterClassLeftBracket, .characterClassCharacter] ∧
         ∃ t post, rest = t :: post ∧ err.pos = t.pos) ∨
       (err.kind = .mtch ∧ ((rest = [] ∧ err.pos = (0, 1)) ∨
         (∃ t, rest = [t] ∧ err.pos = (t.pos.2 - 1, t.pos.2)) ∨
         (∃ t t' post, rest = t :: t' :: post ∧ err.pos = t'.pos)))) := by
  unfold parse at h
  cases hr : parseScan (scan p input) with
  | ok e s' => rw [hr] at h; simp at h
  | panic => rw [hr] at h; simp at h
  | diverge => rw [hr] at h; simp at h
  | err es =>
    rw [hr] at h
    simp only [Outcome.ok.injEq, Except.error.injEq] at h
    obtain ⟨k, pos, d, rest, h1, h2, h3, h4, h5⟩ := parseScan_error hr
    obtain ⟨w, e, h4⟩ := h4 [] (.inl rfl)
    rw [h] at h1
    simp only [List.cons.injEq, and_true] at h1
    subst h1
    refine ⟨d, rest, h2, ⟨e, w, h4⟩, fun t post h => fun ⟨e', w', h'⟩ => h5 t post h e' w' h', ?_⟩
    simp only
    cases k with
    | rightParan => exact .inl ⟨by simp, h3⟩
    | rightBracket => exact .inl ⟨by simp, h3⟩
    | subExpression => exact .inr (.inl ⟨by simp, h3⟩)
    | characterGroupItem => exact .inr (.inl ⟨by simp, h3⟩)
    | matchCharacterClassLeftBracket => exact .inr (.inr (.inl ⟨by simp, h3⟩))
    | characterClassCharacter => exact .inr (.inr (.inl ⟨by simp, h3⟩))
    | mtch => exact .inr (.inr (.inr ⟨rfl, h3⟩))
    | leftParan => exact h3.elim
    | leftBracket => exact h3.elim
    | tokenForSubExpression => exact h3.elim
    | tokenForCharacterGroupItem => exact h3.elim

theorem tiles_mem {a b : Nat} {ts : List Token} (h : Tiles a b ts) {t : Token} (ht : t ∈ ts) :
    a ≤ t.pos.1 ∧ t.pos.1 < t.pos.2 ∧ t.pos.2 ≤ b := by
  have le : ∀ {ts : List Token} {a : Nat}, Tiles a b ts → a ≤ b := by
    intro ts
    induction ts with
    | nil => intro a h; exact Nat.le_of_eq h
    | cons t ts ih =>
      intro a h
      have := ih h.2.2
      have := h.2.1
      omega
  induction ts generalizing a with
  | nil => simp at ht
  | cons u ts ih =>
    obtain ⟨h1, h2, h3⟩ := h
    rcases List.mem_cons.1 ht with rfl | ht
    · have := le h3
      omega
    · have := ih h3 ht
      omega

/-- C52, as far as only the span goes.  Missing: patterns whose last token is cut off, such as `ab\`.

If the spans of the tokens tile the pattern, the span of an error is a non-empty range of the
pattern. -/
theorem c52_inside_partial (p : Profile) (input : List Char) (err : ParseError)
    (h : parse p input = .ok (.error [err])) (ht : Tiles 0 input.length (scan p input).toks) :
    err.pos.1 < err.pos.2 ∧ err.pos.2 ≤ input.length := by
  obtain ⟨pre, rest, h1, _, _, h2⟩ := c52_place_partial p input err h
  have inT : ∀ t ∈ rest, t ∈ (scan p input).toks := fun t h => by rw [h1]; exact List.mem_append_right _ h
  have start : 0 < input.length := by
    cases input with
    | nil => simp [parse, scan_nil, parseScan, peekTok] at h
    | cons c cs => simp
  rcases h2 with ⟨_, _, h3⟩ | ⟨_, _, t, h3, h4⟩ | ⟨_, t, post, h3, h4⟩ |
    ⟨_, ⟨_, h3⟩ | ⟨t, h3, h4⟩ | ⟨t, t', post, h3, h4⟩⟩
  · rw [h3]; exact ⟨by decide, start⟩
  · have := tiles_mem ht (List.mem_of_getLast? h3)
    rw [h4]; simp only; omega
  · have := tiles_mem ht (inT t (by simp [h3]))
    rw [h4]; omega
  · rw [h3]; exact ⟨by decide, start⟩
  · have := tiles_mem ht (inT t (by simp [h3]))
    rw [h4]; simp only; omega
  · have := tiles_mem ht (inT t' (by simp [h3]))
    rw [h4]; omega

/-- Errors of all four kinds; the span of the last one is empty because the last token is cut off. -/
example :
    parse .debug "a(b".toList = .ok (.error [⟨.rightParan, (0, 1)⟩]) ∧
    parse .debug "ab|".toList = .ok (.error [⟨.subExpression, (2, 3)⟩]) ∧
    parse .debug "ab**".toList = .ok (.error [⟨.matchCharacterClassLeftBracket, (3, 4)⟩]) ∧
    parse .debug "[a-*b]".toList = .ok (.error [⟨.mtch, (4, 5)⟩]) ∧
    parse .debug "ab\\".toList = .ok (.error [⟨.matchCharacterClassLeftBracket, (2, 1)⟩]) ∧
    Tiles 0 4 (scan .debug "ab**".toList).toks := by
  refine ⟨rfl, rfl, rfl, rfl, rfl, ?_⟩
  have : (scan .debug "ab**".toList).toks = [⟨.mtch 'a', (0, 1)⟩, ⟨.mtch 'b', (1, 2)⟩,
    ⟨.quantifier .asterisk, (2, 3)⟩, ⟨.quantifier .asterisk, (3, 4)⟩] := by decide
  rw [this]
  simp [Tiles]

end Pango.Props
