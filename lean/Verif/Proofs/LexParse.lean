import Verif.Model.LexParse
import Verif.Proofs.Fuel

/-!
# Parsing text is parsing the tokens of the lexer
-/

namespace Pango.Parse

open Pango.Lex Pango.Fsm

variable {σ V T : Type} {m : Machine σ} {gs : Generators T}

/-- What `n` calls of `next` return before the first `None`, and how that ends. -/
def streamOf (m : Machine σ) (gs : Generators T) : Nat → InputIter → List (Tok T) × InputEnd
  | 0, _ => ([], .diverge)
  | n + 1, it =>
    match lexNext m gs it with
    | .ok (none, _) => ([], .ok ())
    | .ok (some t, it) => (t :: (streamOf m gs n it).1, (streamOf m gs n it).2)
    | .panic => ([], .panic)
    | .diverge => ([], .diverge)

theorem streamOf_lexAll {n : Nat} {it it' : InputIter} {ts : List (Tok T)} (h : lexAll m gs n it = .ok (ts, it')) :
    streamOf m gs n it = (ts, .ok ()) := by
  induction n generalizing it it' ts with
  | zero => simp [lexAll] at h
  | succ n ih =>
    rw [lexAll] at h
    rw [streamOf]
    cases hl : lexNext m gs it with
    | panic => simp [hl] at h
    | diverge => simp [hl] at h
    | ok r =>
      obtain ⟨tok, it1⟩ := r
      rw [hl, Outcome.bind_ok] at h
      cases tok with
      | none =>
        simp only [Outcome.pure_eq, Outcome.ok.injEq, Prod.mk.injEq] at h
        rw [← h.1]
      | some t =>
        simp only at h
        obtain ⟨⟨ts', it2⟩, h1, h2⟩ := Outcome.bind_eq_ok.1 h
        simp only [Outcome.pure_eq, Outcome.ok.injEq, Prod.mk.injEq] at h2
        simp only [ih h1]
        rw [← h2.1]

theorem lexAll_streamOf {n : Nat} {it : InputIter} {ts : List (Tok T)} (h : streamOf m gs n it = (ts, .ok ())) :
    ∃ it', lexAll m gs n it = .ok (ts, it') := by
  induction n generalizing it ts with
  | zero => simp [streamOf] at h
  | succ n ih =>
    rw [streamOf] at h
    rw [lexAll]
    cases hl : lexNext m gs it with
    | panic => simp [hl] at h
    | diverge => simp [hl] at h
    | ok r =>
      obtain ⟨tok, it1⟩ := r
      rw [hl] at h
      rw [Outcome.bind_ok]
      cases tok with
      | none =>
        simp only [Prod.mk.injEq, and_true] at h
        subst h
        exact ⟨it1, rfl⟩
      | some t =>
        simp only [Prod.mk.injEq] at h
        obtain ⟨h1, h2⟩ := h
        obtain ⟨it', h3⟩ := ih (it := it1) (ts := (streamOf m gs n it1).1) (by rw [← h2])
        refine ⟨it', ?_⟩
        simp only [h3, Outcome.bind_ok]
        rw [← h1]
        rfl

theorem streamOf_mono {n k : Nat} (hk : n ≤ k) {it : InputIter} {ts : List (Tok T)}
    (h : streamOf m gs n it = (ts, .ok ())) : streamOf m gs k it = (ts, .ok ()) := by
  induction n generalizing it ts k with
  | zero => simp [streamOf] at h
  | succ n ih =>
    obtain ⟨k, rfl⟩ : ∃ j, k = j + 1 := ⟨k - 1, by omega⟩
    rw [streamOf] at h ⊢
    cases hl : lexNext m gs it with
    | panic => simp [hl] at h
    | diverge => simp [hl] at h
    | ok r =>
      obtain ⟨tok, it1⟩ := r
      rw [hl] at h
      cases tok with
      | none => exact h
      | some t =>
        simp only [Prod.mk.injEq] at h
        have := ih (k := k) (by omega) (it := it1) (ts := (streamOf m gs n it1).1) (by rw [← h.2])
        simp only [this]
        rw [← h.1]

theorem streamOf_no_panic (h : ∀ n it, lexCalls m gs n it ≠ .panic) {n : Nat} {it : InputIter} :
    (streamOf m gs n it).2 ≠ .panic := by
  induction n generalizing it with
  | zero => simp [streamOf]
  | succ n ih =>
    rw [streamOf]
    cases hl : lexNext m gs it with
    | panic =>
      have := h 1 it
      rw [lexCalls, hl] at this
      exact absurd rfl this
    | diverge => simp
    | ok r =>
      obtain ⟨tok, it1⟩ := r
      cases tok with
      | none => simp
      | some t => exact ih

variable [DecidableEq V] [TerminalEq T]

theorem lexParseLoop_eq {tbl : Table V T} {n k : Nat} (hk : n ≤ k) {next : Option T} {it : InputIter}
    {stack : List (ParseNode V T)} {current : Nat} :
    lexParseLoop m gs tbl n next it stack current =
      parseLoop tbl (streamOf m gs k it).2 n (next.toList ++ (streamOf m gs k it).1.map Tok.kind) stack current := by
  induction n generalizing k next it stack current with
  | zero => rw [lexParseLoop, parseLoop]
  | succ n ih =>
    rw [lexParseLoop]
    cases next with
    | some t =>
      simp only [nextKind, Outcome.bind_ok, Option.toList, List.cons_append, List.nil_append, parseLoop]
      congr 1
      funext r
      cases r with
      | none => rfl
      | some h =>
        simp only
        split
        · rfl
        · rw [ih (k := k) (by omega)]
          split <;> rfl
    | none =>
      obtain ⟨k, rfl⟩ : ∃ j, k = j + 1 := ⟨k - 1, by omega⟩
      simp only [nextKind, streamOf, Option.toList, List.nil_append]
      cases hl : lexNext m gs it with
      | panic => rfl
      | diverge => rfl
      | ok r =>
        obtain ⟨tok, it1⟩ := r
        cases tok with
        | none => rfl
        | some t =>
          simp only [Outcome.bind_ok, Outcome.pure_eq, Option.map_some, List.map_cons, parseLoop]
          congr 1
          funext r
          cases r with
          | none => rfl
          | some h =>
            simp only
            split
            · rfl
            · rw [ih (k := k) (by omega)]
              split <;> rfl

variable [Unicode]

/-- Parsing text is parsing the tokens that the lexer makes of it. -/
theorem parseText_eq {l : Lexer T} {tbl : Table V T} {sim fuel k : Nat} (hk : fuel ≤ k) {input : List Char} :
    parseText l tbl sim fuel input = parseTokens tbl fuel
      ((streamOf (nfaMachine l.nfa sim) l.tokens k (InputIter.new input)).1.map Tok.kind)
      (streamOf (nfaMachine l.nfa sim) l.tokens k (InputIter.new input)).2 :=
  lexParseLoop_eq hk

theorem parseText_tokens {l : Lexer T} {tbl : Table V T} {sim n : Nat} {input : List Char} {ts : List (Tok T)}
    {it : InputIter} (h : lexAll (nfaMachine l.nfa sim) l.tokens n (InputIter.new input) = .ok (ts, it)) (fuel : Nat) :
    parseText l tbl sim fuel input = parseTokens tbl fuel (ts.map Tok.kind) := by
  rw [parseText_eq (Nat.le_max_left fuel n), streamOf_mono (Nat.le_max_right fuel n) (streamOf_lexAll h)]

end Pango.Parse
