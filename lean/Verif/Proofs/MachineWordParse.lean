import Verif.Model.MachineWordParse
import Verif.Proofs.MachineWordFuel
import Verif.Proofs.LexFuel
import Verif.Proofs.Safe

/-!
# Parsing a text with machine words
-/

namespace Pango.Parse

open Pango Pango.Lex Pango.Fsm

variable {V T : Type} [DecidableEq V] [TerminalEq T] [Unicode] {w : Words} {nfa : Nfa} {fuel n : Nat}
  {gs : Generators T} {tbl : Table V T}

omit [TerminalEq T] in
theorem lexNextW_ok {rs} (b : Bundle nfa rs) (hw : n + 1 < w.size) {it : InputIter}
    {x : Option (Tok T) × InputIter} (hb : it.Below n) (hx : lexNext (nfaMachine nfa fuel) gs it = .ok x) :
    lexNextW w (nfaMachineW w nfa fuel) gs it = .ok x ∧ x.2.Below n := by
  simp only [lexNext, Outcome.bind_eq_ok] at hx
  obtain ⟨sim, h1, h2⟩ := hx
  obtain ⟨h5, h6⟩ := lexLoopW_ok b hw (.init h1) (by have := hb.few; simp; omega) hb h2
  have h1' : (nfaMachineW w nfa fuel).start = .ok sim := h1
  exact ⟨by simp only [lexNextW, h1', Outcome.bind_ok, h5], h6⟩

omit [TerminalEq T] in
theorem lexNextW_debug (hw : w.profile = .debug) {it : InputIter}
    {x : Option (Tok T) × InputIter} (hi : it.Counted w)
    (hx : lexNextW w (nfaMachineW w nfa fuel) gs it = .ok x) :
    lexNext (nfaMachine nfa fuel) gs it = .ok x ∧ x.2.Counted w := by
  simp only [lexNextW, Outcome.bind_eq_ok] at hx
  obtain ⟨sim, h1, h2⟩ := hx
  obtain ⟨h5, h6⟩ := lexLoopW_debug hw hi h2
  have h1' : (nfaMachine nfa fuel).start = .ok sim := h1
  exact ⟨by simp only [lexNext, h1', Outcome.bind_ok, h5], h6⟩

/-- If the words are enough and the lexer does not panic, then the parser ends as it does without an end to the
numbers. -/
theorem lexParseLoopW_same {rs} (b : Bundle nfa rs) (hw : n + 1 < w.size)
    (hs : ∀ it, lexNext (nfaMachine nfa fuel) gs it ≠ .panic) {k : Nat} {next : Option T} {it : InputIter}
    {stack : List (ParseNode V T)} {current : Nat} (hb : it.Below n) :
    (lexParseLoop (nfaMachine nfa fuel) gs tbl k next it stack current).Le
      (lexParseLoopW w (nfaMachineW w nfa fuel) gs tbl k next it stack current) := by
  induction k generalizing next it stack current with
  | zero => exact .refl
  | succ k ih =>
    rw [lexParseLoop, lexParseLoopW]
    cases hk : nextKind (nfaMachine nfa fuel) gs next it with
    | diverge => exact .diverge
    | panic =>
      exfalso
      unfold nextKind at hk
      cases next with
      | some t => cases hk
      | none =>
        cases hl : lexNext (nfaMachine nfa fuel) gs it with
        | panic => exact hs it hl
        | diverge => simp [hl] at hk
        | ok x => simp [hl] at hk
    | ok x =>
      have h1 : nextKindW w (nfaMachineW w nfa fuel) gs next it = .ok x ∧ x.2.Below n := by
        unfold nextKind at hk
        unfold nextKindW
        cases next with
        | some t => cases hk; exact ⟨rfl, hb⟩
        | none =>
          simp only [Outcome.bind_eq_ok] at hk
          obtain ⟨y, h2, h3⟩ := hk
          obtain ⟨h4, h5⟩ := lexNextW_ok b hw hb h2
          cases h3
          exact ⟨by simp only [h4, Outcome.bind_ok, Outcome.pure_eq], h5⟩
      obtain ⟨h1, h2⟩ := h1
      obtain ⟨tok, it'⟩ := x
      rw [h1]
      simp only [Outcome.bind_ok]
      cases tok with
      | none => exact .refl
      | some t =>
        refine Outcome.Le.bind .refl fun r => ?_
        cases r with
        | none => exact .refl
        | some r =>
          simp only
          split
          · exact .refl
          · exact ih h2

/-- With overflow checks, what the parser returns is what it returns without an end to the numbers. -/
theorem lexParseLoopW_debug (hw : w.profile = .debug) {k : Nat} {next : Option T} {it : InputIter}
    {stack : List (ParseNode V T)} {current : Nat} (hi : it.Counted w) {x : Option (Node V T)}
    (hx : lexParseLoopW w (nfaMachineW w nfa fuel) gs tbl k next it stack current = .ok x) :
    lexParseLoop (nfaMachine nfa fuel) gs tbl k next it stack current = .ok x := by
  induction k generalizing next it stack current with
  | zero => cases hx
  | succ k ih =>
    rw [lexParseLoopW, Outcome.bind_eq_ok] at hx
    obtain ⟨⟨tok, it'⟩, h1, h2⟩ := hx
    have h3 : nextKind (nfaMachine nfa fuel) gs next it = .ok (tok, it') ∧ it'.Counted w := by
      unfold nextKindW at h1
      unfold nextKind
      cases next with
      | some t => cases h1; exact ⟨rfl, hi⟩
      | none =>
        simp only [Outcome.bind_eq_ok] at h1
        obtain ⟨y, h4, h5⟩ := h1
        obtain ⟨h6, h7⟩ := lexNextW_debug hw hi h4
        cases h5
        exact ⟨by simp only [h6, Outcome.bind_ok, Outcome.pure_eq], h7⟩
    rw [lexParseLoop, h3.1, Outcome.bind_ok]
    cases tok with
    | none => exact h2
    | some t =>
      simp only [Outcome.bind_eq_ok] at h2 ⊢
      obtain ⟨r, h4, h5⟩ := h2
      refine ⟨r, h4, ?_⟩
      cases r with
      | none => exact h5
      | some r =>
        simp only at h5 ⊢
        split at h5
        · rename_i h; rw [if_pos h]; exact h5
        · rename_i h; rw [if_neg h]; exact ih h3.2 h5

omit [Unicode] in
theorem lexParseLoopW_le {σ : Type} {m m' : Machine σ} (h : m.Le m') {n k : Nat} (hk : n ≤ k) {next : Option T}
    {it : InputIter} {stack : List (ParseNode V T)} {current : Nat} :
    (lexParseLoopW w m gs tbl n next it stack current).Le (lexParseLoopW w m' gs tbl k next it stack current) := by
  induction n generalizing k next it stack current with
  | zero => exact .diverge
  | succ n ih =>
    obtain ⟨k, rfl⟩ : ∃ j, k = j + 1 := ⟨k - 1, by omega⟩
    rw [lexParseLoopW, lexParseLoopW]
    have h1 : (nextKindW w m gs next it).Le (nextKindW w m' gs next it) := by
      unfold nextKindW
      cases next with
      | some t => exact .refl
      | none => exact (h.start.bind fun _ => lexLoopW_le h).bind fun _ => .refl
    refine h1.bind fun r => ?_
    obtain ⟨tok, it⟩ := r
    cases tok with
    | none => exact parseEof_mono hk
    | some t =>
      refine Outcome.Le.bind .refl fun r => ?_
      cases r with
      | none => exact .refl
      | some r =>
        simp only
        split
        · exact .refl
        · exact ih (by omega)

theorem parseTextW_le {l : Lexer T} {sim sim' n n' : Nat} (hs : sim ≤ sim') (hn : n ≤ n') {input : List Char} :
    (parseTextW w l tbl sim n input).Le (parseTextW w l tbl sim' n' input) :=
  lexParseLoopW_le (nfaMachineW_le hs) hn

end Pango.Parse
