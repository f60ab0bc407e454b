import Verif.Proofs.Fuel
import Verif.Proofs.LexParse

/-!
# The bounds on the loops of the simulator do not matter

As in `Verif.Proofs.Fuel`, for the lexer: with a larger bound on the epsilon closures nothing changes but that more of
the computations end.
-/

namespace Pango.Fsm

theorem worklist_le {α : Type} [DecidableEq α] {step : α → Outcome (List α)} {n m : Nat} (h : n ≤ m)
    {queue result : List α} : (worklist step n queue result).Le (worklist step m queue result) := by
  induction n generalizing m queue result with
  | zero =>
    cases queue with
    | nil => rw [worklist, worklist]; exact .refl
    | cons a q => rw [worklist]; exact .diverge
  | succ n ih =>
    obtain ⟨m, rfl⟩ : ∃ k, m = k + 1 := ⟨m - 1, by omega⟩
    cases queue with
    | nil => rw [worklist, worklist]; exact .refl
    | cons a q =>
      rw [worklist, worklist]
      exact Outcome.Le.bind .refl fun _ => ih (by omega)

theorem flatMapOutcome_le {α β : Type} {f f' : α → Outcome (List β)} (h : ∀ a, (f a).Le (f' a)) (l : List α) :
    (flatMapOutcome f l).Le (flatMapOutcome f' l) := by
  induction l with
  | nil => exact .refl
  | cons a l ih =>
    rw [flatMapOutcome, flatMapOutcome]
    exact (h a).bind fun _ => ih.bind fun _ => .refl

variable {nfa : Nfa} {n m : Nat}

theorem initRuns_le (h : n ≤ m) : (nfa.initRuns n).Le (nfa.initRuns m) :=
  (worklist_le h).bind fun _ => .refl

variable [Unicode]

theorem feed_le (h : n ≤ m) {runs : List Run} {c : Char} : (nfa.feed n runs c).Le (nfa.feed m runs c) :=
  (flatMapOutcome_le (fun _ => Outcome.Le.bind .refl fun _ => flatMapOutcome_le (fun _ => worklist_le h) _) _).bind
    fun _ => .refl

theorem feedAll_le (h : n ≤ m) {runs : List Run} {last : Option Bool} {w : List Char} :
    (nfa.feedAll n runs last w).Le (nfa.feedAll m runs last w) := by
  induction w generalizing runs last with
  | nil => exact .refl
  | cons c w ih =>
    rw [Nfa.feedAll, Nfa.feedAll]
    exact (feed_le h).bind fun _ => ih

theorem simulate_le (h : n ≤ m) {w : List Char} : (nfa.simulate n w).Le (nfa.simulate m w) :=
  (initRuns_le h).bind fun _ => (feedAll_le h).bind fun _ => .refl

end Pango.Fsm

namespace Pango.Lex

open Pango.Fsm

variable {σ K : Type}

/-- The methods of the second machine end with the same results if those of the first end. -/
structure Machine.Le (m m' : Machine σ) : Prop where
  start : m.start.Le m'.start
  canFeed : ∀ s c, (m.canFeed s c).Le (m'.canFeed s c)
  feed : ∀ s c, (m.feed s c).Le (m'.feed s c)
  isAccepting : ∀ s, (m.isAccepting s).Le (m'.isAccepting s)
  finals : ∀ s, m.finals s = m'.finals s

theorem nfaMachine_le [Unicode] {nfa : Nfa} {n k : Nat} (h : n ≤ k) : (nfaMachine nfa n).Le (nfaMachine nfa k) :=
  ⟨initRuns_le h, fun _ _ => .refl, fun _ _ => feed_le h, fun _ => .refl, fun _ => rfl⟩

variable {m m' : Machine σ} {gs : Generators K}

theorem lexLoop_le (h : m.Le m') {sim : σ} {kind : Option K} {it : InputIter} :
    (lexLoop m gs sim kind it).Le (lexLoop m' gs sim kind it) := by
  induction hp : it.pending using Nat.strongRecOn generalizing sim kind it with
  | ind k ih =>
    subst hp
    rw [lexLoop, lexLoop]
    split
    · rename_i c it' hn
      have hlt := InputIter.pending_next hn
      rcases h.canFeed sim c with h1 | h1
      · rw [h1]; exact .diverge
      rw [← h1]
      cases m.canFeed sim c with
      | panic => exact .refl
      | diverge => exact .refl
      | ok b =>
        cases b with
        | false => exact .refl
        | true =>
          simp only
          rcases h.feed sim c with h2 | h2
          · rw [h2]; exact .diverge
          rw [← h2]
          cases m.feed sim c with
          | panic => exact .refl
          | diverge => exact .refl
          | ok r =>
            obtain ⟨sim', acc⟩ := r
            cases acc with
            | false => exact ih _ hlt rfl
            | true =>
              simp only
              rw [← h.finals]
              cases m.finals sim' with
              | nil => exact .refl
              | cons f fs =>
                simp only
                cases gs.get f with
                | none => exact .refl
                | some gen => exact ih _ (by rw [InputIter.pending_accept]; exact hlt) rfl
    · rcases h.isAccepting sim with h1 | h1
      · rw [h1]; exact .diverge
      · rw [← h1]; exact .refl

theorem lexNext_le (h : m.Le m') {it : InputIter} : (lexNext m gs it).Le (lexNext m' gs it) :=
  h.start.bind fun _ => lexLoop_le h

theorem lexAll_le (h : m.Le m') {n k : Nat} (hk : n ≤ k) {it : InputIter} :
    (lexAll m gs n it).Le (lexAll m' gs k it) := by
  induction n generalizing k it with
  | zero => exact .diverge
  | succ n ih =>
    obtain ⟨k, rfl⟩ : ∃ j, k = j + 1 := ⟨k - 1, by omega⟩
    rw [lexAll, lexAll]
    refine (lexNext_le h).bind fun r => ?_
    obtain ⟨tok, it⟩ := r
    cases tok with
    | none => exact .refl
    | some t => exact (ih (by omega)).bind fun _ => .refl

theorem lexCalls_le (h : m.Le m') {n : Nat} {it : InputIter} :
    (lexCalls m gs n it).Le (lexCalls m' gs n it) := by
  induction n generalizing it with
  | zero => exact .refl
  | succ n ih =>
    rw [lexCalls, lexCalls]
    exact (lexNext_le h).bind fun _ => ih.bind fun _ => .refl

end Pango.Lex

namespace Pango.Parse

open Pango.Lex Pango.Fsm

variable {σ V T : Type} [DecidableEq V] [TerminalEq T] {m m' : Machine σ} {gs : Generators T} {tbl : Table V T}

theorem lexParseLoop_le (h : m.Le m') {n k : Nat} (hk : n ≤ k) {next : Option T} {it : InputIter}
    {stack : List (ParseNode V T)} {current : Nat} :
    (lexParseLoop m gs tbl n next it stack current).Le (lexParseLoop m' gs tbl k next it stack current) := by
  induction n generalizing k next it stack current with
  | zero => exact .diverge
  | succ n ih =>
    obtain ⟨k, rfl⟩ : ∃ j, k = j + 1 := ⟨k - 1, by omega⟩
    rw [lexParseLoop, lexParseLoop]
    have h1 : (nextKind m gs next it).Le (nextKind m' gs next it) := by
      unfold nextKind
      cases next with
      | some t => exact .refl
      | none => exact (lexNext_le h).bind fun _ => .refl
    refine h1.bind fun r => ?_
    obtain ⟨tok, it⟩ := r
    cases tok with
    | none => exact parseEof_mono hk
    | some t =>
      refine Outcome.Le.bind .refl fun r => ?_
      cases r with
      | none => exact .refl
      | some r =>
        simp only
        split
        · exact .refl
        · exact ih (by omega)

theorem parseText_le [Unicode] {l : Lexer T} {sim sim' n n' : Nat} (hs : sim ≤ sim') (hn : n ≤ n') {input : List Char} :
    (parseText l tbl sim n input).Le (parseText l tbl sim' n' input) :=
  lexParseLoop_le (nfaMachine_le hs) hn

end Pango.Parse
