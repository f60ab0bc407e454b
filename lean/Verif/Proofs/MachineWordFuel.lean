import Verif.Proofs.MachineWordEnds

/-!
# The bounds on the loops of the simulator with machine words do not matter
-/

namespace Pango.Fsm

variable {nfa : Nfa} {w : Words} {n m : Nat} [Unicode]

theorem feedW_le (h : n ≤ m) {runs : List Run} {c : Char} : (nfa.feedW w n runs c).Le (nfa.feedW w m runs c) :=
  (flatMapOutcome_le (fun _ => Outcome.Le.bind .refl fun _ => flatMapOutcome_le
    (fun _ => Outcome.Le.bind .refl fun _ => worklist_le h) _) _).bind fun _ => .refl

theorem feedAllW_le (h : n ≤ m) {runs : List Run} {last : Option Bool} {v : List Char} :
    (nfa.feedAllW w n runs last v).Le (nfa.feedAllW w m runs last v) := by
  induction v generalizing runs last with
  | nil => exact .refl
  | cons c v ih =>
    rw [Nfa.feedAllW, Nfa.feedAllW]
    exact (feedW_le h).bind fun _ => ih

theorem simulateW_le (h : n ≤ m) {v : List Char} : (nfa.simulateW w n v).Le (nfa.simulateW w m v) :=
  (initRuns_le h).bind fun _ => (feedAllW_le h).bind fun _ => .refl

end Pango.Fsm

namespace Pango.Lex

open Pango.Fsm

variable {σ K : Type} {w : Words}

theorem nfaMachineW_le [Unicode] {nfa : Nfa} {n k : Nat} (h : n ≤ k) :
    (nfaMachineW w nfa n).Le (nfaMachineW w nfa k) :=
  ⟨initRuns_le h, fun _ _ => .refl, fun _ _ => feedW_le h, fun _ => .refl, fun _ => rfl⟩

variable {m m' : Machine σ} {gs : Generators K}

theorem lexLoopW_le (h : m.Le m') {sim : σ} {kind : Option K} {it : InputIter} :
    (lexLoopW w m gs sim kind it).Le (lexLoopW w m' gs sim kind it) := by
  induction hp : it.pending using Nat.strongRecOn generalizing sim kind it with
  | ind k ih =>
    subst hp
    rw [lexLoopW_step, lexLoopW_step]
    cases hno : it.nextW w with
    | panic => exact .refl
    | diverge => exact .refl
    | ok o =>
      obtain ⟨oc, it'⟩ := o
      simp only [Outcome.bind_ok]
      cases oc with
      | none =>
        simp only [stepW]
        refine (h.isAccepting sim).bind fun a => ?_
        cases a <;> exact .refl
      | some c =>
        have hlt := InputIter.pending_nextW hno
        simp only [stepW]
        refine (h.canFeed sim c).bind fun a => ?_
        cases a with
        | false => exact .refl
        | true =>
          refine (h.feed sim c).bind fun x => ?_
          obtain ⟨sim', acc⟩ := x
          cases acc with
          | false => exact ih _ hlt rfl
          | true =>
            simp only
            rw [← h.finals]
            refine Outcome.Le.bind .refl fun f => Outcome.Le.bind .refl fun gen => ?_
            cases hacc : it'.acceptSuffixW w with
            | panic => exact .refl
            | diverge => exact .refl
            | ok it'' => exact ih _ (by rw [InputIter.pending_acceptW hacc]; exact hlt) rfl

theorem lexCallsW_le (h : m.Le m') {n : Nat} {it : InputIter} :
    (lexCallsW w m gs n it).Le (lexCallsW w m' gs n it) := by
  induction n generalizing it with
  | zero => exact .refl
  | succ n ih =>
    rw [lexCallsW, lexCallsW]
    exact (h.start.bind fun _ => lexLoopW_le h).bind fun _ => ih.bind fun _ => .refl

end Pango.Lex
