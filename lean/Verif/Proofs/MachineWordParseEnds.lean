import Verif.Proofs.MachineWordParse
import Verif.Proofs.MachineWordEnds

/-!
# Parsing a text with machine words ends
-/

namespace Pango.Lex

open Pango Pango.Fsm

variable {σ K : Type} {w : Words} {m : Machine σ} {gs : Generators K}

/-- The characters that are held. -/
def InputIter.held (it : InputIter) : Nat := it.source.length + it.suffix.length + it.pending

theorem InputIter.held_nextW {it it' : InputIter} {o : Option Char} (h : it.nextW w = .ok (o, it')) :
    it'.held = it.held ∧ it'.source = it.source ∧ (o.isSome → it'.suffix ≠ []) := by
  unfold InputIter.nextW at h
  split at h
  · cases h; simp_all [InputIter.held, InputIter.pending]; omega
  · split at h
    · simp only [Outcome.bind_eq_ok] at h
      obtain ⟨_, _, h⟩ := h
      cases h
      simp_all [InputIter.held, InputIter.pending]
      omega
    · cases h
      simp

theorem InputIter.held_acceptW {it it' : InputIter} (h : it.acceptSuffixW w = .ok it') :
    it'.held = it.held ∧ it'.suffix = [] ∧ (it.suffix ≠ [] → it'.source ≠ []) := by
  simp only [InputIter.acceptSuffixW, Outcome.bind_eq_ok] at h
  obtain ⟨_, _, h⟩ := h
  cases h
  simp [InputIter.held, InputIter.pending]
  exact fun h _ => h

theorem held_give {kind : Option K} {it it' : InputIter} {t : Tok K} (h : give kind it = (some t, it'))
    (hk : kind.isSome → it.source ≠ []) : it'.held + 1 ≤ it.held := by
  cases kind with
  | none => simp [give] at h
  | some k =>
    simp only [give, takeToken, InputIter.consumeToken, Prod.mk.injEq] at h
    obtain ⟨_, rfl⟩ := h
    have := List.length_pos_iff.2 (hk rfl)
    simp only [InputIter.held, InputIter.pending, List.length_nil]
    omega

theorem lexLoopW_held {sim : σ} {kind : Option K} {it it' : InputIter} {t : Tok K}
    (hk : kind.isSome → it.source ≠ []) (h : lexLoopW w m gs sim kind it = .ok (some t, it')) :
    it'.held + 1 ≤ it.held := by
  induction hp : it.pending using Nat.strongRecOn generalizing sim kind it with
  | ind k ih =>
    subst hp
    rw [lexLoopW_step, Outcome.bind_eq_ok] at h
    obtain ⟨⟨oc, it1⟩, h1, h2⟩ := h
    obtain ⟨e1, e2, e3⟩ := InputIter.held_nextW h1
    have hk1 : kind.isSome → it1.source ≠ [] := by rw [e2]; exact hk
    rw [← e1]
    cases oc with
    | none =>
      simp only [stepW, Outcome.bind_eq_ok] at h2
      obtain ⟨a, _, h2⟩ := h2
      cases a with
      | true => exact held_give (Outcome.ok.inj h2) hk1
      | false => cases h2
    | some c =>
      have hlt := InputIter.pending_nextW h1
      simp only [stepW, Outcome.bind_eq_ok] at h2
      obtain ⟨a, _, h2⟩ := h2
      cases a with
      | false => exact held_give (Outcome.ok.inj h2) hk1
      | true =>
        simp only [Outcome.bind_eq_ok] at h2
        obtain ⟨⟨sim', acc⟩, _, h2⟩ := h2
        cases acc with
        | false => exact ih _ hlt hk1 h2 rfl
        | true =>
          simp only [Outcome.bind_eq_ok] at h2
          obtain ⟨f, _, gen, _, it2, h3, h2⟩ := h2
          obtain ⟨e4, _, e5⟩ := InputIter.held_acceptW h3
          rw [← e4]
          exact ih _ (by rw [InputIter.pending_acceptW h3]; exact hlt) (fun _ => e5 (e3 rfl)) h2 rfl

/-- Every token takes a character away. -/
theorem lexNextW_held {it it' : InputIter} {t : Tok K} (h : lexNextW w m gs it = .ok (some t, it')) :
    it'.held + 1 ≤ it.held := by
  simp only [lexNextW, Outcome.bind_eq_ok] at h
  obtain ⟨sim, _, h⟩ := h
  exact lexLoopW_held (by simp) h

end Pango.Lex

namespace Pango.Parse

open Pango Pango.Lex Pango.Fsm

variable {σ V T : Type} [DecidableEq V] [TerminalEq T] {w : Words} {m : Machine σ} {gs : Generators T}
  {tbl : Table V T}

/-- If the lexer always returns, then a parser that does not end does not end on finitely many tokens either. -/
theorem lexParseLoopW_diverge (hend : ∀ it, lexNextW w m gs it ≠ .diverge) {k : Nat} {next : Option T}
    {it : InputIter} {stack : List (ParseNode V T)} {current : Nat}
    (h : lexParseLoopW w m gs tbl k next it stack current = .diverge) :
    ∃ ts : List T, ts.length ≤ it.held ∧ parseLoop tbl (.ok ()) k (next.toList ++ ts) stack current = .diverge := by
  have rest : ∀ {k : Nat} {t : T} {it : InputIter} {stack : List (ParseNode V T)} {current : Nat},
      (∀ {next : Option T} {it : InputIter} {stack : List (ParseNode V T)} {current : Nat},
        lexParseLoopW w m gs tbl k next it stack current = .diverge →
        ∃ ts : List T, ts.length ≤ it.held ∧
          parseLoop tbl (.ok ()) k (next.toList ++ ts) stack current = .diverge) →
      (handleToken tbl (some t) stack current >>= fun
        | none => pure none
        | some h => if h.accepted then pure (some h.node.node)
          else lexParseLoopW w m gs tbl k (if h.taken then none else some t) it (h.node :: h.stack) h.node.state) =
        .diverge →
      ∃ ts : List T, ts.length ≤ it.held ∧ parseLoop tbl (.ok ()) (k + 1) (t :: ts) stack current = .diverge := by
    intro k t it stack current ih h
    cases hh : handleToken tbl (some t) stack current with
    | diverge => exact ⟨[], Nat.zero_le _, by simp [parseLoop, hh]⟩
    | panic => rw [hh] at h; cases h
    | ok r =>
      rw [hh] at h
      simp only [Outcome.bind_ok] at h
      cases r with
      | none => cases h
      | some r =>
        simp only at h
        split at h
        · cases h
        · rename_i hacc
          obtain ⟨ts, h1, h2⟩ := ih h
          refine ⟨ts, h1, ?_⟩
          simp only [parseLoop, hh, Outcome.bind_ok, hacc]
          cases ht : r.taken <;> simpa [ht] using h2
  induction k generalizing next it stack current with
  | zero => exact ⟨[], Nat.zero_le _, by simp [parseLoop]⟩
  | succ k ih =>
    rw [lexParseLoopW] at h
    cases next with
    | some t =>
      simp only [nextKindW, Outcome.bind_ok] at h
      obtain ⟨ts, h1, h2⟩ := rest ih h
      exact ⟨ts, h1, h2⟩
    | none =>
      cases hn : lexNextW w m gs it with
      | diverge => exact absurd hn (hend it)
      | panic => simp [nextKindW, hn] at h
      | ok x =>
        obtain ⟨tok, it'⟩ := x
        simp only [nextKindW, hn, Outcome.bind_ok, Outcome.pure_eq] at h
        cases tok with
        | none => exact ⟨[], Nat.zero_le _, by simpa [parseLoop] using h⟩
        | some t =>
          obtain ⟨ts, h1, h2⟩ := rest ih h
          have := lexNextW_held hn
          exact ⟨t.kind :: ts, by simp; omega, h2⟩

omit [TerminalEq T] in
theorem lexNextW_ends [Unicode] {nfa : Nfa} {fuel : Nat} (hw : 0 < w.size) (wf : Wf nfa) (hf : w.fuel nfa ≤ fuel)
    (it : InputIter) : lexNextW w (nfaMachineW w nfa fuel) gs it ≠ .diverge :=
  Ends.bind (initRuns_fine (w := w) wf hf).1 fun _ hs => lexLoopW_ends hw wf hf (initRuns_fits wf hs)

end Pango.Parse
