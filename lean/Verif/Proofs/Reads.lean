import Verif.Model.Reads
import Verif.Proofs.Scanned

/-!
# What the counter of `Model/Reads.lean` says
-/

namespace Pango.Lex

variable {σ K : Type} {m : Machine σ} {gs : Generators K}

theorem lexLoop_of_N {sim : σ} {kind : Option K} {it it' : InputIter} {n n' : Nat} {r : Option (Tok K)}
    (h : lexLoopN m gs sim kind it n = .ok ((r, it'), n')) : lexLoop m gs sim kind it = .ok (r, it') := by
  fun_induction lexLoopN m gs sim kind it n <;> rw [lexLoop] <;> split <;> simp_all <;> split at h <;> simp_all

/-- Without the counter the loop is the loop of the lexer, whether it returns, panics or does not end. -/
theorem lexLoopN_fst {sim : σ} {kind : Option K} {it : InputIter} {n : Nat} :
    (lexLoopN m gs sim kind it n >>= fun r => pure r.1) = lexLoop m gs sim kind it := by
  fun_induction lexLoopN m gs sim kind it n <;> rw [lexLoop] <;> split <;> simp_all <;> split <;> simp_all

theorem lexNextN_fst {it : InputIter} {n : Nat} :
    (lexNextN m gs it n >>= fun r => pure r.1) = lexNext m gs it := by
  unfold lexNextN lexNext
  cases m.start with
  | ok sim => exact lexLoopN_fst
  | panic => rfl
  | diverge => rfl

theorem lexCallsN_fst {calls : Nat} : ∀ {it : InputIter} {n : Nat},
    (lexCallsN m gs calls it n >>= fun r => pure r.1) = lexCalls m gs calls it := by
  induction calls with
  | zero => intro it n; rfl
  | succ calls ih =>
    intro it n
    simp only [lexCallsN, lexCalls, ← lexNextN_fst (n := n)]
    cases lexNextN m gs it n with
    | ok r =>
      obtain ⟨⟨a, it'⟩, n'⟩ := r
      simp only [Outcome.bind_ok, Outcome.pure_eq, ← ih (n := n')]
      cases lexCallsN m gs calls it' n' <;> rfl
    | panic => rfl
    | diverge => rfl

/-- What a call reads, what it leaves, and what it puts back. -/
structure ReadBy (kind : Option K) (it it' : InputIter) (r : Option (Tok K)) (k : Nat) : Prop where
  /-- A call that finds nothing puts nothing back. -/
  none : r = none → k + it'.pending = it.pending
  some : r.isSome → k + it'.pending ≤ it.pending + it'.prev.length
  /-- What is put back has been read. -/
  back : r.isSome → it'.prev.length ≤ k + it.suffix.length
  less : r.isSome → it'.pending ≤ it.pending + it.suffix.length
  /-- A token has a character. -/
  back' : r.isSome → kind = .none → it'.prev.length < k
  less' : r.isSome → kind = .none → it'.pending < it.pending

theorem next_takes {it it' : InputIter} {c : Char} (h : it.next = (some c, it')) :
    it'.pending + 1 = it.pending ∧ it'.suffix.length = it.suffix.length + 1 ∧ it'.iter.length ≤ it.iter.length := by
  unfold InputIter.next at h
  split at h
  · cases h; simp_all [InputIter.pending]; omega
  · split at h
    · cases h; simp_all [InputIter.pending]
    · cases h

theorem next_end {it it' : InputIter} (h : it.next = (none, it')) : it' = it := by
  unfold InputIter.next at h
  split at h
  · cases h
  · split at h
    · cases h
    · cases h; rfl

theorem Lexes.reads {sim : σ} {kind : Option K} {it it' : InputIter} {r : Option (Tok K)}
    (h : Lexes m gs sim kind it r it') :
    ∀ n, ∃ k, lexLoopN m gs sim kind it n = .ok ((r, it'), n + k) ∧ ReadBy kind it it' r k := by
  induction h with
  | stopNone h1 h2 =>
    intro n
    obtain ⟨e1, e2, e3⟩ := next_takes h1
    refine ⟨1, ?_, ⟨fun _ => by omega, nofun, nofun, nofun, nofun, nofun⟩⟩
    rw [lexLoopN]
    split <;> simp_all
  | @stopSome sim k it it' ch h1 h2 =>
    intro n
    obtain ⟨e1, e2, e3⟩ := next_takes h1
    have e4 : it'.consumeToken.2.prev.length = it'.suffix.length := rfl
    have e5 : it'.consumeToken.2.pending = it'.suffix.length + it'.iter.length := rfl
    have e6 : it'.pending = it'.prev.length + it'.iter.length := rfl
    refine ⟨1, ?_, ⟨nofun, fun _ => by omega, fun _ => by omega, fun _ => by omega, nofun, nofun⟩⟩
    rw [lexLoopN]
    split <;> simp_all [takeToken, InputIter.consumeToken]
  | @accept sim sim' kind it it' it'' ch f fs gen r h1 h2 h3 h4 h5 _ ih =>
    intro n
    obtain ⟨k, hk, hr⟩ := ih (n + 1)
    obtain ⟨e1, e2, e3⟩ := next_takes h1
    have e4 := InputIter.pending_accept it'
    have e5 : it'.acceptSuffix.suffix.length = 0 := rfl
    refine ⟨k + 1, ?_, ⟨fun h => ?_, fun h => ?_, fun h => ?_, fun h => ?_, fun h _ => ?_, fun h _ => ?_⟩⟩
    · rw [lexLoopN]
      split <;> simp_all [Nat.add_comm, Nat.add_left_comm]
    · have := hr.none h; omega
    · have := hr.some h; omega
    · have := hr.back h; omega
    · have := hr.less h; omega
    · have := hr.back h; omega
    · have := hr.less h; omega
  | @step sim sim' kind it it' it'' ch r h1 h2 h3 _ ih =>
    intro n
    obtain ⟨k, hk, hr⟩ := ih (n + 1)
    obtain ⟨e1, e2, e3⟩ := next_takes h1
    refine ⟨k + 1, ?_, ⟨fun h => ?_, fun h => ?_, fun h => ?_, fun h => ?_, fun h h' => ?_, fun h h' => ?_⟩⟩
    · rw [lexLoopN]
      split <;> simp_all [Nat.add_comm, Nat.add_left_comm]
    · have := hr.none h; omega
    · have := hr.some h; omega
    · have := hr.back h; omega
    · have := hr.less h; omega
    · have := hr.back' h h'; omega
    · have := hr.less' h h'; omega
  | @eofSome sim k it it' h1 h2 =>
    intro n
    obtain rfl := next_end h1
    have e4 : it'.consumeToken.2.prev.length = it'.suffix.length := rfl
    have e5 : it'.consumeToken.2.pending = it'.suffix.length + it'.iter.length := rfl
    have e6 : it'.pending = it'.prev.length + it'.iter.length := rfl
    refine ⟨0, ?_, ⟨nofun, fun _ => by omega, fun _ => by omega, fun _ => by omega, nofun, nofun⟩⟩
    rw [lexLoopN]
    split <;> simp_all [takeToken, InputIter.consumeToken]
  | @eofNone sim kind it it' b h1 h2 h3 =>
    intro n
    obtain rfl := next_end h1
    refine ⟨0, ?_, ⟨fun _ => by omega, nofun, nofun, nofun, nofun, nofun⟩⟩
    rw [lexLoopN]
    rcases h3 with rfl | rfl
    · split <;> simp_all
    · cases b <;> split <;> simp_all

/-- One call. -/
theorem lexNextN_ok {it it' : InputIter} {n n' : Nat} {r : Option (Tok K)}
    (h : lexNextN m gs it n = .ok ((r, it'), n')) :
    lexNext m gs it = .ok (r, it') ∧ ∃ k, n' = n + k ∧ ReadBy none it it' r k := by
  simp only [lexNextN, Outcome.bind_eq_ok] at h
  obtain ⟨sim, h1, h2⟩ := h
  have h3 := lexLoop_of_N h2
  obtain ⟨k, hk, hr⟩ := (lexLoop_ok h3).reads n
  rw [hk] at h2
  simp only [Outcome.ok.injEq, Prod.mk.injEq, true_and] at h2
  exact ⟨by rw [lexNext, h1, Outcome.bind_ok, h3], k, h2.symm, hr⟩

theorem lexNextN_of {it it' : InputIter} {r : Option (Tok K)} (h : lexNext m gs it = .ok (r, it')) (n : Nat) :
    ∃ k, lexNextN m gs it n = .ok ((r, it'), n + k) := by
  obtain ⟨sim, h1, h2⟩ := lexNext_ok h
  obtain ⟨k, hk, _⟩ := h2.reads n
  exact ⟨k, by rw [lexNextN, h1, Outcome.bind_ok, hk]⟩

/-- The counter does not change what the calls return. -/
theorem lexCallsN_ok {as : List (Option (Tok K))} : ∀ {calls : Nat} {it it' : InputIter} {n n' : Nat},
    lexCallsN m gs calls it n = .ok ((as, it'), n') → lexCalls m gs calls it = .ok (as, it') := by
  intro calls
  induction calls generalizing as with
  | zero =>
    intro it it' n n' h
    simp only [lexCallsN, Outcome.ok.injEq, Prod.mk.injEq] at h
    rw [lexCalls, h.1.1, h.1.2]
  | succ calls ih =>
    intro it it' n n' h
    simp only [lexCallsN, Outcome.bind_eq_ok] at h
    obtain ⟨⟨⟨a, it1⟩, n1⟩, h1, ⟨⟨as1, it2⟩, n2⟩, h2, h3⟩ := h
    simp only [Outcome.pure_eq, Outcome.ok.injEq, Prod.mk.injEq] at h3
    obtain ⟨⟨rfl, rfl⟩, rfl⟩ := h3
    simp [lexCalls, (lexNextN_ok h1).1, ih h2]

theorem lexCallsN_of {as : List (Option (Tok K))} : ∀ {calls : Nat} {it it' : InputIter} (n : Nat),
    lexCalls m gs calls it = .ok (as, it') → ∃ n', lexCallsN m gs calls it n = .ok ((as, it'), n') := by
  intro calls
  induction calls generalizing as with
  | zero =>
    intro it it' n h
    simp only [lexCalls, Outcome.ok.injEq, Prod.mk.injEq] at h
    exact ⟨n, by rw [lexCallsN, h.1, h.2]⟩
  | succ calls ih =>
    intro it it' n h
    simp only [lexCalls, Outcome.bind_eq_ok] at h
    obtain ⟨⟨a, it1⟩, h1, ⟨as1, it2⟩, h2, h3⟩ := h
    simp only [Outcome.pure_eq, Outcome.ok.injEq, Prod.mk.injEq] at h3
    obtain ⟨rfl, rfl⟩ := h3
    obtain ⟨k, hk⟩ := lexNextN_of h1 n
    obtain ⟨n', hn'⟩ := ih (n + k) h2
    exact ⟨n', by simp [lexCallsN, hk, hn']⟩

/-- No call reads more than is left, and all that it leaves is less. -/
theorem lexCallsN_quadratic {as : List (Option (Tok K))} : ∀ {calls : Nat} {it it' : InputIter} {n n' : Nat},
    lexCallsN m gs calls it n = .ok ((as, it'), n') → 2 * n' ≤ 2 * n + it.pending * (it.pending + 1) := by
  intro calls
  induction calls generalizing as with
  | zero =>
    intro it it' n n' h
    simp only [lexCallsN, Outcome.ok.injEq, Prod.mk.injEq] at h
    omega
  | succ calls ih =>
    intro it it' n n' h
    simp only [lexCallsN, Outcome.bind_eq_ok] at h
    obtain ⟨⟨⟨a, it1⟩, n1⟩, h1, ⟨⟨as1, it2⟩, n2⟩, h2, h3⟩ := h
    simp only [Outcome.pure_eq, Outcome.ok.injEq, Prod.mk.injEq] at h3
    obtain ⟨⟨rfl, rfl⟩, rfl⟩ := h3
    obtain ⟨_, k, rfl, hr⟩ := lexNextN_ok h1
    have := ih h2
    dsimp only at this
    -- `k` characters were read
    have key : 2 * k + it1.pending * (it1.pending + 1) ≤ it.pending * (it.pending + 1) := by
      have hk : k ≤ it.pending := by
        cases a with
        | none => have := hr.none rfl; omega
        | some t =>
          have h4 := hr.some rfl
          simp only [InputIter.pending] at h4 ⊢
          omega
      rcases Nat.lt_or_ge it1.pending it.pending with h4 | h4
      · have h5 : it1.pending * (it1.pending + 1) ≤ (it.pending - 1) * it.pending :=
          Nat.mul_le_mul (by omega) (by omega)
        obtain ⟨q, hq⟩ : ∃ q, it.pending = q + 1 := ⟨it.pending - 1, by omega⟩
        rw [hq] at h5 hk ⊢
        simp only [Nat.add_sub_cancel, Nat.mul_add, Nat.add_mul, Nat.mul_one, Nat.one_mul] at h5 ⊢
        omega
      · cases a with
        | none =>
          have h5 := hr.none rfl
          have h6 : k = 0 := by omega
          have h7 : it1.pending = it.pending := by omega
          rw [h6, h7]
          omega
        | some t => have := hr.less' rfl rfl; omega
    omega

end Pango.Lex
