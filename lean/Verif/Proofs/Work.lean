import Verif.Model.Work
import Verif.Proofs.Reads

/-!
# What the counter of `Model/Work.lean` says
-/

namespace Pango.Lex

variable {σ K : Type} {m : Machine σ} {size : σ → Nat} {gs : Generators K}

/-- Without the counter the loop is the loop of the lexer, whether it returns, panics or does not end. -/
theorem lexLoopT_fst {sim : σ} {kind : Option K} {it : InputIter} {t : Nat} :
    (lexLoopT m size gs sim kind it t >>= fun r => pure r.1) = lexLoop m gs sim kind it := by
  fun_induction lexLoopT m size gs sim kind it t <;> rw [lexLoop] <;> split <;> simp_all <;> split <;> simp_all

theorem lexNextT_fst {it : InputIter} {t : Nat} :
    (lexNextT m size gs it t >>= fun r => pure r.1) = lexNext m gs it := by
  unfold lexNextT lexNext
  cases m.start with
  | ok sim => exact lexLoopT_fst
  | panic => rfl
  | diverge => rfl

theorem lexCallsT_fst {calls : Nat} : ∀ {it : InputIter} {t : Nat},
    (lexCallsT m size gs calls it t >>= fun r => pure r.1) = lexCalls m gs calls it := by
  induction calls with
  | zero => intro it t; rfl
  | succ calls ih =>
    intro it t
    simp only [lexCallsT, lexCalls, ← lexNextT_fst (size := size) (t := t)]
    cases lexNextT m size gs it t with
    | ok r =>
      obtain ⟨⟨a, it'⟩, t'⟩ := r
      simp only [Outcome.bind_ok, Outcome.pure_eq, ← ih (t := t')]
      cases lexCallsT m size gs calls it' t' <;> rfl
    | panic => rfl
    | diverge => rfl

/-- What bounds the size of the simulator: `inv sim r` if `r` more characters can be fed. -/
structure Bounded (m : Machine σ) (size : σ → Nat) (inv : σ → Nat → Prop) (B : Nat) : Prop where
  feed : ∀ {sim sim' : σ} {r : Nat} {c : Char} {b : Bool}, inv sim (r + 1) → m.feed sim c = .ok (sim', b) → inv sim' r
  size : ∀ {sim : σ} {r : Nat}, inv sim r → size sim ≤ B

variable {inv : σ → Nat → Prop} {B : Nat}

theorem Lexes.works (hb : Bounded m size inv B) {sim : σ} {kind : Option K} {it it' : InputIter} {r : Option (Tok K)}
    (h : Lexes m gs sim kind it r it') :
    ∀ t n, ∃ k w, lexLoopT m size gs sim kind it t = .ok ((r, it'), t + w) ∧
      lexLoopN m gs sim kind it n = .ok ((r, it'), n + k) ∧ k ≤ w ∧ (inv sim it.pending → w ≤ (B + 1) * k) := by
  induction h with
  | stopNone h1 h2 =>
    intro t n
    refine ⟨1, 1, ?_, ?_, Nat.le_refl _, fun _ => by omega⟩
    · rw [lexLoopT]
      split <;> simp_all
    · rw [lexLoopN]
      split <;> simp_all
  | @stopSome sim k it it' ch h1 h2 =>
    intro t n
    refine ⟨1, 1, ?_, ?_, Nat.le_refl _, fun _ => by omega⟩
    · rw [lexLoopT]
      split <;> simp_all [takeToken, InputIter.consumeToken]
    · rw [lexLoopN]
      split <;> simp_all [takeToken, InputIter.consumeToken]
  | @accept sim sim' kind it it' it'' ch f fs gen r h1 h2 h3 h4 h5 _ ih =>
    intro t n
    obtain ⟨k, w, hk, hn, hl, hu⟩ := ih (t + 1 + size sim') (n + 1)
    obtain ⟨e1, _, _⟩ := next_takes h1
    refine ⟨k + 1, 1 + size sim' + w, ?_, ?_, by omega, fun hi => ?_⟩
    · rw [lexLoopT]
      split <;> simp_all [Nat.add_comm, Nat.add_left_comm]
    · rw [lexLoopN]
      split <;> simp_all [Nat.add_comm, Nat.add_left_comm]
    · have i1 : inv sim' it'.pending := hb.feed (e1 ▸ hi) h3
      have i2 := hb.size i1
      have i3 := hu (by rw [InputIter.pending_accept]; exact i1)
      rw [Nat.mul_succ]
      omega
  | @step sim sim' kind it it' it'' ch r h1 h2 h3 _ ih =>
    intro t n
    obtain ⟨k, w, hk, hn, hl, hu⟩ := ih (t + 1 + size sim') (n + 1)
    obtain ⟨e1, _, _⟩ := next_takes h1
    refine ⟨k + 1, 1 + size sim' + w, ?_, ?_, by omega, fun hi => ?_⟩
    · rw [lexLoopT]
      split <;> simp_all [Nat.add_comm, Nat.add_left_comm]
    · rw [lexLoopN]
      split <;> simp_all [Nat.add_comm, Nat.add_left_comm]
    · have i1 : inv sim' it'.pending := hb.feed (e1 ▸ hi) h3
      have i2 := hb.size i1
      have i3 := hu i1
      rw [Nat.mul_succ]
      omega
  | @eofSome sim k it it' h1 h2 =>
    intro t n
    refine ⟨0, 0, ?_, ?_, Nat.le_refl _, fun _ => Nat.zero_le _⟩
    · rw [lexLoopT]
      split <;> simp_all [takeToken, InputIter.consumeToken]
    · rw [lexLoopN]
      split <;> simp_all [takeToken, InputIter.consumeToken]
  | @eofNone sim kind it it' b h1 h2 h3 =>
    intro t n
    refine ⟨0, 0, ?_, ?_, Nat.le_refl _, fun _ => Nat.zero_le _⟩
    · rw [lexLoopT]
      rcases h3 with rfl | rfl
      · split <;> simp_all
      · cases b <;> split <;> simp_all
    · rw [lexLoopN]
      rcases h3 with rfl | rfl
      · split <;> simp_all
      · cases b <;> split <;> simp_all

/-- One call. -/
theorem lexNextT_ok (hb : Bounded m size inv B) {it it' : InputIter} {t t' : Nat} {r : Option (Tok K)}
    (h : lexNextT m size gs it t = .ok ((r, it'), t')) (n : Nat) :
    ∃ k w, t' = t + w ∧ lexNextN m gs it n = .ok ((r, it'), n + k) ∧ k ≤ w ∧
      ((∀ sim, m.start = .ok sim → inv sim it.pending) → w ≤ (B + 1) * k + B) := by
  simp only [lexNextT, Outcome.bind_eq_ok] at h
  obtain ⟨sim, h1, h2⟩ := h
  have h3 := lexLoopT_fst (m := m) (size := size) (gs := gs) (sim := sim) (kind := none) (it := it) (t := t + size sim)
  rw [h2, Outcome.bind_ok] at h3
  obtain ⟨k, w, e1, e2, e3, e4⟩ := (lexLoop_ok h3.symm).works hb (t + size sim) n
  rw [e1] at h2
  simp only [Outcome.ok.injEq, Prod.mk.injEq, true_and] at h2
  refine ⟨k, size sim + w, by omega, by rw [lexNextN, h1, Outcome.bind_ok, e2], by omega, fun hi => ?_⟩
  have := e4 (hi sim h1)
  have := hb.size (hi sim h1)
  omega

/-- All calls: the work is at least the number of characters that are read, and at most so many times more as there are
runs. -/
theorem lexCallsT_ok (hb : Bounded m size inv B) {as : List (Option (Tok K))} :
    ∀ {calls : Nat} {it it' : InputIter} {t t' : Nat}, lexCallsT m size gs calls it t = .ok ((as, it'), t') →
    ∀ n, ∃ k w, t' = t + w ∧ lexCallsN m gs calls it n = .ok ((as, it'), n + k) ∧ k ≤ w ∧
      ((∀ sim r, m.start = .ok sim → r ≤ it.pending → inv sim r) → w ≤ (B + 1) * k + B * calls) := by
  intro calls
  induction calls generalizing as with
  | zero =>
    intro it it' t t' h n
    simp only [lexCallsT, Outcome.ok.injEq, Prod.mk.injEq] at h
    obtain ⟨⟨rfl, rfl⟩, rfl⟩ := h
    exact ⟨0, 0, rfl, rfl, Nat.le_refl _, fun _ => Nat.zero_le _⟩
  | succ calls ih =>
    intro it it' t t' h n
    simp only [lexCallsT, Outcome.bind_eq_ok] at h
    obtain ⟨⟨⟨a, it1⟩, t1⟩, h1, ⟨⟨as1, it2⟩, t2⟩, h2, h3⟩ := h
    simp only [Outcome.pure_eq, Outcome.ok.injEq, Prod.mk.injEq] at h3
    obtain ⟨⟨rfl, rfl⟩, rfl⟩ := h3
    obtain ⟨k1, w1, e1, e2, e3, e4⟩ := lexNextT_ok hb h1 n
    obtain ⟨k2, w2, f1, f2, f3, f4⟩ := ih h2 (n + k1)
    dsimp only at f1 f2
    obtain ⟨_, k, hk, hr⟩ := lexNextN_ok e2
    have less : it1.pending ≤ it.pending := by
      cases a with
      | none => have := hr.none rfl; omega
      | some x => have := hr.less' rfl rfl; omega
    refine ⟨k1 + k2, w1 + w2, by omega, ?_, by omega, fun hi => ?_⟩
    · rw [lexCallsN, e2, Outcome.bind_ok]
      dsimp only
      rw [f2, Nat.add_assoc]
      rfl
    · have g1 := e4 fun sim hs => hi sim _ hs (Nat.le_refl _)
      have g2 := f4 fun sim r hs hr => hi sim r hs (Nat.le_trans hr less)
      rw [Nat.mul_add, Nat.mul_succ]
      omega

theorem lexCallsT_of {as : List (Option (Tok K))} {calls : Nat} {it it' : InputIter} (t : Nat)
    (h : lexCalls m gs calls it = .ok (as, it')) : ∃ t', lexCallsT m size gs calls it t = .ok ((as, it'), t') := by
  rw [← lexCallsT_fst (size := size) (t := t), Outcome.bind_eq_ok] at h
  obtain ⟨⟨x, t'⟩, h1, h2⟩ := h
  cases h2
  exact ⟨t', h1⟩

theorem next_none_pending {it it' : InputIter} (h : it.next = (none, it')) : it.pending = 0 := by
  unfold InputIter.next at h
  split at h
  · cases h
  · split at h
    · cases h
    · simp_all [InputIter.pending]

theorem next_same {it it' : InputIter} {c ch : Char} (h : it.next = (some ch, it'))
    (ha : ∀ x ∈ it.prev ++ it.iter, x.2 = c) : ch = c ∧ ∀ x ∈ it'.prev ++ it'.iter, x.2 = c := by
  unfold InputIter.next at h
  split at h
  · rename_i pos c' r hp
    cases h
    rw [hp] at ha
    exact ⟨ha (pos, ch) (by simp), fun x hx => ha x (by simp only [List.cons_append, List.mem_cons]; exact .inr hx)⟩
  · rename_i hp
    split at h
    · rename_i pos c' r hi
      cases h
      rw [hp, hi] at ha
      rw [hp]
      exact ⟨ha (pos, ch) (by simp), fun x hx => ha x (by simpa using Or.inr hx)⟩
    · cases h

/-- If every character doubles something in the simulator then the work is exponential. -/
theorem Lexes.doubles {G : σ → Prop} {s : σ → Nat} {c : Char} (hs : ∀ sim, s sim ≤ size sim)
    (hG : ∀ sim, G sim → m.canFeed sim c = .ok true ∧
      ∀ sim' b, m.feed sim c = .ok (sim', b) → G sim' ∧ 2 * s sim ≤ s sim') {sim : σ} {kind : Option K}
    {it it' : InputIter} {r : Option (Tok K)} (h : Lexes m gs sim kind it r it') :
    (∀ x ∈ it.prev ++ it.iter, x.2 = c) → G sim →
    ∀ t, ∃ w, lexLoopT m size gs sim kind it t = .ok ((r, it'), t + w) ∧ s sim * 2 ^ it.pending ≤ w + s sim := by
  have key : ∀ {s1 s2 z w n : Nat}, 2 * s1 ≤ s2 → s2 ≤ z → s2 * 2 ^ n ≤ w + s2 →
      s1 * 2 ^ (n + 1) ≤ 1 + z + w + s1 := by
    intro s1 s2 z w n h1 h2 h3
    have : s1 * 2 ^ (n + 1) = 2 * s1 * 2 ^ n := by rw [Nat.pow_succ', ← Nat.mul_assoc, Nat.mul_comm s1 2]
    have := Nat.mul_le_mul_right (2 ^ n) h1
    omega
  induction h with
  | stopNone h1 h2 =>
    intro ha g
    obtain ⟨rfl, _⟩ := next_same h1 ha
    rw [(hG _ g).1] at h2
    cases h2
  | stopSome h1 h2 =>
    intro ha g
    obtain ⟨rfl, _⟩ := next_same h1 ha
    rw [(hG _ g).1] at h2
    cases h2
  | @accept sim sim' kind it it' it'' ch f fs gen r h1 h2 h3 h4 h5 _ ih =>
    intro ha g t
    obtain ⟨rfl, ha'⟩ := next_same h1 ha
    obtain ⟨g', hd⟩ := (hG _ g).2 _ _ h3
    obtain ⟨w, hw, hl⟩ := ih ha' g' (t + 1 + size sim')
    obtain ⟨e1, _, _⟩ := next_takes h1
    refine ⟨1 + size sim' + w, ?_, ?_⟩
    · rw [lexLoopT]
      split <;> simp_all [Nat.add_comm, Nat.add_left_comm]
    · rw [← e1]
      exact key hd (hs _) hl
  | @step sim sim' kind it it' it'' ch r h1 h2 h3 _ ih =>
    intro ha g t
    obtain ⟨rfl, ha'⟩ := next_same h1 ha
    obtain ⟨g', hd⟩ := (hG _ g).2 _ _ h3
    obtain ⟨w, hw, hl⟩ := ih ha' g' (t + 1 + size sim')
    obtain ⟨e1, _, _⟩ := next_takes h1
    refine ⟨1 + size sim' + w, ?_, ?_⟩
    · rw [lexLoopT]
      split <;> simp_all [Nat.add_comm, Nat.add_left_comm]
    · rw [← e1]
      exact key hd (hs _) hl
  | @eofSome sim k it it' h1 h2 =>
    intro _ _ t
    refine ⟨0, ?_, ?_⟩
    · rw [lexLoopT]
      split <;> simp_all [takeToken, InputIter.consumeToken]
    · rw [next_none_pending h1]; simp
  | @eofNone sim kind it it' b h1 h2 h3 =>
    intro _ _ t
    refine ⟨0, ?_, ?_⟩
    · rw [lexLoopT]
      rcases h3 with rfl | rfl
      · split <;> simp_all
      · cases b <;> split <;> simp_all
    · rw [next_none_pending h1]; simp

end Pango.Lex
