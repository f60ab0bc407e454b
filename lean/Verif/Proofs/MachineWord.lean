import Verif.Model.MachineWord
import Verif.Proofs.NoReturn

/-!
# How large the counters get, and the simulator with machine words
-/

namespace Pango

theorem Words.succ_ok {w : Words} {n : Nat} (h : n + 1 < w.size) : w.succ n = .ok (n + 1) := by
  simp [Words.succ, h]

theorem Words.succ_debug {w : Words} (hw : w.profile = .debug) {n m : Nat} (h : w.succ n = .ok m) : m = n + 1 := by
  unfold Words.succ at h
  split at h
  · cases h; rfl
  · rw [hw] at h; cases h

theorem Words.succ_lt {w : Words} (hw : 0 < w.size) {n m : Nat} (h : w.succ n = .ok m) : m < w.size := by
  unfold Words.succ at h
  split at h
  · cases h; assumption
  · split at h <;> cases h
    exact hw

theorem Words.succ_ends (w : Words) (n : Nat) : w.succ n ≠ .diverge := by
  unfold Words.succ
  split
  · simp
  · split <;> simp

end Pango

namespace Pango.Fsm

open Pango Pango.Regex Pango.Spec Pango.Props

/-! ## Counters -/

theorem Counters.updateW_ok {f : Nat → Outcome Nat} {g : Nat → Nat} {id : Nat} {c : Counters} (hs : c.Sorted)
    (h : f (c.count id) = .ok (g (c.count id))) : c.updateW f id = .ok (c.update g id) := by
  induction c with
  | nil =>
    rw [Counters.updateW, show f 0 = .ok (g 0) from h]
    rfl
  | cons e c ih =>
    obtain ⟨k, v⟩ := e
    obtain ⟨h1, h2⟩ := List.pairwise_cons.1 hs
    rw [Counters.updateW, Counters.update]
    by_cases hk : id < k
    · have : Counters.count ((k, v) :: c) id = 0 := by
        apply Counters.count_of_lt
        intro e he
        rcases List.mem_cons.1 he with rfl | he
        · exact hk
        · exact Nat.lt_trans hk (h1 e he)
      rw [this] at h
      rw [if_pos hk, if_pos hk, h]
      rfl
    · rw [if_neg hk, if_neg hk]
      by_cases he : k = id
      · rw [Counters.count, if_pos he] at h
        rw [if_pos he, if_pos he, h]
        rfl
      · rw [Counters.count, if_neg he] at h
        rw [if_neg he, if_neg he, ih h2 h]
        rfl

theorem Counters.updateW_eq {f : Nat → Outcome Nat} {g : Nat → Nat} {id : Nat} (hf : ∀ n m, f n = .ok m → m = g n)
    {c c' : Counters} (h : c.updateW f id = .ok c') : c' = c.update g id := by
  induction c generalizing c' with
  | nil =>
    simp only [Counters.updateW, Outcome.bind_eq_ok] at h
    obtain ⟨n, h1, h2⟩ := h
    cases h2
    rw [hf _ _ h1]
    rfl
  | cons e c ih =>
    obtain ⟨k, v⟩ := e
    rw [Counters.updateW] at h
    rw [Counters.update]
    split at h
    · simp only [Outcome.bind_eq_ok] at h
      obtain ⟨n, h1, h2⟩ := h
      cases h2
      rw [hf _ _ h1, if_pos (by assumption)]
    · split at h
      · simp only [Outcome.bind_eq_ok] at h
        obtain ⟨n, h1, h2⟩ := h
        cases h2
        rw [hf _ _ h1, if_neg (by assumption), if_pos (by assumption)]
      · simp only [Outcome.bind_eq_ok] at h
        obtain ⟨r, h1, h2⟩ := h
        cases h2
        rw [ih h1, if_neg (by assumption), if_neg (by assumption)]

theorem Run.takeW_ok {w : Words} {r : Run} (hs : r.counters.Sorted) (h : r.counts r.state + 1 < w.size) (d : Nat)
    (b : Bool) : r.takeTransitionW w d b = .ok (r.takeTransition d b) := by
  unfold Run.takeTransitionW
  rw [Counters.updateW_ok (g := fun n => if b then 0 else n + 1) hs]
  · rfl
  · cases b with
    | true => rfl
    | false => exact Words.succ_ok h

theorem Run.takeW_debug {w : Words} (hw : w.profile = .debug) {r r' : Run} {d : Nat} {b : Bool}
    (h : r.takeTransitionW w d b = .ok r') : r' = r.takeTransition d b := by
  simp only [Run.takeTransitionW, Outcome.bind_eq_ok] at h
  obtain ⟨c, h1, h2⟩ := h
  cases h2
  rw [Counters.updateW_eq (g := fun n => if b then 0 else n + 1) ?_ h1]
  · rfl
  · intro n m hm
    cases b with
    | true => cases hm; rfl
    | false => exact Words.succ_debug hw hm

/-! ## Loops with two functions -/

theorem worklist_agree {α : Type} [DecidableEq α] {step step' : α → Outcome (List α)} {P : α → Prop}
    (h : ∀ a, P a → step' a = step a) (hp : ∀ a news, P a → step a = .ok news → ∀ b ∈ news, P b) {n : Nat}
    {queue result : List α} (hq : ∀ a ∈ queue, P a) :
    worklist step' n queue result = worklist step n queue result := by
  induction n generalizing queue result with
  | zero => cases queue <;> rfl
  | succ n ih =>
    cases queue with
    | nil => rfl
    | cons a q =>
      rw [worklist, worklist, h a (hq a (by simp))]
      cases hs : step a with
      | panic => rfl
      | diverge => rfl
      | ok news =>
        simp only [Outcome.bind_ok]
        obtain ⟨d, e, h2, _, _⟩ := foldl_insert news q result
        rw [e]
        refine ih ?_
        intro x hx
        rcases List.mem_append.1 hx with hx | hx
        · exact hq x (by simp [hx])
        · exact hp a news (hq a (by simp)) hs x (h2 x hx).1

theorem worklist_of {α : Type} [DecidableEq α] {step step' : α → Outcome (List α)}
    (h : ∀ a news, step' a = .ok news → step a = .ok news) {n : Nat} {queue result res : List α}
    (hr : worklist step' n queue result = .ok res) : worklist step n queue result = .ok res := by
  induction n generalizing queue result with
  | zero => cases queue with
    | nil => exact hr
    | cons a q => cases hr
  | succ n ih =>
    cases queue with
    | nil => exact hr
    | cons a q =>
      rw [worklist, Outcome.bind_eq_ok] at hr
      obtain ⟨news, h1, h2⟩ := hr
      rw [worklist, h a news h1, Outcome.bind_ok]
      exact ih h2

theorem flatMapOutcome_agree {α β : Type} {f g : α → Outcome (List β)} {l : List α} (h : ∀ a ∈ l, f a = g a) :
    flatMapOutcome f l = flatMapOutcome g l := by
  induction l with
  | nil => rfl
  | cons a l ih =>
    rw [flatMapOutcome, flatMapOutcome, h a (by simp), ih fun b hb => h b (by simp [hb])]

theorem flatMapOutcome_of {α β : Type} {f g : α → Outcome (List β)} (h : ∀ a bs, f a = .ok bs → g a = .ok bs)
    {l : List α} {res : List β} (hr : flatMapOutcome f l = .ok res) : flatMapOutcome g l = .ok res := by
  induction l generalizing res with
  | nil => exact hr
  | cons a l ih =>
    simp only [flatMapOutcome, Outcome.bind_eq_ok] at hr ⊢
    obtain ⟨bs, h1, rest, h2, h3⟩ := hr
    exact ⟨bs, h a bs h1, rest, ih h2, h3⟩

theorem flatMapOutcome_single {α β : Type} (f : α → β) (l : List α) :
    flatMapOutcome (fun a => (.ok [f a] : Outcome (List β))) l = .ok (l.map f) := by
  induction l with
  | nil => rfl
  | cons a l ih => rw [flatMapOutcome, ih]; rfl

variable {nfa : Nfa} {rs : List (Fr × Nat)}

theorem epsStepW_ok {w : Words} {r : Run} (hs : r.counters.Sorted) (h : r.counts r.state + 1 < w.size) :
    nfa.epsStepW w r = epsStep nfa r := by
  unfold Nfa.epsStepW epsStep
  congr 1
  funext st
  have : (fun m : Nat × Bool => (do
      let r' ← r.takeTransitionW w m.1 m.2
      pure [r'] : Outcome (List Run))) = fun m => .ok [r.takeTransition m.1 m.2] := by
    funext m
    rw [Run.takeW_ok hs h]
    rfl
  rw [this, flatMapOutcome_single]
  rfl

theorem epsStepW_debug {w : Words} (hw : w.profile = .debug) {r : Run} {news : List Run}
    (h : nfa.epsStepW w r = .ok news) : epsStep nfa r = .ok news := by
  simp only [Nfa.epsStepW, Outcome.bind_eq_ok] at h
  obtain ⟨st, h1, h2⟩ := h
  have h3 := flatMapOutcome_of (g := fun m => .ok [r.takeTransition m.1 m.2]) (fun m bs hb => by
    simp only [Outcome.bind_eq_ok] at hb
    obtain ⟨r', h3, h4⟩ := hb
    cases h4
    rw [Run.takeW_debug hw h3]) h2
  rw [flatMapOutcome_single] at h3
  simp only [epsStep, h1, Outcome.bind_ok]
  exact h3

variable [Unicode]

/-! ## How large the counters get -/

/-- A state whose counter was raised since `s`. -/
def Raised (E : Nat → Input → Nat → Prop) (s t : Run) (q : Nat) : Prop :=
  ∃ m n d κ, Path E m s.state s.counts [] q κ ∧ E q .eps d ∧ Path E n d (κ.bump q) [] t.state t.counts

/-- In a closure every counter is raised at most once, and that of the state it is at has not been. -/
theorem Bundle.raised (b : Bundle nfa rs) {k : Nat} {s : Run} (hl : s.state < nfa.states.length)
    (hs : s.counters.Sorted) (hq : Quiets rs s.counts s.state)
    (av : ∀ r ∈ rs, r.1.Avoids nfa.HasEdge s.state s.counts) (hk : ∀ q, s.counts q ≤ k) {t : Run}
    (h : ER nfa s t) : t.counts t.state ≤ k ∧
      ∀ q, t.counts q ≤ k ∨ (t.counts q = k + 1 ∧ Raised nfa.HasEdge s t q) := by
  have key : ∀ {t : Run}, ER nfa s t → (∀ q, t.counts q ≤ k ∨ (t.counts q = k + 1 ∧ Raised nfa.HasEdge s t q)) →
      t.counts t.state ≤ k := by
    intro t ht hall
    rcases hall t.state with h | ⟨_, m, n, d, κ, h1, h2, h3⟩
    · exact h
    · exact absurd h3 (b.no_return (fun r hr => (av r hr).path h1) (hq.path b h1) h2)
  have all : ∀ q, t.counts q ≤ k ∨ (t.counts q = k + 1 ∧ Raised nfa.HasEdge s t q) := by
    induction h with
    | refl => exact fun q => .inl (hk q)
    | @tail t u ht hstep ih =>
      obtain ⟨hst, m, hpath⟩ := ht.path b.wf hl hs
      have hcur := key ht ih
      have later : ∀ {q}, CStep nfa.HasEdge t.state t.counts [] u.state u.counts →
          Raised nfa.HasEdge s t q → Raised nfa.HasEdge s u q := by
        rintro q hc ⟨m, n, d, κ, h1, h2, h3⟩
        have := h3.append (.single hc)
        exact ⟨m, n + 1, d, κ, h1, h2, this⟩
      intro q
      cases hstep with
      | @eps d he =>
        obtain ⟨e1, _, e3⟩ := t.take_eps hst d
        have hc : CStep nfa.HasEdge t.state t.counts [] (t.takeTransition d false).state
            (t.takeTransition d false).counts := by rw [e3]; exact .eps he
        by_cases hqt : q = t.state
        · subst hqt
          rw [e3, Counts.bump_self]
          by_cases hlt : t.counts t.state < k
          · exact .inl (by omega)
          · refine .inr ⟨by omega, m, 0, d, t.counts, hpath, he, ?_⟩
            rw [e3]
            exact .refl _ _
        · have e4 : (t.takeTransition d false).counts q = t.counts q := by rw [e3]; simp [Counts.bump, hqt]
          rw [e4]
          exact (ih q).imp id fun h => ⟨h.1, later hc h.2⟩
      | @quant d q' he hsat =>
        obtain ⟨e1, _, e3⟩ := t.take_quant hst d
        have hc : CStep nfa.HasEdge t.state t.counts [] (t.takeTransition d true).state
            (t.takeTransition d true).counts := by rw [e3]; exact .quant he hsat
        by_cases hqt : q = t.state
        · subst hqt
          left
          rw [e3]
          simp [Counts.reset]
        · have e4 : (t.takeTransition d true).counts q = t.counts q := by rw [e3]; simp [Counts.reset, hqt]
          rw [e4]
          exact (ih q).imp id fun h => ⟨h.1, later hc h.2⟩
  exact ⟨key h all, all⟩

/-- The runs in the closure behind a character: what is needed of where it begins. -/
theorem Bundle.begin (b : Bundle nfa rs) {v : List Char} {c : Char} {r s : Run}
    (hn : ¬ Bundle.Spinning nfa rs (v ++ [c])) (hr : RunsAt nfa v r) (hc : CharStep nfa r c s) :
    s.state < nfa.states.length ∧ s.counters.Sorted ∧ Quiets rs s.counts s.state ∧
      ∀ r' ∈ rs, r'.1.Avoids nfa.HasEdge s.state s.counts := by
  obtain ⟨h1, h2⟩ := hc.cstep (hr.path b.wf).1
  obtain ⟨i, he⟩ := h1.edge
  refine ⟨(b.wf.edge_lt he).2, h2, (b.quiet_at hr).path b (.single h1), ?_⟩
  intro r' hr' n x κ' hp hnull
  obtain ⟨t, h3, h4, _⟩ := KReach.of_path b.wf h2 hp
  refine hn ⟨by simp, t, .snoc hr hc ((reaches_iff_ER b.wf (b.wf.edge_lt he).2).1
    (reaches_iff_kreach.2 ⟨_, h3⟩)), r', hr', ?_⟩
  rw [h4]
  exact hnull

/-- After reading a word, counters are at most one more than its length, and the one of the state of the run at most the
length. -/
theorem Bundle.counts_le (b : Bundle nfa rs) {v : List Char} {t : Run}
    (hn : ∀ v1 c v2, v = v1 ++ c :: v2 → ¬ Bundle.Spinning nfa rs (v1 ++ [c])) (h : RunsAt nfa v t) :
    t.counts t.state ≤ v.length ∧ ∀ q, t.counts q ≤ v.length + 1 := by
  induction h with
  | init => exact ⟨Nat.zero_le _, fun _ => Nat.zero_le _⟩
  | @snoc v c r s t hr hc he ih =>
    obtain ⟨ih1, ih2⟩ := ih (fun v1 c' v2 e => hn v1 c' (v2 ++ [c]) (by rw [e]; simp))
    obtain ⟨h1, h2, h3, h4⟩ := b.begin (hn v c [] rfl) hr hc
    have hk : ∀ q, s.counts q ≤ v.length + 1 := by
      intro q
      cases hc with
      | @mk l d _ _ =>
        rw [(r.take_eps (hr.path b.wf).1 d).2.2]
        by_cases hq : q = r.state
        · rw [hq, Counts.bump_self]; omega
        · simpa [Counts.bump, hq] using ih2 q
    obtain ⟨h5, h6⟩ := b.raised h1 h2 h3 h4 hk he
    simp only [List.length_append, List.length_singleton]
    refine ⟨h5, fun q => ?_⟩
    rcases h6 q with h | h <;> omega

theorem Bundle.fed_quiet (b : Bundle nfa rs) {fuel : Nat} {v : List Char} {runs : List Run}
    (h : Fed nfa fuel v runs) : ∀ v1 c v2, v = v1 ++ c :: v2 → ¬ Bundle.Spinning nfa rs (v1 ++ [c]) := by
  induction h with
  | init => intro v1 c v2 e; simp at e
  | @feed v c runs runs' a hf hfeed ih =>
    intro v1 c1 v2 e
    rcases List.eq_nil_or_concat v2 with rfl | ⟨v2', c2, rfl⟩
    · obtain ⟨rfl, e'⟩ := List.append_inj' e rfl
      cases e'
      exact fun hs => b.fed_never hs hf hfeed
    · rw [List.concat_eq_append, ← List.cons_append, ← List.append_assoc] at e
      obtain ⟨rfl, _⟩ := List.append_inj' e rfl
      exact ih v1 c1 v2' rfl

/-! ## The simulator -/

theorem Bundle.epsClosureW (b : Bundle nfa rs) {w : Words} {fuel k : Nat} (hsize : k + 1 < w.size) {s : Run}
    (hl : s.state < nfa.states.length) (hs : s.counters.Sorted) (hq : Quiets rs s.counts s.state)
    (av : ∀ r ∈ rs, r.1.Avoids nfa.HasEdge s.state s.counts) (hk : ∀ q, s.counts q ≤ k) :
    nfa.epsClosureW w fuel s = nfa.epsClosure fuel s := by
  rw [epsClosure_eq]
  refine worklist_agree (P := ER nfa s) ?_ ?_ ?_
  · intro a ha
    have := (b.raised hl hs hq av hk ha).1
    exact epsStepW_ok (ha.path b.wf hl hs).1 (by omega)
  · intro a news ha hnews c hc
    obtain ⟨news', h1, h2⟩ := epsStep_wf b.wf (ha.lt b.wf hl)
    rw [h1] at hnews
    cases hnews
    exact ha.tail ((h2 c).1 hc)
  · intro a ha
    rw [List.mem_singleton.1 ha]
    exact .refl

/-- The simulator with machine words does the same as long as the text is short enough for the words. -/
theorem Bundle.feedW (b : Bundle nfa rs) {w : Words} {fuel : Nat} {v : List Char} {runs : List Run}
    (h : Fed nfa fuel v runs) {c : Char} (hsize : v.length + 2 < w.size) {x : List Run × Bool}
    (hx : nfa.feed fuel runs c = .ok x) : nfa.feedW w fuel runs c = .ok x := by
  obtain ⟨runs', a⟩ := x
  have hn : ¬ Bundle.Spinning nfa rs (v ++ [c]) := fun hs => b.fed_never hs h hx
  have : nfa.feedRunsW w fuel runs c = nfa.feedRuns fuel runs c := by
    refine flatMapOutcome_agree fun r hr => ?_
    have hat := (h.mem b.wf r).1 hr
    have hst := b.wf.getState (hat.lt b.wf)
    rw [hst, Outcome.bind_ok, Outcome.bind_ok]
    refine flatMapOutcome_agree fun d hd => ?_
    have hc := (charMoves_wf b.wf hst c _).1 ⟨d, hd, rfl⟩
    obtain ⟨k1, k2⟩ := b.counts_le (b.fed_quiet h) hat
    have hso := (hat.path b.wf).1
    rw [Run.takeW_ok hso (by omega), Outcome.bind_ok]
    obtain ⟨h1, h2, h3, h4⟩ := b.begin hn hat hc
    refine b.epsClosureW (k := v.length + 1) (by omega) h1 h2 h3 h4 fun q => ?_
    rw [(r.take_eps hso d).2.2]
    by_cases hq : q = r.state
    · rw [hq, Counts.bump_self]; omega
    · simpa [Counts.bump, hq] using k2 q
  unfold Nfa.feedW
  rw [this]
  exact hx

theorem Bundle.feedAllW (b : Bundle nfa rs) {w : Words} {fuel : Nat} : ∀ {u v : List Char} {runs : List Run}
    {last : Option Bool} {x : List Run × Option Bool}, Fed nfa fuel v runs → v.length + u.length + 1 < w.size →
    nfa.feedAll fuel runs last u = .ok x → nfa.feedAllW w fuel runs last u = .ok x := by
  intro u
  induction u with
  | nil => intro v runs last x _ _ h; exact h
  | cons c u ih =>
    intro v runs last x hf hsize h
    rw [Nfa.feedAll, Outcome.bind_eq_ok] at h
    obtain ⟨⟨runs', a⟩, h1, h2⟩ := h
    simp only [List.length_cons] at hsize
    rw [Nfa.feedAllW, b.feedW hf (by omega) h1, Outcome.bind_ok]
    exact ih (hf.feed h1) (by simp; omega) h2

theorem Bundle.simulateW (b : Bundle nfa rs) {w : Words} {fuel : Nat} {u : List Char} {x : Bool}
    (hsize : u.length + 1 < w.size) (h : nfa.simulate fuel u = .ok x) : nfa.simulateW w fuel u = .ok x := by
  simp only [Nfa.simulate, Nfa.feedStr, Outcome.bind_eq_ok] at h
  obtain ⟨runs, h1, ⟨runs', last⟩, h2, acc, h3, h4⟩ := h
  simp only [Nfa.simulateW, Nfa.feedStrW, h1, Outcome.bind_ok,
    b.feedAllW (.init h1) (by simpa using hsize) h2, h3]
  exact h4

/-! ## With overflow checks -/

section debug

variable {w : Words} (hw : w.profile = .debug)

include hw

theorem feedW_debug {fuel : Nat} {runs : List Run} {c : Char} {x : List Run × Bool}
    (h : nfa.feedW w fuel runs c = .ok x) : nfa.feed fuel runs c = .ok x := by
  simp only [Nfa.feedW, Outcome.bind_eq_ok] at h
  obtain ⟨runs', h1, h2⟩ := h
  have : nfa.feedRuns fuel runs c = .ok runs' := by
    refine flatMapOutcome_of (fun r bs hr => ?_) h1
    simp only [Outcome.bind_eq_ok] at hr ⊢
    obtain ⟨st, h3, h4⟩ := hr
    refine ⟨st, h3, flatMapOutcome_of (fun d bs hd => ?_) h4⟩
    simp only [Outcome.bind_eq_ok] at hd
    obtain ⟨r', h5, h6⟩ := hd
    rw [Run.takeW_debug hw h5] at h6
    rw [epsClosure_eq]
    exact worklist_of (fun a news => epsStepW_debug hw) h6
  simp only [Nfa.feed, this, Outcome.bind_ok, Outcome.bind_eq_ok]
  exact h2

theorem feedAllW_debug {fuel : Nat} : ∀ {u : List Char} {runs : List Run}
    {last : Option Bool} {x : List Run × Option Bool}, nfa.feedAllW w fuel runs last u = .ok x →
    nfa.feedAll fuel runs last u = .ok x := by
  intro u
  induction u with
  | nil => intro runs last x h; exact h
  | cons c u ih =>
    intro runs last x h
    rw [Nfa.feedAllW, Outcome.bind_eq_ok] at h
    obtain ⟨⟨runs', a⟩, h1, h2⟩ := h
    rw [Nfa.feedAll, feedW_debug hw h1, Outcome.bind_ok]
    exact ih h2

theorem simulateW_debug {fuel : Nat} {u : List Char} {x : Bool} (h : nfa.simulateW w fuel u = .ok x) :
    nfa.simulate fuel u = .ok x := by
  simp only [Nfa.simulateW, Nfa.feedStrW, Outcome.bind_eq_ok] at h
  obtain ⟨runs, h1, ⟨runs', last⟩, h2, acc, h3, h4⟩ := h
  simp only [Nfa.simulate, Nfa.feedStr, h1, Outcome.bind_ok, feedAllW_debug hw h2, h3]
  exact h4

end debug

end Pango.Fsm
