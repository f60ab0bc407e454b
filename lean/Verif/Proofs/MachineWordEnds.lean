import Verif.Proofs.MachineWordLex

/-!
# With machine words every loop of the lexer ends
-/

namespace Pango

/-- The computation ends, and without overflow checks it does not panic. -/
def Words.Fine {α : Type} (w : Words) (x : Outcome α) : Prop :=
  x ≠ .diverge ∧ (w.profile = .release → x ≠ .panic)

theorem Words.Fine.bind {α β : Type} {w : Words} {x : Outcome α} {f : α → Outcome β} (h : w.Fine x)
    (hf : ∀ a, x = .ok a → w.Fine (f a)) : w.Fine (x >>= f) := by
  cases x with
  | ok a => exact hf a rfl
  | panic => exact ⟨by simp, fun hr => absurd rfl (h.2 hr)⟩
  | diverge => exact absurd rfl h.1

theorem Words.fine_ok {α : Type} {w : Words} {a : α} : w.Fine (.ok a) := ⟨by simp, by simp⟩

theorem Words.fine_succ (w : Words) (n : Nat) : w.Fine (w.succ n) := by
  refine ⟨w.succ_ends n, fun hr => ?_⟩
  unfold Words.succ
  rw [hr]
  split <;> simp

end Pango

namespace Pango.Fsm

open Pango Pango.Regex Pango.Spec Pango.Props

/-! ## Loops -/

theorem worklist_fine {α : Type} [DecidableEq α] {w : Words} {step : α → Outcome (List α)} {u : List α}
    (hu : ∀ a ∈ u, w.Fine (step a) ∧ ∀ news, step a = .ok news → ∀ b ∈ news, b ∈ u)
    {n : Nat} {queue result : List α} (hq : ∀ a ∈ queue, a ∈ u) (hr : ∀ a ∈ result, a ∈ u)
    (hn : result.Nodup) (hf : queue.length + u.length ≤ n + result.length) :
    w.Fine (worklist step n queue result) := by
  induction n generalizing queue result with
  | zero =>
    cases queue with
    | nil => exact Words.fine_ok
    | cons a q =>
      have := nodup_subset_length hn hr
      simp at hf; omega
  | succ n ih =>
    cases queue with
    | nil => exact Words.fine_ok
    | cons a q =>
      obtain ⟨hs, hnews⟩ := hu a (hq a (by simp))
      rw [worklist]
      refine hs.bind fun news e1 => ?_
      have hnews := hnews news e1
      obtain ⟨d, e, h2, h3, h4⟩ := foldl_insert news q result
      rw [e]
      refine ih ?_ ?_ ?_ ?_
      · intro x hx
        rcases List.mem_append.1 hx with hx | hx
        · exact hq x (by simp [hx])
        · exact hnews x (h2 x hx).1
      · intro x hx
        rcases List.mem_append.1 hx with hx | hx
        · exact hr x hx
        · exact hnews x (h2 x hx).1
      · refine List.nodup_append.2 ⟨hn, h4, ?_⟩
        intro x hx y hy hxy
        subst hxy
        exact (h2 x hy).2 hx
      · simp at hf ⊢; omega

theorem flatMapOutcome_fine {α β : Type} {w : Words} {f : α → Outcome (List β)} {l : List α}
    (h : ∀ a ∈ l, w.Fine (f a)) : w.Fine (flatMapOutcome f l) := by
  induction l with
  | nil => exact Words.fine_ok
  | cons a l ih =>
    rw [flatMapOutcome]
    exact (h a (by simp)).bind fun _ _ => (ih fun b hb => h b (by simp [hb])).bind fun _ _ => Words.fine_ok

/-! ## The runs there are -/

/-- The run is one of those that there are with words of the size. -/
structure Run.Fits (size states : Nat) (r : Run) : Prop where
  state : r.state < states
  sorted : r.counters.Sorted
  keys : ∀ e ∈ r.counters, e.1 < states
  vals : ∀ e ∈ r.counters, e.2 < size

/-- All counters with `n` keys from `lo` on and values below `size`. -/
def allCounters (size : Nat) : Nat → Nat → List Counters
  | _, 0 => [[]]
  | lo, n + 1 =>
    let rest := allCounters size (lo + 1) n
    rest ++ (List.range size).flatMap fun v => rest.map fun c => (lo, v) :: c

theorem mem_allCounters {size : Nat} : ∀ {n lo : Nat} {c : Counters}, c.Sorted → (∀ e ∈ c, lo ≤ e.1 ∧ e.1 < lo + n) →
    (∀ e ∈ c, e.2 < size) → c ∈ allCounters size lo n := by
  intro n
  induction n with
  | zero =>
    intro lo c _ hk _
    cases c with
    | nil => simp [allCounters]
    | cons e c =>
      have := hk e (by simp)
      omega
  | succ n ih =>
    intro lo c hs hk hv
    simp only [allCounters, List.mem_append, List.mem_flatMap, List.mem_map, List.mem_range]
    cases c with
    | nil => exact .inl (ih hs (by simp) (by simp))
    | cons e c =>
      obtain ⟨k, v⟩ := e
      obtain ⟨h1, h2⟩ := List.pairwise_cons.1 hs
      have hkk := hk (k, v) (by simp)
      simp only at hkk
      by_cases hlo : k = lo
      · subst hlo
        refine .inr ⟨v, hv (k, v) (by simp), c, ih h2 ?_ (fun e he => hv e (by simp [he])), rfl⟩
        intro e he
        have := h1 e he
        have := hk e (by simp [he])
        simp only at *
        omega
      · refine .inl (ih hs ?_ hv)
        intro e he
        have := hk e he
        rcases List.mem_cons.1 he with rfl | he
        · simp only at *; omega
        · have := h1 e he
          simp only at *
          omega

/-- A list with all runs that there are. -/
def allRuns (size states : Nat) : List Run :=
  (List.range states).flatMap fun s => (allCounters size 0 states).map fun c => ⟨s, c⟩

theorem Run.Fits.mem {size states : Nat} {r : Run} (h : r.Fits size states) : r ∈ allRuns size states := by
  simp only [allRuns, List.mem_flatMap, List.mem_range, List.mem_map]
  exact ⟨r.state, h.state, r.counters,
    mem_allCounters h.sorted (fun e he => ⟨by omega, by have := h.keys e he; omega⟩) h.vals, rfl⟩

theorem Counters.updateW_const {f : Nat → Outcome Nat} {id : Nat} {c c' : Counters} (h : c.updateW f id = .ok c') :
    ∃ n m, f n = .ok m ∧ c' = c.update (fun _ => m) id := by
  induction c generalizing c' with
  | nil =>
    simp only [Counters.updateW, Outcome.bind_eq_ok] at h
    obtain ⟨n, h1, h2⟩ := h
    cases h2
    exact ⟨_, _, h1, rfl⟩
  | cons e c ih =>
    obtain ⟨k, v⟩ := e
    rw [Counters.updateW] at h
    split at h
    · simp only [Outcome.bind_eq_ok] at h
      obtain ⟨n, h1, h2⟩ := h
      cases h2
      exact ⟨_, _, h1, by rw [Counters.update, if_pos (by assumption)]⟩
    · split at h
      · simp only [Outcome.bind_eq_ok] at h
        obtain ⟨n, h1, h2⟩ := h
        cases h2
        exact ⟨_, _, h1, by rw [Counters.update, if_neg (by assumption), if_pos (by assumption)]⟩
      · simp only [Outcome.bind_eq_ok] at h
        obtain ⟨r, h1, h2⟩ := h
        cases h2
        obtain ⟨n, m, h3, h4⟩ := ih h1
        exact ⟨n, m, h3, by rw [Counters.update, if_neg (by assumption), if_neg (by assumption), h4]⟩

theorem Counters.mem_updateConst {m id : Nat} {c : Counters} {e : Nat × Nat} (h : e ∈ c.update (fun _ => m) id) :
    e = (id, m) ∨ e ∈ c := by
  induction c with
  | nil => exact .inl (List.mem_singleton.1 h)
  | cons a c ih =>
    obtain ⟨k, v⟩ := a
    rw [Counters.update] at h
    split at h
    · rcases List.mem_cons.1 h with h | h
      · exact .inl h
      · exact .inr h
    · split at h
      · rename_i hk
        rcases List.mem_cons.1 h with h | h
        · exact .inl (by rw [h, hk])
        · exact .inr (by simp [h])
      · rcases List.mem_cons.1 h with h | h
        · exact .inr (by simp [h])
        · exact (ih h).imp_right fun h => by simp [h]

theorem Counters.updateW_fine {w : Words} {f : Nat → Outcome Nat} (hf : ∀ n, w.Fine (f n)) {id : Nat} {c : Counters} :
    w.Fine (c.updateW f id) := by
  induction c with
  | nil => exact (hf 0).bind fun _ _ => Words.fine_ok
  | cons a c ih =>
    obtain ⟨k, v⟩ := a
    rw [Counters.updateW]
    split
    · exact (hf 0).bind fun _ _ => Words.fine_ok
    · split
      · exact (hf v).bind fun _ _ => Words.fine_ok
      · exact ih.bind fun _ _ => Words.fine_ok

variable {nfa : Nfa} {w : Words}

theorem Run.takeW_fine (r : Run) (d : Nat) (b : Bool) : w.Fine (r.takeTransitionW w d b) := by
  refine (Counters.updateW_fine fun n => ?_).bind fun _ _ => Words.fine_ok
  cases b with
  | true => exact Words.fine_ok
  | false => exact w.fine_succ n

theorem Run.Fits.takeW (hw : 0 < w.size) {states : Nat} {r r' : Run} {d : Nat} {b : Bool} (h : r.Fits w.size states)
    (hd : d < states) (hr : r.takeTransitionW w d b = .ok r') : r'.Fits w.size states := by
  simp only [Run.takeTransitionW, Outcome.bind_eq_ok] at hr
  obtain ⟨c, h1, h2⟩ := hr
  cases h2
  obtain ⟨n, m, h3, rfl⟩ := Counters.updateW_const h1
  have hm : m < w.size := by
    cases b with
    | true => cases h3; exact hw
    | false => exact Words.succ_lt hw h3
  refine ⟨hd, (Counters.update_spec _ _ h.sorted).1, fun e he => ?_, fun e he => ?_⟩
  · rcases Counters.mem_updateConst he with rfl | he
    · exact h.state
    · exact h.keys e he
  · rcases Counters.mem_updateConst he with rfl | he
    · exact hm
    · exact h.vals e he

theorem Run.Fits.stepW (hw : 0 < w.size) (wf : Wf nfa) {r : Run} (h : r.Fits w.size nfa.states.length) :
    w.Fine (nfa.epsStepW w r) ∧
      ∀ news, nfa.epsStepW w r = .ok news → ∀ r' ∈ news, r'.Fits w.size nfa.states.length := by
  have hst := wf.getState h.state
  unfold Nfa.epsStepW
  rw [hst, Outcome.bind_ok]
  refine ⟨flatMapOutcome_fine fun m _ => (r.takeW_fine _ _).bind fun _ _ => Words.fine_ok, ?_⟩
  intro news hn r' hr'
  obtain ⟨⟨d, b⟩, h1, bs, h2, h3⟩ := ((flatMapOutcome_ok hn).2 r').1 hr'
  simp only [Outcome.bind_eq_ok] at h2
  obtain ⟨r2, h4, h5⟩ := h2
  cases h5
  rw [List.mem_singleton.1 h3]
  refine h.takeW hw ?_ h4
  rcases mem_epsMoves.1 h1 with ⟨he, _⟩ | ⟨q, he, _⟩
  · exact (wf.edge_lt ((wf.hasEdge_iff hst).2 he)).2
  · exact (wf.edge_lt ((wf.hasEdge_iff hst).2 he)).2

/-- A number of rounds that is enough for every closure. -/
def _root_.Pango.Words.fuel (w : Words) (nfa : Nfa) : Nat := (allRuns w.size nfa.states.length).length + nfa.states.length

theorem Run.Fits.closureW (hw : 0 < w.size) (wf : Wf nfa) {fuel : Nat} (hf : w.fuel nfa ≤ fuel) {r : Run}
    (h : r.Fits w.size nfa.states.length) : w.Fine (nfa.epsClosureW w fuel r) ∧
      ∀ res, nfa.epsClosureW w fuel r = .ok res → ∀ r' ∈ res, r'.Fits w.size nfa.states.length := by
  classical
  constructor
  · let u := (allRuns w.size nfa.states.length).filter (fun r => decide (r.Fits w.size nfa.states.length))
    have hu : ∀ r, r ∈ u ↔ r.Fits w.size nfa.states.length := by
      intro r
      simp only [u, List.mem_filter, decide_eq_true_eq]
      exact ⟨fun h => h.2, fun h => ⟨h.mem, h⟩⟩
    refine worklist_fine (u := u) ?_ ?_ ?_ (by simp) ?_
    · intro a ha
      obtain ⟨h1, h2⟩ := ((hu a).1 ha).stepW hw wf
      exact ⟨h1, fun news hn b hb => (hu b).2 (h2 news hn b hb)⟩
    · intro a ha; rw [List.mem_singleton.1 ha]; exact (hu r).2 h
    · intro a ha; rw [List.mem_singleton.1 ha]; exact (hu r).2 h
    · have : u.length ≤ (allRuns w.size nfa.states.length).length := List.length_filter_le ..
      simp only [Pango.Words.fuel] at hf
      simp only [List.length_singleton]
      omega
  · intro res hres r' hr'
    have hreach := ((worklist_single hres).1 r').1 hr'
    clear hr'
    induction hreach with
    | refl => exact h
    | tail _ hs hm ih => exact (ih.stepW hw wf).2 _ hs _ hm

theorem isAccepting_fine (wf : Wf nfa) {runs : List Run} (h : ∀ r ∈ runs, r.state < nfa.states.length) :
    w.Fine (nfa.isAccepting runs) := by
  obtain ⟨b, h1, _⟩ := isAccepting_ok (nfa := nfa) (runs := runs) fun r hr => ⟨_, wf.getState (h r hr)⟩
  rw [h1]
  exact Words.fine_ok

theorem initRuns_fine (wf : Wf nfa) {fuel : Nat} (hf : w.fuel nfa ≤ fuel) : w.Fine (nfa.initRuns fuel) := by
  obtain ⟨runs, h⟩ := initRuns_exists wf (show nfa.states.length ≤ fuel by simp only [Pango.Words.fuel] at hf; omega)
  rw [h]
  exact Words.fine_ok

variable [Unicode]

theorem canFeed_fine (wf : Wf nfa) {runs : List Run} (h : ∀ r ∈ runs, r.state < nfa.states.length) (c : Char) :
    w.Fine (nfa.canFeed runs c) := by
  obtain ⟨b, h1, _⟩ := canFeed_ok (nfa := nfa) (runs := runs) (c := c) fun r hr => ⟨_, wf.getState (h r hr)⟩
  rw [h1]
  exact Words.fine_ok

theorem initRuns_fits (wf : Wf nfa) {fuel : Nat} {runs : List Run} (h : nfa.initRuns fuel = .ok runs) :
    ∀ r ∈ runs, r.Fits w.size nfa.states.length := by
  intro r hr
  have hat := (initRuns_mem wf h r).1 hr
  have hlt := hat.lt wf
  generalize hv : ([] : List Char) = v at hat
  cases hat with
  | init _ => exact ⟨hlt, .nil, by simp, by simp⟩
  | snoc => simp at hv

theorem feedRunsW_fits (hw : 0 < w.size) (wf : Wf nfa) {fuel : Nat} (hf : w.fuel nfa ≤ fuel) {runs : List Run}
    (h : ∀ r ∈ runs, r.Fits w.size nfa.states.length) (c : Char) : w.Fine (nfa.feedRunsW w fuel runs c) ∧
      ∀ runs', nfa.feedRunsW w fuel runs c = .ok runs' → ∀ r ∈ runs', r.Fits w.size nfa.states.length := by
  have next : ∀ r ∈ runs, ∀ d ∈ (nfa.states[r.state]?.getD ⟨0, false, []⟩).charMoves c, d < nfa.states.length := by
    intro r hr d hd
    have hst := wf.getState (h r hr).state
    rw [List.getElem?_eq_getElem (h r hr).state] at hd
    obtain ⟨i, he⟩ := ((charMoves_wf wf hst c _).1 ⟨d, hd, rfl⟩).edge
    exact (wf.edge_lt he).2
  constructor
  · refine flatMapOutcome_fine fun r hr => ?_
    have hst := wf.getState (h r hr).state
    rw [hst, Outcome.bind_ok]
    refine flatMapOutcome_fine fun d hd => ?_
    have hd' := next r hr d (by rw [List.getElem?_eq_getElem (h r hr).state]; exact hd)
    exact (r.takeW_fine d false).bind fun r' hr' => (((h r hr).takeW hw hd' hr').closureW hw wf hf).1
  · intro runs' hruns t ht
    obtain ⟨r, hr, bs, h1, h2⟩ := ((flatMapOutcome_ok hruns).2 t).1 ht
    have hst := wf.getState (h r hr).state
    rw [hst, Outcome.bind_ok] at h1
    obtain ⟨d, hd, cs, h3, h4⟩ := ((flatMapOutcome_ok h1).2 t).1 h2
    have hd' := next r hr d (by rw [List.getElem?_eq_getElem (h r hr).state]; exact hd)
    simp only [Outcome.bind_eq_ok] at h3
    obtain ⟨r', h5, h6⟩ := h3
    exact (((h r hr).takeW hw hd' h5).closureW hw wf hf).2 cs h6 t h4

theorem feedW_fits (hw : 0 < w.size) (wf : Wf nfa) {fuel : Nat} (hf : w.fuel nfa ≤ fuel) {runs : List Run}
    (h : ∀ r ∈ runs, r.Fits w.size nfa.states.length) (c : Char) : w.Fine (nfa.feedW w fuel runs c) ∧
      ∀ x, nfa.feedW w fuel runs c = .ok x → ∀ r ∈ x.1, r.Fits w.size nfa.states.length := by
  obtain ⟨h1, h2⟩ := feedRunsW_fits hw wf hf h c
  constructor
  · refine h1.bind fun runs' hr => ?_
    exact (isAccepting_fine wf fun r hr' => (h2 runs' hr r hr').state).bind fun _ _ => Words.fine_ok
  · intro x hx
    simp only [Nfa.feedW, Outcome.bind_eq_ok] at hx
    obtain ⟨runs', h3, a, _, h4⟩ := hx
    cases h4
    exact h2 runs' h3

theorem feedAllW_fits (hw : 0 < w.size) (wf : Wf nfa) {fuel : Nat} (hf : w.fuel nfa ≤ fuel) : ∀ {u : List Char}
    {runs : List Run} {last : Option Bool}, (∀ r ∈ runs, r.Fits w.size nfa.states.length) →
    w.Fine (nfa.feedAllW w fuel runs last u) ∧
      ∀ x, nfa.feedAllW w fuel runs last u = .ok x → ∀ r ∈ x.1, r.Fits w.size nfa.states.length := by
  intro u
  induction u with
  | nil =>
    intro runs last h
    exact ⟨Words.fine_ok, fun x hx => by cases hx; exact h⟩
  | cons c u ih =>
    intro runs last h
    obtain ⟨h1, h2⟩ := feedW_fits hw wf hf h c
    rw [Nfa.feedAllW]
    constructor
    · exact h1.bind fun x hx => (ih (h2 x hx)).1
    · intro x hx
      rw [Outcome.bind_eq_ok] at hx
      obtain ⟨y, h3, h4⟩ := hx
      exact (ih (h2 y h3)).2 x h4

theorem simulateW_fine (hw : 0 < w.size) (wf : Wf nfa) {fuel : Nat} (hf : w.fuel nfa ≤ fuel) (u : List Char) :
    w.Fine (nfa.simulateW w fuel u) := by
  refine (initRuns_fine wf hf).bind fun runs hr => ?_
  obtain ⟨h1, h2⟩ := feedAllW_fits hw wf hf (u := u) (last := none) (initRuns_fits wf hr)
  refine h1.bind fun x hx => ?_
  exact (isAccepting_fine wf fun r hr' => (h2 x hx r hr').state).bind fun _ _ => Words.fine_ok

end Pango.Fsm

namespace Pango.Lex

open Pango Pango.Regex Pango.Fsm Pango.Spec Pango.Props

/-- The computation ends. -/
def Ends {α : Type} (x : Outcome α) : Prop := x ≠ .diverge

theorem Ends.bind {α β : Type} {x : Outcome α} {f : α → Outcome β} (h : Ends x)
    (hf : ∀ a, x = .ok a → Ends (f a)) : Ends (x >>= f) := by
  cases x with
  | ok a => exact hf a rfl
  | panic => exact fun h => by cases h
  | diverge => exact absurd rfl h

theorem ends_ok {α : Type} {a : α} : Ends (.ok a) := fun h => by cases h

theorem ends_expect {α : Type} {o : Option α} : Ends (Outcome.expect o) := by
  cases o <;> exact fun h => by cases h

variable {K : Type} [Unicode] {nfa : Nfa} {gs : Generators K} {w : Words} {fuel : Nat}

omit [Unicode] in
theorem nextW_ends {it : InputIter} : Ends (it.nextW w) := by
  unfold InputIter.nextW
  split
  · exact ends_ok
  · split
    · exact Ends.bind (w.succ_ends _) fun _ _ => ends_ok
    · exact ends_ok

theorem lexLoopW_ends (hw : 0 < w.size) (wf : Wf nfa) (hf : w.fuel nfa ≤ fuel) {sim : List Run} {kind : Option K}
    {it : InputIter} (h : ∀ r ∈ sim, r.Fits w.size nfa.states.length) :
    Ends (lexLoopW w (nfaMachineW w nfa fuel) gs sim kind it) := by
  induction hp : it.pending using Nat.strongRecOn generalizing sim kind it with
  | ind k ih =>
    subst hp
    rw [lexLoopW_step]
    refine nextW_ends.bind fun o hno => ?_
    obtain ⟨oc, it'⟩ := o
    cases oc with
    | some c =>
      have hlt := InputIter.pending_nextW hno
      simp only [stepW]
      refine Ends.bind (canFeed_fine (w := w) wf (fun r hr => (h r hr).state) c).1 fun a _ => ?_
      cases a with
      | false => exact ends_ok
      | true =>
        obtain ⟨h1, h2⟩ := feedW_fits hw wf hf h c
        refine Ends.bind h1.1 fun x hx => ?_
        obtain ⟨sim', acc⟩ := x
        have h3 := h2 _ hx
        cases acc with
        | false => exact ih _ hlt h3 rfl
        | true =>
          refine ends_expect.bind fun f _ => ends_expect.bind fun gen _ => ?_
          refine Ends.bind (Ends.bind (w.succ_ends _) fun _ _ => ends_ok) fun it'' hacc => ?_
          exact ih _ (by rw [InputIter.pending_acceptW hacc]; exact hlt) h3 rfl
    | none =>
      simp only [stepW]
      refine Ends.bind (isAccepting_fine (w := w) wf (fun r hr => (h r hr).state)).1 fun a _ => ?_
      cases a <;> exact ends_ok

theorem lexCallsW_ends (hw : 0 < w.size) (wf : Wf nfa) (hf : w.fuel nfa ≤ fuel) {k : Nat} {it : InputIter} :
    Ends (lexCallsW w (nfaMachineW w nfa fuel) gs k it) := by
  induction k generalizing it with
  | zero => exact ends_ok
  | succ k ih =>
    rw [lexCallsW]
    refine Ends.bind (Ends.bind (initRuns_fine (w := w) wf hf).1 fun sim hs => ?_) fun _ _ =>
      ih.bind fun _ _ => ends_ok
    exact lexLoopW_ends hw wf hf (initRuns_fits wf hs)

end Pango.Lex
