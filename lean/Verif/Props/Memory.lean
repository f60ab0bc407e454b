import Verif.Proofs.Single

/-!
# C58: how many runs the simulator holds
-/

namespace Pango.Props

open Pango Pango.Fsm Pango.Regex Pango.Spec

variable [Unicode]

/-- The simulator of the pattern holds these runs after it was fed the string. -/
def RunsAfter (e : Expr) (v : List Char) (runs : List Run) : Prop :=
  ∃ nfa fuel last, nfaOfAst e = .ok nfa ∧
    (nfa.initRuns fuel >>= fun runs => nfa.feedAll fuel runs none v) = .ok (runs, last)

/-- C58 as stated: for every pattern the number of runs is bounded by a polynomial in the length of the string. -/
def FewRuns : Prop :=
  ∀ e, ¬ HasEmptySeq e → ∃ c k, ∀ v runs, RunsAfter e v runs → runs.length ≤ c * (v.length + 1) ^ k

/-! ## `(a|[a])*` -/

/-- `(a|[a])*`. -/
def twiceA : Expr :=
  .group (.alt (.lit (.mtch 'a') none) (.lit (.group false [.mtch 'a']) none)) (some .asterisk)

/-- That pattern is what a user writes. -/
example : parse .debug "(a|[a])*".toList = .ok (.ok twiceA) := rfl

/-- The automaton of `(a|[a])*`. -/
def twiceANfa : Nfa := ⟨0, [⟨0, false, [(.eps, [2])]⟩, ⟨1, true, []⟩,
  ⟨2, false, [(.quantified .asterisk, [1]), (.literal (.mtch 'a'), [2]), (.literal (.group false [.mtch 'a']), [2])]⟩]⟩

omit [Unicode] in
theorem nfa_twiceA : nfaOfAst twiceA = .ok twiceANfa := by decide

/-- Runs of that automaton. -/
def Fine (r : Run) : Prop :=
  r = ⟨0, []⟩ ∨ (∃ cs, r = ⟨1, cs⟩) ∨ r = ⟨2, []⟩ ∨ ∃ k, r = ⟨2, [(2, k)]⟩

omit [Unicode] in
theorem twiceA_closure (k : Nat) :
    twiceANfa.epsClosure 5 ⟨2, [(2, k)]⟩ = .ok [⟨2, [(2, k)]⟩, ⟨1, [(2, 0)]⟩] := rfl

/-- The number of runs in the state that reads characters. -/
def readers (runs : List Run) : Nat := (runs.filter fun r => r.state == 2).length

theorem twiceA_feedRuns : ∀ (runs : List Run), (∀ r ∈ runs, Fine r) →
    ∃ runs', twiceANfa.feedRuns 5 runs 'a' = .ok runs' ∧ (∀ r ∈ runs', Fine r) ∧
      readers runs' = 2 * readers runs := by
  intro runs
  induction runs with
  | nil => exact fun _ => ⟨[], rfl, by simp, rfl⟩
  | cons r runs ih =>
    intro h
    obtain ⟨runs', h1, h2, h3⟩ := ih fun r hr => h r (List.mem_cons_of_mem _ hr)
    unfold Nfa.feedRuns at h1
    have two : ∀ r : Run, r.state = 2 → (∃ k, r.takeTransition 2 false = ⟨2, [(2, k)]⟩) →
        ∃ runs'', twiceANfa.feedRuns 5 (r :: runs) 'a' = .ok runs'' ∧ (∀ r ∈ runs'', Fine r) ∧
          readers runs'' = 2 * readers (r :: runs) := by
      rintro r hr ⟨k, hk⟩
      refine ⟨[⟨2, [(2, k)]⟩, ⟨1, [(2, 0)]⟩, ⟨2, [(2, k)]⟩, ⟨1, [(2, 0)]⟩] ++ runs', ?_, ?_, ?_⟩
      · have hs : twiceANfa.getState r.state = .ok ⟨2, false, [(.quantified .asterisk, [1]),
          (.literal (.mtch 'a'), [2]), (.literal (.group false [.mtch 'a']), [2])]⟩ := by rw [hr]; rfl
        have hm : NState.charMoves ⟨2, false, [(.quantified .asterisk, [1]),
          (.literal (.mtch 'a'), [2]), (.literal (.group false [.mtch 'a']), [2])]⟩ 'a' = [2, 2] := by
          simp [NState.charMoves, NState.edges, Input.canTake, Lit.contains, containsAny, GLit.contains]
        simp only [Nfa.feedRuns, flatMapOutcome, hs, Outcome.bind_ok, hm, hk, twiceA_closure, h1, Outcome.pure_eq]
        rfl
      · intro r' hr'
        simp only [List.cons_append, List.nil_append, List.mem_cons] at hr'
        rcases hr' with rfl | rfl | rfl | rfl | hr'
        · exact .inr (.inr (.inr ⟨k, rfl⟩))
        · exact .inr (.inl ⟨_, rfl⟩)
        · exact .inr (.inr (.inr ⟨k, rfl⟩))
        · exact .inr (.inl ⟨_, rfl⟩)
        · exact h2 _ hr'
      · simp only [readers] at h3 ⊢
        simp [hr, h3]
        omega
    rcases h r (by simp) with rfl | ⟨cs, rfl⟩ | rfl | ⟨k, rfl⟩
    · refine ⟨runs', ?_, h2, by simpa [readers] using h3⟩
      have hs : twiceANfa.getState 0 = .ok ⟨0, false, [(.eps, [2])]⟩ := rfl
      have hm : NState.charMoves ⟨0, false, [(.eps, [2])]⟩ 'a' = [] := by
        simp [NState.charMoves, NState.edges, Input.canTake]
      simp only [Nfa.feedRuns, flatMapOutcome, hs, Outcome.bind_ok, hm, h1, Outcome.pure_eq]
      rfl
    · refine ⟨runs', ?_, h2, by simpa [readers] using h3⟩
      have hs : twiceANfa.getState 1 = .ok ⟨1, true, []⟩ := rfl
      have hm : NState.charMoves ⟨1, true, []⟩ 'a' = [] := by
        simp [NState.charMoves, NState.edges]
      simp only [Nfa.feedRuns, flatMapOutcome, hs, Outcome.bind_ok, hm, h1, Outcome.pure_eq]
      rfl
    · exact two _ rfl ⟨1, rfl⟩
    · exact two _ rfl ⟨k + 1, rfl⟩

theorem twiceA_accepting (runs : List Run) (h : ∀ r ∈ runs, Fine r) : ∃ b, twiceANfa.isAccepting runs = .ok b := by
  induction runs with
  | nil => exact ⟨_, rfl⟩
  | cons r runs ih =>
    obtain ⟨b, hb⟩ := ih fun r hr => h r (List.mem_cons_of_mem _ hr)
    rcases h r (by simp) with rfl | ⟨cs, rfl⟩ | rfl | ⟨k, rfl⟩
    · exact ⟨b, hb⟩
    · exact ⟨true, rfl⟩
    · exact ⟨b, hb⟩
    · exact ⟨b, hb⟩

theorem twiceA_feedAll (n : Nat) : ∀ (runs : List Run) (last : Option Bool), (∀ r ∈ runs, Fine r) →
    ∃ runs' last', twiceANfa.feedAll 5 runs last (List.replicate n 'a') = .ok (runs', last') ∧
      readers runs' = 2 ^ n * readers runs := by
  induction n with
  | zero => exact fun runs last _ => ⟨runs, last, rfl, by simp⟩
  | succ n ih =>
    intro runs last h
    obtain ⟨runs', h1, h2, h3⟩ := twiceA_feedRuns runs h
    obtain ⟨b, hb⟩ := twiceA_accepting runs' h2
    obtain ⟨runs'', last', h4, h5⟩ := ih runs' (some b) h2
    refine ⟨runs'', last', ?_, by rw [h5, h3, Nat.pow_succ, Nat.mul_assoc]⟩
    simp only [List.replicate_succ, Nfa.feedAll, Nfa.feed, h1, hb, Outcome.bind_ok, Outcome.pure_eq, h4]

theorem twiceA_runs (n : Nat) : ∃ runs, RunsAfter twiceA (List.replicate n 'a') runs ∧ 2 ^ n ≤ runs.length := by
  have h0 : twiceANfa.initRuns 5 = .ok [⟨0, []⟩, ⟨2, []⟩, ⟨1, []⟩] := rfl
  obtain ⟨runs, last, h1, h2⟩ := twiceA_feedAll n [⟨0, []⟩, ⟨2, []⟩, ⟨1, []⟩] none (by
    intro r hr
    simp only [List.mem_cons, List.not_mem_nil, or_false] at hr
    rcases hr with rfl | rfl | rfl
    · exact .inl rfl
    · exact .inr (.inr (.inl rfl))
    · exact .inr (.inl ⟨_, rfl⟩))
  refine ⟨runs, ⟨_, 5, last, nfa_twiceA, by rw [h0, Outcome.bind_ok, h1]⟩, ?_⟩
  have : readers runs ≤ runs.length := List.length_filter_le _ _
  rw [h2] at this
  simpa [readers] using this

omit [Unicode] in
/-- Powers grow faster than polynomials. -/
theorem exp_beats_poly (c k : Nat) : ∃ n, c * (n + 1) ^ k < 2 ^ n := by
  let j := 2 * k + c + 1
  refine ⟨2 ^ (2 * j) - 1, ?_⟩
  have h1 : 2 ^ (2 * j) - 1 + 1 = 2 ^ (2 * j) := Nat.sub_add_cancel (Nat.one_le_two_pow)
  rw [h1, ← Nat.pow_mul]
  have h2 : c < 2 ^ c := Nat.lt_two_pow_self
  have h3 : (j + 1) * (j + 1) ≤ 2 ^ (2 * j) := by
    rw [Nat.two_mul, Nat.pow_add]
    exact Nat.mul_le_mul Nat.lt_two_pow_self Nat.lt_two_pow_self
  have h4 : c + 2 * j * k ≤ 2 ^ (2 * j) - 1 := by
    have e1 : (j + 1) * (j + 1) = j * j + 2 * j + 1 := by
      rw [Nat.add_mul, Nat.mul_add, Nat.mul_one, Nat.one_mul]; omega
    have e2 : 2 * j * k ≤ j * j := by
      rw [Nat.mul_comm 2 j, Nat.mul_assoc]
      exact Nat.mul_le_mul_left _ (by simp only [j]; omega)
    have : c ≤ j := by simp only [j]; omega
    omega
  calc c * 2 ^ (2 * j * k) < 2 ^ c * 2 ^ (2 * j * k) := Nat.mul_lt_mul_of_pos_right h2 (Nat.two_pow_pos _)
    _ = 2 ^ (c + 2 * j * k) := (Nat.pow_add ..).symm
    _ ≤ _ := Nat.pow_le_pow_right (by omega) h4

/-- C58 is false: `(a|[a])*` holds at least `2 ^ n` runs after `n` times `a`, because equal runs are not merged. -/
theorem c58_false : ¬ FewRuns := by
  intro h
  obtain ⟨c, k, h⟩ := h twiceA (by simp [twiceA, HasEmptySeq])
  obtain ⟨n, hn⟩ := exp_beats_poly c k
  obtain ⟨m, h1, h2⟩ := twiceA_runs n
  have := h _ _ h1
  rw [List.length_replicate] at this
  omega

/-! ## Upper bounds -/

omit [Unicode] in
theorem flatMapOutcome_length {α β : Type} {f : α → Outcome (List β)} {k : Nat} : ∀ {l : List α} {r : List β},
    flatMapOutcome f l = .ok r → (∀ a ∈ l, ∀ bs, f a = .ok bs → bs.length ≤ k) → r.length ≤ l.length * k := by
  intro l
  induction l with
  | nil => intro r h _; cases h; simp
  | cons a l ih =>
    intro r h hk
    simp only [flatMapOutcome, Outcome.bind_eq_ok] at h
    obtain ⟨bs, h1, rest, h2, h3⟩ := h
    cases h3
    have e1 := hk a (by simp) bs h1
    have e2 := ih h2 fun b hb => hk b (List.mem_cons_of_mem _ hb)
    rw [List.length_append, List.length_cons, Nat.add_mul]
    omega

/-- A character multiplies the number of runs by a constant at most. -/
theorem feedRuns_length {nfa : Nfa} {fuel : Nat} {runs runs' : List Run} {c : Char}
    (h : nfa.feedRuns fuel runs c = .ok runs') : runs'.length ≤ runs.length * (nfa.degree * fuel) := by
  refine flatMapOutcome_length h fun r _ bs hb => ?_
  rw [Outcome.bind_eq_ok] at hb
  obtain ⟨st, hst, hb⟩ := hb
  refine Nat.le_trans (flatMapOutcome_length hb fun d _ cs hc => ?_) (Nat.mul_le_mul_right _ ?_)
  · have := worklist_length hc
    simpa using this
  · exact Nat.le_trans (List.length_filterMap_le _ _) (edges_le_degree (getState_ok hst).1)

theorem feedAll_length {nfa : Nfa} {fuel : Nat} {v : List Char} : ∀ {runs runs' : List Run} {last last' : Option Bool},
    nfa.feedAll fuel runs last v = .ok (runs', last') →
    runs'.length ≤ runs.length * (nfa.degree * fuel) ^ v.length := by
  induction v with
  | nil => intro runs runs' last last' h; cases h; simp
  | cons c v ih =>
    intro runs runs' last last' h
    simp only [Nfa.feedAll, Outcome.bind_eq_ok] at h
    obtain ⟨⟨runs1, acc⟩, h1, h2⟩ := h
    have e1 := ih h2
    have e2 := feedRuns_length (feed_ok h1).1
    rw [List.length_cons, Nat.pow_succ', ← Nat.mul_assoc]
    exact Nat.le_trans e1 (Nat.mul_le_mul_right _ e2)

/-! ## Different runs -/

/-- A run in one of `S` states, with counters for those states that are at most `M`. -/
structure Small (S M : Nat) (r : Run) : Prop where
  state : r.state < S
  sorted : r.counters.Sorted
  keys : ∀ e ∈ r.counters, e.1 < S
  vals : ∀ e ∈ r.counters, e.2 ≤ M

/-- All counters for the states from `lo` on. -/
def allCounters (M : Nat) : Nat → Nat → List Counters
  | _, 0 => [[]]
  | lo, n + 1 => allCounters M (lo + 1) n ++
      (List.range (M + 1)).flatMap fun v => (allCounters M (lo + 1) n).map ((lo, v) :: ·)

omit [Unicode] in
theorem allCounters_length (M : Nat) : ∀ n lo, (allCounters M lo n).length ≤ (M + 2) ^ n := by
  intro n
  induction n with
  | zero => intro lo; simp [allCounters]
  | succ n ih =>
    intro lo
    have h1 := ih (lo + 1)
    have h2 := flatMap_length_le (f := fun v => (allCounters M (lo + 1) n).map ((lo, v) :: ·))
      (l := List.range (M + 1)) (k := (M + 2) ^ n) (fun a _ => by simpa using h1)
    rw [List.length_range] at h2
    rw [allCounters, List.length_append, Nat.pow_succ, Nat.mul_comm ((M + 2) ^ n)]
    have : (M + 2) * (M + 2) ^ n = (M + 1) * (M + 2) ^ n + (M + 2) ^ n := by
      rw [Nat.add_mul M 2, Nat.add_mul M 1]; omega
    omega

omit [Unicode] in
theorem mem_allCounters {M : Nat} : ∀ {n lo : Nat} {c : Counters}, c.Sorted → (∀ e ∈ c, lo ≤ e.1) →
    (∀ e ∈ c, e.1 < lo + n) → (∀ e ∈ c, e.2 ≤ M) → c ∈ allCounters M lo n := by
  intro n
  induction n with
  | zero =>
    intro lo c _ h1 h2 _
    cases c with
    | nil => simp [allCounters]
    | cons e c =>
      have := h1 e (by simp)
      have := h2 e (by simp)
      omega
  | succ n ih =>
    intro lo c hs h1 h2 h3
    rw [allCounters, List.mem_append]
    cases c with
    | nil => exact .inl (ih List.Pairwise.nil (by simp) (by simp) (by simp))
    | cons e c =>
      obtain ⟨k, v⟩ := e
      have hp := List.pairwise_cons.1 hs
      have hk : lo ≤ k := h1 (k, v) (by simp)
      by_cases h : k = lo
      · subst h
        refine .inr (List.mem_flatMap.2 ⟨v, ?_, List.mem_map.2 ⟨c, ?_, rfl⟩⟩)
        · have := h3 (k, v) (by simp)
          simp only at this
          exact List.mem_range.2 (by omega)
        · refine ih hp.2 (fun e he => hp.1 e he) (fun e he => ?_) fun e he => h3 e (List.mem_cons_of_mem _ he)
          have := h2 e (List.mem_cons_of_mem _ he)
          omega
      · refine .inl (ih hs (fun e he => ?_) (fun e he => ?_) h3)
        · rcases List.mem_cons.1 he with rfl | he
          · simp only; omega
          · have := hp.1 e he
            simp only at this
            omega
        · have := h2 e he
          omega

/-- All small runs. -/
def allRuns (S M : Nat) : List Run := (List.range S).flatMap fun s => (allCounters M 0 S).map fun c => ⟨s, c⟩

omit [Unicode] in
theorem allRuns_length (S M : Nat) : (allRuns S M).length ≤ S * (M + 2) ^ S := by
  have := flatMap_length_le (f := fun s => (allCounters M 0 S).map fun c => (⟨s, c⟩ : Run))
    (l := List.range S) (k := (M + 2) ^ S) (fun a _ => by simpa using allCounters_length M S 0)
  simpa [allRuns] using this

omit [Unicode] in
theorem mem_allRuns {S M : Nat} {r : Run} (h : Small S M r) : r ∈ allRuns S M :=
  List.mem_flatMap.2 ⟨r.state, List.mem_range.2 h.state, List.mem_map.2 ⟨r.counters,
    mem_allCounters h.sorted (fun _ _ => Nat.zero_le _) (by simpa using h.keys) h.vals, rfl⟩⟩

omit [Unicode] in
theorem update_vals {f : Nat → Nat} {M : Nat} (hf : ∀ n, f n ≤ n + 1) (id : Nat) : ∀ {c : Counters},
    (∀ e ∈ c, e.2 ≤ M) → ∀ e ∈ c.update f id, e.2 ≤ M + 1 := by
  intro c
  induction c with
  | nil =>
    intro _ e he
    simp only [Counters.update, List.mem_singleton] at he
    subst he
    have := hf 0
    simp only
    omega
  | cons x c ih =>
    obtain ⟨k, v⟩ := x
    intro h e he
    have hv : v ≤ M := h (k, v) (by simp)
    have hc : ∀ e ∈ c, e.2 ≤ M := fun e he => h e (List.mem_cons_of_mem _ he)
    simp only [Counters.update] at he
    split at he
    · simp only [List.mem_cons] at he
      rcases he with rfl | rfl | he
      · have := hf 0; simp only; omega
      · simp only; omega
      · have := hc e he; omega
    · split at he
      · rcases List.mem_cons.1 he with rfl | he
        · have := hf v; simp only; omega
        · have := hc e he; omega
      · rcases List.mem_cons.1 he with rfl | he
        · simp only; omega
        · exact ih hc e he

omit [Unicode] in
theorem Small.take {S M : Nat} {r : Run} (h : Small S M r) {d : Nat} (hd : d < S) (q : Bool) :
    Small S (M + 1) (r.takeTransition d q) := by
  refine ⟨hd, (Counters.update_spec _ _ h.sorted).1, ?_, update_vals (by intro n; split <;> omega) _ h.vals⟩
  intro e he
  rcases Counters.mem_update he with h1 | ⟨e', h1, h2⟩
  · rw [h1]; exact h.state
  · rw [← h2]; exact h.keys _ h1

omit [Unicode] in
theorem Small.le {S M M' : Nat} (hM : M ≤ M') {r : Run} (h : Small S M r) : Small S M' r :=
  ⟨h.state, h.sorted, h.keys, fun e he => Nat.le_trans (h.vals e he) hM⟩

omit [Unicode] in
theorem Small.kreach {nfa : Nfa} (w : Wf nfa) {n : Nat} {r r' : Run} (hk : KReach nfa n r r') :
    ∀ {M : Nat}, Small nfa.states.length M r → Small nfa.states.length (M + n) r' := by
  induction hk with
  | refl => intro M h; exact h
  | head hs hm _ ih =>
    intro M h
    obtain ⟨st, hst, rfl⟩ := epsStep_ok hs
    obtain ⟨⟨d, b⟩, h1, rfl⟩ := List.mem_map.1 hm
    have hd : d < nfa.states.length := by
      rcases mem_epsMoves.1 h1 with ⟨he, rfl⟩ | ⟨q, he, hq, rfl⟩
      · exact (w.edge_lt ((w.hasEdge_iff hst).2 he)).2
      · exact (w.edge_lt ((w.hasEdge_iff hst).2 he)).2
    exact (ih (h.take hd b)).le (by omega)

/-- A character makes the counters larger by a constant at most. -/
theorem Small.feed {nfa : Nfa} {rs : List (Fr × Nat)} (b : Bundle nfa rs) (nn : ∀ r ∈ rs, r.1.NonNull)
    {fuel M : Nat} {runs runs' : List Run} {w : List Char} (ht : Tracks nfa runs w) {c : Char}
    (h : nfa.feedRuns fuel runs c = .ok runs') (hs : ∀ r ∈ runs, Small nfa.states.length M r) :
    ∀ r ∈ runs', Small nfa.states.length (M + (totalBound rs + 1)) r := by
  intro r' hr'
  obtain ⟨_, _, hmem⟩ := feedRuns_ok h
  obtain ⟨r, hr, st, hst, d, hd, hreach⟩ := (hmem r').1 hr'
  obtain ⟨n, hk⟩ := reaches_iff_kreach.1 hreach
  obtain ⟨l, he, hc⟩ := mem_charMoves.1 hd
  have he := (b.wf.hasEdge_iff hst).2 he
  obtain ⟨k1, k2, k3⟩ := r.take_eps (ht.sorted r hr) d
  have hstep : CStep nfa.HasEdge r.state r.counts [c] d (r.takeTransition d false).counts := by
    rw [k3]; exact .char he hc
  have hn := b.eps_bounded nn ((ht.quiet b hr).path b (.single hstep)) (hk.path b.wf k2).2
  exact (Small.kreach b.wf hk ((hs r hr).take (b.wf.edge_lt he).2 false)).le (by omega)

theorem Small.feedAll {nfa : Nfa} {rs : List (Fr × Nat)} (b : Bundle nfa rs) (nn : ∀ r ∈ rs, r.1.NonNull)
    {fuel : Nat} (hf : simFuel nfa rs ≤ fuel) {v : List Char} :
    ∀ {runs runs' : List Run} {last last' : Option Bool} {w : List Char} {M : Nat}, Tracks nfa runs w →
    nfa.feedAll fuel runs last v = .ok (runs', last') → (∀ r ∈ runs, Small nfa.states.length M r) →
    ∀ r ∈ runs', Small nfa.states.length (M + v.length * (totalBound rs + 1)) r := by
  induction v with
  | nil => intro runs runs' last last' w M _ h hs; cases h; simpa using hs
  | cons c v ih =>
    intro runs runs' last last' w M ht h hs
    simp only [Nfa.feedAll, Outcome.bind_eq_ok] at h
    obtain ⟨⟨runs1, acc⟩, h1, h2⟩ := h
    obtain ⟨runs1', acc', h3, _, h5⟩ := b.feed nn hf ht c
    rw [h1] at h3
    cases h3
    intro r hr
    refine (ih h5 h2 (Small.feed b nn ht (feed_ok h1).1 hs) r hr).le ?_
    rw [List.length_cons, Nat.add_mul]
    omega

/-! ## What holds -/

theorem runsAfter_fuel {e : Expr} {nfa : Nfa} (hn : nfaOfAst e = .ok nfa) {rs : List (Fr × Nat)}
    (b : Bundle nfa rs) (nn : ∀ r ∈ rs, r.1.NonNull) {v : List Char} {runs : List Run} (h : RunsAfter e v runs) :
    ∃ runs0 last, nfa.initRuns (simFuel nfa rs) = .ok runs0 ∧ Tracks nfa runs0 [] ∧
      nfa.feedAll (simFuel nfa rs) runs0 none v = .ok (runs, last) := by
  obtain ⟨nfa', fuel, last, h1, h2⟩ := h
  rw [hn] at h1
  cases h1
  obtain ⟨runs0, h3, h4⟩ := b.initRuns (Nat.le_refl (simFuel nfa rs))
  obtain ⟨runs', last', h5, _, _⟩ := b.feedAll nn (Nat.le_refl _) v (last := none) h4 (by simp)
  rw [Outcome.bind_eq_ok] at h2
  obtain ⟨runs1, h6, h7⟩ := h2
  have mono : ∀ {n m : Nat} {runs : List Run}, n ≤ m → nfa.initRuns n = .ok runs → nfa.initRuns m = .ok runs := by
    intro n m runs hnm h
    simp only [Nfa.initRuns, Outcome.bind_eq_ok] at h ⊢
    obtain ⟨ids, e1, e2⟩ := h
    exact ⟨ids, worklist_mono e1 hnm, e2⟩
  have e1 := mono (Nat.le_max_left fuel (simFuel nfa rs)) h6
  rw [mono (Nat.le_max_right fuel (simFuel nfa rs)) h3] at e1
  cases e1
  have e2 := feedAll_mono (Nat.le_max_left fuel (simFuel nfa rs)) h7
  rw [feedAll_mono (Nat.le_max_right fuel (simFuel nfa rs)) h5] at e2
  cases e2
  exact ⟨runs0, last, h3, h4, h5⟩

/-- What holds of C58: if no repeated group matches the empty string, then the number of runs is at most
exponential, and the number of *different* runs is at most polynomial.  Missing: the polynomial bound on the
number of runs, which is false (`c58_false`) because runs are kept several times. -/
theorem c58_partial (e : Expr) (hc : ¬ HasEmptySeq e) (hr : RepeatsNonEmpty e) :
    (∀ v, ∃ runs, RunsAfter e v runs) ∧
    (∃ K, ∀ v runs, RunsAfter e v runs → runs.length ≤ K ^ (v.length + 1)) ∧
    ∃ c k, ∀ v runs, RunsAfter e v runs →
      ∃ different : List Run, different.length ≤ c * (v.length + 1) ^ k ∧ ∀ r ∈ runs, r ∈ different := by
  obtain ⟨nfa, h1, b⟩ := nfaOfAst_bundle hc
  have nn : ∀ r ∈ [((frag e 0 1 2).1, 1)], r.1.NonNull := by simpa using frag_nonNull e hc hr 0 1 2
  generalize hrs : [((frag e 0 1 2).1, 1)] = rs at b nn
  have init : ∀ runs0, nfa.initRuns (simFuel nfa rs) = .ok runs0 →
      runs0.length ≤ simFuel nfa rs ∧ ∀ r ∈ runs0, r.counters = [] := by
    intro runs0 h
    simp only [Nfa.initRuns, Outcome.bind_eq_ok] at h
    obtain ⟨ids, e1, e2⟩ := h
    cases e2
    have := worklist_length e1
    simp only [List.length_singleton] at this
    refine ⟨by rw [List.length_map]; omega, fun r hr => ?_⟩
    obtain ⟨id, _, rfl⟩ := List.mem_map.1 hr
    rfl
  refine ⟨fun v => ?_, ⟨(nfa.degree + 1) * (simFuel nfa rs + 1), fun v runs h => ?_⟩,
    ⟨nfa.states.length * (totalBound rs + 2) ^ nfa.states.length, nfa.states.length, fun v runs h => ?_⟩⟩
  · obtain ⟨runs0, h3, h4⟩ := b.initRuns (Nat.le_refl (simFuel nfa rs))
    obtain ⟨runs', last', h5, _, _⟩ := b.feedAll nn (Nat.le_refl _) v (last := none) h4 (by simp)
    exact ⟨runs', nfa, _, last', h1, by rw [h3, Outcome.bind_ok, h5]⟩
  · obtain ⟨runs0, last, h3, _, h5⟩ := runsAfter_fuel h1 b nn h
    refine Nat.le_trans (feedAll_length h5) ?_
    rw [Nat.pow_succ, Nat.mul_comm]
    refine Nat.mul_le_mul (Nat.pow_le_pow_left (Nat.mul_le_mul (Nat.le_succ _) (Nat.le_succ _)) _) ?_
    refine Nat.le_trans (init _ h3).1 (Nat.le_trans (Nat.le_succ _) (Nat.le_mul_of_pos_left _ (Nat.succ_pos _)))
  · obtain ⟨runs0, last, h3, h4, h5⟩ := runsAfter_fuel h1 b nn h
    refine ⟨allRuns nfa.states.length (v.length * (totalBound rs + 1)), ?_, fun r hr => mem_allRuns ?_⟩
    · refine Nat.le_trans (allRuns_length _ _) ?_
      rw [Nat.mul_assoc, ← Nat.mul_pow]
      refine Nat.mul_le_mul_left _ (Nat.pow_le_pow_left ?_ _)
      rw [Nat.mul_add, Nat.mul_one, Nat.mul_comm v.length, Nat.add_mul, Nat.mul_add (totalBound rs)]
      omega
    · have := Small.feedAll b nn (Nat.le_refl _) (M := 0) h4 h5 (fun r hr => by
        have := (init _ h3).2 r hr
        exact ⟨h4.lt b hr, by rw [this]; exact .nil, by simp [this], by simp [this]⟩) r hr
      simpa using this

/-- `twiceA` itself is such a pattern. -/
example : ¬ HasEmptySeq twiceA ∧ RepeatsNonEmpty twiceA := by
  rw [← repeatsNonEmptyB_iff]
  decide

end Pango.Props
