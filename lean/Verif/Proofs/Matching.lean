import Verif.Proofs.Halt

/-!
# The simulator follows the paths of the automaton
-/

namespace Pango.Fsm

open Pango Pango.Regex

/-! ## Counters -/

/-- The keys are increasing, as in a `BTreeMap`. -/
def Counters.Sorted (c : Counters) : Prop := c.Pairwise (fun a b => a.1 < b.1)

theorem Counters.count_of_lt {c : Counters} {id : Nat} (h : ∀ e ∈ c, id < e.1) : c.count id = 0 := by
  induction c with
  | nil => rfl
  | cons e c ih =>
    obtain ⟨k, v⟩ := e
    have hk : id < k := h (k, v) (by simp)
    simp only [Counters.count, if_neg (Nat.ne_of_gt hk)]
    exact ih (fun e he => h e (by simp [he]))

theorem Counters.mem_update {f : Nat → Nat} {id : Nat} {c : Counters} {e : Nat × Nat}
    (h : e ∈ c.update f id) : e.1 = id ∨ ∃ e' ∈ c, e'.1 = e.1 := by
  induction c with
  | nil => simp [Counters.update] at h; exact .inl (by simp [h])
  | cons a c ih =>
    obtain ⟨k, v⟩ := a
    unfold Counters.update at h
    split at h
    · rcases List.mem_cons.1 h with rfl | h
      · exact .inl rfl
      · exact .inr ⟨e, h, rfl⟩
    · split at h
      · rcases List.mem_cons.1 h with rfl | h
        · exact .inr ⟨(k, v), by simp, rfl⟩
        · exact .inr ⟨e, by simp [h], rfl⟩
      · rcases List.mem_cons.1 h with rfl | h
        · exact .inr ⟨(k, v), by simp, rfl⟩
        · rcases ih h with h | ⟨e', h1, h2⟩
          · exact .inl h
          · exact .inr ⟨e', by simp [h1], h2⟩

theorem Counters.update_spec (f : Nat → Nat) (id : Nat) {c : Counters} (h : c.Sorted) :
    (c.update f id).Sorted ∧
    ∀ x, (c.update f id).count x = if x = id then f (c.count id) else c.count x := by
  induction c with
  | nil =>
    refine ⟨by simp [Counters.update, Counters.Sorted], fun x => ?_⟩
    simp only [Counters.update, Counters.count, eq_comm]
  | cons a c ih =>
    obtain ⟨k, v⟩ := a
    obtain ⟨h1, h2⟩ := List.pairwise_cons.1 h
    unfold Counters.update
    split
    · rename_i hlt
      constructor
      · refine List.pairwise_cons.2 ⟨?_, h⟩
        intro e he
        rcases List.mem_cons.1 he with rfl | he
        · exact hlt
        · exact Nat.lt_trans hlt (h1 e he)
      · intro x
        have h0 : Counters.count ((k, v) :: c) id = 0 := by
          refine Counters.count_of_lt ?_
          intro e he
          rcases List.mem_cons.1 he with rfl | he
          · exact hlt
          · exact Nat.lt_trans hlt (h1 e he)
        rw [h0, Counters.count]
        by_cases hx : x = id
        · simp [hx]
        · rw [if_neg (Ne.symm hx), if_neg hx]
    · split
      · rename_i hk
        subst hk
        refine ⟨List.pairwise_cons.2 ⟨h1, h2⟩, fun x => ?_⟩
        by_cases hx : x = k
        · simp [hx, Counters.count]
        · simp [Counters.count, Ne.symm hx, hx]
      · rename_i hlt hne
        obtain ⟨i1, i2⟩ := ih h2
        constructor
        · refine List.pairwise_cons.2 ⟨?_, i1⟩
          intro e he
          rcases Counters.mem_update he with h | ⟨e', h3, h4⟩
          · show k < e.1
            omega
          · rw [← h4]; exact h1 e' h3
        · intro x
          simp only [Counters.count, if_neg hne]
          by_cases hx : k = x
          · subst hx
            simp [hne]
          · simp only [if_neg hx]
            exact i2 x

/-- The counters of a run as a function. -/
def Run.counts (r : Run) : Counts := r.counters.count

theorem Run.take_eps {r : Run} (h : r.counters.Sorted) (d : Nat) :
    (r.takeTransition d false).state = d ∧ (r.takeTransition d false).counters.Sorted ∧
    (r.takeTransition d false).counts = r.counts.bump r.state := by
  obtain ⟨h1, h2⟩ := Counters.update_spec (fun n => if false then 0 else n + 1) r.state h
  exact ⟨rfl, h1, funext fun x => by
    show Counters.count (Counters.update _ _ _) x = _
    rw [h2]; rfl⟩

theorem Run.take_quant {r : Run} (h : r.counters.Sorted) (d : Nat) :
    (r.takeTransition d true).state = d ∧ (r.takeTransition d true).counters.Sorted ∧
    (r.takeTransition d true).counts = r.counts.reset r.state := by
  obtain ⟨h1, h2⟩ := Counters.update_spec (fun n => if true then 0 else n + 1) r.state h
  exact ⟨rfl, h1, funext fun x => by
    show Counters.count (Counters.update _ _ _) x = _
    rw [h2]; rfl⟩

/-! ## Steps -/

section steps

variable {nfa : Nfa}

/-- Steps of `epsStep` counted. -/
inductive KReach (nfa : Nfa) : Nat → Run → Run → Prop
  | refl (r : Run) : KReach nfa 0 r r
  | head {n : Nat} {r r1 r' : Run} {news : List Run} :
      epsStep nfa r = .ok news → r1 ∈ news → KReach nfa n r1 r' → KReach nfa (n + 1) r r'

theorem KReach.snoc {n : Nat} {r r1 r' : Run} {news : List Run} (h : KReach nfa n r r1)
    (hs : epsStep nfa r1 = .ok news) (hm : r' ∈ news) : KReach nfa (n + 1) r r' := by
  induction h with
  | refl => exact .head hs hm (.refl _)
  | head h1 h2 _ ih => exact .head h1 h2 (ih hs)

theorem reaches_iff_kreach {r r' : Run} :
    Reaches (epsStep nfa) r r' ↔ ∃ n, KReach nfa n r r' := by
  constructor
  · intro h
    induction h with
    | refl => exact ⟨0, .refl _⟩
    | tail _ hs hm ih => obtain ⟨n, h⟩ := ih; exact ⟨n + 1, h.snoc hs hm⟩
  · rintro ⟨n, h⟩
    induction h with
    | refl => exact .refl
    | head hs hm _ ih => exact (Reaches.tail .refl hs hm).trans ih

/-- All runs in at most `n` steps. -/
def reachList (nfa : Nfa) : Nat → Run → List Run
  | 0, r => [r]
  | n + 1, r => r :: (match epsStep nfa r with
    | .ok news => news.flatMap (reachList nfa n)
    | _ => [])

theorem mem_reachList {n : Nat} {r r' : Run} :
    r' ∈ reachList nfa n r ↔ ∃ k, k ≤ n ∧ KReach nfa k r r' := by
  induction n generalizing r with
  | zero =>
    simp only [reachList, List.mem_singleton, Nat.le_zero]
    constructor
    · rintro rfl; exact ⟨0, rfl, .refl _⟩
    · rintro ⟨k, rfl, h⟩; cases h; rfl
  | succ n ih =>
    simp only [reachList, List.mem_cons]
    constructor
    · rintro (rfl | h)
      · exact ⟨0, by omega, .refl _⟩
      · split at h
        · rename_i news hs
          obtain ⟨r1, h1, h2⟩ := List.mem_flatMap.1 h
          obtain ⟨k, hk, h3⟩ := ih.1 h2
          exact ⟨k + 1, by omega, .head hs h1 h3⟩
        · simp at h
    · rintro ⟨k, hk, h⟩
      cases h with
      | refl => exact .inl rfl
      | @head k _ r1 _ news hs h1 h2 =>
        refine .inr ?_
        simp only [hs]
        exact List.mem_flatMap.2 ⟨r1, h1, ih.2 ⟨k, by omega, h2⟩⟩

/-- The number of edges. -/
def Nfa.degree (nfa : Nfa) : Nat := (nfa.states.map (fun s => s.edges.length)).sum

/-- Enough fuel for closures in which paths have at most `n` steps. -/
def reachFuel (deg : Nat) : Nat → Nat
  | 0 => 1
  | n + 1 => 1 + deg * reachFuel deg n

theorem edges_le_degree {s : NState} (h : s ∈ nfa.states) : s.edges.length ≤ nfa.degree := by
  unfold Nfa.degree
  generalize nfa.states = l at h
  induction l with
  | nil => simp at h
  | cons a l ih =>
    rcases List.mem_cons.1 h with rfl | h
    · simp
    · have := ih h; simp; omega

theorem flatMap_length_le {α β : Type} {f : α → List β} {l : List α} {k : Nat}
    (h : ∀ a ∈ l, (f a).length ≤ k) : (l.flatMap f).length ≤ l.length * k := by
  induction l with
  | nil => simp
  | cons a l ih =>
    have h1 := h a (by simp)
    have h2 := ih (fun b hb => h b (by simp [hb]))
    simp only [List.flatMap_cons, List.length_append, List.length_cons, Nat.add_mul, Nat.one_mul]
    omega

theorem reachList_length {n : Nat} {r : Run} : (reachList nfa n r).length ≤ reachFuel nfa.degree n := by
  induction n generalizing r with
  | zero => simp [reachList, reachFuel]
  | succ n ih =>
    simp only [reachList, reachFuel, List.length_cons]
    split
    · rename_i news hs
      obtain ⟨st, hst, rfl⟩ := epsStep_ok hs
      have h1 : ((st.epsMoves (r.counters.count r.state)).map
          (fun m => r.takeTransition m.1 m.2)).length ≤ nfa.degree := by
        rw [List.length_map]
        exact Nat.le_trans (List.length_filterMap_le _ _) (edges_le_degree (getState_ok hst).1)
      have h2 := flatMap_length_le (f := reachList nfa n) (k := reachFuel nfa.degree n)
        (l := (st.epsMoves (r.counters.count r.state)).map (fun m => r.takeTransition m.1 m.2))
        (fun a _ => ih)
      have := Nat.le_trans h2 (Nat.mul_le_mul_right _ h1)
      omega
    · simp

variable [Unicode]

/-- A step of the simulator is a step of the automaton. -/
theorem epsStep_sound (w : Wf nfa) {r r' : Run} {news : List Run} (hr : r.counters.Sorted)
    (h : epsStep nfa r = .ok news) (hm : r' ∈ news) :
    r'.counters.Sorted ∧ CStep nfa.HasEdge r.state r.counts [] r'.state r'.counts := by
  obtain ⟨st, hst, rfl⟩ := epsStep_ok h
  obtain ⟨⟨d, b⟩, h1, rfl⟩ := List.mem_map.1 hm
  rcases mem_epsMoves.1 h1 with ⟨he, rfl⟩ | ⟨q, he, hq, rfl⟩
  · obtain ⟨k1, k2, k3⟩ := r.take_eps hr d
    simp only [k1, k3]
    exact ⟨k2, .eps ((w.hasEdge_iff hst).2 he)⟩
  · obtain ⟨k1, k2, k3⟩ := r.take_quant hr d
    simp only [k1, k3]
    exact ⟨k2, .quant ((w.hasEdge_iff hst).2 he) hq⟩

/-- And the other way round. -/
theorem epsStep_complete (w : Wf nfa) {r : Run} (hr : r.counters.Sorted) {d : Nat} {κ : Counts}
    (h : CStep nfa.HasEdge r.state r.counts [] d κ) :
    ∃ news r', epsStep nfa r = .ok news ∧ r' ∈ news ∧ r'.state = d ∧ r'.counts = κ ∧
      r'.counters.Sorted := by
  obtain ⟨i, he⟩ := h.edge
  obtain ⟨st, hst⟩ : ∃ st, nfa.getState r.state = .ok st := ⟨_, w.getState (w.edge_lt he).1⟩
  have hs : epsStep nfa r = .ok ((st.epsMoves (r.counters.count r.state)).map
      fun m => r.takeTransition m.1 m.2) := by simp [epsStep, hst]
  generalize hu : ([] : List Char) = u at h
  cases h with
  | eps he =>
    obtain ⟨k1, k2, k3⟩ := r.take_eps hr d
    exact ⟨_, _, hs, List.mem_map.2 ⟨(d, false), mem_epsMoves.2 (.inl ⟨(w.hasEdge_iff hst).1 he, rfl⟩),
      rfl⟩, k1, k3, k2⟩
  | @quant _ _ q he hq =>
    obtain ⟨k1, k2, k3⟩ := r.take_quant hr d
    exact ⟨_, _, hs, List.mem_map.2 ⟨(d, true), mem_epsMoves.2 (.inr ⟨q, (w.hasEdge_iff hst).1 he, hq,
      rfl⟩), rfl⟩, k1, k3, k2⟩
  | char => cases hu

theorem KReach.path (w : Wf nfa) {n : Nat} {r r' : Run} (h : KReach nfa n r r')
    (hr : r.counters.Sorted) :
    r'.counters.Sorted ∧ Path nfa.HasEdge n r.state r.counts [] r'.state r'.counts := by
  induction h with
  | refl => exact ⟨hr, .refl _ _⟩
  | head hs hm _ ih =>
    obtain ⟨h1, h2⟩ := epsStep_sound w hr hs hm
    obtain ⟨h3, h4⟩ := ih h1
    exact ⟨h3, by simpa using Path.cons h2 h4⟩

theorem KReach.of_path (w : Wf nfa) {n p' : Nat} {r : Run} {κ' : Counts} (hr : r.counters.Sorted)
    (h : Path nfa.HasEdge n r.state r.counts [] p' κ') :
    ∃ r', KReach nfa n r r' ∧ r'.state = p' ∧ r'.counts = κ' ∧ r'.counters.Sorted := by
  induction n generalizing r with
  | zero =>
    rcases h.nil_cases with ⟨_, h1, h2⟩ | ⟨_, _, _, h, _⟩
    · exact ⟨r, .refl _, h1, h2, hr⟩
    · omega
  | succ n ih =>
    rcases h.nil_cases with ⟨h, _⟩ | ⟨m, d, κ1, hm, hs, hp⟩
    · omega
    · obtain rfl : n = m := by omega
      obtain ⟨news, r1, h1, h2, h3, h4, h5⟩ := epsStep_complete w hr hs
      obtain ⟨r', h6, h7⟩ := ih (r := r1) h5 (by rw [h3, h4]; exact hp)
      exact ⟨r', .head h1 h2 h6, h7⟩

end steps

/-! ## Whole words -/

section words

variable {nfa : Nfa} {rs : List (Fr × Nat)} [Unicode]

/-- Enough fuel for everything the simulator does. -/
def simFuel (nfa : Nfa) (rs : List (Fr × Nat)) : Nat :=
  reachFuel nfa.degree (totalBound rs) + nfa.states.length

theorem Bundle.state_lt (b : Bundle nfa rs) {n p p' : Nat} {κ κ' : Counts} {w : List Char}
    (h : Path nfa.HasEdge n p κ w p' κ') (hp : p < nfa.states.length) : p' < nfa.states.length := by
  rcases h.end_target with rfl | ⟨x, i, h⟩
  · exact hp
  · exact (b.wf.edge_lt h).2

/-- Closures terminate. -/
theorem Bundle.epsClosure (b : Bundle nfa rs) (nn : ∀ r ∈ rs, r.1.NonNull) {fuel : Nat}
    (hf : simFuel nfa rs ≤ fuel) {r : Run} (hs : r.counters.Sorted) (hq : Quiets rs r.counts r.state)
    (hl : r.state < nfa.states.length) : ∃ res, nfa.epsClosure fuel r = .ok res := by
  rw [epsClosure_eq]
  refine worklist_terminates (u := reachList nfa (totalBound rs) r) ?_ ?_ ?_ (by simp) ?_
  · intro a ha
    obtain ⟨k, hk, h⟩ := mem_reachList.1 ha
    obtain ⟨h1, h2⟩ := h.path b.wf hs
    have hst := b.wf.getState (b.state_lt h2 hl)
    have hstep : ∃ news, epsStep nfa a = .ok news := ⟨_, by simp only [epsStep, hst]; rfl⟩
    obtain ⟨news, hn⟩ := hstep
    refine ⟨news, hn, fun c hc => mem_reachList.2 ⟨k + 1, ?_, h.snoc hn hc⟩⟩
    have hpath := ((h.snoc hn hc).path b.wf hs).2
    exact b.eps_bounded nn hq hpath
  · intro a ha
    rw [List.mem_singleton.1 ha]
    exact mem_reachList.2 ⟨0, by omega, .refl _⟩
  · intro a ha
    rw [List.mem_singleton.1 ha]
    exact mem_reachList.2 ⟨0, by omega, .refl _⟩
  · have := reachList_length (nfa := nfa) (n := totalBound rs) (r := r)
    simp only [simFuel] at hf
    simp only [List.length_singleton]
    omega

/-- The runs are exactly what is reached by reading `w`. -/
structure Tracks (nfa : Nfa) (runs : List Run) (w : List Char) : Prop where
  sorted : ∀ r ∈ runs, r.counters.Sorted
  sound : ∀ r ∈ runs, ∃ x, SReach nfa.HasEdge 0 x ∧
    CharPath nfa.HasEdge x (fun _ => 0) w r.state r.counts
  complete : ∀ x p κ, SReach nfa.HasEdge 0 x → CharPath nfa.HasEdge x (fun _ => 0) w p κ →
    ∃ r ∈ runs, r.state = p ∧ r.counts = κ

theorem SReach.lt (w : Wf nfa) {x y : Nat} (h : SReach nfa.HasEdge x y) (hx : x < nfa.states.length) :
    y < nfa.states.length := by
  induction h with
  | refl => exact hx
  | eps _ he _ => exact (w.edge_lt he).2
  | quant _ he _ _ => exact (w.edge_lt he).2

theorem Tracks.lt (b : Bundle nfa rs) {runs : List Run} {w : List Char} (h : Tracks nfa runs w)
    {r : Run} (hr : r ∈ runs) : r.state < nfa.states.length := by
  obtain ⟨x, h1, h2⟩ := h.sound r hr
  obtain ⟨n, h3⟩ := h2.toPath
  exact b.state_lt h3 (h1.lt b.wf (b.start ▸ b.wf.start))

theorem Tracks.quiet (b : Bundle nfa rs) {runs : List Run} {w : List Char} (h : Tracks nfa runs w)
    {r : Run} (hr : r ∈ runs) : Quiets rs r.counts r.state := by
  obtain ⟨x, h1, h2⟩ := h.sound r hr
  obtain ⟨n, h3⟩ := h2.toPath
  exact (quiets_zero rs x).path b h3

/-- The simulator starts. -/
theorem Bundle.initRuns (b : Bundle nfa rs) {fuel : Nat} (hf : simFuel nfa rs ≤ fuel) :
    ∃ runs, nfa.initRuns fuel = .ok runs ∧ Tracks nfa runs [] := by
  have hstep : ∀ id, id < nfa.states.length → ∃ news,
      (do let st ← nfa.getState id
          pure ((st.epsMoves 0).map Prod.fst) : Outcome (List Nat)) = .ok news ∧
      ∀ d, d ∈ news ↔ nfa.HasEdge id .eps d ∨
        ∃ q, nfa.HasEdge id (.quantified q) d ∧ q.isSatisfied 0 = true := by
    intro id hid
    have hst := b.wf.getState hid
    refine ⟨_, by rw [hst]; rfl, fun d => ?_⟩
    rw [b.wf.hasEdge_iff hst]
    simp only [List.mem_map, Prod.exists, exists_and_right, exists_eq_right, mem_epsMoves]
    constructor
    · rintro ⟨bb, ⟨h, _⟩ | ⟨q, h, hq, _⟩⟩
      · exact .inl h
      · exact .inr ⟨q, (b.wf.hasEdge_iff hst).2 h, hq⟩
    · rintro (h | ⟨q, h, hq⟩)
      · exact ⟨false, .inl ⟨h, rfl⟩⟩
      · exact ⟨true, .inr ⟨q, (b.wf.hasEdge_iff hst).1 h, hq, rfl⟩⟩
  have hstart : nfa.start < nfa.states.length := b.wf.start
  obtain ⟨ids, hids⟩ : ∃ ids, nfa.staticClosure fuel nfa.start = .ok ids := by
    unfold Nfa.staticClosure
    refine worklist_terminates (u := List.range nfa.states.length) ?_ ?_ ?_ (by simp) ?_
    · intro a ha
      obtain ⟨news, h1, h2⟩ := hstep a (List.mem_range.1 ha)
      refine ⟨news, h1, fun d hd => List.mem_range.2 ?_⟩
      rcases (h2 d).1 hd with h | ⟨q, h, _⟩
      · exact (b.wf.edge_lt h).2
      · exact (b.wf.edge_lt h).2
    · intro a ha; rw [List.mem_singleton.1 ha]; exact List.mem_range.2 hstart
    · intro a ha; rw [List.mem_singleton.1 ha]; exact List.mem_range.2 hstart
    · simp only [simFuel] at hf
      simp only [List.length_singleton, List.length_range]
      omega
  have hmem : ∀ x, x ∈ ids ↔ SReach nfa.HasEdge 0 x := by
    intro x
    rw [(worklist_single hids).1 x]
    have s0 : nfa.start = 0 := b.start
    constructor
    · intro h
      induction h with
      | refl => rw [s0]; exact .refl 0
      | tail _ hs hm ih =>
        rename_i y z news _
        obtain ⟨news', h1, h2⟩ := hstep y (ih.lt b.wf (s0 ▸ hstart))
        rw [h1] at hs
        cases hs
        rcases (h2 _).1 hm with h | ⟨q, h, hq⟩
        · exact ih.eps h
        · exact ih.quant h hq
    · intro h
      rw [s0]
      induction h with
      | refl => exact .refl
      | eps _ he ih =>
        obtain ⟨news, h1, h2⟩ := hstep _ (b.wf.edge_lt he).1
        exact ih.tail h1 ((h2 _).2 (.inl he))
      | quant _ he hq ih =>
        obtain ⟨news, h1, h2⟩ := hstep _ (b.wf.edge_lt he).1
        exact ih.tail h1 ((h2 _).2 (.inr ⟨_, he, hq⟩))
  refine ⟨ids.map fun id => ⟨id, []⟩, by simp [Nfa.initRuns, hids], ?_, ?_, ?_⟩
  · intro r hr
    obtain ⟨id, _, rfl⟩ := List.mem_map.1 hr
    exact List.Pairwise.nil
  · intro r hr
    obtain ⟨id, h, rfl⟩ := List.mem_map.1 hr
    exact ⟨id, (hmem id).1 h, .refl _ _⟩
  · intro x p κ h1 h2
    cases h2
    exact ⟨⟨x, []⟩, List.mem_map.2 ⟨x, (hmem x).2 h1, rfl⟩, rfl, rfl⟩

/-- A path that reads `w` and then `c` splits there. -/
theorem Path.snoc_char {E : Nat → Input → Nat → Prop} {n p p' : Nat} {κ κ' : Counts} {w : List Char}
    {c : Char} (h : Path E n p κ (w ++ [c]) p' κ') :
    ∃ n1 n2 p1 d κ1 κ2, Path E n1 p κ w p1 κ1 ∧ CStep E p1 κ1 [c] d κ2 ∧ Path E n2 d κ2 [] p' κ' := by
  generalize hv : w ++ [c] = v at h
  induction h generalizing w with
  | refl => simp at hv
  | @cons n p d p' κ κ1 κ' u w' hs hp ih =>
    cases hs with
    | eps he =>
      obtain ⟨n1, n2, p1, d', κ2, κ3, h1, h2, h3⟩ := ih hv
      exact ⟨n1 + 1, n2, p1, d', κ2, κ3, by simpa using Path.cons (.eps he) h1, h2, h3⟩
    | quant he hq =>
      obtain ⟨n1, n2, p1, d', κ2, κ3, h1, h2, h3⟩ := ih hv
      exact ⟨n1 + 1, n2, p1, d', κ2, κ3, by simpa using Path.cons (.quant he hq) h1, h2, h3⟩
    | @char _ _ l c' he hc =>
      cases w with
      | nil =>
        simp only [List.nil_append, List.singleton_append, List.cons.injEq] at hv
        obtain ⟨rfl, rfl⟩ := hv
        exact ⟨0, n, p, d, κ, _, .refl _ _, .char he hc, hp⟩
      | cons a w =>
        simp only [List.cons_append, List.cons.injEq, List.nil_append] at hv
        obtain ⟨rfl, hv⟩ := hv
        obtain ⟨n1, n2, p1, d', κ2, κ3, h1, h2, h3⟩ := ih hv
        exact ⟨n1 + 1, n2, p1, d', κ2, κ3, Path.cons (.char he hc) h1, h2, h3⟩

theorem CharPath.snoc {E : Nat → Input → Nat → Prop} {x p d p' n : Nat} {κ κ1 κ2 κ' : Counts}
    {w : List Char} {c : Char} (h : CharPath E x κ w p κ1) (hs : CStep E p κ1 [c] d κ2)
    (hp : Path E n d κ2 [] p' κ') : CharPath E x κ (w ++ [c]) p' κ' := by
  cases h with
  | refl => exact .char hs hp
  | char hs' hp' =>
    have := (hp'.append (Path.cons hs hp))
    refine .char hs' (by simpa using this)

theorem CharPath.split {E : Nat → Input → Nat → Prop} {x p' : Nat} {κ κ' : Counts} {w : List Char}
    {c : Char} (h : CharPath E x κ (w ++ [c]) p' κ') :
    ∃ n2 p1 d κ1 κ2, CharPath E x κ w p1 κ1 ∧ CStep E p1 κ1 [c] d κ2 ∧ Path E n2 d κ2 [] p' κ' := by
  generalize hv : w ++ [c] = v at h
  cases h with
  | refl => simp at hv
  | @char _ d _ n κ1 _ c' w' hs hp =>
    cases w with
    | nil =>
      simp only [List.nil_append, List.cons.injEq] at hv
      obtain ⟨rfl, rfl⟩ := hv
      exact ⟨_, x, _, κ, κ1, .refl _ _, hs, hp⟩
    | cons a w =>
      simp only [List.cons_append, List.cons.injEq] at hv
      obtain ⟨rfl, rfl⟩ := hv
      obtain ⟨n1, n2, p1, d', κ2, κ3, h1, h2, h3⟩ := hp.snoc_char
      exact ⟨n2, p1, d', κ2, κ3, .char hs h1, h2, h3⟩

/-- Feeding a character terminates and keeps track. -/
theorem Bundle.feed (b : Bundle nfa rs) (nn : ∀ r ∈ rs, r.1.NonNull) {fuel : Nat}
    (hf : simFuel nfa rs ≤ fuel) {runs : List Run} {w : List Char} (ht : Tracks nfa runs w) (c : Char) :
    ∃ runs' acc, nfa.feed fuel runs c = .ok (runs', acc) ∧ nfa.isAccepting runs' = .ok acc ∧
      Tracks nfa runs' (w ++ [c]) := by
  -- a character transition of a run
  have hchar : ∀ r ∈ runs, ∀ st, nfa.getState r.state = .ok st → ∀ d ∈ st.charMoves c,
      CStep nfa.HasEdge r.state r.counts [c] d (r.takeTransition d false).counts ∧
      (r.takeTransition d false).counters.Sorted := by
    intro r hr st hst d hd
    obtain ⟨l, he, hc⟩ := mem_charMoves.1 hd
    obtain ⟨k1, k2, k3⟩ := r.take_eps (ht.sorted r hr) d
    rw [k3]
    exact ⟨.char ((b.wf.hasEdge_iff hst).2 he) hc, k2⟩
  obtain ⟨runs', hruns⟩ : ∃ runs', nfa.feedRuns fuel runs c = .ok runs' := by
    unfold Nfa.feedRuns
    refine flatMapOutcome_of_ok fun r hr => ?_
    have hst := b.wf.getState (ht.lt b hr)
    rw [hst, Outcome.bind_ok]
    refine flatMapOutcome_of_ok fun d hd => ?_
    obtain ⟨h1, h2⟩ := hchar r hr _ hst d hd
    refine b.epsClosure nn hf h2 ?_ ?_
    · exact (ht.quiet b hr).path b (.single h1)
    · obtain ⟨i, he⟩ := h1.edge
      exact (b.wf.edge_lt he).2
  obtain ⟨acc, h1, h2⟩ := feed_of_feedRuns hruns
  obtain ⟨_, _, hmem⟩ := feedRuns_ok hruns
  refine ⟨runs', acc, h1, h2, ?_, ?_, ?_⟩
  · intro r' hr'
    obtain ⟨r, hr, st, hst, d, hd, hreach⟩ := (hmem r').1 hr'
    obtain ⟨n, hk⟩ := reaches_iff_kreach.1 hreach
    exact (hk.path b.wf (hchar r hr st hst d hd).2).1
  · intro r' hr'
    obtain ⟨r, hr, st, hst, d, hd, hreach⟩ := (hmem r').1 hr'
    obtain ⟨n, hk⟩ := reaches_iff_kreach.1 hreach
    obtain ⟨hc, hso⟩ := hchar r hr st hst d hd
    obtain ⟨x, hx, hp⟩ := ht.sound r hr
    exact ⟨x, hx, hp.snoc hc (hk.path b.wf hso).2⟩
  · intro x p κ hx hp
    obtain ⟨n2, p1, d, κ1, κ2, h3, h4, h5⟩ := hp.split
    obtain ⟨r, hr, rfl, rfl⟩ := ht.complete x p1 κ1 hx h3
    have hst := b.wf.getState (ht.lt b hr)
    generalize hu : [c] = u at h4
    cases h4 with
    | eps => cases hu
    | quant => cases hu
    | @char _ _ l c' he hc =>
      cases hu
      have hd : d ∈ (nfa.states[r.state]'(ht.lt b hr)).charMoves c :=
        mem_charMoves.2 ⟨l, (b.wf.hasEdge_iff hst).1 he, hc⟩
      obtain ⟨k1, k2, k3⟩ := r.take_eps (ht.sorted r hr) d
      obtain ⟨r', h6, h7, h8, _⟩ := KReach.of_path b.wf (r := r.takeTransition d false) k2
        (by rw [k1, k3]; exact h5)
      exact ⟨r', (hmem r').2 ⟨r, hr, _, hst, d, hd, reaches_iff_kreach.2 ⟨_, h6⟩⟩, h7, h8⟩

/-- What a simulator that read `w` answers about acceptance. -/
theorem Bundle.isAccepting (b : Bundle nfa rs) (ho : ∀ r ∈ rs, r.1.HeadOk) {runs : List Run}
    {w : List Char} (ht : Tracks nfa runs w) :
    (∀ f, nfa.IsFinal f → ((∃ r ∈ runs, r.state = f) ↔ ∃ r ∈ rs, r.2 = f ∧ r.1.Lang w)) ∧
    ∃ acc, nfa.isAccepting runs = .ok acc ∧ (acc = true ↔ ∃ r ∈ rs, r.1.Lang w) := by
  have key : ∀ f, nfa.IsFinal f → ((∃ r ∈ runs, r.state = f) ↔ ∃ r ∈ rs, r.2 = f ∧ r.1.Lang w) := by
    intro f hf
    rw [← b.paths hf w, ← start_paths (b.startOk ho) w]
    constructor
    · rintro ⟨r, hr, rfl⟩
      obtain ⟨x, hx, hp⟩ := ht.sound r hr
      exact ⟨x, _, hx, hp⟩
    · rintro ⟨x, κ, hx, hp⟩
      obtain ⟨r, hr, h, _⟩ := ht.complete x f κ hx hp
      exact ⟨r, hr, h⟩
  refine ⟨key, ?_⟩
  obtain ⟨acc, h1, h2⟩ := isAccepting_ok (nfa := nfa) (runs := runs)
    (fun r hr => ⟨_, b.wf.getState (ht.lt b hr)⟩)
  refine ⟨acc, h1, h2.trans ?_⟩
  constructor
  · rintro ⟨r, hr, st, hst, hfin⟩
    obtain ⟨r', h, _, hl⟩ := (key r.state ((b.wf.isFinal_iff hst).2 hfin)).1 ⟨r, hr, rfl⟩
    exact ⟨r', h, hl⟩
  · rintro ⟨r, hr, hl⟩
    have hfin : nfa.IsFinal r.2 := (b.finals r.2).2 (.inr ⟨r, hr, rfl⟩)
    obtain ⟨x, hx, hxs⟩ := (key r.2 hfin).2 ⟨r, hr, rfl, hl⟩
    have hst := b.wf.getState (ht.lt b hx)
    exact ⟨x, hx, _, hst, (b.wf.isFinal_iff hst).1 (hxs ▸ hfin)⟩

/-- Feeding a whole string. -/
theorem Bundle.feedAll (b : Bundle nfa rs) (nn : ∀ r ∈ rs, r.1.NonNull) {fuel : Nat}
    (hf : simFuel nfa rs ≤ fuel) (v : List Char) : ∀ {runs : List Run} {w : List Char} {last : Option Bool},
    Tracks nfa runs w → (∀ a, last = some a → nfa.isAccepting runs = .ok a) →
    ∃ runs' last', nfa.feedAll fuel runs last v = .ok (runs', last') ∧ Tracks nfa runs' (w ++ v) ∧
      ∀ a, last' = some a → nfa.isAccepting runs' = .ok a := by
  induction v with
  | nil => intro runs w last ht hl; exact ⟨runs, last, rfl, by simpa using ht, hl⟩
  | cons c v ih =>
    intro runs w last ht hl
    obtain ⟨runs1, acc, h1, h2, h3⟩ := b.feed nn hf ht c
    obtain ⟨runs', last', h4, h5, h6⟩ := ih (last := some acc) h3 (by rintro a ⟨⟩; exact h2)
    refine ⟨runs', last', by simp [Nfa.feedAll, h1, h4], by simpa using h5, h6⟩

/-- Simulating a whole string: it ends, with an answer that only depends on the final runs. -/
theorem Bundle.simulate (b : Bundle nfa rs) (nn : ∀ r ∈ rs, r.1.NonNull) {fuel : Nat}
    (hf : simFuel nfa rs ≤ fuel) (v : List Char) :
    ∃ runs acc, Tracks nfa runs v ∧ nfa.isAccepting runs = .ok acc ∧ nfa.simulate fuel v = .ok acc := by
  obtain ⟨runs, h1, h2⟩ := b.initRuns hf
  obtain ⟨runs', last', h3, h4, h5⟩ := b.feedAll nn hf v (last := none) h2 (by simp)
  obtain ⟨acc, h6, _⟩ := isAccepting_ok (nfa := nfa) (runs := runs')
    (fun r hr => ⟨_, b.wf.getState (h4.lt b hr)⟩)
  refine ⟨runs', acc, by simpa using h4, h6, ?_⟩
  have : last'.getD acc = acc := by
    cases last' with
    | none => rfl
    | some a =>
      have := h5 a rfl
      rw [h6] at this
      cases this
      rfl
  simp [Nfa.simulate, h1, Nfa.feedStr, h3, h6, this]

end words

end Pango.Fsm
