import Verif.Proofs.TracesFew
import Verif.Proofs.RulesWays

/-!
# As many runs as traces
-/

namespace Pango.Fsm

open Pango Pango.Regex Pango.Spec

/-! ## A trace for every element of a list -/

/-- The elements of the list can be given different traces. -/
def Coded {β : Type} (l : List β) (P : List Mark → Prop) : Prop :=
  ∃ M : List (List Mark), M.Nodup ∧ M.length = l.length ∧ ∀ T ∈ M, P T

theorem Coded.mono {β : Type} {l : List β} {P P' : List Mark → Prop} (h : Coded l P) (hp : ∀ T, P T → P' T) : Coded l P' := by
  obtain ⟨M, h1, h2, h3⟩ := h
  exact ⟨M, h1, h2, fun T hT => hp T (h3 T hT)⟩

theorem Coded.lead {β : Type} {l : List β} {P : List Mark → Prop} (h : Coded l P) (R : List Mark) :
    Coded l fun T => ∃ T', T = R ++ T' ∧ P T' := by
  obtain ⟨M, h1, h2, h3⟩ := h
  refine ⟨M.map (R ++ ·), ?_, by rw [List.length_map, h2], ?_⟩
  · exact List.Pairwise.map _ (fun a b hab he => hab (List.append_cancel_left he)) h1
  · intro T hT
    obtain ⟨T', hT', rfl⟩ := List.mem_map.1 hT
    exact ⟨T', rfl, h3 T' hT'⟩

theorem Coded.flatMap {α β : Type} {f : α → List β} {P : α → List Mark → Prop} : ∀ {l : List α}, l.Nodup →
    (∀ a ∈ l, Coded (f a) (P a)) → (∀ a ∈ l, ∀ b ∈ l, ∀ T, P a T → P b T → a = b) →
    Coded (l.flatMap f) fun T => ∃ a ∈ l, P a T
  | [], _, _, _ => ⟨[], List.nodup_nil, rfl, by simp⟩
  | a :: l, hn, hc, hd => by
    obtain ⟨hn1, hn2⟩ := List.nodup_cons.1 hn
    obtain ⟨M, h1, h2, h3⟩ := hc a List.mem_cons_self
    obtain ⟨M', h1', h2', h3'⟩ := Coded.flatMap hn2 (fun b hb => hc b (List.mem_cons_of_mem _ hb))
      fun b hb b' hb' => hd b (List.mem_cons_of_mem _ hb) b' (List.mem_cons_of_mem _ hb')
    refine ⟨M ++ M', ?_, ?_, ?_⟩
    · refine List.nodup_append.2 ⟨h1, h1', ?_⟩
      rintro T hT _ hT' rfl
      obtain ⟨b, hb, hP⟩ := h3' T hT'
      have := hd a List.mem_cons_self b (List.mem_cons_of_mem _ hb) T (h3 T hT) hP
      exact hn1 (this ▸ hb)
    · rw [List.flatMap_cons, List.length_append, List.length_append, h2, h2']
    · intro T hT
      rcases List.mem_append.1 hT with hT | hT
      · exact ⟨a, List.mem_cons_self, h3 T hT⟩
      · obtain ⟨b, hb, hP⟩ := h3' T hT
        exact ⟨b, List.mem_cons_of_mem _ hb, hP⟩

/-! ## Runs -/

/-- Where a run is after the steps. -/
def Run.follow (r : Run) : List Mark → Run
  | [] => r
  | m :: T => (r.takeTransition m.2.2.1 (match m.2.1 with | .quantified _ => true | _ => false)).follow T

variable [Unicode] {nfa : Nfa} {rs : List (Fr × Nat)}

theorem Ride.trace {E : Nat → Input → Nat → Prop} {r s : Run} (h : Ride E r s) (hs : r.counters.Sorted) :
    s.counters.Sorted ∧ ∃ R, r.follow R = s ∧ (∀ m ∈ R, m.2.2.2 = []) ∧ TPath E r.state r.counts R s.state s.counts := by
  induction h with
  | refl r => exact ⟨hs, [], rfl, by simp, .refl _ _⟩
  | @eps r s d h _ ih =>
    obtain ⟨k1, k2, k3⟩ := r.take_eps hs d
    obtain ⟨i1, R, i2, i3, i4⟩ := ih k2
    refine ⟨i1, (r.state, .eps, d, []) :: R, i2, ?_, .cons (.eps h) (by rwa [k1, k3] at i4)⟩
    intro m hm
    rcases List.mem_cons.1 hm with rfl | hm
    · rfl
    · exact i3 m hm
  | @quant r s d q h hq _ ih =>
    obtain ⟨k1, k2, k3⟩ := r.take_quant hs d
    obtain ⟨i1, R, i2, i3, i4⟩ := ih k2
    refine ⟨i1, (r.state, .quantified q, d, []) :: R, i2, ?_, .cons (.quant h hq) (by rwa [k1, k3] at i4)⟩
    intro m hm
    rcases List.mem_cons.1 hm with rfl | hm
    · rfl
    · exact i3 m hm

/-- A trace from a run that reads a word and does not begin with a step that reads nothing. -/
def Run.Goes (nfa : Nfa) (r : Run) (v : List Char) (T : List Mark) : Prop :=
  spelled T = v ∧ (∀ m T', T = m :: T' → m.2.2.2 ≠ []) ∧ ∃ p κ, TPath nfa.HasEdge r.state r.counts T p κ

omit [Unicode] in
theorem spelled_nil {R : List Mark} (h : ∀ m ∈ R, m.2.2.2 = []) : spelled R = [] := by
  induction R with
  | nil => rfl
  | cons m R ih => rw [spelled_cons, h m (by simp), ih fun m hm => h m (by simp [hm])]; rfl

omit [Unicode] in
/-- The steps at the front that read nothing. -/
theorem front_unique {R R' T T' : List Mark} (h : ∀ m ∈ R, m.2.2.2 = []) (h' : ∀ m ∈ R', m.2.2.2 = [])
    (hT : ∀ m T1, T = m :: T1 → m.2.2.2 ≠ []) (hT' : ∀ m T1, T' = m :: T1 → m.2.2.2 ≠ []) (he : R ++ T = R' ++ T') :
    R = R' := by
  induction R generalizing R' with
  | nil =>
    cases R' with
    | nil => rfl
    | cons m R' => exact absurd (h' m (by simp)) (hT m _ he)
  | cons m R ih =>
    cases R' with
    | nil => exact absurd (h m (by simp)) (hT' m _ he.symm)
    | cons m' R' =>
      rw [List.cons_append, List.cons_append, List.cons.injEq] at he
      rw [he.1, ih (fun m hm => h m (by simp [hm])) (fun m hm => h' m (by simp [hm])) he.2]

/-- Every run has its own trace. -/
theorem runsFrom_coded (w : Wf nfa) (clean : Clean nfa) (fuel : Nat) : ∀ (v : List Char) (r : Run),
    r.state < nfa.states.length → r.counters.Sorted → Coded (runsFrom nfa fuel v r) (r.Goes nfa v)
  | [], r, _, _ => ⟨[[]], by simp, rfl, by
      intro T hT
      rw [List.mem_singleton] at hT
      subst hT
      exact ⟨rfl, fun _ _ h => (by cases h), _, _, .refl _ _⟩⟩
  | c :: v, r, hr, hs => by
    have hst := w.getState hr
    have hmem := (getState_ok hst).1
    have e : runsFrom nfa fuel (c :: v) r = nfa.states[r.state].edges.flatMap
        (fun e => if e.1.canTake c then outs (stepOf nfa fuel) (closureOf nfa fuel) v (r.takeTransition e.2 false) else []) := by
      rw [runsFrom, movesOf, hst]
      simp only [NState.charMoves]
      generalize nfa.states[r.state].edges = es
      induction es with
      | nil => rfl
      | cons x es ih =>
        rw [List.filterMap_cons, List.flatMap_cons, ← ih]
        split <;> rename_i hx <;> split at hx <;> simp_all
    rw [e]
    refine (Coded.flatMap (P := fun e T => ∃ T', T = (r.state, e.1, e.2, [c]) :: T' ∧ r.Goes nfa (c :: v) T)
      (NState.edges_nodup (clean _ hmem)) ?_ ?_).mono (by rintro T ⟨_, _, _, _, h⟩; exact h)
    · rintro ⟨i, d⟩ he
      split
      · rename_i hi
        cases i with
        | eps => cases hi
        | quantified q => cases hi
        | literal l =>
          have hE : nfa.HasEdge r.state (.literal l) d := (w.hasEdge_iff hst).2 he
          obtain ⟨k1, k2, k3⟩ := r.take_eps hs d
          have hlt : (r.takeTransition d false).state < nfa.states.length := (w.edge_lt hE).2
          obtain ⟨c1, c2⟩ := closureOf_spec w fuel hlt
          show Coded (outs (stepOf nfa fuel) (closureOf nfa fuel) v (r.takeTransition d false)) _
          rw [outs_runsFrom]
          -- the steps to a run of the closure, and then on
          let P : Run → List Mark → Prop := fun s T => ∃ R T', T = (r.state, .literal l, d, [c]) :: (R ++ T') ∧
            (r.takeTransition d false).follow R = s ∧ (∀ m ∈ R, m.2.2.2 = []) ∧
            TPath nfa.HasEdge (r.takeTransition d false).state (r.takeTransition d false).counts R s.state s.counts ∧
            s.Goes nfa v T'
          refine (Coded.flatMap (P := P) c1 ?_ ?_).mono ?_
          · intro s hm
            obtain ⟨i1, R, i2, i3, i4⟩ := (c2 s hm).ride.trace k2
            refine ((runsFrom_coded w clean fuel v s ((c2 s hm).lt w hlt) i1).lead
              ((r.state, .literal l, d, [c]) :: R)).mono ?_
            rintro T ⟨T', rfl, hT⟩
            exact ⟨R, T', rfl, i2, i3, i4, hT⟩
          · rintro s1 _ s2 _ T ⟨R, T1, rfl, h1, h2, h3, h4⟩ ⟨R', T1', he, h1', h2', h3', h4'⟩
            rw [List.cons.injEq] at he
            rw [← h1, ← h1', front_unique h2 h2' h4.2.1 h4'.2.1 he.2]
          · rintro T ⟨s, _, R, T', rfl, h1, h2, h3, h4, h5, p, κ, h6⟩
            refine ⟨_, rfl, ?_, ?_, p, κ, ?_⟩
            · rw [spelled_cons, spelled_append, spelled_nil h2, h4]
              rfl
            · intro m T1 he
              rw [List.cons.injEq] at he
              rw [← he.1]
              exact List.cons_ne_nil c []
            · rw [k1, k3] at h3
              exact .cons (.char hE hi) (h3.append h6)
      · exact ⟨[], List.nodup_nil, rfl, by simp⟩
    · rintro ⟨i, d⟩ _ ⟨i', d'⟩ _ T ⟨T', rfl, _⟩ ⟨T2, he, _⟩
      rw [List.cons.injEq] at he
      have := he.1
      simp only [Prod.mk.injEq] at this
      rw [this.2.1, this.2.2.1]

/-! ## The runs of an automaton -/

/-- A path that begins where a run is at the start stays inside of a fragment. -/
theorem Bundle.mid (b : Bundle nfa rs) {x p : Nat} {κ : Counts} {T : List Mark} (hx : SReach nfa.HasEdge 0 x)
    (hp : TPath nfa.HasEdge x (fun _ => 0) T p κ) : T = [] ∨ ∃ r ∈ rs, r.1.Mid T := by
  have stop : ∀ {r : Fr × Nat} {κ1 : Counts} {T2 : List Mark}, r ∈ rs → TPath nfa.HasEdge r.2 κ1 T2 p κ → T2 = [] := by
    intro r κ1 T2 hr h
    cases h with
    | refl => rfl
    | cons hs _ =>
      cases hs with
      | eps h => exact absurd h (b.final_no_edge hr)
      | quant h _ => exact absurd h (b.final_no_edge hr)
      | char h _ => exact absurd h (b.final_no_edge hr)
  have at0 : ∀ {T : List Mark}, TPath nfa.HasEdge 0 (fun _ => 0) T p κ → T = [] ∨ ∃ r ∈ rs, r.1.Mid T := by
    intro T h
    cases h with
    | refl => exact .inl rfl
    | @cons _ d _ _ κ1 _ m T hs hp =>
      have : ∃ r ∈ rs, TStep r.1.Edge 0 (fun _ => 0) m d κ1 := by
        cases hs with
        | eps h => obtain ⟨r, hr, h⟩ := (b.edges _ _ _).1 h; exact ⟨r, hr, .eps h⟩
        | quant h h' => obtain ⟨r, hr, h⟩ := (b.edges _ _ _).1 h; exact ⟨r, hr, .quant h h'⟩
        | char h h' => obtain ⟨r, hr, h⟩ := (b.edges _ _ _).1 h; exact ⟨r, hr, .char h h'⟩
      obtain ⟨r, hr, hs⟩ := this
      refine .inr ⟨r, hr, ?_⟩
      rcases Fr.begun (b.ok hr) (b.closed hr) hs hp (fun _ _ => rfl) with h | ⟨κ1, T1, T2, e, _, h1, h2, _⟩
      · exact h
      · rw [stop hr h2, List.append_nil] at e
        rw [e]
        exact h1.mid
  have inner : ∀ {r : Fr × Nat}, r ∈ rs → x = r.2 ∨ x ∈ r.1.inner → T = [] ∨ ∃ r ∈ rs, r.1.Mid T := by
    rintro r hr (rfl | h)
    · exact .inl (stop hr hp)
    · refine .inr ⟨r, hr, ?_⟩
      rcases Fr.inside (b.ok hr) (b.closed hr) h hp (fun _ _ => rfl) with h | ⟨κ1, T1, T2, e, h1, h2, _⟩
      · exact h
      · rw [stop hr h2, List.append_nil] at e
        rw [e]
        exact h1
  cases hx with
  | refl => exact at0 hp
  | eps _ h =>
    obtain ⟨r, hr, h⟩ := (b.edges _ _ _).1 h
    exact inner hr (Fr.edge_target (b.shape r hr) h)
  | quant _ h _ =>
    obtain ⟨r, hr, h⟩ := (b.edges _ _ _).1 h
    exact inner hr (Fr.edge_target (b.shape r hr) h)

omit [Unicode] in
theorem few_some {α : Type} {S : α → List Mark → Prop} : ∀ (l : List α), (∀ a ∈ l, Few (S a)) → Few fun T => ∃ a ∈ l, S a T
  | [], _ => (Few.some []).mono fun T h => by simp at h
  | a :: l, h => ((h a List.mem_cons_self).or (few_some l fun b hb => h b (List.mem_cons_of_mem _ hb))).mono (by
      rintro T ⟨b, hb, hT⟩
      rcases List.mem_cons.1 hb with rfl | hb
      · exact .inl hT
      · exact .inr ⟨b, hb, hT⟩)

/-- There are polynomially many runs. -/
theorem Bundle.fed_few (b : Bundle nfa rs) (clean : Clean nfa) (nn : ∀ r ∈ rs, r.1.NonNull) (once : ∀ r ∈ rs, r.1.Once) :
    ∃ c k, ∀ fuel v runs, Fed nfa fuel v runs → runs.length ≤ c * (v.length + 1) ^ k := by
  obtain ⟨c, k, hf⟩ := (Few.some [[]]).or (few_some (S := fun r => r.1.Mid) rs fun r hr => Fr.mid_few (once r hr))
  refine ⟨simFuel nfa rs * c, k, fun fuel v runs h => ?_⟩
  obtain ⟨runs0, last, _, init, h4, h5⟩ := b.fed_at nn h
  have e : runs = runs0.flatMap (runsFrom nfa (simFuel nfa rs) v) := by
    cases v with
    | nil =>
      cases h5
      show runs = runs.flatMap fun r => [r]
      simp
    | cons a v =>
      simp only [Nfa.feedAll, Outcome.bind_eq_ok] at h5
      obtain ⟨⟨runs1, acc⟩, h6, h7⟩ := h5
      rw [feedRuns_moves (feed_ok h6).1] at h7
      rw [feedAll_outs h7, List.flatMap_assoc]
      rfl
  obtain ⟨L, hL, hmem⟩ := hf v
  rw [e]
  refine Nat.le_trans (flatMap_length_le (k := c * (v.length + 1) ^ k) fun r hr => ?_) ?_
  · obtain ⟨M, h1, h2, h3⟩ := runsFrom_coded b.wf clean (simFuel nfa rs) v r (h4.lt b hr) (h4.sorted r hr)
    rw [← h2]
    refine Nat.le_trans (nodup_subset_length h1 fun T hT => ?_) hL
    obtain ⟨g1, _, p, κ, g2⟩ := h3 T hT
    obtain ⟨x, hx, hp⟩ := h4.sound r hr
    refine hmem T ?_ g1
    generalize hstate : r.state = y at hp g2
    generalize hcounts : r.counts = z at hp g2
    cases hp
    rcases b.mid hx g2 with rfl | h
    · exact .inl (by simp)
    · exact .inr h
  · rw [Nat.mul_assoc]
    exact Nat.mul_le_mul_right _ init

mutual

theorem unambiguous_nonEmpty (e : Expr) (h : RepeatsUnambiguous e) : RepeatsNonEmpty e := by
  match e with
  | .concat es =>
    simp only [RepeatsUnambiguous, RepeatsNonEmpty] at h ⊢
    exact unambiguous_nonEmptyAll es h
  | .empty => simp only [RepeatsNonEmpty]
  | .alt l r =>
    simp only [RepeatsUnambiguous, RepeatsNonEmpty] at h ⊢
    exact ⟨unambiguous_nonEmpty l h.1, unambiguous_nonEmpty r h.2⟩
  | .lit _ _ => simp only [RepeatsNonEmpty]
  | .group e none =>
    simp only [RepeatsUnambiguous, RepeatsNonEmpty] at h ⊢
    exact unambiguous_nonEmpty e h
  | .group e (some q) =>
    simp only [RepeatsUnambiguous, RepeatsNonEmpty] at h ⊢
    refine ⟨fun hm => ?_, unambiguous_nonEmpty e h.2.2⟩
    exact h.1 _ (.rounds (us := []) (vs := [[]]) (by simp) (by simp) (by simp) (by simpa using hm) trivial trivial)

theorem unambiguous_nonEmptyAll (es : List Expr) (h : AllRepeatsUnambiguous es) : RepeatsNonEmptyAll es := by
  match es with
  | [] => simp only [RepeatsNonEmptyAll]
  | e :: es =>
    simp only [AllRepeatsUnambiguous, RepeatsNonEmptyAll] at h ⊢
    exact ⟨unambiguous_nonEmpty e h.1, unambiguous_nonEmptyAll es h.2⟩

end

end Pango.Fsm
