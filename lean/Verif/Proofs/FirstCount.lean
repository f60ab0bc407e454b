import Verif.Model.FirstWork
import Verif.Proofs.First

/-!
# How many bodies `first_bodies` looks at, at most

Each copy of a body gets a weight.  A copy that is about to be looked at has the weight `∏ (1 + r v)` over the variables
at its front which can be passed, where `r v` is the number of symbols that may still come into the set of `v`.  A copy
that waits for `v` has a factor `r v` instead of `1 + r v`.  Each time a body is looked at the sum of the weights goes
down.
-/

namespace Pango.Parse

open Pango.Spec

variable {V T : Type}

/-- The weight of a body, where `N` has the variables that can be passed. -/
def weight (N : V → Bool) (r : V → Nat) : Body V T → Nat
  | [] => 1
  | .term _ :: _ => 1
  | .eps :: rest => weight N r rest
  | .var v :: rest => (r v + 1) * if N v then weight N r rest else 1

/-- The weight of a body that waits for its first variable. -/
def waitWeight (N : V → Bool) (r : V → Nat) : Body V T → Nat
  | .var v :: rest => r v * if N v then weight N r rest else 1
  | _ => 0

variable {N : V → Bool} {r r' : V → Nat}

theorem weight_pos (b : Body V T) : 0 < weight N r b := by
  induction b with
  | nil => exact Nat.zero_lt_one
  | cons x b ih =>
    cases x with
    | term t => exact Nat.zero_lt_one
    | eps => exact ih
    | var v =>
      rw [weight]
      refine Nat.mul_pos (Nat.succ_pos _) ?_
      split
      · exact ih
      · exact Nat.zero_lt_one

theorem weight_le (h : ∀ v, r' v ≤ r v) (b : Body V T) : weight N r' b ≤ weight N r b := by
  induction b with
  | nil => exact Nat.le_refl _
  | cons x b ih =>
    cases x with
    | term t => exact Nat.le_refl _
    | eps => exact ih
    | var v =>
      rw [weight, weight]
      refine Nat.mul_le_mul (Nat.succ_le_succ (h v)) ?_
      split
      · exact ih
      · exact Nat.le_refl _

theorem waitWeight_le (h : ∀ v, r' v ≤ r v) (b : Body V T) : waitWeight N r' b ≤ waitWeight N r b := by
  cases b with
  | nil => exact Nat.le_refl _
  | cons x b =>
    cases x with
    | term t => exact Nat.le_refl _
    | eps => exact Nat.le_refl _
    | var v =>
      rw [waitWeight, waitWeight]
      refine Nat.mul_le_mul (h v) ?_
      split
      · exact weight_le h b
      · exact Nat.le_refl _

/-- A set has grown. -/
theorem weight_wait (h : ∀ v, r' v ≤ r v) {v : V} (hv : r' v < r v) (rest : Body V T) :
    weight N r' (.var v :: rest) ≤ waitWeight N r (.var v :: rest) := by
  rw [weight, waitWeight]
  refine Nat.mul_le_mul hv ?_
  split
  · exact weight_le h rest
  · exact Nat.le_refl _

/-! ## Sums -/

/-- The sum over all bodies of all entries. -/
def total (f : Body V T → Nat) (l : List (Option V × List (Body V T))) : Nat := (l.map fun e => (e.2.map f).sum).sum

/-- The sum over all that waits. -/
def totals (f : Body V T → Nat) (l : List (V × List (Option V × List (Body V T)))) : Nat :=
  (l.map fun e => total f e.2).sum

variable {f f' : Body V T → Nat}

theorem total_le {l : List (Option V × List (Body V T))} (h : ∀ o bs, (o, bs) ∈ l → ∀ b ∈ bs, f' b ≤ f b) :
    total f' l ≤ total f l :=
  sum_map_le fun e he => sum_map_le fun b hb => h e.1 e.2 he b hb

theorem totals_le {l : List (V × List (Option V × List (Body V T)))} (h : ∀ b, f' b ≤ f b) :
    totals f' l ≤ totals f l :=
  sum_map_le fun _ _ => total_le fun _ _ _ b _ => h b

theorem total_append (l l' : List (Option V × List (Body V T))) : total f (l ++ l') = total f l + total f l' := by
  simp [total]

theorem total_perm {l l' : List (Option V × List (Body V T))} (h : l.Perm l') : total f l = total f l' :=
  (h.map _).sum_nat

variable [DecidableEq V]

theorem sum_mapSet {α β : Type} [DecidableEq α] (f : β → Nat) (m : List (α × β)) (k : α) (x : β) :
    ((mapSet m k x).map fun e => f e.2).sum + (mapGet m k).elim 0 f =
      (m.map fun e => f e.2).sum + f x := by
  induction m with
  | nil => simp [mapSet, mapGet]
  | cons e m ih =>
    obtain ⟨k', y⟩ := e
    simp only [mapSet, mapGet]
    by_cases h : k' = k
    · simp only [h, if_true, List.map_cons, List.sum_cons, Option.elim_some]; omega
    · simp only [h, if_false, List.map_cons, List.sum_cons]; omega

theorem sum_mapRemove {α β : Type} [DecidableEq α] (f : β → Nat) (m : List (α × β)) (k : α) :
    ((mapRemove m k).map fun e => f e.2).sum + (mapGet m k).elim 0 f ≤
      (m.map fun e => f e.2).sum := by
  induction m with
  | nil => simp [mapRemove, mapGet]
  | cons e m ih =>
    obtain ⟨k', y⟩ := e
    simp only [mapRemove, mapGet, List.filter_cons] at ih ⊢
    by_cases h : k' = k
    · simp only [h, decide_true, Bool.not_true, Bool.false_eq_true, if_false, if_true, List.map_cons, List.sum_cons,
        Option.elim_some]
      have : ((m.filter fun e => !decide (e.1 = k)).map fun e => f e.2).sum ≤ (m.map fun e => f e.2).sum := by
        omega
      omega
    · simp only [h, decide_false, Bool.not_false, if_true, if_false, List.map_cons, List.sum_cons]; omega

/-- One more body waits. -/
theorem totals_addDependency [DecidableEq T] (v : V) (o : Option V) (b : Body V T) (s : FirstState V T) :
    totals f (addDependency v o b s).deps = totals f s.deps + f b := by
  have h1 := sum_mapSet (total f) s.deps v (mapSet ((mapGet s.deps v).getD []) o
    ((mapGet ((mapGet s.deps v).getD []) o).getD [] ++ [b]))
  have h2 := sum_mapSet (fun bs : List (Body V T) => (bs.map f).sum) ((mapGet s.deps v).getD []) o
    ((mapGet ((mapGet s.deps v).getD []) o).getD [] ++ [b])
  have e : (((mapGet ((mapGet s.deps v).getD []) o).getD [] ++ [b]).map f).sum =
      (mapGet ((mapGet s.deps v).getD []) o).elim 0 (fun bs => (bs.map f).sum) + f b := by
    cases mapGet ((mapGet s.deps v).getD []) o <;> simp
  have e' : total f ((mapGet s.deps v).getD []) = (mapGet s.deps v).elim 0 (total f) := by
    cases mapGet s.deps v <;> simp [total]
  rw [e] at h2
  change total f (mapSet _ _ _) + _ = total f _ + _ at h2
  rw [e'] at h2
  change totals f (mapSet _ _ _) + _ = totals f _ + _ at h1
  change totals f (mapSet _ _ _) = _
  omega

/-! ## The potential -/

variable [DecidableEq T]

/-- How many symbols may still come into the set of a variable. -/
def room (g : Grammar V T) (s : FirstState V T) (v : V) : Nat := (firstUniverse g).length - (s.cur (some v)).length

/-- The weights of the rules of the variables that have not been seen. -/
def freshWeight (N : V → Bool) (r : V → Nat) (g : Grammar V T) (visited : List V) : Nat :=
  ((g.rules.filter fun e => decide (e.1 ∉ visited)).map fun e => weight N r e.2).sum

/-- The sum of all weights. -/
def firstPotential (N : V → Bool) (g : Grammar V T) (s : FirstState V T) : Nat :=
  total (weight N (room g s)) s.pending + totals (waitWeight N (room g s)) s.deps +
    freshWeight N (room g s) g s.visited

/-- A body waits for its first symbol. -/
def Heads (s : FirstState V T) : Prop :=
  ∀ v ds, mapGet s.deps v = some ds → ∀ o bs, (o, bs) ∈ ds → ∀ b ∈ bs, ∃ rest, b = .var v :: rest

variable {g : Grammar V T} {s s' : FirstState V T}

omit [DecidableEq T] in
theorem freshWeight_le (h : ∀ v, r' v ≤ r v) (g : Grammar V T) (vs : List V) :
    freshWeight N r' g vs ≤ freshWeight N r g vs :=
  sum_map_le fun e _ => weight_le h e.2

omit [DecidableEq T] in
theorem freshWeight_visit (g : Grammar V T) (vs : List V) {v : V} (hv : v ∉ vs) :
    freshWeight N r g (vs ++ [v]) + ((g.bodiesOf v).map (weight N r)).sum = freshWeight N r g vs := by
  simp only [freshWeight, Grammar.bodiesOf]
  induction g.rules with
  | nil => rfl
  | cons e l ih =>
    simp only [List.filter_cons, List.filterMap_cons, List.mem_append, List.mem_singleton, not_or,
      Bool.decide_and] at ih ⊢
    by_cases h : e.1 = v
    · simp only [h, hv, not_true, not_false_eq_true, decide_true, decide_false, Bool.and_false, if_true,
        List.map_cons, List.sum_cons, Bool.false_eq_true, if_false]
      omega
    · simp only [h, not_false_eq_true, decide_true, Bool.and_true, if_false]
      split
      · simp only [List.map_cons, List.sum_cons]
        omega
      · exact ih

omit [DecidableEq T] in
theorem room_le (h : ∀ o, (s.cur o).length ≤ (s'.cur o).length) (v : V) : room g s' v ≤ room g s v := by
  have := h (some v)
  simp only [room]
  omega

variable {Target : Option V → Sym V T → Prop}

theorem extend_potential (ord : HashOrder) (i : FirstInv g Target s)
    (ht : ∀ v x, Target (some v) x → FirstOf g [.var v] x) {o : Option V} (ho : OwnerOk s o) {xs : List (Sym V T)}
    (hx : ∀ x ∈ xs, Target o x) (hh : Heads s) :
    firstPotential N g (extendForVariable ord o xs s) ≤ firstPotential N g s ∧ Heads (extendForVariable ord o xs s) ∧
      ∀ v, room g (extendForVariable ord o xs s) v ≤ room g s v := by
  have i1 := (extend_spec ord i ht ho hx).1.inv
  cases o with
  | none => exact ⟨Nat.le_refl _, hh, fun _ => Nat.le_refl _⟩
  | some v =>
    generalize hs : extendForVariable ord (some v) xs s = s' at i1
    -- the sets
    have hfirst : s'.first = mapSet s.first v (extendSet ((mapGet s.first v).getD []) xs) := by
      rw [← hs]
      simp only [extendForVariable]
      split
      · split <;> rfl
      · rfl
    have hv : s'.cur (some v) = extendSet (s.cur (some v)) xs := by
      simp [FirstState.cur, hfirst, mapGet_mapSet]
    have hw : ∀ w, w ≠ v → s'.cur (some w) = s.cur (some w) := by
      intro w hw
      simp [FirstState.cur, hfirst, mapGet_mapSet, Ne.symm hw]
    have hlen := (extendSet_prefix (s.cur (some v)) xs).length_le
    have hr : ∀ w, room g s' w ≤ room g s w := by
      intro w
      by_cases h : w = v
      · subst h
        simp only [room, hv]
        omega
      · simp only [room, hw w h]
        exact Nat.le_refl _
    have hvis : s'.visited = s.visited := by
      rw [← hs]
      simp only [extendForVariable]
      split
      · split <;> rfl
      · rfl
    have same : s'.pending = s.pending → s'.deps = s.deps →
        firstPotential N g s' ≤ firstPotential N g s ∧ Heads s' ∧ ∀ v, room g s' v ≤ room g s v := by
      intro h1 h2
      refine ⟨?_, ?_, hr⟩
      · simp only [firstPotential, h1, h2, hvis]
        have := total_le (l := s.pending) (f := weight N (room g s)) (f' := weight N (room g s'))
          fun _ _ _ b _ => weight_le hr b
        have := totals_le (l := s.deps) (f := waitWeight N (room g s)) (f' := waitWeight N (room g s'))
          fun b => waitWeight_le hr b
        have := freshWeight_le (N := N) hr g s.visited
        omega
      · intro w ds h
        rw [h2] at h
        exact hh w ds h
    by_cases hl : (s.cur (some v)).length = (extendSet (s.cur (some v)) xs).length
    · refine same ?_ ?_
      all_goals
        rw [← hs]
        simp only [extendForVariable]
        rw [if_neg (by simpa [FirstState.cur] using hl)]
    · cases hd : mapGet s.deps v with
      | none =>
        refine same ?_ ?_
        all_goals
          rw [← hs]
          simp only [extendForVariable]
          rw [if_pos (by simpa [FirstState.cur] using hl)]
          simp only [hd]
      | some ds =>
        have hs' : s'.pending = s.pending ++ ord.shuffle [] _ ds ∧ s'.deps = mapRemove s.deps v := by
          rw [← hs]
          simp only [extendForVariable]
          rw [if_pos (by simpa [FirstState.cur] using hl)]
          simp only [hd, and_self]
        have hlt : room g s' v < room g s v := by
          have := i1.cur_length ht v
          rw [hv] at this
          simp only [room, hv]
          omega
        refine ⟨?_, ?_, hr⟩
        · simp only [firstPotential, hs'.1, hs'.2, hvis, total_append]
          have h1 := total_le (l := s.pending) (f := weight N (room g s)) (f' := weight N (room g s'))
            fun _ _ _ b _ => weight_le hr b
          have h2 := totals_le (l := mapRemove s.deps v) (f := waitWeight N (room g s)) (f' := waitWeight N (room g s'))
            fun b => waitWeight_le hr b
          have h3 := freshWeight_le (N := N) hr g s.visited
          have h4 := sum_mapRemove (total (waitWeight N (room g s))) s.deps v
          rw [hd, Option.elim_some] at h4
          change totals _ _ + _ ≤ totals _ _ at h4
          have h5 : total (weight N (room g s')) (ord.shuffle [] _ ds) ≤ total (waitWeight N (room g s)) ds := by
            rw [total_perm (ord.perm [] _ ds)]
            refine total_le fun o bs h1 b h2 => ?_
            obtain ⟨rest, rfl⟩ := hh v ds hd o bs h1 b h2
            exact weight_wait hr hlt rest
          omega
        · intro w ds' h
          rw [hs'.2, mapGet_mapRemove] at h
          split at h
          · cases h
          · exact hh w ds' h

theorem Heads.addDependency (hh : Heads s) (v : V) (o : Option V) (rest : Body V T) :
    Heads (addDependency v o (.var v :: rest) s) := by
  intro w ds h
  simp only [Parse.addDependency, mapGet_mapSet] at h
  split at h
  · rename_i hw
    subst hw
    cases h
    have old : ∀ o bs, (o, bs) ∈ (mapGet s.deps v).getD [] → ∀ b ∈ bs, ∃ rest, b = .var v :: rest := by
      cases hd : mapGet s.deps v with
      | none => simp
      | some ds => exact hh v ds hd
    intro o' bs h b hb
    rcases mapSet_mem h with ⟨rfl, rfl⟩ | h
    · rcases List.mem_append.1 hb with hb | hb
      · cases hg : mapGet ((mapGet s.deps v).getD []) o' with
        | none => rw [hg] at hb; cases hb
        | some bs' =>
          rw [hg] at hb
          exact old o' bs' (mapGet_mem hg) b hb
      · exact ⟨rest, List.mem_singleton.1 hb⟩
    · exact old o' bs h b hb
  · exact hh w ds h

/-- One body is looked at. -/
theorem firstBody_potential (hN : ∀ v, Nullable g [.var v] → N v = true) (ord : HashOrder)
    (ht : ∀ v x, Target (some v) x ↔ FirstOf g [.var v] x) {o : Option V} {b : Body V T} :
    ∀ {s s' : FirstState V T}, FirstInv g Target s → OwnerOk s o → Belongs g Target o b → Heads s →
    firstBody g ord o b s = .ok s' →
    firstPotential N g s' + 1 ≤ firstPotential N g s + weight N (room g s) b ∧ Heads s' ∧ ∀ v, room g s' v ≤ room g s v := by
  induction b with
  | nil =>
    intro s s' i _ _ hh h
    cases h
    exact ⟨Nat.le_refl _, hh, fun _ => Nat.le_refl _⟩
  | cons x b ih =>
    intro s s' i ho hb hh h
    have hbvars : ∀ v, Sym.var v ∈ b → v ∈ g.rules.map Prod.fst := fun v h => hb.vars v (by simp [h])
    cases x with
    | term t =>
      simp only [firstBody, Outcome.ok.injEq] at h
      subst h
      obtain ⟨h1, h2, h3⟩ := extend_potential (N := N) (ord.sub b.length) i (fun v x => (ht v x).1) ho
        (xs := [.term t]) (fun x hx => by rw [List.mem_singleton.1 hx]; exact hb.sub _ .term) hh
      exact ⟨Nat.succ_le_succ h1, h2, h3⟩
    | eps =>
      by_cases hr : b = []
      · subst hr
        simp only [firstBody, List.isEmpty_nil, if_true, Outcome.ok.injEq] at h
        subst h
        obtain ⟨h1, h2, h3⟩ := extend_potential (N := N) (ord.sub 0) i (fun v x => (ht v x).1) ho (xs := [.eps])
          (fun x hx => by rw [List.mem_singleton.1 hx]; exact hb.sub _ (.eps .nil)) hh
        exact ⟨Nat.succ_le_succ h1, h2, h3⟩
      · have hb' : Belongs g Target o b := by
          refine ⟨fun x hx => hb.sub x ?_, hbvars⟩
          cases x with
          | term t => exact Starts.eps hx
          | eps => exact Nullable.eps hx
          | var v => exact hx
        simp only [firstBody, List.isEmpty_iff, if_neg hr] at h
        exact ih i ho hb' hh h
    | var v =>
      have hv : v ∈ g.rules.map Prod.fst := hb.vars v (by simp)
      have st1 := addDependency_spec (v := v) i ho hb
      have hh1 := hh.addDependency v o b
      have hp1 : firstPotential N g (addDependency v o (.var v :: b) s) =
          firstPotential N g s + waitWeight N (room g s) (.var v :: b) := by
        have := totals_addDependency (f := waitWeight N (room g s)) v o (.var v :: b) s
        change total (weight N (room g s)) s.pending + totals (waitWeight N (room g s)) _ +
          freshWeight N (room g s) g s.visited = _
        rw [this]
        simp only [firstPotential]
        omega
      have hr1 : ∀ w, room g (addDependency v o (.var v :: b) s) w = room g s w := fun _ => rfl
      have hcost : waitWeight N (room g s) (.var v :: b) + (if N v then weight N (room g s) b else 1) =
          weight N (room g s) (.var v :: b) := by
        rw [weight, waitWeight, Nat.add_mul, Nat.one_mul]
      have hone : 0 < if N v then weight N (room g s) b else 1 := by
        split
        · exact weight_pos b
        · exact Nat.zero_lt_one
      generalize hs1 : addDependency v o (.var v :: b) s = s1 at st1 hh1 hp1 hr1
      have i1 := st1.inv
      have ho1 : OwnerOk s1 o := ho.step st1.evolves
      simp only [firstBody, hs1] at h
      by_cases hvis : v ∈ s1.visited
      · rw [if_neg (by simpa using hvis)] at h
        cases hf : mapGet s1.first v with
        | none =>
          rw [hf] at h
          cases h
          exact ⟨by omega, hh1, fun w => Nat.le_of_eq (hr1 w)⟩
        | some fv =>
          rw [hf] at h
          simp only at h
          have hcv : s1.cur (some v) = fv := by simp [FirstState.cur, hf]
          have hfv : ∀ x ∈ fv, FirstOf g [.var v] x := fun x hx => (ht v x).1 (i1.sound _ x (by rwa [hcv]))
          have hsub : ∀ x ∈ fv.filter (fun x => !decide (x = .eps) || b.isEmpty), Target o x := by
            intro x hx
            rw [List.mem_filter] at hx
            obtain ⟨hx, hc⟩ := hx
            refine hb.sub x ?_
            have hx := hfv x hx
            cases x with
            | term t => exact (starts_append (α := [.var v]) (β := b)).2 (.inl hx)
            | eps =>
              simp at hc
              subst hc
              exact hx
            | var w => exact hx
          have st2 := (extend_spec (ord.sub b.length) i1 (fun v x => (ht v x).1) ho1 hsub).1
          obtain ⟨hp2, hh2, hr2⟩ := extend_potential (N := N) (ord.sub b.length) i1 (fun v x => (ht v x).1) ho1 hsub hh1
          generalize hs2 : extendForVariable (ord.sub b.length) o
            (fv.filter (fun x => !decide (x = .eps) || b.isEmpty)) s1 = s2 at st2 hp2 hh2 hr2 h
          by_cases he : Sym.eps ∈ fv
          · rw [if_pos he] at h
            have hn : Nullable g [.var v] := hfv _ he
            have hb' : Belongs g Target o b := by
              refine ⟨fun x hx => hb.sub x ?_, hbvars⟩
              cases x with
              | term t => exact (starts_append (α := [.var v]) (β := b)).2 (.inr ⟨hn, hx⟩)
              | eps => exact (nullable_append (α := [.var v]) (β := b)).2 ⟨hn, hx⟩
              | var w => exact hx
            obtain ⟨h1, h2, h3⟩ := ih st2.inv (ho1.step st2.evolves) hb' hh2 h
            have hle : weight N (room g s2) b ≤ weight N (room g s) b :=
              weight_le (fun w => (hr1 w) ▸ hr2 w) b
            rw [hN v hn, if_pos rfl] at hcost
            exact ⟨by omega, h2, fun w => (hr1 w) ▸ Nat.le_trans (h3 w) (hr2 w)⟩
          · rw [if_neg he] at h
            cases h
            exact ⟨by omega, hh2, fun w => (hr1 w) ▸ hr2 w⟩
      · rw [if_pos hvis, expectBodies_ok hv] at h
        simp only [Outcome.bind_ok, Outcome.pure_eq, Outcome.ok.injEq] at h
        subst h
        refine ⟨?_, hh1, fun w => Nat.le_of_eq (hr1 w)⟩
        have h1 := freshWeight_visit (N := N) (r := room g s) g s1.visited hvis
        have h2 := total_append (f := weight N (room g s)) s1.pending
          [(some v, ord.shuffle [b.length] _ (g.bodiesOf v))]
        have h3 : total (weight N (room g s)) [(some v, ord.shuffle [b.length] _ (g.bodiesOf v))] =
            ((g.bodiesOf v).map (weight N (room g s))).sum := by
          simp only [total, List.map_cons, List.map_nil, List.sum_cons, List.sum_nil, Nat.add_zero]
          exact ((ord.perm ..).map _).sum_nat
        have h4 : room g s1 = room g s := funext hr1
        change total (weight N (room g s1)) _ + totals (waitWeight N (room g s1)) s1.deps +
          freshWeight N (room g s1) g (s1.visited ++ [v]) + 1 ≤ _
        simp only [firstPotential] at hp1 ⊢
        rw [h4] at hp1 ⊢
        rw [h2, h3]
        omega

theorem firstEach_potential (hN : ∀ v, Nullable g [.var v] → N v = true) (ord : HashOrder)
    (ht : ∀ v x, Target (some v) x ↔ FirstOf g [.var v] x)
    (wf : ∀ v β w, (v, β) ∈ g.rules → Sym.var w ∈ β → w ∈ g.rules.map Prod.fst) {o : Option V}
    {bs : List (Body V T)} :
    ∀ {s s' : FirstState V T}, FirstInv g Target s → OwnerOk s o → (∀ b ∈ bs, Belongs g Target o b) → Heads s →
    firstEach g ord o bs s = .ok s' →
    firstPotential N g s' + bs.length ≤ firstPotential N g s + (bs.map (weight N (room g s))).sum ∧ Heads s' ∧
      ∀ v, room g s' v ≤ room g s v := by
  induction bs with
  | nil =>
    intro s s' i _ _ hh h
    cases h
    exact ⟨Nat.le_refl _, hh, fun _ => Nat.le_refl _⟩
  | cons b bs ih =>
    intro s s' i ho hb hh h
    obtain ⟨s1, h1, st1, _⟩ := firstBody_spec (ord.sub bs.length) ht wf i ho (hb b (by simp))
    rw [firstEach, h1] at h
    obtain ⟨p1, hh1, r1⟩ := firstBody_potential hN (ord.sub bs.length) ht i ho (hb b (by simp)) hh h1
    obtain ⟨p2, hh2, r2⟩ := ih st1.inv (ho.step st1.evolves) (fun b' hb' => hb b' (by simp [hb'])) hh1 h
    refine ⟨?_, hh2, fun v => Nat.le_trans (r2 v) (r1 v)⟩
    have := sum_map_le (f' := weight N (room g s1)) (f := weight N (room g s)) (l := bs) fun b _ => weight_le r1 b
    simp only [List.length_cons, List.map_cons, List.sum_cons]
    omega

/-- The main loop looks at no more bodies than the potential says. -/
theorem firstCount_le (hN : ∀ v, Nullable g [.var v] → N v = true)
    (ht : ∀ v x, Target (some v) x ↔ FirstOf g [.var v] x)
    (wf : ∀ v β w, (v, β) ∈ g.rules → Sym.var w ∈ β → w ∈ g.rules.map Prod.fst) :
    ∀ {n : Nat} (ord : HashOrder) {s : FirstState V T}, FirstInv g Target s → Heads s →
    firstCount g ord n s ≤ firstPotential N g s := by
  intro n
  induction n with
  | zero =>
    intro ord s i hh
    rw [firstCount]
    split <;> exact Nat.zero_le _
  | succ n ih =>
    intro ord s i hh
    cases hp : s.pending with
    | nil => rw [firstCount]; simp only [hp]; exact Nat.zero_le _
    | cons p ps =>
      obtain ⟨o, bs⟩ := p
      let s0 : FirstState V T := { s with pending := ps }
      have hcur0 : ∀ o, s0.cur o = s.cur o := fun o => by cases o <;> rfl
      have i0 : FirstInv g Target s0 :=
        ⟨i.unvisited, fun o x h => i.sound o x (by rwa [hcur0] at h),
          fun o' bs' h => i.pend o' bs' (by rw [hp]; exact List.mem_cons_of_mem _ h), i.deps, i.visited_nodup,
          i.visited_vars, fun v => by rw [hcur0]; exact i.cur_nodup v⟩
      obtain ⟨ho, hb⟩ := i.pend o bs (by rw [hp]; exact List.mem_cons_self ..)
      obtain ⟨s1, h1, st1, _⟩ := firstEach_spec (ord.sub 0) ht wf (o := o) i0 ho hb
      obtain ⟨p1, hh1, _⟩ := firstEach_potential hN (ord.sub 0) ht wf (o := o) i0 ho hb hh h1
      have h2 := ih (ord.sub 1) st1.inv hh1
      have h3 : firstPotential N g s0 + (bs.map (weight N (room g s0))).sum = firstPotential N g s := by
        change total (weight N (room g s)) ps + totals (waitWeight N (room g s)) s.deps +
          freshWeight N (room g s) g s.visited + (bs.map (weight N (room g s))).sum = _
        simp only [firstPotential, hp, total, List.map_cons, List.sum_cons]
        omega
      rw [firstCount]
      simp only [hp]
      change bs.length + (match firstEach g (ord.sub 0) o bs s0 with | .ok s => firstCount g (ord.sub 1) n s | _ => 0) ≤ _
      rw [h1]
      simp only
      omega

/-- `first_bodies` for a string. -/
theorem firstBodiesCount_le (wf : WellFormed g) (hN : ∀ v, Nullable g [.var v] → N v = true) (ord : HashOrder)
    (fuel : Nat) {α : Body V T} (hv : ∀ v, Sym.var v ∈ α → v ∈ g.rules.map Prod.fst) :
    firstBodiesCount g ord fuel none [α] ≤ weight N (fun _ => (firstUniverse g).length) α +
      (g.rules.map fun e => weight N (fun _ => (firstUniverse g).length) e.2).sum := by
  let Target : Option V → Sym V T → Prop := fun o x => match o with
    | none => FirstOf g α x
    | some v => FirstOf g [.var v] x
  have wf' : ∀ v β w, (v, β) ∈ g.rules → Sym.var w ∈ β → w ∈ g.rules.map Prod.fst := by
    intro v β w h1 h2
    obtain ⟨γ, h⟩ := wf.closed v β w h1 h2
    exact List.mem_map.2 ⟨_, h, rfl⟩
  have i : FirstInv g Target ⟨[], [], [(none, [α])], [], []⟩ := by
    refine ⟨fun v _ => rfl, ?_, ?_, ?_, by simp, by simp, fun v => by simp [FirstState.cur, mapGet]⟩
    · intro o x h
      cases o <;> simp [FirstState.cur, mapGet] at h
    · intro o bs h
      cases List.mem_singleton.1 h
      refine ⟨fun v h => (by cases h), fun b hb => ?_⟩
      rw [List.mem_singleton.1 hb]
      exact ⟨fun x h => h, hv⟩
    · intro v ds h
      cases h
  have h := firstCount_le hN (Target := Target) (fun v x => Iff.rfl) wf' (n := fuel) ord i (fun v ds h => by cases h)
  have e : room g (⟨[], [], [(none, [α])], [], []⟩ : FirstState V T) = fun _ => (firstUniverse g).length := by
    funext v
    simp [room, FirstState.cur, mapGet]
  simp only [firstPotential, e, total, totals, freshWeight, List.map_cons, List.map_nil, List.sum_cons, List.sum_nil,
    Nat.add_zero] at h
  refine Nat.le_trans h (Nat.add_le_add_left (Nat.le_of_eq ?_) _)
  congr 2
  simp

/-! ## More iterations -/

omit g s s' Target N r r' f f' in
theorem firstCount_more {g : Grammar V T} : ∀ {n : Nat} {ord : HashOrder} {s r : FirstState V T},
    firstLoop g ord n s = .ok r → ∀ {m : Nat}, n ≤ m → firstCount g ord m s = firstCount g ord n s := by
  intro n
  induction n with
  | zero =>
    intro ord s r h m _
    rw [firstLoop] at h
    rw [firstCount, firstCount]
    cases hp : s.pending with
    | nil => rfl
    | cons p ps => rw [hp] at h; cases h
  | succ n ih =>
    intro ord s r h m hm
    obtain ⟨m, rfl⟩ : ∃ k, m = k + 1 := ⟨m - 1, by omega⟩
    rw [firstLoop] at h
    rw [firstCount, firstCount]
    cases hp : s.pending with
    | nil => rfl
    | cons p ps =>
      obtain ⟨o, bs⟩ := p
      simp only [hp] at h ⊢
      cases he : firstEach g (ord.sub 0) o bs { s with pending := ps } with
      | ok s1 =>
        simp only [he, Outcome.bind_ok] at h
        simp only [ih h (by omega : n ≤ m)]
      | _ => rfl

end Pango.Parse
