import Verif.Proofs.Viable

/-!
# How the automaton grows

States are processed in the order of their ids.  A transition to a state with a larger id is the transition for
which that state was made.
-/

namespace Pango.Parse

open Pango.Spec

variable {V T : Type} [DecidableEq V] [DecidableEq T] {g : Grammar V T}

/-- What the transitions of one state add to the pending states. -/
theorem cfsmTransitions_grow {ord : HashOrder} {fuel : Nat} {done : List (CState V T)} :
    ∀ {gs : List (Sym V T × ItemSet V T)} {w w' : CfsmWork V T} {ts : List (Sym V T × Nat)},
    cfsmTransitions g ord fuel done gs w = .ok (ts, w') →
    ∃ new, w' = ⟨w.pending ++ new, w.nextId + new.length⟩ ∧
      new.map Prod.fst = List.range' w.nextId new.length ∧
      (∀ e ∈ new, ∀ s ∈ done, sameItems s.items e.2 = false) ∧
      (∀ x d, (x, d) ∈ ts → (∃ s ∈ done, s.id = d) ∨ w.nextId ≤ d ∧ d < w.nextId + new.length) ∧
      ((∀ s ∈ done, s.id < w.nextId) → ∀ x x' d, (x, d) ∈ ts → (x', d) ∈ ts → w.nextId ≤ d → x = x') := by
  intro gs
  induction gs with
  | nil =>
    intro w w' ts h
    simp only [cfsmTransitions, Outcome.ok.injEq, Prod.mk.injEq] at h
    obtain ⟨rfl, rfl⟩ := h
    exact ⟨[], by simp, rfl, by simp, by simp, by simp⟩
  | cons e gs ih =>
    intro w w' ts h
    obtain ⟨x, grp⟩ := e
    rw [cfsmTransitions, Outcome.bind_eq_ok] at h
    obtain ⟨J, _, h⟩ := h
    cases hfind : done.find? (fun s => sameItems s.items J) with
    | some s =>
      rw [hfind] at h
      simp only [Outcome.bind_eq_ok] at h
      obtain ⟨⟨ts', w1⟩, h1, h2⟩ := h
      cases h2
      obtain ⟨new, h3, h4, h5, h6, h7⟩ := ih h1
      have hm := List.mem_of_find?_eq_some hfind
      refine ⟨new, h3, h4, h5, ?_, ?_⟩
      · intro x' d hd
        rcases List.mem_cons.1 hd with hd | hd
        · cases hd
          exact .inl ⟨s, hm, rfl⟩
        · exact h6 x' d hd
      · intro hlt y y' d hd hd' hle
        have := hlt s hm
        rcases List.mem_cons.1 hd with hd | hd
        · cases hd
          omega
        · rcases List.mem_cons.1 hd' with hd' | hd'
          · cases hd'
            omega
          · exact h7 hlt y y' d hd hd' hle
    | none =>
      rw [hfind] at h
      simp only [Outcome.bind_eq_ok] at h
      obtain ⟨⟨ts', w1⟩, h1, h2⟩ := h
      cases h2
      obtain ⟨new, h3, h4, h5, h6, h7⟩ := ih h1
      simp only at h3 h4 h6 h7
      refine ⟨(w.nextId, J) :: new, ?_, ?_, ?_, ?_, ?_⟩
      · rw [h3]
        simp only [List.append_assoc, List.singleton_append, List.length_cons]
        have : w.nextId + 1 + new.length = w.nextId + (new.length + 1) := by omega
        rw [this]
      · rw [List.map_cons, h4, List.length_cons]
        simp only
        rw [List.range'_succ]
      · intro e he s hs
        rcases List.mem_cons.1 he with he | he
        · rw [he]
          have := List.find?_eq_none.1 hfind s hs
          simpa using this
        · exact h5 e he s hs
      · intro x' d hd
        rw [List.length_cons]
        rcases List.mem_cons.1 hd with hd | hd
        · cases hd
          exact .inr ⟨Nat.le_refl _, by omega⟩
        · rcases h6 x' d hd with h | h
          · exact .inl h
          · exact .inr ⟨by omega, by omega⟩
      · intro hlt y y' d hd hd' hle
        have old : ∀ z, (z, w.nextId) ∉ ts' := by
          intro z hz
          rcases h6 z _ hz with ⟨s, hs, h⟩ | h
          · have := hlt s hs
            omega
          · omega
        rcases List.mem_cons.1 hd with hd | hd
        · cases hd
          rcases List.mem_cons.1 hd' with hd' | hd'
          · cases hd'
            rfl
          · exact absurd hd' (old _)
        · rcases List.mem_cons.1 hd' with hd' | hd'
          · cases hd'
            exact absurd hd (old _)
          · refine h7 (fun s hs => ?_) y y' d hd hd' ?_
            · have := hlt s hs
              omega
            · have : d ≠ w.nextId := fun h => old y (h ▸ hd)
              omega

/-- Transitions to larger ids lead to states in the order of the states they leave, to different states for
different symbols, and to sets that had not been processed.  No transition leads back to its own state. -/
structure Grown (done : List (CState V T)) (every : List (Nat × ItemSet V T)) : Prop where
  mono : ∀ s ∈ done, ∀ s' ∈ done, ∀ x x' d d', (x, d) ∈ s.transitions → (x', d') ∈ s'.transitions →
    s.id < d → s'.id < d' → s.id < s'.id → d < d'
  inj : ∀ s ∈ done, ∀ x x' d, (x, d) ∈ s.transitions → (x', d) ∈ s.transitions → s.id < d → x = x'
  fresh : ∀ s ∈ done, ∀ x d J, (x, d) ∈ s.transitions → s.id < d → (d, J) ∈ every →
    ∀ s' ∈ done, s'.id < s.id → sameItems s'.items J = false
  apart : ∀ s ∈ done, ∀ x d, (x, d) ∈ s.transitions → d ≠ s.id

/-- What always holds in the main loop. -/
structure GrowInv (done : List (CState V T)) (w : CfsmWork V T) : Prop extends
    Grown done (everyState done w.pending) where
  ids : (everyState done w.pending).map Prod.fst = List.range w.nextId
  dests : ∀ s ∈ done, ∀ x d, (x, d) ∈ s.transitions → d < w.nextId

theorem cfsmLoop_grown {ord : HashOrder} {fuel : Nat} : ∀ {n : Nat} {done done' : List (CState V T)}
    {w : CfsmWork V T}, GrowInv done w → cfsmLoop g ord fuel n done w = .ok done' →
    Grown done' (done'.map fun s => (s.id, s.items)) := by
  intro n
  induction n with
  | zero =>
    intro done done' w i h
    obtain ⟨pending, next⟩ := w
    cases pending with
    | nil =>
      rw [cfsmLoop] at h
      cases h
      simpa [everyState] using i.toGrown
    | cons e pending =>
      rw [cfsmLoop] at h
      cases h
  | succ n ih =>
    intro done done' w i h
    obtain ⟨pending, next⟩ := w
    cases pending with
    | nil =>
      rw [cfsmLoop] at h
      cases h
      simpa [everyState] using i.toGrown
    | cons e pending =>
      obtain ⟨id, I⟩ := e
      rw [cfsmLoop] at h
      simp only [Outcome.bind_eq_ok] at h
      obtain ⟨⟨ts, w1⟩, h1, h2⟩ := h
      obtain ⟨new, h3, h4, h5, h6, h7⟩ := cfsmTransitions_grow h1
      simp only at h3 h4 h6 h7 h2
      subst h3
      refine ih ?_ h2
      have hids := i.ids
      simp only at hids
      have hevery : everyState (done ++ [⟨id, I, ts⟩]) (pending ++ new) =
          everyState done ((id, I) :: pending) ++ new := by
        simp [everyState]
      -- the ids of processed states are smaller
      have hlt : ∀ s ∈ done, s.id < id ∧ id < next := by
        have hs : ((everyState done ((id, I) :: pending)).map Prod.fst).Pairwise (· < ·) := by
          rw [hids]
          exact List.pairwise_lt_range
        intro s hs'
        simp only [everyState, List.map_append, List.map_map, List.map_cons] at hs hids
        have h8 := (List.pairwise_append.1 hs).2.2 s.id (List.mem_map.2 ⟨s, hs', rfl⟩) id (List.mem_cons_self ..)
        refine ⟨h8, ?_⟩
        have : id ∈ List.range next := by
          rw [← hids]
          simp
        simpa using this
      have hid : id < next := by
        have : id ∈ List.range next := by
          rw [← hids]
          simp [everyState]
        simpa using this
      have hfwd : ∀ x d, (x, d) ∈ ts → id < d → next ≤ d := by
        intro x d hd hlt'
        rcases h6 x d hd with ⟨s, hs, h⟩ | h
        · have := (hlt s hs).1
          omega
        · exact h.1
      refine ⟨⟨?_, ?_, ?_, ?_⟩, ?_, ?_⟩
      · intro s hs s' hs' x x' d d' hd hd' hf hf' hss
        rcases List.mem_append.1 hs with hs | hs
        · rcases List.mem_append.1 hs' with hs' | hs'
          · exact i.mono s hs s' hs' x x' d d' hd hd' hf hf' hss
          · obtain rfl := List.mem_singleton.1 hs'
            have h8 := hfwd x' d' hd' hf'
            have h9 := i.dests s hs x d hd
            simp only at h9
            omega
        · obtain rfl := List.mem_singleton.1 hs
          rcases List.mem_append.1 hs' with hs' | hs'
          · have := (hlt s' hs').1
            simp only at hss
            omega
          · obtain rfl := List.mem_singleton.1 hs'
            omega
      · intro s hs x x' d hd hd' hf
        rcases List.mem_append.1 hs with hs | hs
        · exact i.inj s hs x x' d hd hd' hf
        · obtain rfl := List.mem_singleton.1 hs
          refine h7 (fun s hs => ?_) x x' d hd hd' (hfwd x d hd hf)
          have := hlt s hs
          omega
      · intro s hs x d J hd hf hJ s' hs' hss
        rw [hevery] at hJ
        rcases List.mem_append.1 hs with hs | hs
        · rcases List.mem_append.1 hs' with hs' | hs'
          · rcases List.mem_append.1 hJ with hJ | hJ
            · exact i.fresh s hs x d J hd hf hJ s' hs' hss
            · exact h5 _ hJ s' hs'
          · obtain rfl := List.mem_singleton.1 hs'
            have := (hlt s hs).1
            simp only at hss
            omega
        · obtain rfl := List.mem_singleton.1 hs
          have h8 := hfwd x d hd hf
          have hs'' : s' ∈ done := by
            rcases List.mem_append.1 hs' with hs' | hs'
            · exact hs'
            · obtain rfl := List.mem_singleton.1 hs'
              omega
          rcases List.mem_append.1 hJ with hJ | hJ
          · have : d ∈ List.range next := by
              rw [← hids]
              exact List.mem_map.2 ⟨_, hJ, rfl⟩
            have := List.mem_range.1 this
            omega
          · exact h5 _ hJ s' hs''
      · intro s hs x d hd
        rcases List.mem_append.1 hs with hs | hs
        · exact i.apart s hs x d hd
        · obtain rfl := List.mem_singleton.1 hs
          simp only
          rcases h6 x d hd with ⟨s, hs, h⟩ | h
          · have := hlt s hs
            omega
          · omega
      · simp only
        rw [hevery, List.map_append, hids, h4, List.range_eq_range', List.range_eq_range']
        have := List.range'_append_1 (s := 0) (m := next) (n := new.length)
        rw [Nat.zero_add] at this
        exact this
      · intro s hs x d hd
        simp only
        rcases List.mem_append.1 hs with hs | hs
        · have := i.dests s hs x d hd
          simp only at this
          omega
        · obtain rfl := List.mem_singleton.1 hs
          rcases h6 x d hd with ⟨s, hs, h⟩ | h
          · have := hlt s hs
            omega
          · exact h.2

theorem fromGrammar_grown {ord : HashOrder} {fuel : Nat} {c : Cfsm V T} (h : Cfsm.fromGrammar g ord fuel = .ok c) :
    Grown c.states (c.states.map fun s => (s.id, s.items)) := by
  rw [Cfsm.fromGrammar, Outcome.bind_eq_ok] at h
  obtain ⟨I, _, h⟩ := h
  rw [Outcome.bind_eq_ok] at h
  obtain ⟨states, h1, h2⟩ := h
  have hc : c.states = states := by
    rw [Cfsm.checked] at h2
    split at h2
    · cases h2
      rfl
    · cases h2
  rw [hc]
  refine cfsmLoop_grown ⟨⟨?_, ?_, ?_, ?_⟩, rfl, ?_⟩ h1 <;> simp

end Pango.Parse
