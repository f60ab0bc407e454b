import Verif.Proofs.Sooner

/-!
The strings along which the states of the automaton are made.
-/

namespace Pango.Parse

open Pango.Spec

variable {V T : Type} [DecidableEq V] [DecidableEq T] {g : Grammar V T} {c : Cfsm V T}

/-- A state is made along one string only. -/
theorem Grew.string (ok : CfsmOk g c) {every : List (Nat × ItemSet V T)} (gr : Grown c.states every)
    {γ δ : List (Sym V T)} {s : CState V T} (h : Grew c γ s) (h' : Grew c δ s) : γ = δ := by
  induction h generalizing δ with
  | start hs h0 =>
    cases h' with
    | start _ _ => rfl
    | step _ _ _ hlt => omega
  | @step γ p s x h hx hs hlt ih =>
    cases h' with
    | start _ h0 => omega
    | @step δ p' _ y h' hy _ hlt' =>
      obtain ⟨rfl, rfl⟩ := gr.once h.mem h'.mem ok hx hy hlt hlt'
      rw [ih h']

/-- A state is made along every shortest string. -/
theorem Grew.of_shortest (ok : CfsmOk g c) {every : List (Nat × ItemSet V T)} (gr : Grown c.states every) :
    ∀ {n : Nat} {γ : List (Sym V T)}, γ.length = n → Shortest g γ → ∃ s, Grew c γ s := by
  intro n
  induction n with
  | zero =>
    intro γ hn h
    rw [List.eq_nil_of_length_eq_zero hn] at h ⊢
    obtain ⟨p, hp⟩ := h.1
    obtain ⟨s, hs⟩ := ok.exists_reached hp
    generalize hε : ([] : List (Sym V T)) = ε at hs
    cases hs with
    | start hs h0 => exact ⟨s, .start hs h0⟩
    | step _ _ _ _ => simp at hε
  | succ n ih =>
    intro γ hn h
    rcases List.eq_nil_or_concat γ with rfl | ⟨β, x, rfl⟩
    · simp at hn
    rw [List.concat_eq_append] at *
    obtain ⟨s, hs⟩ := ih (by simpa using hn) h.init
    obtain ⟨p, hp⟩ := h.1
    obtain ⟨t, ht⟩ := ok.exists_reached hp
    generalize hε : β ++ [x] = ε at ht
    cases ht with
    | start _ _ => simp at hε
    | @step β' s' _ y d hs' hy ht hd =>
      obtain ⟨rfl, hxy⟩ := List.append_inj' hε rfl
      cases hxy
      subst hd
      have : s' = s := ok.reached_unique hs' hs.reached
      subst this
      rcases Nat.lt_or_ge s'.id t.id with hlt | hge
      · exact ⟨t, .step hs hy ht hlt⟩
      · obtain ⟨δ, hδ⟩ := ok.grew ht
        have h1 := hδ.length_le gr hs hge
        have h2 := h.2 δ ((ok.same_iff (.step hs' hy ht rfl) hδ.reached).1 fun _ => Iff.rfl)
        simp only [List.length_append, List.length_singleton] at h2
        omega

/-- The strings along which states are made are nearly shortest. -/
theorem Grew.nearly (ok : CfsmOk g c) (gr : Grown c.states (c.states.map fun s => (s.id, s.items)))
    {γ : List (Sym V T)} {s : CState V T} (h : Grew c γ s) (hr : CanRead g γ) : NearlyShortest g γ := by
  refine ⟨hr, fun δ hδ => ?_⟩
  obtain ⟨p, hp⟩ := hr
  obtain ⟨t, ht⟩ := ok.exists_reached ((hδ p).1 hp)
  have same := (ok.same_iff h.reached ht).2 hδ
  obtain ⟨δ', hδ'⟩ := ok.grew (reached_mem ht)
  have h1 := hδ'.le_reached ok gr ht
  cases h with
  | start _ _ => simp
  | @step γ q _ x h hx hs hlt =>
    simp only [List.length_append, List.length_singleton]
    have : q.id ≤ t.id := by
      apply Nat.le_of_not_lt
      intro hn
      have := gr.fresh q h.mem x s.id s.items hx hlt (List.mem_map.2 ⟨s, hs, rfl⟩) t (reached_mem ht) hn
      rw [sameItems_iff.2 fun p => (same p).symm] at this
      cases this
    have := h.length_le gr hδ' this
    omega

end Pango.Parse
