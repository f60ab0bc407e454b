import Verif.Spec.Levels
import Verif.Proofs.Grow
import Verif.Proofs.Viable

/-!
The states of the automaton are made in the order of their distance from the start state.
-/

namespace Pango.Parse

open Pango.Spec

variable {V T : Type} [DecidableEq V] [DecidableEq T] {g : Grammar V T} {c : Cfsm V T}

/-- The string along which a state was made. -/
inductive Grew (c : Cfsm V T) : List (Sym V T) → CState V T → Prop
  | start {s : CState V T} : s ∈ c.states → s.id = 0 → Grew c [] s
  | step {γ : List (Sym V T)} {s s' : CState V T} {x : Sym V T} : Grew c γ s →
      (x, s'.id) ∈ s.transitions → s' ∈ c.states → s.id < s'.id → Grew c (γ ++ [x]) s'

omit [DecidableEq V] [DecidableEq T] in
theorem Grew.reached {γ : List (Sym V T)} {s : CState V T} (h : Grew c γ s) : Reached c γ s := by
  induction h with
  | start hs h0 => exact .start hs h0
  | step _ hx hs _ ih => exact .step ih hx hs rfl

omit [DecidableEq V] [DecidableEq T] in
theorem Grew.mem {γ : List (Sym V T)} {s : CState V T} (h : Grew c γ s) : s ∈ c.states := by
  cases h with
  | start hs _ => exact hs
  | step _ _ hs _ => exact hs

theorem CfsmOk.grew (ok : CfsmOk g c) : ∀ {s : CState V T}, s ∈ c.states → ∃ γ, Grew c γ s := by
  have main : ∀ n, ∀ s ∈ c.states, s.id < n → ∃ γ, Grew c γ s := by
    intro n
    induction n with
    | zero => intro s _ h; omega
    | succ n ih =>
      intro s hs hn
      rcases ok.parent s hs with h0 | ⟨s', hs', h1, x, hx⟩
      · exact ⟨[], .start hs h0⟩
      · obtain ⟨γ, hγ⟩ := ih s' hs' (by omega)
        exact ⟨_, .step hγ hx hs h1⟩
  intro s hs
  exact main _ s hs (Nat.lt_succ_self _)

/-- A later state was made along a string that is at least as long. -/
theorem Grew.length_le {every : List (Nat × ItemSet V T)} (gr : Grown c.states every) {γ δ : List (Sym V T)}
    {s t : CState V T} (h : Grew c γ s) (h' : Grew c δ t) (hle : s.id ≤ t.id) : γ.length ≤ δ.length := by
  induction h' generalizing γ s with
  | start ht h0 =>
    cases h with
    | start _ _ => simp
    | step _ _ _ hlt => omega
  | @step δ t' t y h' hy ht hlt' ih =>
    cases h with
    | start _ _ => simp
    | @step γ s' _ x h hx hs hlt =>
      have : s'.id ≤ t'.id := by
        apply Nat.le_of_not_lt
        intro hn
        have := gr.mono t' h'.mem s' h.mem y x t.id s.id hy hx hlt' hlt hn
        omega
      have := ih h this
      simp only [List.length_append, List.length_singleton]
      omega

/-- No string to a state is shorter than the one it was made along. -/
theorem Grew.le_reached (ok : CfsmOk g c) {every : List (Nat × ItemSet V T)} (gr : Grown c.states every)
    {γ δ : List (Sym V T)} {t : CState V T} (h : Grew c γ t) (h' : Reached c δ t) : γ.length ≤ δ.length := by
  induction h' generalizing γ with
  | start ht h0 => exact h.length_le gr (.start ht h0) (Nat.le_refl _)
  | @step δ t' t y d h' hy ht hd ih =>
    subst hd
    obtain ⟨γ', hγ'⟩ := ok.grew (reached_mem h')
    have h1 := ih hγ'
    simp only [List.length_append, List.length_singleton]
    rcases Nat.lt_or_ge t'.id t.id with hlt | hge
    · have := h.length_le gr (.step hγ' hy ht hlt) (Nat.le_refl _)
      simp only [List.length_append, List.length_singleton] at this
      omega
    · have := h.length_le gr hγ' hge
      omega

/-- The states of two strings hold the same items exactly if the strings are read into the same item set. -/
theorem CfsmOk.same_iff (ok : CfsmOk g c) {γ δ : List (Sym V T)} {s t : CState V T} (h : Reached c γ s)
    (h' : Reached c δ t) : (∀ p, p ∈ s.items ↔ p ∈ t.items) ↔ SameItems g γ δ := by
  unfold SameItems
  exact forall_congr' fun p => by rw [reached_viable ok h, reached_viable ok h']

/-- The first state with an item set was made along a shortest string. -/
theorem Grew.le_same (ok : CfsmOk g c) {every : List (Nat × ItemSet V T)} (gr : Grown c.states every)
    {γ δ : List (Sym V T)} {s : CState V T} (h : Grew c γ s)
    (first : ∀ t ∈ c.states, (∀ p, p ∈ s.items ↔ p ∈ t.items) → s.id ≤ t.id) (hr : CanRead g γ)
    (hδ : SameItems g γ δ) : γ.length ≤ δ.length := by
  obtain ⟨p, hp⟩ := hr
  obtain ⟨t, ht⟩ := ok.exists_reached ((hδ p).1 hp)
  obtain ⟨δ', hδ'⟩ := ok.grew (reached_mem ht)
  have h1 := first t (reached_mem ht) ((ok.same_iff h.reached ht).2 hδ)
  exact Nat.le_trans (h.length_le gr hδ' h1) (hδ'.le_reached ok gr ht)

/-- A symbol with a transition can be read. -/
theorem CfsmOk.readable (ok : CfsmOk g c) {γ : List (Sym V T)} {s : CState V T} (h : Reached c γ s) {x : Sym V T}
    {d : Nat} (hx : (x, d) ∈ s.transitions) : CanRead g (γ ++ [x]) := by
  obtain ⟨p, hp, hc⟩ := (ok.read s (reached_mem h) x).1 (List.mem_map.2 ⟨_, hx, rfl⟩)
  have hv := (reached_viable ok h p).1 hp
  exact ⟨_, .read hv (advanced_iff.2 ⟨hc, rfl⟩)⟩

/-- One state per id. -/
theorem CfsmOk.eq_of_id (ok : CfsmOk g c) {s t : CState V T} (hs : s ∈ c.states) (ht : t ∈ c.states)
    (h : s.id = t.id) : s = t := by
  have h1 := ok.index hs
  rw [h, ok.index ht] at h1
  exact (Option.some.inj h1).symm

/-- One destination per symbol. -/
theorem CfsmOk.eq_of_key (ok : CfsmOk g c) {s : CState V T} (hs : s ∈ c.states) {x : Sym V T} {d d' : Nat}
    (h : (x, d) ∈ s.transitions) (h' : (x, d') ∈ s.transitions) : d = d' := by
  have h1 := mapGet_of_mem (ok.keys s hs) h
  rw [mapGet_of_mem (ok.keys s hs) h'] at h1
  exact (Option.some.inj h1).symm

/-- A state is made only once. -/
theorem Grown.once {every : List (Nat × ItemSet V T)} (gr : Grown c.states every) {s s' : CState V T}
    (hs : s ∈ c.states) (hs' : s' ∈ c.states) (ok : CfsmOk g c) {x x' : Sym V T} {d : Nat} (h : (x, d) ∈ s.transitions)
    (h' : (x', d) ∈ s'.transitions) (hlt : s.id < d) (hlt' : s'.id < d) : s = s' ∧ x = x' := by
  have : s = s' := by
    refine ok.eq_of_id hs hs' ?_
    rcases Nat.lt_trichotomy s.id s'.id with hn | hn | hn
    · have := gr.mono s hs s' hs' x x' d d h h' hlt hlt' hn
      omega
    · exact hn
    · have := gr.mono s' hs' s hs x' x d d h' h hlt' hlt hn
      omega
  subst this
  exact ⟨rfl, gr.inj s hs x x' d h h' hlt⟩

/-- One way into every set: no two states hold the same items. -/
theorem noDuplicates (ok : CfsmOk g c) (gr : Grown c.states (c.states.map fun s => (s.id, s.items)))
    (one : OneWayIn g) : ∀ n, ∀ k ∈ c.states, k.id ≤ n → ∀ i ∈ c.states, i.id < k.id →
      ¬ ∀ p, p ∈ i.items ↔ p ∈ k.items := by
  intro n
  induction n with
  | zero =>
    intro k _ h1 i _ h2
    omega
  | succ n ih =>
    intro k hk hkn i hi hik same
    rcases Nat.lt_or_ge k.id (n + 1) with h | h
    · exact ih k hk (by omega) i hi hik same
    have first : ∀ t ∈ c.states, (∀ p, p ∈ i.items ↔ p ∈ t.items) → i.id ≤ t.id := by
      intro t ht hsame
      apply Nat.le_of_not_lt
      intro hlt
      exact ih i hi (by omega) t ht hlt fun p => (hsame p).symm
    obtain ⟨γ, hγ⟩ := ok.grew hk
    cases hγ with
    | start _ h0 => omega
    | @step α j _ x hα hx _ hjk =>
      obtain ⟨γ, hγ⟩ := ok.grew hi
      have hread := ok.readable hα.reached hx
      have hsame : SameItems g (α ++ [x]) γ :=
        (ok.same_iff (Grew.step hα hx hk hjk).reached hγ.reached).1 fun p => (same p).symm
      have hij : j.id ≤ i.id := by
        apply Nat.le_of_not_lt
        intro hlt
        have := gr.fresh j hα.mem x k.id k.items hx hjk (List.mem_map.2 ⟨k, hk, rfl⟩) i hi hlt
        rw [sameItems_iff.2 same] at this
        cases this
      have hγr : CanRead g γ := by
        obtain ⟨p, hp⟩ := hread
        exact ⟨p, (hsame p).1 hp⟩
      have hshort : Shortest g γ := ⟨hγr, fun δ hδ => hγ.le_same ok gr first hγr hδ⟩
      obtain ⟨β, rfl, hβ⟩ := one γ hshort α x hsame (hα.length_le gr hγ hij)
      generalize hγe : β ++ [x] = γ' at hγ
      cases hγ with
      | start _ _ => simp at hγe
      | @step β' q _ y hβ' hy _ hqi =>
        obtain ⟨rfl, hxy⟩ := List.append_inj' hγe rfl
        cases hxy
        have hqj : q = j := by
          have hs : ∀ p, p ∈ j.items ↔ p ∈ q.items := (ok.same_iff hα.reached hβ'.reached).2 hβ
          refine ok.eq_of_id hβ'.mem hα.mem ?_
          rcases Nat.lt_trichotomy q.id j.id with hn | hn | hn
          · exact absurd (fun p => (hs p).symm) (ih j hα.mem (by omega) q hβ'.mem hn)
          · exact hn
          · exact absurd hs (ih q hβ'.mem (by omega) j hα.mem hn)
        subst hqj
        have := ok.eq_of_key hα.mem hx hy
        omega

/-- Two ways into a set: two states hold the same items. -/
theorem duplicates (ok : CfsmOk g c) (gr : Grown c.states (c.states.map fun s => (s.id, s.items)))
    (two : TwoWaysIn g) : ∃ s ∈ c.states, ∃ t ∈ c.states, s ≠ t ∧ ∀ p, p ∈ s.items ↔ p ∈ t.items := by
  apply Classical.byContradiction
  intro hno
  have uniq : ∀ s ∈ c.states, ∀ t ∈ c.states, (∀ p, p ∈ s.items ↔ p ∈ t.items) → s = t := by
    intro s hs t ht h
    apply Classical.byContradiction
    intro hne
    exact hno ⟨s, hs, t, ht, hne, h⟩
  obtain ⟨γ, ⟨⟨p, hp⟩, hshort⟩, α, x, hsame, hcase⟩ := two
  obtain ⟨s, hs⟩ := ok.exists_reached hp
  -- the last step of a string to this state
  have last : ∀ {δ y}, SameItems g (δ ++ [y]) γ → ∃ a, Reached c δ a ∧ (y, s.id) ∈ a.transitions := by
    intro δ y hδ
    obtain ⟨t, ht⟩ := ok.exists_reached ((hδ p).2 hp)
    obtain rfl := uniq t (reached_mem ht) s (reached_mem hs) ((ok.same_iff ht hs).2 hδ)
    generalize hδe : δ ++ [y] = δ' at ht
    cases ht with
    | start _ _ => simp at hδe
    | @step δ'' a _ z d ha hz _ hd =>
      obtain ⟨rfl, hyz⟩ := List.append_inj' hδe rfl
      cases hyz
      subst hd
      exact ⟨a, ha, hz⟩
  obtain ⟨a, ha, hax⟩ := last hsame
  rcases hcase with ⟨hlt, hnot⟩ | hself
  · obtain ⟨σ, hσ⟩ := ok.grew (reached_mem hs)
    have hσγ : γ.length ≤ σ.length := hshort σ ((ok.same_iff hs hσ.reached).1 fun _ => Iff.rfl)
    have before : ∀ {δ b}, Reached c δ b → δ.length < γ.length → b.id < s.id := by
      intro δ b hb hlt
      obtain ⟨τ, hτ⟩ := ok.grew (reached_mem hb)
      have h1 := hτ.le_reached ok gr hb
      apply Nat.lt_of_not_le
      intro hle
      have := hσ.length_le gr hτ hle
      omega
    rcases List.eq_nil_or_concat γ with rfl | ⟨β, y, rfl⟩
    · simp at hlt
    rw [List.concat_eq_append] at *
    obtain ⟨b, hb, hby⟩ := last (δ := β) (y := y) fun _ => Iff.rfl
    obtain ⟨rfl, rfl⟩ := gr.once (reached_mem ha) (reached_mem hb) ok hax hby (before ha hlt) (before hb (by simp))
    exact hnot ⟨β, rfl, (ok.same_iff ha hb).1 fun _ => Iff.rfl⟩
  · obtain rfl := uniq a (reached_mem ha) s (reached_mem hs) ((ok.same_iff ha hs).2 hself)
    exact gr.apart a (reached_mem ha) x a.id hax rfl

end Pango.Parse
