import Verif.Proofs.Cfsm
import Verif.Proofs.Fuel

/-!
# The states of the automaton hold the items of viable prefixes
-/

namespace Pango.Parse

open Pango Pango.Spec

variable {V T : Type} {g : Grammar V T}

theorem viable_start {p : V × Item V T} : Closure g (Start g) p ↔ Viable g [] p := by
  constructor
  · intro h
    induction h with
    | given h =>
      obtain ⟨β, hβ, rfl⟩ := h
      exact .start hβ (fresh_iff.2 rfl)
    | expand _ hr hβ hf ih => exact .expand ih hr hβ hf
  · intro h
    generalize hγ : ([] : List (Sym V T)) = γ at h
    induction h with
    | start hβ hf => exact .given ⟨_, hβ, by rw [fresh_iff.1 hf]⟩
    | expand _ hr hβ hf ih => exact .expand (ih hγ) hr hβ hf
    | read _ _ _ => simp at hγ

theorem viable_next {I : ItemSet V T} {γ : List (Sym V T)} (hI : ∀ p, p ∈ I ↔ Viable g γ p) {x : Sym V T}
    {p : V × Item V T} : Closure g (Next I x) p ↔ Viable g (γ ++ [x]) p := by
  constructor
  · intro h
    induction h with
    | given h =>
      obtain ⟨h, i, h1, h2, rfl⟩ := h
      exact .read ((hI _).1 h1) (advanced_iff.2 ⟨h2, rfl⟩)
    | expand _ hr hβ hf ih => exact .expand ih hr hβ hf
  · intro h
    generalize hγ : γ ++ [x] = γ' at h
    induction h with
    | start hβ hf => simp at hγ
    | expand _ hr hβ hf ih => exact .expand (ih hγ) hr hβ hf
    | @read γ0 h i j x0 hv ha _ =>
      obtain ⟨h1, h2⟩ := List.append_inj' hγ rfl
      simp at h2
      subst h1 h2
      obtain ⟨h3, h4⟩ := advanced_iff.1 ha
      exact .given ⟨h, i, (hI _).2 hv, h3, by rw [h4]⟩

theorem Viable_snoc {γ : List (Sym V T)} {x : Sym V T} {p : V × Item V T} (h : Viable g (γ ++ [x]) p) :
    ∃ q, Viable g γ q ∧ q.2.cursorSymbol = some x := by
  generalize hγ : γ ++ [x] = γ' at h
  induction h with
  | start hβ hf => simp at hγ
  | expand _ hr hβ hf ih => exact ih hγ
  | @read γ0 h i j x0 hv ha _ =>
    obtain ⟨h1, h2⟩ := List.append_inj' hγ rfl
    simp at h2
    subst h1 h2
    exact ⟨_, hv, (advanced_iff.1 ha).1⟩

theorem Viable_ok {γ : List (Sym V T)} {p : V × Item V T} (h : Viable g γ p) : ItemOk g p := by
  induction h with
  | start hβ hf => rw [fresh_iff.1 hf]; exact .fresh hβ
  | expand _ _ hβ hf _ => rw [fresh_iff.1 hf]; exact .fresh hβ
  | read _ ha ih =>
    obtain ⟨h1, h2⟩ := advanced_iff.1 ha
    rw [h2]
    exact ih.advance h1

variable [DecidableEq V] [DecidableEq T]

theorem fromGrammar_ok {c : Cfsm V T} (wf : WellFormed g) {ord : HashOrder} {fuel : Nat}
    (h : Cfsm.fromGrammar g ord fuel = .ok c) : CfsmOk g c := by
  obtain ⟨c', h1, ok⟩ := fromGrammar_spec wf ord (fuel := fuel + cfsmFuel g) (by omega)
  have := (fromGrammar_mono (n' := fuel + cfsmFuel g) (by omega)).ok h
  rw [this] at h1
  cases h1
  exact ok

theorem CfsmOk.index {c : Cfsm V T} (h : CfsmOk g c) {s : CState V T} (hs : s ∈ c.states) :
    c.states[s.id]? = some s := by
  obtain ⟨n, hn⟩ := List.mem_iff_getElem?.1 hs
  have h5 : (c.states.map CState.id)[n]? = some s.id := by simp [hn]
  rw [h.ids] at h5
  obtain ⟨_, h6⟩ := List.getElem?_eq_some_iff.1 h5
  simp at h6
  rw [← h6]
  exact hn

theorem CfsmOk.id_of_index {c : Cfsm V T} (h : CfsmOk g c) {n : Nat} {s : CState V T}
    (hs : c.states[n]? = some s) : s.id = n := by
  have h5 : (c.states.map CState.id)[n]? = some s.id := by simp [hs]
  rw [h.ids] at h5
  obtain ⟨_, h6⟩ := List.getElem?_eq_some_iff.1 h5
  simpa using h6.symm

omit [DecidableEq V] [DecidableEq T] in
theorem reached_mem {c : Cfsm V T} {γ : List (Sym V T)} {s : CState V T} (h : Reached c γ s) :
    s ∈ c.states := by
  cases h <;> assumption

theorem reached_viable {c : Cfsm V T} (ok : CfsmOk g c) {γ : List (Sym V T)}
    {s : CState V T} (h : Reached c γ s) (p : V × Item V T) : p ∈ s.items ↔ Viable g γ p := by
  induction h generalizing p with
  | start hs h0 =>
    obtain ⟨s0, h1, h2⟩ := ok.start
    have := ok.index hs
    rw [h0, h1] at this
    cases this
    exact (h2 p).trans viable_start
  | step hr ht hs hd ih =>
    obtain ⟨s', h1, h2⟩ := ok.dest _ (reached_mem hr) _ _ ht
    have := ok.index hs
    rw [hd, h1] at this
    cases this
    exact (h2 p).trans (viable_next ih)

theorem CfsmOk.reached_unique {c : Cfsm V T} (ok : CfsmOk g c) {γ : List (Sym V T)} {s s' : CState V T}
    (h : Reached c γ s) (h' : Reached c γ s') : s = s' := by
  induction h generalizing s' with
  | @start s hs h0 =>
    generalize hγ : ([] : List (Sym V T)) = γ at h'
    cases h' with
    | start hs' h0' =>
      have h3 := ok.index hs
      rw [h0, ← h0', ok.index hs'] at h3
      exact (Option.some.inj h3).symm
    | step => simp at hγ
  | @step γ s1 s2 x d hr ht hs hd ih =>
    generalize hγ : γ ++ [x] = γ' at h'
    cases h' with
    | start => simp at hγ
    | @step γ0 t1 _ x0 d' hr' ht' hs' hd' =>
      obtain ⟨h3, h4⟩ := List.append_inj' hγ rfl
      simp at h4
      subst h3 h4
      have := ih hr'
      subst this
      have h5 := mapGet_of_mem (ok.keys _ (reached_mem hr)) ht
      rw [mapGet_of_mem (ok.keys _ (reached_mem hr)) ht'] at h5
      cases h5
      have h3 := ok.index hs
      rw [hd, ← hd', ok.index hs'] at h3
      exact (Option.some.inj h3).symm

/-- The state has a transition for every symbol that is read. -/
theorem CfsmOk.next {c : Cfsm V T} (ok : CfsmOk g c) {γ : List (Sym V T)} {s : CState V T} (hs : Reached c γ s)
    {p : V × Item V T} (hp : Viable g γ p) {x : Sym V T} (hx : p.2.cursorSymbol = some x) :
    ∃ s', (x, s'.id) ∈ s.transitions ∧ Reached c (γ ++ [x]) s' := by
  obtain ⟨⟨x', d⟩, hd, rfl⟩ := List.mem_map.1 ((ok.read s (reached_mem hs) x).2 ⟨p, (reached_viable ok hs p).2 hp, hx⟩)
  obtain ⟨s', h3, _⟩ := ok.dest s (reached_mem hs) x' d hd
  have h4 := ok.id_of_index h3
  exact ⟨s', h4 ▸ hd, .step hs hd (List.mem_of_getElem? h3) h4⟩

theorem CfsmOk.reached_start {c : Cfsm V T} (ok : CfsmOk g c) : ∃ s, s.id = 0 ∧ Reached c [] s := by
  obtain ⟨s, h2, _⟩ := ok.start
  exact ⟨s, ok.id_of_index h2, .start (List.mem_of_getElem? h2) (ok.id_of_index h2)⟩

theorem CfsmOk.exists_reached {c : Cfsm V T} (ok : CfsmOk g c) {γ : List (Sym V T)} {p : V × Item V T}
    (hp : Viable g γ p) : ∃ s, Reached c γ s := by
  obtain ⟨n, hn⟩ : ∃ n, n = γ.length := ⟨_, rfl⟩
  induction n generalizing γ p with
  | zero =>
    obtain rfl : γ = [] := List.eq_nil_of_length_eq_zero hn.symm
    obtain ⟨s, _, h⟩ := ok.reached_start
    exact ⟨s, h⟩
  | succ n ih =>
    rcases List.eq_nil_or_concat γ with rfl | ⟨γ', x, rfl⟩
    · cases hn
    · rw [List.concat_eq_append] at *
      obtain ⟨q, hq, hx⟩ := Viable_snoc hp
      obtain ⟨s, hs⟩ := ih hq (by simp at hn; omega)
      obtain ⟨s', _, h⟩ := ok.next hs hq hx
      exact ⟨s', h⟩

theorem CfsmOk.reached {c : Cfsm V T} (ok : CfsmOk g c) : ∀ {s : CState V T}, s ∈ c.states → ∃ γ, Reached c γ s := by
  have main : ∀ n, ∀ s ∈ c.states, s.id < n → ∃ γ, Reached c γ s := by
    intro n
    induction n with
    | zero => intro s _ h; omega
    | succ n ih =>
      intro s hs hn
      rcases ok.parent s hs with h0 | ⟨s', hs', h1, x, hx⟩
      · exact ⟨[], .start hs h0⟩
      · obtain ⟨γ, hγ⟩ := ih s' hs' (by omega)
        exact ⟨γ ++ [x], .step hγ hx hs rfl⟩
  exact fun {s} hs => main _ s hs (Nat.lt_succ_self _)

end Pango.Parse
