import Verif.Proofs.Worklist

/-!
# Basic facts about the NFA simulator
-/

namespace Pango.Fsm

open Pango Pango.Regex

variable {nfa : Nfa}

theorem getState_ok {id : Nat} {st : NState} (h : nfa.getState id = .ok st) :
    st ∈ nfa.states ∧ st.id = id := by
  unfold Nfa.getState at h
  cases hf : nfa.states.find? (fun s => s.id == id) with
  | none => simp [hf] at h
  | some s =>
    simp [hf] at h
    subst h
    exact ⟨List.mem_of_find?_eq_some hf, by simpa using List.find?_some hf⟩

theorem getState_cases (id : Nat) : (∃ st, nfa.getState id = .ok st) ∨ nfa.getState id = .panic := by
  unfold Nfa.getState
  cases nfa.states.find? (fun s => s.id == id) with
  | none => exact .inr rfl
  | some s => exact .inl ⟨s, rfl⟩

theorem mem_edges {s : NState} {i : Input} {d : Nat} :
    (i, d) ∈ s.edges ↔ ∃ ds, (i, ds) ∈ s.transitions ∧ d ∈ ds := by
  simp only [NState.edges, List.mem_flatMap, List.mem_map, Prod.mk.injEq]
  constructor
  · rintro ⟨⟨i', ds⟩, h1, d', h2, rfl, rfl⟩; exact ⟨ds, h1, h2⟩
  · rintro ⟨ds, h1, h2⟩; exact ⟨(i, ds), h1, d, h2, rfl, rfl⟩

theorem mem_epsMoves {s : NState} {n d : Nat} {b : Bool} :
    (d, b) ∈ s.epsMoves n ↔ ((.eps, d) ∈ s.edges ∧ b = false) ∨
      (∃ q, (.quantified q, d) ∈ s.edges ∧ q.isSatisfied n = true ∧ b = true) := by
  simp only [NState.epsMoves, List.mem_filterMap]
  constructor
  · rintro ⟨⟨i, d'⟩, h1, h2⟩
    cases i with
    | literal l => simp at h2
    | eps => simp at h2; obtain ⟨rfl, rfl⟩ := h2; exact .inl ⟨h1, rfl⟩
    | quantified q =>
      simp only at h2
      split at h2
      · rename_i hs; simp at h2; obtain ⟨rfl, rfl⟩ := h2; exact .inr ⟨q, h1, hs, rfl⟩
      · simp at h2
  · rintro (⟨h1, rfl⟩ | ⟨q, h1, h2, rfl⟩)
    · exact ⟨(.eps, d), h1, rfl⟩
    · exact ⟨(.quantified q, d), h1, by simp [h2]⟩

variable [Unicode]

theorem mem_charMoves {s : NState} {c : Char} {d : Nat} :
    d ∈ s.charMoves c ↔ ∃ l, (.literal l, d) ∈ s.edges ∧ l.contains c = true := by
  simp only [NState.charMoves, List.mem_filterMap]
  constructor
  · rintro ⟨⟨i, d'⟩, h1, h2⟩
    cases i with
    | literal l =>
      by_cases hs : l.contains c = true
      · simp [Input.canTake, hs] at h2; subst h2; exact ⟨l, h1, hs⟩
      · simp [Input.canTake, hs] at h2
    | eps => simp [Input.canTake] at h2
    | quantified q => simp [Input.canTake] at h2
  · rintro ⟨l, h1, h2⟩
    exact ⟨(.literal l, d), h1, by simp [Input.canTake, h2]⟩

omit [Unicode] in
theorem isAccepting_ok {runs : List Run} (h : ∀ r ∈ runs, ∃ st, nfa.getState r.state = .ok st) :
    ∃ b, nfa.isAccepting runs = .ok b ∧
      (b = true ↔ ∃ r ∈ runs, ∃ st, nfa.getState r.state = .ok st ∧ st.fin = true) := by
  induction runs with
  | nil => exact ⟨false, rfl, by simp⟩
  | cons r rs ih =>
    obtain ⟨st, hs⟩ := h r (by simp)
    obtain ⟨b, e, hb⟩ := ih (fun x hx => h x (by simp [hx]))
    by_cases hf : st.fin
    · refine ⟨true, by simp [Nfa.isAccepting, hs, hf], ?_⟩
      simp only [true_iff]
      exact ⟨r, by simp, st, hs, hf⟩
    · refine ⟨b, by simp [Nfa.isAccepting, hs, hf, e], ?_⟩
      rw [hb]
      constructor
      · rintro ⟨x, hx, st', h1, h2⟩; exact ⟨x, by simp [hx], st', h1, h2⟩
      · rintro ⟨x, hx, st', h1, h2⟩
        rcases List.mem_cons.1 hx with rfl | hx
        · rw [hs] at h1; cases h1; exact absurd h2 hf
        · exact ⟨x, hx, st', h1, h2⟩

theorem canFeed_ok {runs : List Run} {c : Char}
    (h : ∀ r ∈ runs, ∃ st, nfa.getState r.state = .ok st) :
    ∃ b, nfa.canFeed runs c = .ok b ∧
      (b = true ↔ ∃ r ∈ runs, ∃ st, nfa.getState r.state = .ok st ∧
        ∃ l ds, (.literal l, ds) ∈ st.transitions ∧ l.contains c = true) := by
  induction runs with
  | nil => exact ⟨false, rfl, by simp⟩
  | cons r rs ih =>
    obtain ⟨st, hs⟩ := h r (by simp)
    obtain ⟨b, e, hb⟩ := ih (fun x hx => h x (by simp [hx]))
    have key : st.transitions.any (fun t => t.1.canTake c) = true ↔
        ∃ l ds, (.literal l, ds) ∈ st.transitions ∧ l.contains c = true := by
      simp only [List.any_eq_true]
      constructor
      · rintro ⟨⟨i, ds⟩, h1, h2⟩
        cases i with
        | literal l => exact ⟨l, ds, h1, h2⟩
        | eps => simp [Input.canTake] at h2
        | quantified q => simp [Input.canTake] at h2
      · rintro ⟨l, ds, h1, h2⟩; exact ⟨(.literal l, ds), h1, h2⟩
    by_cases hf : st.transitions.any (fun t => t.1.canTake c) = true
    · refine ⟨true, by simp [Nfa.canFeed, hs, hf], ?_⟩
      simp only [true_iff]
      exact ⟨r, by simp, st, hs, key.1 hf⟩
    · refine ⟨b, by simp [Nfa.canFeed, hs, hf, e], ?_⟩
      rw [hb]
      constructor
      · rintro ⟨x, hx, st', h1, h2⟩; exact ⟨x, by simp [hx], st', h1, h2⟩
      · rintro ⟨x, hx, st', h1, h2⟩
        rcases List.mem_cons.1 hx with rfl | hx
        · rw [hs] at h1; cases h1; exact absurd (key.2 h2) hf
        · exact ⟨x, hx, st', h1, h2⟩

/-- One epsilon step of a run. -/
def epsStep (nfa : Nfa) (r : Run) : Outcome (List Run) := do
  let st ← nfa.getState r.state
  pure ((st.epsMoves (r.counters.count r.state)).map fun m => r.takeTransition m.1 m.2)

omit [Unicode] in
theorem epsClosure_eq (fuel : Nat) (r : Run) :
    nfa.epsClosure fuel r = worklist (epsStep nfa) fuel [r] [r] := rfl

omit [Unicode] in
theorem epsStep_ok {r : Run} {news : List Run} (h : epsStep nfa r = .ok news) :
    ∃ st, nfa.getState r.state = .ok st ∧
      news = (st.epsMoves (r.counters.count r.state)).map fun m => r.takeTransition m.1 m.2 := by
  simp only [epsStep, Outcome.bind_eq_ok] at h
  obtain ⟨st, h1, h2⟩ := h
  simp at h2
  exact ⟨st, h1, h2.symm⟩

omit [Unicode] in
theorem epsClosure_ok {fuel : Nat} {r : Run} {res : List Run} (h : nfa.epsClosure fuel r = .ok res) :
    (∀ s, s ∈ res ↔ Reaches (epsStep nfa) r s) ∧ res.Nodup ∧
    ∀ s ∈ res, ∃ st, nfa.getState s.state = .ok st := by
  rw [epsClosure_eq] at h
  obtain ⟨h1, h2, h3⟩ := worklist_single h
  refine ⟨h1, h2, fun s hs => ?_⟩
  obtain ⟨news, hn⟩ := h3 s ((h1 s).1 hs)
  obtain ⟨st, hst, _⟩ := epsStep_ok hn
  exact ⟨st, hst⟩

/-- The runs after feeding a character: take a character transition, then epsilon steps. -/
theorem feedRuns_ok {fuel : Nat} {runs runs' : List Run} {c : Char}
    (h : nfa.feedRuns fuel runs c = .ok runs') :
    (∀ r ∈ runs, ∃ st, nfa.getState r.state = .ok st) ∧
    (∀ r ∈ runs', ∃ st, nfa.getState r.state = .ok st) ∧
    (∀ s, s ∈ runs' ↔ ∃ r ∈ runs, ∃ st, nfa.getState r.state = .ok st ∧ ∃ d ∈ st.charMoves c,
      Reaches (epsStep nfa) (r.takeTransition d false) s) := by
  obtain ⟨h1, h2⟩ := flatMapOutcome_ok h
  have hst : ∀ r ∈ runs, ∃ st, nfa.getState r.state = .ok st := by
    intro r hr
    obtain ⟨bs, hb⟩ := h1 r hr
    rw [Outcome.bind_eq_ok] at hb
    obtain ⟨st, hs, _⟩ := hb
    exact ⟨st, hs⟩
  have hmem : ∀ s, s ∈ runs' ↔ ∃ r ∈ runs, ∃ st, nfa.getState r.state = .ok st ∧ ∃ d ∈ st.charMoves c,
      Reaches (epsStep nfa) (r.takeTransition d false) s := by
    intro s
    rw [h2]
    constructor
    · rintro ⟨r, hr, bs, hb, hs⟩
      rw [Outcome.bind_eq_ok] at hb
      obtain ⟨st, hst, hb⟩ := hb
      obtain ⟨d, hd, cs, hc, hs⟩ := ((flatMapOutcome_ok hb).2 s).1 hs
      exact ⟨r, hr, st, hst, d, hd, ((epsClosure_ok hc).1 s).1 hs⟩
    · rintro ⟨r, hr, st, hst, d, hd, hs⟩
      obtain ⟨bs, hb⟩ := h1 r hr
      refine ⟨r, hr, bs, hb, ?_⟩
      rw [Outcome.bind_eq_ok] at hb
      obtain ⟨st', hst', hb⟩ := hb
      rw [hst] at hst'; cases hst'
      obtain ⟨f1, f2⟩ := flatMapOutcome_ok hb
      obtain ⟨cs, hc⟩ := f1 d hd
      exact (f2 s).2 ⟨d, hd, cs, hc, ((epsClosure_ok hc).1 s).2 hs⟩
  refine ⟨hst, ?_, hmem⟩
  intro s hs
  obtain ⟨r, hr, bs, hb, hs⟩ := (h2 s).1 hs
  rw [Outcome.bind_eq_ok] at hb
  obtain ⟨st, hst, hb⟩ := hb
  obtain ⟨d, hd, cs, hc, hs⟩ := ((flatMapOutcome_ok hb).2 s).1 hs
  exact (epsClosure_ok hc).2.2 s hs

theorem feed_ok {fuel : Nat} {runs runs' : List Run} {c : Char} {acc : Bool}
    (h : nfa.feed fuel runs c = .ok (runs', acc)) :
    nfa.feedRuns fuel runs c = .ok runs' ∧ nfa.isAccepting runs' = .ok acc := by
  simp only [Nfa.feed, Outcome.bind_eq_ok] at h
  obtain ⟨rs, h1, b, h2, h3⟩ := h
  simp at h3
  obtain ⟨rfl, rfl⟩ := h3
  exact ⟨h1, h2⟩

theorem feed_of_feedRuns {fuel : Nat} {runs runs' : List Run} {c : Char}
    (h : nfa.feedRuns fuel runs c = .ok runs') :
    ∃ acc, nfa.feed fuel runs c = .ok (runs', acc) ∧ nfa.isAccepting runs' = .ok acc := by
  obtain ⟨b, hb, _⟩ := isAccepting_ok (feedRuns_ok h).2.1
  exact ⟨b, by simp [Nfa.feed, h, hb], hb⟩

end Pango.Fsm
