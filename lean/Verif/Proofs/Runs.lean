import Verif.Proofs.Paths
import Verif.Proofs.Sim

/-!
# The runs of a simulator as a set

What runs a simulator has after reading a word, without regard to lists and their order.
-/

namespace Pango.Fsm

open Pango Pango.Regex

/-- One epsilon step of a run. -/
inductive EStep (nfa : Nfa) (r : Run) : Run → Prop
  | eps {d : Nat} : nfa.HasEdge r.state .eps d → EStep nfa r (r.takeTransition d false)
  | quant {d : Nat} {q : Quant} : nfa.HasEdge r.state (.quantified q) d →
      q.isSatisfied (r.counters.count r.state) = true → EStep nfa r (r.takeTransition d true)

/-- Any number of epsilon steps. -/
inductive ER (nfa : Nfa) (r : Run) : Run → Prop
  | refl : ER nfa r r
  | tail {s t : Run} : ER nfa r s → EStep nfa s t → ER nfa r t

variable {nfa : Nfa}

theorem EStep.edge {r s : Run} (h : EStep nfa r s) : ∃ i, nfa.HasEdge r.state i s.state := by
  cases h with
  | eps h => exact ⟨_, h⟩
  | quant h _ => exact ⟨_, h⟩

theorem epsStep_wf (w : Wf nfa) {r : Run} (hr : r.state < nfa.states.length) :
    ∃ news, epsStep nfa r = .ok news ∧ ∀ s, s ∈ news ↔ EStep nfa r s := by
  have hst := w.getState hr
  refine ⟨_, by simp only [epsStep, hst]; rfl, fun s => ?_⟩
  simp only [List.mem_map, Prod.exists]
  constructor
  · rintro ⟨d, b, h, rfl⟩
    rcases mem_epsMoves.1 h with ⟨h', rfl⟩ | ⟨q, h', hq, rfl⟩
    · exact .eps ((w.hasEdge_iff hst).2 h')
    · exact .quant ((w.hasEdge_iff hst).2 h') hq
  · intro h
    cases h with
    | eps h => exact ⟨_, false, mem_epsMoves.2 (.inl ⟨(w.hasEdge_iff hst).1 h, rfl⟩), rfl⟩
    | quant h hq => exact ⟨_, true, mem_epsMoves.2 (.inr ⟨_, (w.hasEdge_iff hst).1 h, hq, rfl⟩), rfl⟩

theorem ER.lt (w : Wf nfa) {r s : Run} (h : ER nfa r s) (hr : r.state < nfa.states.length) :
    s.state < nfa.states.length := by
  induction h with
  | refl => exact hr
  | tail _ h _ => obtain ⟨i, h⟩ := h.edge; exact (w.edge_lt h).2

theorem reaches_iff_ER (w : Wf nfa) {r s : Run} (hr : r.state < nfa.states.length) :
    Reaches (epsStep nfa) r s ↔ ER nfa r s := by
  constructor
  · intro h
    induction h with
    | refl => exact .refl
    | tail _ hs hm ih =>
      obtain ⟨news, h1, h2⟩ := epsStep_wf w (ih.lt w hr)
      rw [h1] at hs
      cases hs
      exact ih.tail ((h2 _).1 hm)
  · intro h
    induction h with
    | refl => exact .refl
    | tail h hs ih =>
      obtain ⟨news, h1, h2⟩ := epsStep_wf w (h.lt w hr)
      exact ih.tail h1 ((h2 _).2 hs)

variable [Unicode]

/-- A run takes a character. -/
inductive CharStep (nfa : Nfa) (r : Run) (c : Char) : Run → Prop
  | mk {l : Lit} {d : Nat} : nfa.HasEdge r.state (.literal l) d → l.contains c = true →
      CharStep nfa r c (r.takeTransition d false)

theorem CharStep.edge {r s : Run} {c : Char} (h : CharStep nfa r c s) :
    ∃ i, nfa.HasEdge r.state i s.state := by
  cases h with
  | mk h _ => exact ⟨_, h⟩

/-- The runs after reading a word. -/
inductive RunsAt (nfa : Nfa) : List Char → Run → Prop
  | init {x : Nat} : SReach nfa.HasEdge nfa.start x → RunsAt nfa [] ⟨x, []⟩
  | snoc {w : List Char} {c : Char} {r s t : Run} : RunsAt nfa w r → CharStep nfa r c s → ER nfa s t →
      RunsAt nfa (w ++ [c]) t

omit [Unicode] in
theorem SReach.lt' (w : Wf nfa) {x y : Nat} (h : SReach nfa.HasEdge x y) (hx : x < nfa.states.length) :
    y < nfa.states.length := by
  induction h with
  | refl => exact hx
  | eps _ he _ => exact (w.edge_lt he).2
  | quant _ he _ _ => exact (w.edge_lt he).2

theorem RunsAt.lt (w : Wf nfa) {v : List Char} {r : Run} (h : RunsAt nfa v r) :
    r.state < nfa.states.length := by
  cases h with
  | init h => exact h.lt' w w.start
  | snoc _ h1 h2 => obtain ⟨i, h⟩ := h1.edge; exact h2.lt w (w.edge_lt h).2

theorem RunsAt.prefix {w v : List Char} {r : Run} (h : RunsAt nfa (w ++ v) r) : ∃ r', RunsAt nfa w r' := by
  induction hn : v.length generalizing v r with
  | zero => rw [List.length_eq_zero_iff.1 hn, List.append_nil] at h; exact ⟨r, h⟩
  | succ n ih =>
    have hne : v ≠ [] := by rintro rfl; simp at hn
    obtain ⟨v', c, rfl⟩ : ∃ v' c, v = v' ++ [c] :=
      ⟨v.dropLast, v.getLast hne, (List.dropLast_concat_getLast hne).symm⟩
    rw [← List.append_assoc] at h
    generalize hu : (w ++ v') ++ [c] = u at h
    cases h with
    | init => simp at hu
    | @snoc w2 c2 r2 _ _ h1 _ _ =>
      obtain ⟨rfl, _⟩ := List.append_inj' hu rfl
      exact ih h1 (by simpa using hn)

theorem RunsAt.snoc_iff {w : List Char} {c : Char} {t : Run} :
    RunsAt nfa (w ++ [c]) t ↔ ∃ r s, RunsAt nfa w r ∧ CharStep nfa r c s ∧ ER nfa s t := by
  constructor
  · intro h
    generalize hu : w ++ [c] = u at h
    cases h with
    | init => simp at hu
    | snoc h1 h2 h3 =>
      obtain ⟨rfl, h4⟩ := List.append_inj' hu rfl
      cases h4
      exact ⟨_, _, h1, h2, h3⟩
  · rintro ⟨r, s, h1, h2, h3⟩
    exact .snoc h1 h2 h3

/-- The runs of the simulator itself after being fed a word. -/
inductive Fed (nfa : Nfa) (fuel : Nat) : List Char → List Run → Prop
  | init {runs : List Run} : nfa.initRuns fuel = .ok runs → Fed nfa fuel [] runs
  | feed {w : List Char} {c : Char} {runs runs' : List Run} {b : Bool} : Fed nfa fuel w runs →
      nfa.feed fuel runs c = .ok (runs', b) → Fed nfa fuel (w ++ [c]) runs'

omit [Unicode] in
theorem static_step (w : Wf nfa) {id : Nat} (hid : id < nfa.states.length) : ∃ news,
    (do let st ← nfa.getState id
        pure ((st.epsMoves 0).map Prod.fst) : Outcome (List Nat)) = .ok news ∧
    ∀ d, d ∈ news ↔ nfa.HasEdge id .eps d ∨
      ∃ q, nfa.HasEdge id (.quantified q) d ∧ q.isSatisfied 0 = true := by
  have hst := w.getState hid
  refine ⟨_, by rw [hst]; rfl, fun d => ?_⟩
  rw [w.hasEdge_iff hst]
  simp only [List.mem_map, Prod.exists, exists_and_right, exists_eq_right, mem_epsMoves]
  constructor
  · rintro ⟨bb, ⟨h, _⟩ | ⟨q, h, hq, _⟩⟩
    · exact .inl h
    · exact .inr ⟨q, (w.hasEdge_iff hst).2 h, hq⟩
  · rintro (h | ⟨q, h, hq⟩)
    · exact ⟨false, .inl ⟨h, rfl⟩⟩
    · exact ⟨true, .inr ⟨q, (w.hasEdge_iff hst).1 h, hq, rfl⟩⟩

omit [Unicode] in
/-- The closure at the start terminates. -/
theorem initRuns_exists (w : Wf nfa) {fuel : Nat} (hf : nfa.states.length ≤ fuel) :
    ∃ runs, nfa.initRuns fuel = .ok runs := by
  obtain ⟨ids, hids⟩ : ∃ ids, nfa.staticClosure fuel nfa.start = .ok ids := by
    unfold Nfa.staticClosure
    refine worklist_terminates (u := List.range nfa.states.length) ?_ ?_ ?_ (by simp) ?_
    · intro a ha
      obtain ⟨news, h1, h2⟩ := static_step w (List.mem_range.1 ha)
      refine ⟨news, h1, fun d hd => List.mem_range.2 ?_⟩
      rcases (h2 d).1 hd with h | ⟨q, h, _⟩
      · exact (w.edge_lt h).2
      · exact (w.edge_lt h).2
    · intro a ha; rw [List.mem_singleton.1 ha]; exact List.mem_range.2 w.start
    · intro a ha; rw [List.mem_singleton.1 ha]; exact List.mem_range.2 w.start
    · simp only [List.length_singleton, List.length_range]
      omega
  exact ⟨_, by simp only [Nfa.initRuns, hids]; rfl⟩

theorem initRuns_mem (w : Wf nfa) {fuel : Nat} {runs : List Run} (h : nfa.initRuns fuel = .ok runs)
    (r : Run) : r ∈ runs ↔ RunsAt nfa [] r := by
  simp only [Nfa.initRuns, Outcome.bind_eq_ok] at h
  obtain ⟨ids, hids, h⟩ := h
  simp only [Outcome.pure_eq, Outcome.ok.injEq] at h
  subst h
  have hmem : ∀ x, x ∈ ids ↔ SReach nfa.HasEdge nfa.start x := by
    intro x
    rw [(worklist_single hids).1 x]
    constructor
    · intro h
      induction h with
      | refl => exact .refl _
      | @tail y z _ _ hs hm ih =>
        obtain ⟨news', h1, h2⟩ := static_step w (ih.lt' w w.start)
        rw [h1] at hs
        cases hs
        rcases (h2 _).1 hm with h | ⟨q, h, hq⟩
        · exact ih.eps h
        · exact ih.quant h hq
    · intro h
      generalize nfa.start = p at h
      induction h with
      | refl => exact .refl
      | eps _ he ih =>
        obtain ⟨news, h1, h2⟩ := static_step w (w.edge_lt he).1
        exact ih.tail h1 ((h2 _).2 (.inl he))
      | quant _ he hq ih =>
        obtain ⟨news, h1, h2⟩ := static_step w (w.edge_lt he).1
        exact ih.tail h1 ((h2 _).2 (.inr ⟨_, he, hq⟩))
  constructor
  · intro h
    obtain ⟨x, hx, rfl⟩ := List.mem_map.1 h
    exact .init ((hmem x).1 hx)
  · intro h
    generalize hv : ([] : List Char) = v at h
    cases h with
    | init h => exact List.mem_map.2 ⟨_, (hmem _).2 h, rfl⟩
    | snoc => simp at hv

theorem charMoves_wf (w : Wf nfa) {r : Run} {st : NState} (hst : nfa.getState r.state = .ok st) (c : Char)
    (s : Run) : (∃ d ∈ st.charMoves c, s = r.takeTransition d false) ↔ CharStep nfa r c s := by
  constructor
  · rintro ⟨d, hd, rfl⟩
    obtain ⟨l, he, hc⟩ := mem_charMoves.1 hd
    exact .mk ((w.hasEdge_iff hst).2 he) hc
  · intro h
    cases h with
    | mk he hc => exact ⟨_, mem_charMoves.2 ⟨_, (w.hasEdge_iff hst).1 he, hc⟩, rfl⟩

theorem feed_mem (w : Wf nfa) {fuel : Nat} {runs runs' : List Run} {c : Char} {b : Bool}
    (h : nfa.feed fuel runs c = .ok (runs', b)) (t : Run) :
    t ∈ runs' ↔ ∃ r ∈ runs, ∃ s, CharStep nfa r c s ∧ ER nfa s t := by
  obtain ⟨h1, _⟩ := feed_ok h
  rw [(feedRuns_ok h1).2.2 t]
  constructor
  · rintro ⟨r, hr, st, hst, d, hd, hreach⟩
    have hs := (charMoves_wf w hst c _).1 ⟨d, hd, rfl⟩
    obtain ⟨i, he⟩ := hs.edge
    exact ⟨r, hr, _, hs, (reaches_iff_ER w (w.edge_lt he).2).1 hreach⟩
  · rintro ⟨r, hr, s, hs, he⟩
    obtain ⟨i, hedge⟩ := hs.edge
    have hst := w.getState (w.edge_lt hedge).1
    obtain ⟨d, hd, rfl⟩ := (charMoves_wf w hst c s).2 hs
    exact ⟨r, hr, _, hst, d, hd, (reaches_iff_ER w (w.edge_lt hedge).2).2 he⟩

theorem Fed.mem (w : Wf nfa) {fuel : Nat} {v : List Char} {runs : List Run} (h : Fed nfa fuel v runs)
    (t : Run) : t ∈ runs ↔ RunsAt nfa v t := by
  induction h generalizing t with
  | init h => exact initRuns_mem w h t
  | feed _ hf ih =>
    rw [feed_mem w hf t, RunsAt.snoc_iff]
    constructor
    · rintro ⟨r, hr, s, h1, h2⟩; exact ⟨r, s, (ih r).1 hr, h1, h2⟩
    · rintro ⟨r, s, hr, h1, h2⟩; exact ⟨r, (ih r).2 hr, s, h1, h2⟩

theorem Fed.isAccepting (w : Wf nfa) {fuel : Nat} {v : List Char} {runs : List Run} {b : Bool}
    (h : Fed nfa fuel v runs) (hb : nfa.isAccepting runs = .ok b) :
    b = true ↔ ∃ r, RunsAt nfa v r ∧ nfa.IsFinal r.state := by
  obtain ⟨b', h1, h2⟩ := isAccepting_ok (nfa := nfa) (runs := runs)
    (fun r hr => ⟨_, w.getState (((h.mem w r).1 hr).lt w)⟩)
  rw [hb] at h1
  cases h1
  rw [h2]
  constructor
  · rintro ⟨r, hr, st, hst, hf⟩
    exact ⟨r, (h.mem w r).1 hr, (w.isFinal_iff hst).2 hf⟩
  · rintro ⟨r, hr, hf⟩
    have hst := w.getState (hr.lt w)
    exact ⟨r, (h.mem w r).2 hr, _, hst, (w.isFinal_iff hst).1 hf⟩

theorem Fed.canFeed (w : Wf nfa) {fuel : Nat} {v : List Char} {runs : List Run} {c : Char} {b : Bool}
    (h : Fed nfa fuel v runs) (hb : nfa.canFeed runs c = .ok b) :
    b = true ↔ ∃ r, RunsAt nfa (v ++ [c]) r := by
  obtain ⟨b', h1, h2⟩ := canFeed_ok (nfa := nfa) (runs := runs) (c := c)
    (fun r hr => ⟨_, w.getState (((h.mem w r).1 hr).lt w)⟩)
  rw [hb] at h1
  cases h1
  rw [h2]
  constructor
  · rintro ⟨r, hr, st, hst, l, ds, h1, h2⟩
    obtain ⟨d, hd⟩ := List.exists_mem_of_ne_nil _ (w.nonempty st (getState_ok hst).1 _ h1)
    exact ⟨_, .snoc ((h.mem w r).1 hr)
      (.mk ((w.hasEdge_iff hst).2 (mem_edges.2 ⟨ds, h1, hd⟩)) h2) .refl⟩
  · rintro ⟨t, ht⟩
    obtain ⟨r, s, hr, hs, _⟩ := RunsAt.snoc_iff.1 ht
    have hst := w.getState (hr.lt w)
    cases hs with
    | mk he hc =>
      obtain ⟨ds, hd, _⟩ := mem_edges.1 ((w.hasEdge_iff hst).1 he)
      exact ⟨r, (h.mem w r).2 hr, _, hst, _, ds, hd, hc⟩

/-! ## Feeding one by one and all at once -/

theorem Fed.feedAll {fuel : Nat} {v : List Char} : ∀ {w : List Char} {runs runs' : List Run}
    {last last' : Option Bool}, Fed nfa fuel w runs → nfa.feedAll fuel runs last v = .ok (runs', last') →
    (∀ a, last = some a → nfa.isAccepting runs = .ok a) →
    Fed nfa fuel (w ++ v) runs' ∧ ∀ a, last' = some a → nfa.isAccepting runs' = .ok a := by
  induction v with
  | nil =>
    intro w runs runs' last last' h hf hl
    simp only [Nfa.feedAll, Outcome.ok.injEq, Prod.mk.injEq] at hf
    obtain ⟨rfl, rfl⟩ := hf
    exact ⟨by simpa using h, hl⟩
  | cons c v ih =>
    intro w runs runs' last last' h hf hl
    simp only [Nfa.feedAll, Outcome.bind_eq_ok] at hf
    obtain ⟨⟨r1, b1⟩, h1, h2⟩ := hf
    have := ih (h.feed h1) h2 (by rintro a ⟨⟩; exact (feed_ok h1).2)
    simpa using this

theorem simulate_fed {fuel : Nat} {v : List Char} {b : Bool}
    (h : nfa.simulate fuel v = .ok b) : ∃ runs, Fed nfa fuel v runs ∧ nfa.isAccepting runs = .ok b := by
  simp only [Nfa.simulate, Nfa.feedStr, Outcome.bind_eq_ok] at h
  obtain ⟨runs0, h0, ⟨runs, last⟩, h1, acc, h2, h3⟩ := h
  obtain ⟨k1, k2⟩ := (Fed.init h0).feedAll h1 (by simp)
  refine ⟨runs, by simpa using k1, ?_⟩
  simp only [Outcome.pure_eq, Outcome.ok.injEq] at h3
  cases last with
  | none => simp only [Option.getD] at h3; rw [← h3]; exact h2
  | some a => simp only [Option.getD] at h3; rw [← h3]; exact k2 a rfl

theorem Fed.to_feedAll {fuel : Nat} {v : List Char} {runs : List Run} (h : Fed nfa fuel v runs) :
    ∃ runs0 last, nfa.initRuns fuel = .ok runs0 ∧ nfa.feedAll fuel runs0 none v = .ok (runs, last) ∧
      ∀ a, last = some a → nfa.isAccepting runs = .ok a := by
  have snoc : ∀ (w : List Char) {runs0 runs runs' : List Run} {l l' : Option Bool} {c : Char} {b : Bool},
      nfa.feedAll fuel runs0 l w = .ok (runs, l') → nfa.feed fuel runs c = .ok (runs', b) →
      nfa.feedAll fuel runs0 l (w ++ [c]) = .ok (runs', some b) := by
    intro w
    induction w with
    | nil =>
      intro runs0 runs runs' l l' c b h1 h2
      simp only [Nfa.feedAll, Outcome.ok.injEq, Prod.mk.injEq] at h1
      obtain ⟨rfl, rfl⟩ := h1
      simp [Nfa.feedAll, h2]
    | cons a w ih =>
      intro runs0 runs runs' l l' c b h1 h2
      simp only [Nfa.feedAll, Outcome.bind_eq_ok, List.cons_append] at h1 ⊢
      obtain ⟨x, hx, h1⟩ := h1
      exact ⟨x, hx, ih h1 h2⟩
  induction h with
  | init h => exact ⟨_, none, h, rfl, by simp⟩
  | feed _ hf ih =>
    obtain ⟨runs0, last, h1, h2, h3⟩ := ih
    exact ⟨runs0, _, h1, snoc _ h2 hf, by rintro a ⟨⟩; exact (feed_ok hf).2⟩

theorem fed_simulate {fuel : Nat} {v : List Char} {runs : List Run} {b : Bool} (h : Fed nfa fuel v runs)
    (hb : nfa.isAccepting runs = .ok b) : nfa.simulate fuel v = .ok b := by
  obtain ⟨runs0, last, h1, h2, h3⟩ := h.to_feedAll
  have : last.getD b = b := by
    cases last with
    | none => rfl
    | some a =>
      have := h3 a rfl
      rw [hb] at this
      cases this
      rfl
  simp [Nfa.simulate, Nfa.feedStr, h1, h2, hb, this]

end Pango.Fsm
