import Verif.Proofs.Sim
import Verif.Spec.RegexSyntax

/-!
# What the automaton builder and the compiler produce
-/

namespace Pango.Fsm

open Pango Pango.Regex

/-- There is an edge from `s` to `d` labelled `i`. -/
def Nfa.HasEdge (nfa : Nfa) (s : Nat) (i : Input) (d : Nat) : Prop :=
  ∃ st ∈ nfa.states, st.id = s ∧ (i, d) ∈ st.edges

/-- The invariant of the builder: state ids are positions, transitions lead to states, no destination
set is empty. -/
structure Wf (nfa : Nfa) : Prop where
  ids : nfa.states.map NState.id = List.range nfa.states.length
  start : nfa.start < nfa.states.length
  targets : ∀ s ∈ nfa.states, ∀ t ∈ s.transitions, ∀ d ∈ t.2, d < nfa.states.length
  nonempty : ∀ s ∈ nfa.states, ∀ t ∈ s.transitions, t.2 ≠ []

theorem Wf.id_at {nfa : Nfa} (h : Wf nfa) {i : Nat} {s : NState} (hi : nfa.states[i]? = some s) :
    s.id = i := by
  have h1 : (nfa.states.map NState.id)[i]? = some s.id := by simp [hi]
  rw [h.ids] at h1
  have := List.getElem?_eq_some_iff.1 h1
  obtain ⟨h2, h3⟩ := this
  simpa using h3.symm

theorem Wf.mem_at {nfa : Nfa} (h : Wf nfa) {s : NState} (hs : s ∈ nfa.states) :
    nfa.states[s.id]? = some s ∧ s.id < nfa.states.length := by
  obtain ⟨i, hi⟩ := List.getElem?_of_mem hs
  have := h.id_at hi
  subst this
  exact ⟨hi, (List.getElem?_eq_some_iff.1 hi).1⟩

theorem Wf.getState {nfa : Nfa} (h : Wf nfa) {id : Nat} (hid : id < nfa.states.length) :
    nfa.getState id = .ok nfa.states[id] := by
  unfold Nfa.getState
  have hmem : nfa.states[id] ∈ nfa.states := List.getElem_mem hid
  have hidat : nfa.states[id].id = id := h.id_at (List.getElem?_eq_getElem hid)
  cases hf : nfa.states.find? (fun s => s.id == id) with
  | none =>
    have := List.find?_eq_none.1 hf _ hmem
    simp [hidat] at this
  | some s =>
    have h1 := List.mem_of_find?_eq_some hf
    have h2 : s.id = id := by simpa using List.find?_some hf
    have h3 := (h.mem_at h1).1
    rw [h2, List.getElem?_eq_getElem hid] at h3
    simp only [Option.some.injEq] at h3
    rw [← h3]
    rfl

theorem Wf.getState_none {nfa : Nfa} (h : Wf nfa) {id : Nat} (hid : ¬ id < nfa.states.length) :
    nfa.getState id = .panic := by
  unfold Nfa.getState
  cases hf : nfa.states.find? (fun s => s.id == id) with
  | none => rfl
  | some s =>
    have h1 := List.mem_of_find?_eq_some hf
    have h2 : s.id = id := by simpa using List.find?_some hf
    exact absurd (h2 ▸ (h.mem_at h1).2) hid

theorem Wf.hasEdge_iff {nfa : Nfa} (h : Wf nfa) {s : Nat} {i : Input} {d : Nat} {st : NState}
    (hst : nfa.getState s = .ok st) : nfa.HasEdge s i d ↔ (i, d) ∈ st.edges := by
  obtain ⟨h1, h2⟩ := getState_ok hst
  constructor
  · rintro ⟨st', h3, h4, h5⟩
    have e1 := (h.mem_at h1).1
    have e2 := (h.mem_at h3).1
    rw [h2] at e1
    rw [h4, e1] at e2
    cases e2
    exact h5
  · intro h3
    exact ⟨st, h1, h2, h3⟩

theorem Wf.edge_lt {nfa : Nfa} (h : Wf nfa) {s : Nat} {i : Input} {d : Nat} (he : nfa.HasEdge s i d) :
    s < nfa.states.length ∧ d < nfa.states.length := by
  obtain ⟨st, h1, h2, h3⟩ := he
  obtain ⟨ds, h4, h5⟩ := mem_edges.1 h3
  exact ⟨h2 ▸ (h.mem_at h1).2, h.targets st h1 _ h4 d h5⟩

/-! ## Builder steps -/

theorem wf_new (b : Bool) : Wf (Nfa.new b) where
  ids := rfl
  start := Nat.zero_lt_one
  targets := by simp [Nfa.new]
  nonempty := by simp [Nfa.new]

theorem wf_addState {nfa : Nfa} (h : Wf nfa) (fin : Bool) : Wf (nfa.addState fin).2 where
  ids := by
    simp only [Nfa.addState, List.map_append, List.map_cons, List.map_nil, List.length_append,
      List.length_cons, List.length_nil, h.ids]
    rw [List.range_succ]
  start := by have := h.start; simp [Nfa.addState]; omega
  targets := by
    intro s hs t ht d hd
    simp only [Nfa.addState, List.mem_append, List.mem_singleton] at hs
    rcases hs with hs | rfl
    · have := h.targets s hs t ht d hd
      simp [Nfa.addState]; omega
    · simp at ht
  nonempty := by
    intro s hs t ht
    simp only [Nfa.addState, List.mem_append, List.mem_singleton] at hs
    rcases hs with hs | rfl
    · exact h.nonempty s hs t ht
    · simp at ht

theorem addState_edge {nfa : Nfa} (fin : Bool) (s : Nat) (i : Input) (d : Nat) :
    (nfa.addState fin).2.HasEdge s i d ↔ nfa.HasEdge s i d := by
  unfold Nfa.HasEdge
  simp only [Nfa.addState, List.mem_append, List.mem_singleton]
  constructor
  · rintro ⟨st, h1 | rfl, h2, h3⟩
    · exact ⟨st, h1, h2, h3⟩
    · simp [NState.edges] at h3
  · rintro ⟨st, h1, h2, h3⟩
    exact ⟨st, .inl h1, h2, h3⟩

theorem mem_insertTransition (input : Input) (dest : Nat) (l : List (Input × List Nat)) (i : Input)
    (d : Nat) :
    (∃ ds, (i, ds) ∈ insertTransition input dest l ∧ d ∈ ds) ↔
      (∃ ds, (i, ds) ∈ l ∧ d ∈ ds) ∨ (i = input ∧ d = dest) := by
  induction l with
  | nil =>
    simp only [insertTransition, List.mem_singleton, Prod.mk.injEq, List.not_mem_nil, false_and,
      exists_false, false_or]
    constructor
    · rintro ⟨ds, ⟨rfl, rfl⟩, h⟩; exact ⟨rfl, by simpa using h⟩
    · rintro ⟨rfl, rfl⟩; exact ⟨[d], ⟨rfl, rfl⟩, by simp⟩
  | cons t l ih =>
    obtain ⟨j, ds⟩ := t
    by_cases hj : j = input
    · subst hj
      simp only [insertTransition, if_true, List.mem_cons, Prod.mk.injEq]
      have hset : ∀ x, x ∈ setInsert dest ds ↔ x ∈ ds ∨ x = dest := by
        intro x
        unfold setInsert
        split
        · rename_i hm
          constructor
          · exact .inl
          · rintro (h | rfl)
            · exact h
            · exact hm
        · simp
      constructor
      · rintro ⟨es, ⟨rfl, rfl⟩ | h, hd⟩
        · rcases (hset d).1 hd with hd | hd
          · exact .inl ⟨ds, .inl ⟨rfl, rfl⟩, hd⟩
          · exact .inr ⟨rfl, hd⟩
        · exact .inl ⟨es, .inr h, hd⟩
      · rintro (⟨es, ⟨rfl, rfl⟩ | h, hd⟩ | ⟨rfl, rfl⟩)
        · exact ⟨_, .inl ⟨rfl, rfl⟩, (hset d).2 (.inl hd)⟩
        · exact ⟨es, .inr h, hd⟩
        · exact ⟨_, .inl ⟨rfl, rfl⟩, (hset d).2 (.inr rfl)⟩
    · simp only [insertTransition, if_neg hj, List.mem_cons, Prod.mk.injEq]
      constructor
      · rintro ⟨es, ⟨rfl, rfl⟩ | h, hd⟩
        · exact .inl ⟨_, .inl ⟨rfl, rfl⟩, hd⟩
        · rcases ih.1 ⟨es, h, hd⟩ with ⟨es', h', hd'⟩ | h'
          · exact .inl ⟨es', .inr h', hd'⟩
          · exact .inr h'
      · rintro (⟨es, ⟨rfl, rfl⟩ | h, hd⟩ | h)
        · exact ⟨_, .inl ⟨rfl, rfl⟩, hd⟩
        · obtain ⟨es', h', hd'⟩ := ih.2 (.inl ⟨es, h, hd⟩)
          exact ⟨es', .inr h', hd'⟩
        · obtain ⟨es', h', hd'⟩ := ih.2 (.inr h)
          exact ⟨es', .inr h', hd'⟩

theorem insertTransition_nonempty {input : Input} {dest : Nat} {l : List (Input × List Nat)}
    (h : ∀ t ∈ l, t.2 ≠ []) : ∀ t ∈ insertTransition input dest l, t.2 ≠ [] := by
  induction l with
  | nil => simp [insertTransition]
  | cons a l ih =>
    obtain ⟨j, ds⟩ := a
    intro t ht
    unfold insertTransition at ht
    split at ht
    · rcases List.mem_cons.1 ht with rfl | ht
      · have := h (j, ds) (by simp)
        simp only [setInsert]
        split
        · exact this
        · simp
      · exact h t (by simp [ht])
    · rcases List.mem_cons.1 ht with rfl | ht
      · exact h (j, ds) (by simp)
      · exact ih (fun t ht => h t (by simp [ht])) t ht

theorem updateState_spec {id : Nat} {f : NState → NState} {l : List NState}
    (hf : ∀ s, (f s).id = s.id) (hn : (l.map NState.id).Nodup) (hid : id ∈ l.map NState.id) :
    ∃ l', updateState id f l = some l' ∧ l'.map NState.id = l.map NState.id ∧
      (∀ s', s' ∈ l' ↔ ∃ s ∈ l, (s.id = id ∧ s' = f s) ∨ (s.id ≠ id ∧ s' = s)) ∧
      (∀ i : Nat, l'[i]? = (l[i]?).map (fun s => if s.id = id then f s else s)) := by
  induction l with
  | nil => simp at hid
  | cons a l ih =>
    simp only [List.map_cons, List.nodup_cons] at hn
    by_cases ha : a.id = id
    · have hne : ∀ s ∈ l, s.id ≠ id := by
        intro s hs h
        exact hn.1 (by rw [ha, ← h]; exact List.mem_map.2 ⟨s, hs, rfl⟩)
      refine ⟨f a :: l, by simp [updateState, ha], by simp [hf], ?_, ?_⟩
      · intro s'
        constructor
        · intro h
          rcases List.mem_cons.1 h with rfl | h
          · exact ⟨a, by simp, .inl ⟨ha, rfl⟩⟩
          · exact ⟨s', by simp [h], .inr ⟨hne s' h, rfl⟩⟩
        · rintro ⟨s, hs, ⟨h1, rfl⟩ | ⟨h1, rfl⟩⟩
          · rcases List.mem_cons.1 hs with rfl | hs
            · simp
            · exact absurd h1 (hne s hs)
          · rcases List.mem_cons.1 hs with rfl | hs
            · exact absurd ha h1
            · simp [hs]
      · intro i
        cases i with
        | zero => simp [ha]
        | succ i =>
          simp only [List.getElem?_cons_succ]
          cases hi : l[i]? with
          | none => rfl
          | some s => simp [hne s (List.mem_of_getElem? hi)]
    · have hid' : id ∈ l.map NState.id := by
        rw [List.map_cons, List.mem_cons] at hid
        rcases hid with h | h
        · exact absurd h.symm ha
        · exact h
      obtain ⟨l', h1, h2, h3, h4⟩ := ih hn.2 hid'
      refine ⟨a :: l', by simp [updateState, ha, h1], by simp [h2], ?_, ?_⟩
      · intro s'
        rw [List.mem_cons, h3]
        constructor
        · rintro (rfl | ⟨s, hs, h⟩)
          · exact ⟨s', by simp, .inr ⟨ha, rfl⟩⟩
          · exact ⟨s, by simp [hs], h⟩
        · rintro ⟨s, hs, h⟩
          rcases List.mem_cons.1 hs with rfl | hs
          · rcases h with ⟨h, _⟩ | ⟨_, rfl⟩
            · exact absurd h ha
            · exact .inl rfl
          · exact .inr ⟨s, hs, h⟩
      · intro i
        cases i with
        | zero => simp [ha]
        | succ i => simpa using h4 i

/-- The flags of the states. -/
def Nfa.fins (nfa : Nfa) : List Bool := nfa.states.map NState.fin

theorem addTransition_spec {nfa : Nfa} (h : Wf nfa) {s d : Nat} {i : Input}
    (hs : s < nfa.states.length) (hd : d < nfa.states.length) :
    ∃ nfa', nfa.addTransition s d i = .ok nfa' ∧ Wf nfa' ∧ nfa'.states.length = nfa.states.length ∧
      nfa'.start = nfa.start ∧ nfa'.fins = nfa.fins ∧
      ∀ x j y, nfa'.HasEdge x j y ↔ nfa.HasEdge x j y ∨ (x = s ∧ j = i ∧ y = d) := by
  have hn : (nfa.states.map NState.id).Nodup := by rw [h.ids]; exact List.nodup_range
  have hid : s ∈ nfa.states.map NState.id := by rw [h.ids]; exact List.mem_range.2 hs
  obtain ⟨l', h1, h2, h3, h4⟩ := updateState_spec (id := s)
    (f := fun st => { st with transitions := insertTransition i d st.transitions })
    (fun _ => rfl) hn hid
  have hlen : l'.length = nfa.states.length := by
    have := congrArg List.length h2
    simpa using this
  refine ⟨{ nfa with states := l' }, by simp [Nfa.addTransition, h1], ?_, hlen, rfl, ?_, ?_⟩
  · refine ⟨by rw [h2, h.ids]; simp [hlen], by simpa [hlen] using h.start, ?_, ?_⟩
    · intro st hst t ht y hy
      simp only [hlen]
      obtain ⟨st0, hst0, ⟨_, rfl⟩ | ⟨_, rfl⟩⟩ := (h3 st).1 hst
      · obtain ⟨j, ds⟩ := t
        rcases (mem_insertTransition i d st0.transitions j y).1 ⟨ds, ht, hy⟩ with ⟨ds', h5, h6⟩ | ⟨_, rfl⟩
        · exact h.targets st0 hst0 _ h5 y h6
        · exact hd
      · exact h.targets st hst0 t ht y hy
    · intro st hst t ht
      obtain ⟨st0, hst0, ⟨_, rfl⟩ | ⟨_, rfl⟩⟩ := (h3 st).1 hst
      · exact insertTransition_nonempty (h.nonempty st0 hst0) t ht
      · exact h.nonempty st hst0 t ht
  · refine List.ext_getElem? fun k => ?_
    simp only [Nfa.fins, List.getElem?_map, h4]
    cases nfa.states[k]? with
    | none => rfl
    | some st =>
      simp only [Option.map_some, Option.some.injEq]
      split <;> rfl
  · intro x j y
    unfold Nfa.HasEdge
    constructor
    · rintro ⟨st, hst, rfl, he⟩
      obtain ⟨st0, hst0, ⟨h5, rfl⟩ | ⟨h5, rfl⟩⟩ := (h3 st).1 hst
      · rcases (mem_insertTransition i d st0.transitions j y).1 (mem_edges.1 he) with h6 | ⟨rfl, rfl⟩
        · exact .inl ⟨st0, hst0, rfl, mem_edges.2 h6⟩
        · exact .inr ⟨h5, rfl, rfl⟩
      · exact .inl ⟨st, hst0, rfl, he⟩
    · rintro (⟨st, hst, rfl, he⟩ | ⟨rfl, rfl, rfl⟩)
      · by_cases h5 : st.id = s
        · refine ⟨{ st with transitions := insertTransition i d st.transitions },
            (h3 _).2 ⟨st, hst, .inl ⟨h5, rfl⟩⟩, rfl, mem_edges.2 ?_⟩
          exact (mem_insertTransition i d st.transitions j y).2 (.inl (mem_edges.1 he))
        · exact ⟨st, (h3 _).2 ⟨st, hst, .inr ⟨h5, rfl⟩⟩, rfl, he⟩
      · obtain ⟨st, hst, hid⟩ := List.mem_map.1 hid
        refine ⟨{ st with transitions := insertTransition j y st.transitions },
          (h3 _).2 ⟨st, hst, .inl ⟨hid, rfl⟩⟩, hid, mem_edges.2 ?_⟩
        exact (mem_insertTransition j y st.transitions j y).2 (.inr ⟨rfl, rfl⟩)

theorem build_ok {nfa : Nfa} (h : Wf nfa) : nfa.build = .ok nfa := by
  unfold Nfa.build
  have h1 : (nfa.states.flatMap (fun s => s.transitions.flatMap Prod.snd)).all
      (fun d => (nfa.states.map NState.id).contains d) = true := by
    rw [List.all_eq_true]
    intro d hd
    simp only [List.mem_flatMap] at hd
    obtain ⟨s, hs, t, ht, hd⟩ := hd
    rw [h.ids]
    have := h.targets s hs t ht d hd
    simpa using this
  have h2 : (nfa.states.map NState.id).contains nfa.start = true := by
    rw [h.ids]
    simpa using h.start
  simp only [h1, h2]
  rfl

/-! ## Fragments -/

/-- A piece of the automaton that the compiler made for an expression between two states, with the
states it made: `seq` has one in the middle, `loop` the one that counts. -/
inductive Fr where
  | eps (s t : Nat)
  | lit (s t : Nat) (l : Lit)
  | alt (a b : Fr)
  | seq (a : Fr) (m : Nat) (b : Fr)
  | loop (s x t : Nat) (q : Quant) (body : Fr)

/-- The states made for the fragment. -/
def Fr.inner : Fr → List Nat
  | .eps _ _ => []
  | .lit _ _ _ => []
  | .alt a b => a.inner ++ b.inner
  | .seq a m b => m :: (a.inner ++ b.inner)
  | .loop _ x _ _ body => x :: body.inner

/-- The fragment leads from `s` to `t`. -/
def Fr.Shape : Fr → Nat → Nat → Prop
  | .eps s' t', s, t => s' = s ∧ t' = t
  | .lit s' t' _, s, t => s' = s ∧ t' = t
  | .alt a b, s, t => a.Shape s t ∧ b.Shape s t
  | .seq a m b, s, t => a.Shape s m ∧ b.Shape m t
  | .loop s' x t' _ body, s, t => s' = s ∧ t' = t ∧ body.Shape x x

/-- The edges of the fragment. -/
def Fr.Edge : Fr → Nat → Input → Nat → Prop
  | .eps s t, x, i, y => x = s ∧ i = .eps ∧ y = t
  | .lit s t l, x, i, y => x = s ∧ i = .literal l ∧ y = t
  | .alt a b, x, i, y => a.Edge x i y ∨ b.Edge x i y
  | .seq a _ b, x, i, y => a.Edge x i y ∨ b.Edge x i y
  | .loop s h t q body, x, i, y =>
    (x = s ∧ i = .eps ∧ y = h) ∨ (x = h ∧ i = .quantified q ∧ y = t) ∨ body.Edge x i y

mutual

/-- The fragment the compiler makes for an expression between `s` and `t`, when the next new state is
`n`, and the next new state afterwards. -/
def frag : Expr → Nat → Nat → Nat → Fr × Nat
  | .concat es, s, t, n => fragConcat es s t n
  | .empty, s, t, n => (.eps s t, n)
  | .alt l r, s, t, n =>
    let (a, n) := frag l s t n
    let (b, n) := frag r s t n
    (.alt a b, n)
  | .lit l none, s, t, n => (.lit s t l, n)
  | .lit l (some q), s, t, n => (.loop s n t q (.lit n n l), n + 1)
  | .group e none, s, t, n => frag e s t n
  | .group e (some q), s, t, n =>
    let (b, n') := frag e n n (n + 1)
    (.loop s n t q b, n')

/-- `frag` for a sequence; the empty sequence is not compiled. -/
def fragConcat : List Expr → Nat → Nat → Nat → Fr × Nat
  | [], s, t, n => (.eps s t, n)
  | [e], s, t, n => frag e s t n
  | e :: es, s, t, n =>
    let (a, n1) := frag e s n (n + 1)
    let (b, n2) := fragConcat es n t n1
    (.seq a n b, n2)

end

/-- The states of a fragment made from `lo` to `hi` are new and all different. -/
structure Fr.Fresh (fr : Fr) (s t lo hi : Nat) : Prop where
  shape : fr.Shape s t
  range : ∀ x ∈ fr.inner, lo ≤ x ∧ x < hi
  nodup : fr.inner.Nodup
  le : lo ≤ hi

/-- What compiling does to the automaton. -/
def Compiled (nfa : Nfa) (fr : Fr) (n' : Nat) (s t : Nat) (r : Outcome Nfa) : Prop :=
  ∃ nfa', r = .ok nfa' ∧ Wf nfa' ∧ nfa'.states.length = n' ∧ nfa'.start = nfa.start ∧
    nfa'.fins = nfa.fins ++ List.replicate (n' - nfa.states.length) false ∧
    (∀ x i y, nfa'.HasEdge x i y ↔ nfa.HasEdge x i y ∨ fr.Edge x i y) ∧
    fr.Fresh s t nfa.states.length n'

open Pango.Spec (HasEmptySeq AnyEmptySeq)

theorem fins_addState (nfa : Nfa) (b : Bool) : (nfa.addState b).2.fins = nfa.fins ++ [b] := by
  simp [Nfa.fins, Nfa.addState]

theorem length_addState (nfa : Nfa) (b : Bool) :
    (nfa.addState b).2.states.length = nfa.states.length + 1 := by simp [Nfa.addState]

theorem insertQuantifierState_spec {nfa : Nfa} (h : Wf nfa) {s d : Nat} (q : Quant)
    (hs : s < nfa.states.length) (hd : d < nfa.states.length) :
    ∃ nfa', insertQuantifierState nfa q s d = .ok (nfa.states.length, nfa') ∧ Wf nfa' ∧
      nfa'.states.length = nfa.states.length + 1 ∧ nfa'.start = nfa.start ∧
      nfa'.fins = nfa.fins ++ [false] ∧
      ∀ x j y, nfa'.HasEdge x j y ↔ nfa.HasEdge x j y ∨ (x = s ∧ j = .eps ∧ y = nfa.states.length) ∨
        (x = nfa.states.length ∧ j = .quantified q ∧ y = d) := by
  obtain ⟨n1, e1, w1, l1, s1, f1, ed1⟩ := addTransition_spec (wf_addState h false)
    (s := nfa.states.length) (d := d) (i := .quantified q)
    (by rw [length_addState]; omega) (by rw [length_addState]; omega)
  obtain ⟨n2, e2, w2, l2, s2, f2, ed2⟩ := addTransition_spec w1
    (s := s) (d := nfa.states.length) (i := .eps)
    (by rw [l1, length_addState]; omega) (by rw [l1, length_addState]; omega)
  refine ⟨n2, ?_, w2, by rw [l2, l1, length_addState], by rw [s2, s1]; rfl,
    by rw [f2, f1, fins_addState], ?_⟩
  · have e0 : nfa.addQuantifiedState false q d = .ok (nfa.states.length, n1) := by
      simp only [Nfa.addQuantifiedState]
      rw [show (nfa.addState false).1 = nfa.states.length from rfl, e1]
      rfl
    simp only [insertQuantifierState, e0, Outcome.bind_ok, e2, Outcome.pure_eq]
  · intro x j y
    rw [ed2, ed1, addState_edge]
    constructor
    · rintro ((h | h) | h)
      · exact .inl h
      · exact .inr (.inr h)
      · exact .inr (.inl h)
    · rintro (h | h | h)
      · exact .inl (.inl h)
      · exact .inr h
      · exact .inl (.inr h)

theorem replicate_shift (a b c : Nat) (h1 : a + 1 ≤ b) (h2 : b ≤ c) :
    false :: List.replicate (b - (a + 1)) false ++ List.replicate (c - b) false =
      List.replicate (c - a) false := by
  rw [← List.replicate_succ, List.replicate_append_replicate]
  congr 1
  omega

mutual

theorem compileExpr_spec (e : Expr) : ∀ (s t : Nat) (nfa : Nfa), Wf nfa → ¬ HasEmptySeq e →
    s < nfa.states.length → t < nfa.states.length →
    Compiled nfa (frag e s t nfa.states.length).1 (frag e s t nfa.states.length).2 s t
      (compileExpr e s t nfa) := by
  match e with
  | .concat es =>
    intro s t nfa w hne hs ht
    rw [frag, compileExpr]
    simp only [HasEmptySeq, not_or] at hne
    exact compileConcat_spec es s t nfa w hne.1 hne.2 hs ht
  | .empty =>
    intro s t nfa w hne hs ht
    obtain ⟨n1, e1, w1, l1, s1, f1, ed1⟩ := addTransition_spec w (s := s) (d := t) (i := .eps) hs ht
    rw [frag, compileExpr]
    refine ⟨n1, e1, w1, l1, s1, by simpa using f1, ed1, ⟨⟨rfl, rfl⟩, by simp [Fr.inner],
      by simp [Fr.inner], Nat.le_refl _⟩⟩
  | .alt l r =>
    intro s t nfa w hne hs ht
    simp only [HasEmptySeq, not_or] at hne
    obtain ⟨n1, e1, w1, l1, s1, f1, ed1, fr1⟩ := compileExpr_spec l s t nfa w hne.1 hs ht
    have hle := fr1.le
    obtain ⟨n2, e2, w2, l2, s2, f2, ed2, fr2⟩ := compileExpr_spec r s t n1 w1 hne.2
      (by rw [l1]; omega) (by rw [l1]; omega)
    rw [l1] at l2 f2 ed2 fr2
    have hle2 := fr2.le
    rw [frag, compileExpr]
    simp only
    refine ⟨n2, by simp [e1, e2], w2, l2, by rw [s2, s1], ?_, ?_, ⟨⟨fr1.shape, fr2.shape⟩, ?_, ?_, ?_⟩⟩
    · rw [f2, f1, List.append_assoc, List.replicate_append_replicate]
      congr 2; omega
    · intro x i y
      rw [ed2, ed1, or_assoc]
      rfl
    · intro x hx
      rcases List.mem_append.1 hx with hx | hx
      · have := fr1.range x hx; omega
      · have := fr2.range x hx; omega
    · refine List.nodup_append.2 ⟨fr1.nodup, fr2.nodup, ?_⟩
      intro x hx y hy hxy
      have := fr1.range x hx
      have := fr2.range y hy
      omega
    · omega
  | .lit l none =>
    intro s t nfa w hne hs ht
    obtain ⟨n1, e1, w1, l1, s1, f1, ed1⟩ := addTransition_spec w (s := s) (d := t) (i := .literal l) hs ht
    rw [frag, compileExpr]
    refine ⟨n1, e1, w1, l1, s1, by simpa using f1, ed1, ⟨⟨rfl, rfl⟩, by simp [Fr.inner],
      by simp [Fr.inner], Nat.le_refl _⟩⟩
  | .lit l (some q) =>
    intro s t nfa w hne hs ht
    obtain ⟨n1, e1, w1, l1, s1, f1, ed1⟩ := insertQuantifierState_spec w q hs ht
    obtain ⟨n2, e2, w2, l2, s2, f2, ed2⟩ := addTransition_spec w1 (s := nfa.states.length)
      (d := nfa.states.length) (i := .literal l) (by omega) (by omega)
    rw [frag, compileExpr]
    refine ⟨n2, by simp [e1, e2], w2, by rw [l2, l1], by rw [s2, s1], ?_, ?_,
      ⟨⟨rfl, rfl, rfl, rfl⟩, ?_, ?_, by omega⟩⟩
    · rw [f2, f1]
      congr 1
      simp
    · intro x i y
      rw [ed2, ed1]
      simp only [Fr.Edge]
      constructor
      · rintro ((h | h | h) | h)
        · exact .inl h
        · exact .inr (.inl h)
        · exact .inr (.inr (.inl h))
        · exact .inr (.inr (.inr h))
      · rintro (h | h | h | h)
        · exact .inl (.inl h)
        · exact .inl (.inr (.inl h))
        · exact .inl (.inr (.inr h))
        · exact .inr h
    · intro x hx; simp [Fr.inner] at hx; omega
    · simp [Fr.inner]
  | .group e none =>
    intro s t nfa w hne hs ht
    rw [frag, compileExpr]
    simp only [HasEmptySeq] at hne
    exact compileExpr_spec e s t nfa w hne hs ht
  | .group e (some q) =>
    intro s t nfa w hne hs ht
    simp only [HasEmptySeq] at hne
    obtain ⟨n1, e1, w1, l1, s1, f1, ed1⟩ := insertQuantifierState_spec w q hs ht
    obtain ⟨n2, e2, w2, l2, s2, f2, ed2, fr2⟩ := compileExpr_spec e nfa.states.length
      nfa.states.length n1 w1 hne (by omega) (by omega)
    rw [l1] at l2 f2 ed2 fr2
    have hle := fr2.le
    rw [frag, compileExpr]
    simp only
    refine ⟨n2, by simp [e1, e2], w2, l2, by rw [s2, s1], ?_, ?_,
      ⟨⟨rfl, rfl, fr2.shape⟩, ?_, ?_, by omega⟩⟩
    · rw [f2, f1, List.append_assoc]
      congr 1
      show false :: List.replicate _ false = _
      rw [← List.replicate_succ]
      congr 1; omega
    · intro x i y
      rw [ed2, ed1]
      simp only [Fr.Edge]
      constructor
      · rintro ((h | h | h) | h)
        · exact .inl h
        · exact .inr (.inl h)
        · exact .inr (.inr (.inl h))
        · exact .inr (.inr (.inr h))
      · rintro (h | h | h | h)
        · exact .inl (.inl h)
        · exact .inl (.inr (.inl h))
        · exact .inl (.inr (.inr h))
        · exact .inr h
    · intro x hx
      rcases List.mem_cons.1 hx with rfl | hx
      · omega
      · have := fr2.range x hx; omega
    · refine List.nodup_cons.2 ⟨fun hx => ?_, fr2.nodup⟩
      have := fr2.range _ hx; omega

theorem compileConcat_spec (es : List Expr) : ∀ (s t : Nat) (nfa : Nfa), Wf nfa → es ≠ [] →
    ¬ AnyEmptySeq es → s < nfa.states.length → t < nfa.states.length →
    Compiled nfa (fragConcat es s t nfa.states.length).1 (fragConcat es s t nfa.states.length).2 s t
      (compileConcat es s t nfa) := by
  match es with
  | [] => intro s t nfa w hne; exact absurd rfl hne
  | [e] =>
    intro s t nfa w _ hne hs ht
    rw [fragConcat, compileConcat]
    simp only [AnyEmptySeq, or_false] at hne
    exact compileExpr_spec e s t nfa w hne hs ht
  | e :: e' :: es =>
    intro s t nfa w _ hne hs ht
    rw [AnyEmptySeq, not_or] at hne
    have w0 := wf_addState w false
    obtain ⟨n1, e1, w1, l1, s1, f1, ed1, fr1⟩ := compileExpr_spec e s nfa.states.length
      (nfa.addState false).2 w0 hne.1 (by rw [length_addState]; omega) (by rw [length_addState]; omega)
    rw [length_addState] at l1 f1 ed1 fr1
    have hle := fr1.le
    obtain ⟨n2, e2, w2, l2, s2, f2, ed2, fr2⟩ := compileConcat_spec (e' :: es) nfa.states.length t n1 w1
      (by simp) hne.2 (by omega) (by omega)
    rw [l1] at l2 f2 ed2 fr2
    have hle2 := fr2.le
    rw [fragConcat.eq_3 _ _ _ _ _ (by simp), compileConcat.eq_3 _ _ _ _ _ (by simp)]
    simp only
    refine ⟨n2, ?_, w2, l2, by rw [s2, s1]; rfl, ?_, ?_, ⟨⟨fr1.shape, fr2.shape⟩, ?_, ?_, by omega⟩⟩
    · show (do let nfa' ← compileExpr e s nfa.states.length (nfa.addState false).2
               compileConcat (e' :: es) nfa.states.length t nfa') = _
      rw [e1, Outcome.bind_ok, e2]
    · rw [f2, f1, fins_addState, List.append_assoc, List.append_assoc, List.singleton_append,
        ← List.cons_append]
      congr 1
      exact replicate_shift _ _ _ hle hle2
    · intro x i y
      rw [ed2, ed1, addState_edge, or_assoc]
      rfl
    · intro x hx
      rcases List.mem_cons.1 hx with rfl | hx
      · omega
      · rcases List.mem_append.1 hx with hx | hx
        · have := fr1.range x hx; omega
        · have := fr2.range x hx; omega
    · refine List.nodup_cons.2 ⟨fun hx => ?_, List.nodup_append.2 ⟨fr1.nodup, fr2.nodup, ?_⟩⟩
      · rcases List.mem_append.1 hx with hx | hx
        · have := fr1.range _ hx; omega
        · have := fr2.range _ hx; omega
      · intro x hx y hy hxy
        have := fr1.range x hx
        have := fr2.range y hy
        omega

end

/-! ## Several expressions in one automaton -/

/-- `k` is a final state. -/
def Nfa.IsFinal (nfa : Nfa) (k : Nat) : Prop := nfa.fins[k]? = some true

theorem Wf.isFinal_iff {nfa : Nfa} (h : Wf nfa) {k : Nat} {st : NState} (hst : nfa.getState k = .ok st) :
    nfa.IsFinal k ↔ st.fin = true := by
  obtain ⟨h1, rfl⟩ := getState_ok hst
  simp [Nfa.IsFinal, Nfa.fins, (h.mem_at h1).1]

/-- The automaton consists of fragments, each from state 0 to a final state of its own. -/
structure Bundle (nfa : Nfa) (rs : List (Fr × Nat)) : Prop where
  wf : Wf nfa
  start : nfa.start = 0
  edges : ∀ x i y, nfa.HasEdge x i y ↔ ∃ r ∈ rs, r.1.Edge x i y
  shape : ∀ r ∈ rs, r.1.Shape 0 r.2
  nodup : (0 :: rs.flatMap (fun r => r.2 :: r.1.inner)).Nodup
  lt : ∀ x ∈ rs.flatMap (fun r => r.2 :: r.1.inner), x < nfa.states.length
  finals : ∀ k, nfa.IsFinal k ↔ k = 1 ∨ ∃ r ∈ rs, k = r.2
  two : ∀ r ∈ rs, ∀ x ∈ r.1.inner, 2 ≤ x

theorem Bundle.addState {nfa : Nfa} {rs : List (Fr × Nat)} (b : Bundle nfa rs) :
    Wf (nfa.addState true).2 ∧ (nfa.addState true).2.start = 0 ∧
    (∀ x i y, (nfa.addState true).2.HasEdge x i y ↔ ∃ r ∈ rs, r.1.Edge x i y) ∧
    (∀ k, (nfa.addState true).2.IsFinal k ↔ (k = 1 ∨ ∃ r ∈ rs, k = r.2) ∨ k = nfa.states.length) := by
  refine ⟨wf_addState b.wf _, b.start, fun x i y => by rw [addState_edge, b.edges], fun k => ?_⟩
  rw [← b.finals]
  unfold Nfa.IsFinal
  rw [fins_addState]
  have hlen : nfa.fins.length = nfa.states.length := by simp [Nfa.fins]
  rcases Nat.lt_trichotomy k nfa.states.length with h | h | h
  · rw [List.getElem?_append_left (by omega)]
    constructor
    · exact .inl
    · rintro (h' | h')
      · exact h'
      · omega
  · subst h
    simp [← hlen]
  · rw [List.getElem?_append_right (by omega)]
    constructor
    · intro h'
      rw [List.getElem?_eq_none (by simp; omega)] at h'
      cases h'
    · rintro (h' | h')
      · rw [List.getElem?_eq_none (by omega)] at h'
        cases h'
      · omega

/-- Adding an expression up to the final state `f`. -/
theorem bundle_extend {nfa : Nfa} {rs : List (Fr × Nat)} {f : Nat} {e : Expr}
    (wf : Wf nfa) (start : nfa.start = 0)
    (edges : ∀ x i y, nfa.HasEdge x i y ↔ ∃ r ∈ rs, r.1.Edge x i y)
    (shape : ∀ r ∈ rs, r.1.Shape 0 r.2)
    (nodup : (0 :: (rs.flatMap (fun r => r.2 :: r.1.inner) ++ [f])).Nodup)
    (lt : ∀ x ∈ rs.flatMap (fun r => r.2 :: r.1.inner), x < nfa.states.length)
    (finals : ∀ k, nfa.IsFinal k ↔ (k = 1 ∨ ∃ r ∈ rs, k = r.2) ∨ k = f)
    (two : ∀ r ∈ rs, ∀ x ∈ r.1.inner, 2 ≤ x)
    (hf : f < nfa.states.length) (h2 : 2 ≤ nfa.states.length) (he : ¬ HasEmptySeq e) :
    ∃ nfa', compileExpr e nfa.start f nfa = .ok nfa' ∧
      Bundle nfa' (rs ++ [((frag e 0 f nfa.states.length).1, f)]) := by
  obtain ⟨n1, e1, w1, l1, s1, f1, ed1, fr1⟩ := compileExpr_spec e 0 f nfa wf he
    (by have := wf.start; omega) hf
  have hle := fr1.le
  have hpos := wf.start
  refine ⟨n1, by rw [start, e1], w1, by rw [s1, start], ?_, ?_, ?_, ?_, ?_, ?_⟩
  · intro x i y
    rw [ed1, edges]
    simp [or_and_right, exists_or]
  · intro r hr
    rcases List.mem_append.1 hr with hr | hr
    · exact shape r hr
    · rw [List.mem_singleton.1 hr]
      exact fr1.shape
  · rw [List.flatMap_append]
    simp only [List.flatMap_cons, List.flatMap_nil, List.append_nil]
    rw [← List.singleton_append (l := (frag e 0 f nfa.states.length).1.inner),
      ← List.append_assoc, ← List.cons_append]
    refine List.nodup_append.2 ⟨nodup, fr1.nodup, ?_⟩
    intro x hx y hy hxy
    subst hxy
    have h1 := fr1.range x hy
    rcases List.mem_cons.1 hx with rfl | hx
    · omega
    · rcases List.mem_append.1 hx with hx | hx
      · have := lt x hx; omega
      · rw [List.mem_singleton.1 hx] at h1; omega
  · intro x hx
    rw [List.flatMap_append, List.mem_append] at hx
    rcases hx with hx | hx
    · have := lt x hx; omega
    · simp only [List.flatMap_cons, List.flatMap_nil, List.append_nil, List.mem_cons] at hx
      rcases hx with rfl | hx
      · omega
      · have := fr1.range x hx; omega
  · intro k
    have hfin : n1.IsFinal k ↔ nfa.IsFinal k := by
      unfold Nfa.IsFinal
      rw [f1]
      by_cases hk : k < nfa.fins.length
      · rw [List.getElem?_append_left hk]
      · rw [List.getElem?_append_right (by omega), List.getElem?_eq_none (l := nfa.fins) (by omega)]
        simp [List.getElem?_replicate]
    rw [hfin, finals]
    simp [or_and_right, exists_or, or_assoc]
  · intro r hr x hx
    rcases List.mem_append.1 hr with hr | hr
    · exact two r hr x hx
    · rw [List.mem_singleton.1 hr] at hx
      have := fr1.range x hx
      omega

/-- `new_final` and `add_expression` for every tree, in order: the compiler and the final states. -/
def compileTrees (c : Compiler) : List Expr → Outcome (Compiler × List Nat)
  | [] => .ok (c, [])
  | e :: es => do
    let (f, c) := c.newFinal
    let c ← c.addExpression e
    let (c, fs) ← compileTrees c es
    pure (c, f :: fs)

/-- The fragments that `compileTrees` makes. -/
def fragTrees (n : Nat) : List Expr → List (Fr × Nat)
  | [] => []
  | e :: es => ((frag e 0 n (n + 1)).1, n) :: fragTrees (frag e 0 n (n + 1)).2 es

theorem compileExpr_length {nfa nfa' : Nfa} {e : Expr} {s t : Nat} (w : Wf nfa) (he : ¬ HasEmptySeq e)
    (hs : s < nfa.states.length) (ht : t < nfa.states.length) (h : compileExpr e s t nfa = .ok nfa') :
    nfa'.states.length = (frag e s t nfa.states.length).2 := by
  obtain ⟨n1, e1, w1, l1, _⟩ := compileExpr_spec e s t nfa w he hs ht
  rw [e1] at h
  cases h
  exact l1

theorem compileTrees_spec (es : List Expr) (hes : ∀ e ∈ es, ¬ HasEmptySeq e) :
    ∀ (c : Compiler) (rs : List (Fr × Nat)), Bundle c.nfa rs → 2 ≤ c.nfa.states.length →
    ∃ c', compileTrees c es = .ok (c', (fragTrees c.nfa.states.length es).map Prod.snd) ∧
      Bundle c'.nfa (rs ++ fragTrees c.nfa.states.length es) ∧
      c.nfa.states.length ≤ c'.nfa.states.length := by
  induction es with
  | nil => intro c rs b _; exact ⟨c, rfl, by simpa [fragTrees] using b, Nat.le_refl _⟩
  | cons e es ih =>
    intro c rs b h2
    obtain ⟨w, st, ed, fi⟩ := b.addState
    have he := hes e (by simp)
    have hlen := length_addState c.nfa true
    obtain ⟨n1, e1, b1⟩ := bundle_extend (f := c.nfa.states.length) w st ed b.shape
      (by
        rw [← List.cons_append]
        refine List.nodup_append.2 ⟨b.nodup, by simp, ?_⟩
        intro x hx y hy hxy
        rw [List.mem_singleton.1 hy] at hxy
        rcases List.mem_cons.1 hx with rfl | hx
        · omega
        · have := b.lt x hx; omega)
      (fun x hx => by rw [hlen]; have := b.lt x hx; omega) fi b.two (by rw [hlen]; omega) (by rw [hlen]; omega) he
    have hl1 : n1.states.length = (frag e 0 c.nfa.states.length (c.nfa.states.length + 1)).2 := by
      rw [st] at e1
      have := compileExpr_length w he (by omega) (by omega) e1
      rwa [hlen] at this
    have hle : c.nfa.states.length + 1 ≤ n1.states.length := by
      obtain ⟨n2, e2, w2, l2, _, _, _, fr2⟩ := compileExpr_spec e 0 c.nfa.states.length
        (c.nfa.addState true).2 w he (by omega) (by omega)
      rw [st, e2] at e1
      cases e1
      have := fr2.le
      omega
    obtain ⟨c', e3, b3, l3⟩ := ih (fun e he => hes e (by simp [he])) ⟨n1, c.nfa.states.length⟩ _ b1
      (by show 2 ≤ n1.states.length; omega)
    simp only [hlen] at e3 b3 l3
    rw [hl1] at e3 b3
    refine ⟨c', ?_, ?_, by omega⟩
    · simp only [compileTrees, Compiler.newFinal, Compiler.addExpression]
      rw [show (c.nfa.addState true).1 = c.nfa.states.length from rfl, e1]
      simp only [Outcome.bind_ok, Outcome.pure_eq, e3, fragTrees, List.map_cons]
    · simpa [fragTrees] using b3

theorem bundle_new : Bundle Compiler.new.nfa [] where
  wf := wf_addState (wf_new false) true
  start := rfl
  edges := by
    intro x i y
    constructor
    · rintro ⟨st, h1, h2, h3⟩
      simp only [Compiler.new, Nfa.new, Nfa.addState, List.mem_append, List.mem_singleton] at h1
      rcases h1 with rfl | rfl <;> simp [NState.edges] at h3
    · simp
  shape := by simp
  nodup := by simp
  lt := by simp
  finals := by
    intro k
    show [false, true][k]? = some true ↔ _
    rcases k with _ | _ | k <;> simp
  two := by simp

/-- The automaton of a single tree. -/
theorem nfaOfAst_bundle {e : Expr} (he : ¬ HasEmptySeq e) :
    ∃ nfa, nfaOfAst e = .ok nfa ∧ Bundle nfa [((frag e 0 1 2).1, 1)] := by
  obtain ⟨n1, e1, b1⟩ := bundle_extend (f := 1) bundle_new.wf rfl bundle_new.edges bundle_new.shape
    (by simp) bundle_new.lt (fun k => by rw [bundle_new.finals]; simp)
    bundle_new.two (by decide) (by decide) he
  refine ⟨n1, ?_, b1⟩
  simp only [nfaOfAst, Compiler.addExpression]
  rw [show Compiler.new.finalState = 1 from rfl, e1]
  simp only [Outcome.bind_ok, Outcome.pure_eq, build_ok b1.wf]

/-- The automaton of several trees. -/
theorem compileTrees_bundle {es : List Expr} (hes : ∀ e ∈ es, ¬ HasEmptySeq e) :
    ∃ c, compileTrees Compiler.new es = .ok (c, (fragTrees 2 es).map Prod.snd) ∧
      c.nfa.build = .ok c.nfa ∧ Bundle c.nfa (fragTrees 2 es) := by
  obtain ⟨c, h1, h2, _⟩ := compileTrees_spec es hes Compiler.new [] bundle_new (by decide)
  rw [List.nil_append] at h2
  exact ⟨c, h1, build_ok h2.wf, h2⟩

mutual

/-- An empty sequence makes the compiler panic, wherever it is. -/
theorem compileExpr_panics (e : Expr) : HasEmptySeq e → ∀ (s t : Nat) (nfa : Nfa), Wf nfa →
    s < nfa.states.length → t < nfa.states.length → compileExpr e s t nfa = .panic := by
  match e with
  | .concat es =>
    intro he s t nfa w hs ht
    simp only [HasEmptySeq] at he
    rw [compileExpr]
    rcases he with rfl | he
    · rfl
    · exact compileConcat_panics es he s t nfa w hs ht
  | .empty => intro he; simp [HasEmptySeq] at he
  | .alt l r =>
    intro he s t nfa w hs ht
    simp only [HasEmptySeq] at he
    rw [compileExpr]
    by_cases hl : HasEmptySeq l
    · rw [compileExpr_panics l hl s t nfa w hs ht]; rfl
    · obtain ⟨n1, e1, w1, l1, _, _, _, fr1⟩ := compileExpr_spec l s t nfa w hl hs ht
      have := fr1.le
      rw [e1, Outcome.bind_ok]
      exact compileExpr_panics r (he.resolve_left hl) s t n1 w1 (by omega) (by omega)
  | .lit l q => intro he; simp [HasEmptySeq] at he
  | .group e none =>
    intro he s t nfa w hs ht
    simp only [HasEmptySeq] at he
    rw [compileExpr]
    exact compileExpr_panics e he s t nfa w hs ht
  | .group e (some q) =>
    intro he s t nfa w hs ht
    simp only [HasEmptySeq] at he
    rw [compileExpr]
    obtain ⟨n1, e1, w1, l1, _⟩ := insertQuantifierState_spec w q hs ht
    rw [e1, Outcome.bind_ok]
    exact compileExpr_panics e he _ _ n1 w1 (by omega) (by omega)

theorem compileConcat_panics (es : List Expr) : AnyEmptySeq es → ∀ (s t : Nat) (nfa : Nfa), Wf nfa →
    s < nfa.states.length → t < nfa.states.length → compileConcat es s t nfa = .panic := by
  match es with
  | [] => intro he; simp [AnyEmptySeq] at he
  | [e] =>
    intro he s t nfa w hs ht
    simp only [AnyEmptySeq, or_false] at he
    rw [compileConcat]
    exact compileExpr_panics e he s t nfa w hs ht
  | e :: e' :: es =>
    intro he s t nfa w hs ht
    rw [AnyEmptySeq] at he
    rw [compileConcat.eq_3 _ _ _ _ _ (by simp)]
    have w0 := wf_addState w false
    have l0 := length_addState nfa false
    by_cases hl : HasEmptySeq e
    · show (compileExpr e s nfa.states.length (nfa.addState false).2 >>= _) = _
      rw [compileExpr_panics e hl s nfa.states.length _ w0 (by omega) (by omega)]; rfl
    · obtain ⟨n1, e1, w1, l1, _, _, _, fr1⟩ := compileExpr_spec e s nfa.states.length
        (nfa.addState false).2 w0 hl (by omega) (by omega)
      have := fr1.le
      show (compileExpr e s nfa.states.length (nfa.addState false).2 >>= _) = _
      rw [e1, Outcome.bind_ok]
      exact compileConcat_panics (e' :: es) (he.resolve_left hl) _ _ n1 w1 (by omega) (by omega)

end

end Pango.Fsm
