import Verif.Proofs.Closure

/-!
# The construction of the automaton
-/

namespace Pango.Parse

open Pango Pango.Spec

variable {V T : Type}

/-! ## Subsets of a list -/

/-- All sublists. -/
def subs {α : Type} : List α → List (List α)
  | [] => [[]]
  | a :: l => subs l ++ (subs l).map (a :: ·)

theorem subs_length {α : Type} (l : List α) : (subs l).length = 2 ^ l.length := by
  induction l with
  | nil => rfl
  | cons a l ih => simp [subs, ih, Nat.pow_succ]; omega

theorem filter_mem_subs {α : Type} (p : α → Bool) (l : List α) : l.filter p ∈ subs l := by
  induction l with
  | nil => simp [subs]
  | cons a l ih =>
    rw [List.filter_cons]
    split
    · exact List.mem_append.2 (.inr (List.mem_map.2 ⟨_, ih, rfl⟩))
    · exact List.mem_append.2 (.inl ih)

theorem filter_length_le {α : Type} {p q : α → Bool} {l : List α} (h : ∀ a ∈ l, q a → p a) :
    (l.filter q).length ≤ (l.filter p).length := by
  induction l with
  | nil => simp
  | cons a l ih =>
    have ih := ih fun b hb => h b (by simp [hb])
    have ha := h a (by simp)
    simp only [List.filter_cons]
    split
    · rename_i hq
      rw [if_pos (ha hq)]
      simp; omega
    · split
      · simp; omega
      · exact ih

theorem filter_length_lt {α : Type} {p q : α → Bool} {l : List α} (h : ∀ a ∈ l, q a → p a) {a : α} (ha : a ∈ l)
    (hp : p a) (hq : q a = false) : (l.filter q).length + 1 ≤ (l.filter p).length := by
  induction l with
  | nil => cases ha
  | cons b l ih =>
    simp only [List.filter_cons]
    rcases List.mem_cons.1 ha with rfl | ha
    · have := filter_length_le (p := p) (q := q) (l := l) fun c hc => h c (by simp [hc])
      rw [if_pos hp, if_neg (by simp [hq])]
      simp; omega
    · have ih := ih (fun c hc => h c (by simp [hc])) ha
      have hb := h b (by simp)
      split
      · rename_i hq
        rw [if_pos (hb hq)]
        simp; omega
      · split
        · simp; omega
        · exact ih

/-! ## Item sets -/

variable {g : Grammar V T}

/-- All items of a grammar. -/
def allItems (g : Grammar V T) : ItemSet V T :=
  g.rules.flatMap fun r => (List.range (r.2.length + 1)).map fun c => (r.1, ⟨r.2, c⟩)

theorem ItemOk.mem {p : V × Item V T} (h : ItemOk g p) : p ∈ allItems g := by
  refine List.mem_flatMap.2 ⟨(p.1, p.2.body), h.rule, List.mem_map.2 ⟨p.2.cursor, ?_, rfl⟩⟩
  have := h.le
  simp only [List.mem_range]
  omega

theorem _root_.Pango.Spec.Closure.ok {given : V × Item V T → Prop} (hg : ∀ p, given p → ItemOk g p) {p : V × Item V T}
    (h : Closure g given p) : ItemOk g p := by
  induction h with
  | given h => exact hg _ h
  | expand _ _ hr hf _ =>
    rw [fresh_iff] at hf
    subst hf
    exact .fresh hr

theorem _root_.Pango.Spec.Closure.congr {P Q : V × Item V T → Prop} (h : ∀ p, P p ↔ Q p) {p : V × Item V T} :
    Closure g P p ↔ Closure g Q p := by
  have : P = Q := funext fun p => propext (h p)
  rw [this]

theorem ItemOk.var {p : V × Item V T} (wf : WellFormed g) (h : ItemOk g p) {v : V}
    (hv : p.2.cursorSymbol = some (.var v)) : ∃ β, (v, β) ∈ g.rules := by
  obtain ⟨pre, post, h1, _⟩ := reads_iff.2 hv
  exact wf.closed _ _ v h.rule (by rw [h1]; simp)

/-- The items behind the cursor. -/
def Next (I : ItemSet V T) (x : Sym V T) (q : V × Item V T) : Prop :=
  ∃ h i, (h, i) ∈ I ∧ i.cursorSymbol = some x ∧ q = (h, i.advance)

/-- The start items. -/
def Start (g : Grammar V T) (q : V × Item V T) : Prop :=
  ∃ β, (g.start, β) ∈ g.rules ∧ q = (g.start, Item.ofBody β)

/-- A set of proper items. -/
structure SetOk (g : Grammar V T) (I : ItemSet V T) : Prop where
  nodup : I.Nodup
  ok : ∀ p ∈ I, ItemOk g p

variable [DecidableEq V] [DecidableEq T]

theorem SetOk.length {I : ItemSet V T} (h : SetOk g I) : I.length ≤ (allItems g).length :=
  nodup_length_le h.nodup fun p hp => (h.ok p hp).mem

theorem nodup_collectSet {α : Type} [DecidableEq α] (l : List α) : (collectSet l).Nodup :=
  nodup_extendSet (by simp)

theorem mem_collectSet {α : Type} [DecidableEq α] {l : List α} {a : α} : a ∈ collectSet l ↔ a ∈ l := mem_collect

theorem length_collectSet {α : Type} [DecidableEq α] (l : List α) : (collectSet l).length ≤ l.length :=
  nodup_length_le (nodup_collectSet l) fun _ h => mem_collectSet.1 h

theorem sameItems_iff {I J : ItemSet V T} : sameItems I J = true ↔ ∀ p, p ∈ I ↔ p ∈ J := by
  simp only [sameItems, Bool.and_eq_true, List.all_eq_true, decide_eq_true_eq]
  exact ⟨fun h p => ⟨h.1 p, h.2 p⟩, fun h => ⟨fun p => (h p).1, fun p => (h p).2⟩⟩

/-- Enough iterations for every closure. -/
def closureFuel (g : Grammar V T) : Nat := (allItems g).length + g.rules.length

theorem startItems_spec (wf : WellFormed g) (ord : HashOrder) {fuel : Nat} (hf : closureFuel g ≤ fuel) :
    ∃ I, startItems g ord fuel = .ok I ∧ SetOk g I ∧ ∀ p, p ∈ I ↔ Closure g (Start g) p := by
  obtain ⟨β0, hβ0⟩ := wf.start
  have hmem : ∀ p, p ∈ collectSet ((g.bodiesOf g.start).map fun b => (g.start, Item.ofBody b)) ↔ Start g p := by
    intro p
    rw [mem_collectSet, List.mem_map]
    constructor
    · rintro ⟨b, hb, rfl⟩; exact ⟨b, mem_bodiesOf.1 hb, rfl⟩
    · rintro ⟨b, hb, rfl⟩; exact ⟨b, mem_bodiesOf.2 hb, rfl⟩
  have hok : ∀ p, Start g p → ItemOk g p := by
    rintro p ⟨β, hβ, rfl⟩; exact .fresh hβ
  have hset : SetOk g (collectSet ((g.bodiesOf g.start).map fun b => (g.start, Item.ofBody b))) :=
    ⟨nodup_collectSet _, fun p hp => hok p ((hmem p).1 hp)⟩
  obtain ⟨I, h1, h2, h3⟩ := itemClosure_spec wf ord (fuel := fuel) (given := collectSet
    ((g.bodiesOf g.start).map fun b => (g.start, Item.ofBody b)))
    (fun p hp => ⟨(hset.ok p hp).noEps, fun v hv => (hset.ok p hp).var wf hv⟩)
    (by have := hset.length; unfold closureFuel at hf; omega)
  have h4 : ∀ p, p ∈ I ↔ Closure g (Start g) p := fun p => (h2 p).trans (Closure.congr hmem)
  refine ⟨I, ?_, ⟨h3 hset.nodup, fun p hp => ((h4 p).1 hp).ok hok⟩, h4⟩
  simp [startItems, expectBodies_ok (List.mem_map.2 ⟨_, hβ0, rfl⟩), h1]

theorem gotoItems_spec (wf : WellFormed g) (ord : HashOrder) {fuel : Nat} (hf : closureFuel g ≤ fuel)
    {I : ItemSet V T} (hI : SetOk g I) (x : Sym V T) :
    ∃ J, gotoItems g ord fuel (I.filter fun i => decide (i.2.cursorSymbol = some x)) = .ok J ∧ SetOk g J ∧
      ∀ p, p ∈ J ↔ Closure g (Next I x) p := by
  have hmem : ∀ p, p ∈ collectSet ((I.filter fun i => decide (i.2.cursorSymbol = some x)).map
      fun i => (i.1, i.2.advance)) ↔ Next I x p := by
    intro p
    rw [mem_collectSet, List.mem_map]
    constructor
    · rintro ⟨⟨h, i⟩, hi, rfl⟩
      rw [List.mem_filter] at hi
      exact ⟨h, i, hi.1, by simpa using hi.2, rfl⟩
    · rintro ⟨h, i, h1, h2, rfl⟩
      exact ⟨(h, i), List.mem_filter.2 ⟨h1, by simpa using h2⟩, rfl⟩
  have hok : ∀ p, Next I x p → ItemOk g p := by
    rintro p ⟨h, i, h1, h2, rfl⟩
    exact (hI.ok _ h1).advance h2
  have hset : SetOk g (collectSet ((I.filter fun i => decide (i.2.cursorSymbol = some x)).map
      fun i => (i.1, i.2.advance))) := ⟨nodup_collectSet _, fun p hp => hok p ((hmem p).1 hp)⟩
  obtain ⟨J, h1, h2, h3⟩ := itemClosure_spec wf ord (fuel := fuel)
    (fun p hp => ⟨(hset.ok p hp).noEps, fun v hv => (hset.ok p hp).var wf hv⟩)
    (by have := hset.length; unfold closureFuel at hf; omega)
  have h4 : ∀ p, p ∈ J ↔ Closure g (Next I x) p := fun p => (h2 p).trans (Closure.congr hmem)
  exact ⟨J, h1, ⟨h3 hset.nodup, fun p hp => ((h4 p).1 hp).ok hok⟩, h4⟩

theorem groupBySymbol_keys (I : ItemSet V T) : ((groupBySymbol I).map Prod.fst).Nodup := by
  simp only [groupBySymbol, List.map_map]
  have : (Prod.fst ∘ fun s => (s, I.filter fun i => decide (i.2.cursorSymbol = some s))) = id := rfl
  rw [this, List.map_id]
  exact nodup_collectSet _

theorem mem_groupBySymbol {I : ItemSet V T} {x : Sym V T} {grp : ItemSet V T} :
    (x, grp) ∈ groupBySymbol I ↔ (∃ p ∈ I, p.2.cursorSymbol = some x) ∧
      grp = I.filter fun i => decide (i.2.cursorSymbol = some x) := by
  simp only [groupBySymbol, List.mem_map, mem_collectSet, List.mem_filterMap, Prod.mk.injEq]
  constructor
  · rintro ⟨s, h, rfl, rfl⟩; exact ⟨h, rfl⟩
  · rintro ⟨h, rfl⟩; exact ⟨x, h, rfl, rfl⟩

theorem groupBySymbol_length {I : ItemSet V T} (hI : SetOk g I) :
    (groupBySymbol I).length ≤ (firstUniverse g).length := by
  have := nodup_length_le (groupBySymbol_keys I) (u := firstUniverse g) (by
    intro x hx
    obtain ⟨⟨x', grp⟩, h1, rfl⟩ := List.mem_map.1 hx
    obtain ⟨⟨p, hp, hs⟩, _⟩ := mem_groupBySymbol.1 h1
    obtain ⟨pre, post, h2, _⟩ := reads_iff.2 hs
    exact List.mem_cons_of_mem _ (List.mem_flatMap.2 ⟨_, (hI.ok p hp).rule, by simp only; rw [h2]; simp⟩))
  simpa using this

/-! ## Transitions of one state -/

theorem cfsmTransitions_spec (wf : WellFormed g) (ord : HashOrder) {fuel : Nat} (hf : closureFuel g ≤ fuel)
    {I : ItemSet V T} (hI : SetOk g I) (done : List (CState V T)) {gs : List (Sym V T × ItemSet V T)} :
    ∀ {w : CfsmWork V T}, (∀ e ∈ gs, e ∈ groupBySymbol I) →
    ∃ ts new, cfsmTransitions g ord fuel done gs w = .ok (ts, ⟨w.pending ++ new, w.nextId + new.length⟩) ∧
      ts.map Prod.fst = gs.map Prod.fst ∧ new.length ≤ gs.length ∧
      new.map Prod.fst = List.range' w.nextId new.length ∧
      (∀ x d, (x, d) ∈ ts → ∃ J, (d, J) ∈ done.map (fun s => (s.id, s.items)) ++ new ∧
        ∀ p, p ∈ J ↔ Closure g (Next I x) p) ∧
      ∀ d J, (d, J) ∈ new → SetOk g J ∧ (∀ s ∈ done, sameItems s.items J = false) ∧ ∃ x, (x, d) ∈ ts := by
  induction gs with
  | nil => exact fun {w} _ => ⟨[], [], by simp [cfsmTransitions], rfl, Nat.le_refl _, rfl, by simp, by simp⟩
  | cons e gs ih =>
    intro w hgs
    obtain ⟨x, grp⟩ := e
    obtain ⟨_, rfl⟩ := mem_groupBySymbol.1 (hgs _ (List.mem_cons_self ..))
    obtain ⟨J, h1, h2, h3⟩ := gotoItems_spec wf (ord.sub gs.length) hf hI x
    rw [cfsmTransitions, h1]
    simp only [Outcome.bind_ok]
    cases hfind : done.find? (fun s => sameItems s.items J) with
    | some s =>
      obtain ⟨ts, new, h4, h5, h6, h7, h8, h9⟩ := ih (w := w) fun e he => hgs e (by simp [he])
      refine ⟨(x, s.id) :: ts, new, ?_, by simp [h5], by simp; omega, h7, ?_, fun d J hd => ?_⟩
      · simp only
        rw [h4]
        rfl
      · intro x' d hd
        rcases List.mem_cons.1 hd with hd | hd
        · cases hd
          have hs := List.find?_some hfind
          have hm := List.mem_of_find?_eq_some hfind
          refine ⟨s.items, List.mem_append.2 (.inl (List.mem_map.2 ⟨s, hm, rfl⟩)), fun p => ?_⟩
          exact (sameItems_iff.1 hs p).trans (h3 p)
        · exact h8 x' d hd
      · obtain ⟨h10, h11, x', h12⟩ := h9 d J hd
        exact ⟨h10, h11, x', List.mem_cons_of_mem _ h12⟩
    | none =>
      obtain ⟨ts, new, h4, h5, h6, h7, h8, h9⟩ := ih
        (w := ⟨w.pending ++ [(w.nextId, J)], w.nextId + 1⟩) fun e he => hgs e (by simp [he])
      refine ⟨(x, w.nextId) :: ts, (w.nextId, J) :: new, ?_, by simp [h5], by simp; omega, ?_, ?_, ?_⟩
      · simp only
        rw [h4]
        simp only [Outcome.bind_ok, List.append_assoc, List.singleton_append, List.length_cons]
        have : w.nextId + 1 + new.length = w.nextId + (new.length + 1) := by omega
        rw [this]
        rfl
      · rw [List.map_cons, h7, List.length_cons]
        simp only
        rw [List.range'_succ]
      · intro x' d hd
        rcases List.mem_cons.1 hd with hd | hd
        · cases hd
          exact ⟨J, List.mem_append.2 (.inr (List.mem_cons_self ..)), h3⟩
        · obtain ⟨J', h10, h11⟩ := h8 x' d hd
          refine ⟨J', ?_, h11⟩
          rcases List.mem_append.1 h10 with h | h
          · exact List.mem_append.2 (.inl h)
          · exact List.mem_append.2 (.inr (List.mem_cons_of_mem _ h))
      · intro d J' hd
        rcases List.mem_cons.1 hd with hd | hd
        · cases hd
          refine ⟨h2, fun s hs => ?_, x, List.mem_cons_self ..⟩
          have := List.find?_eq_none.1 hfind s hs
          simpa using this
        · obtain ⟨h10, h11, x', h12⟩ := h9 d J' hd
          exact ⟨h10, h11, x', List.mem_cons_of_mem _ h12⟩

/-! ## The main loop -/

/-- All states, processed or not. -/
def everyState (done : List (CState V T)) (pending : List (Nat × ItemSet V T)) : List (Nat × ItemSet V T) :=
  done.map (fun s => (s.id, s.items)) ++ pending

/-- The transitions of a state lead to the right sets. -/
structure TransOk (g : Grammar V T) (every : List (Nat × ItemSet V T)) (s : CState V T) : Prop where
  keys : (s.transitions.map Prod.fst).Nodup
  read : ∀ x, x ∈ s.transitions.map Prod.fst ↔ ∃ p ∈ s.items, p.2.cursorSymbol = some x
  dest : ∀ x d, (x, d) ∈ s.transitions → ∃ J, (d, J) ∈ every ∧ ∀ p, p ∈ J ↔ Closure g (Next s.items x) p

/-- What always holds in the main loop. -/
structure CfsmInv (g : Grammar V T) (done : List (CState V T)) (w : CfsmWork V T) : Prop where
  ids : (everyState done w.pending).map Prod.fst = List.range w.nextId
  sets : ∀ d I, (d, I) ∈ everyState done w.pending → SetOk g I
  start : ∃ I, (everyState done w.pending).head? = some (0, I) ∧ ∀ p, p ∈ I ↔ Closure g (Start g) p
  trans : ∀ s ∈ done, TransOk g (everyState done w.pending) s
  parent : ∀ d I, (d, I) ∈ everyState done w.pending → d = 0 ∨ ∃ s ∈ done, s.id < d ∧ ∃ x, (x, d) ∈ s.transitions

/-- An item set as a sublist of all items. -/
def canon (g : Grammar V T) (I : ItemSet V T) : ItemSet V T := (allItems g).filter fun p => decide (p ∈ I)

theorem canon_eq {I J : ItemSet V T} (hI : SetOk g I) (hJ : SetOk g J) :
    canon g I = canon g J ↔ sameItems I J = true := by
  rw [sameItems_iff]
  constructor
  · intro h p
    have key : ∀ {K : ItemSet V T}, SetOk g K → (p ∈ K ↔ p ∈ canon g K) := by
      intro K hK
      simp only [canon, List.mem_filter, decide_eq_true_eq]
      exact ⟨fun h => ⟨(hK.ok p h).mem, h⟩, fun h => h.2⟩
    rw [key hI, key hJ, h]
  · intro h
    unfold canon
    congr 1
    funext p
    simp [h p]

/-- How many item sets have not been processed. -/
def unseen (g : Grammar V T) (done : List (CState V T)) : Nat :=
  ((subs (allItems g)).filter fun c => decide (c ∉ done.map fun s => canon g s.items)).length

/-- How many pending states have an item set that has been processed. -/
def again (g : Grammar V T) (done : List (CState V T)) (pending : List (Nat × ItemSet V T)) : Nat :=
  (pending.filter fun e => decide (canon g e.2 ∈ done.map fun s => canon g s.items)).length

/-- The largest number of iterations with `k` unseen item sets and `q` pending states, if a state has at most `K`
transitions. -/
def loopBound (K : Nat) : Nat → Nat → Nat
  | 0, q => q
  | k + 1, q => q + 1 + loopBound K k (q + (q + 1) * K)

theorem loopBound_mono (K : Nat) : ∀ {k q q' : Nat}, q ≤ q' → loopBound K k q ≤ loopBound K k q' := by
  intro k
  induction k with
  | zero => exact fun h => h
  | succ k ih =>
    intro q q' h
    have h1 := Nat.mul_le_mul_right K (Nat.succ_le_succ h)
    have := ih (q := q + (q + 1) * K) (q' := q' + (q' + 1) * K) (by simp only [Nat.succ_eq_add_one] at h1; omega)
    simp only [loopBound]
    omega

/-- The same, when `d` of the pending states have been seen. -/
def loopWork (K : Nat) : Nat → Nat → Nat → Nat
  | 0, d, _ => d
  | k + 1, d, q => d + 1 + loopBound K k (q + (d + 1) * K)

theorem loopWork_le (K : Nat) {k d q : Nat} (h : d ≤ q) : loopWork K k d q ≤ loopBound K k q := by
  cases k with
  | zero => exact h
  | succ k =>
    have h1 := Nat.mul_le_mul_right K (Nat.succ_le_succ h)
    simp only [Nat.succ_eq_add_one] at h1
    have := loopBound_mono K (k := k) (q := q + (d + 1) * K) (q' := q + (q + 1) * K) (by omega)
    simp only [loopWork, loopBound]
    omega

theorem loopWork_mono (K : Nat) {k d q q' : Nat} (h : q ≤ q') : loopWork K k d q ≤ loopWork K k d q' := by
  cases k with
  | zero => exact Nat.le_refl _
  | succ k =>
    have := loopBound_mono K (k := k) (q := q + (d + 1) * K) (q' := q' + (d + 1) * K) (by omega)
    simp only [loopWork]
    omega

theorem cfsmLoop_spec (wf : WellFormed g) (ord : HashOrder) {fuel : Nat} (hf : closureFuel g ≤ fuel) :
    ∀ {n : Nat} {done : List (CState V T)} {w : CfsmWork V T}, CfsmInv g done w →
    loopWork (firstUniverse g).length (unseen g done) (again g done w.pending) w.pending.length ≤ n →
    ∃ done' k, cfsmLoop g ord fuel n done w = .ok done' ∧ CfsmInv g done' ⟨[], k⟩ := by
  have stop : ∀ {n : Nat} {done : List (CState V T)} {w : CfsmWork V T}, CfsmInv g done w → w.pending = [] →
      ∃ done' k, cfsmLoop g ord fuel n done w = .ok done' ∧ CfsmInv g done' ⟨[], k⟩ := by
    intro n done w i hp
    obtain ⟨p, k⟩ := w
    simp only at hp
    subst hp
    exact ⟨done, k, by rw [cfsmLoop], i⟩
  -- with nothing unseen all pending states have been seen
  have seen : ∀ {done : List (CState V T)} {w : CfsmWork V T}, CfsmInv g done w → unseen g done = 0 →
      again g done w.pending = w.pending.length := by
    intro done w i h0
    unfold again
    rw [List.filter_eq_self.2]
    intro e he
    have : canon g e.2 ∈ subs (allItems g) := filter_mem_subs _ _
    unfold unseen at h0
    have h1 := List.filter_eq_nil_iff.1 (List.eq_nil_of_length_eq_zero h0) _ this
    simpa using h1
  intro n
  induction n with
  | zero =>
    intro done w i hn
    cases hp : w.pending with
    | nil => exact stop i hp
    | cons e pending =>
      exfalso
      cases hk : unseen g done with
      | zero =>
        rw [hk, seen i hk, hp] at hn
        simp [loopWork] at hn
      | succ k =>
        rw [hk] at hn
        simp [loopWork] at hn
  | succ n ih =>
    intro done w i hn
    cases hp : w.pending with
    | nil => exact stop i hp
    | cons e pending =>
      obtain ⟨id, I⟩ := e
      have hI : SetOk g I := i.sets id I (List.mem_append.2 (.inr (by rw [hp]; simp)))
      obtain ⟨ts, new, h1, h2, h3, h4, h5, h6⟩ := cfsmTransitions_spec wf ((ord.sub id).sub 1) hf hI done
        (gs := ord.shuffle [id, 0] _ (groupBySymbol I)) (w := { w with pending := pending })
        (fun e he => by simpa using he)
      simp only at h1 h4
      have hevery : everyState (done ++ [⟨id, I, ts⟩]) (pending ++ new) = everyState done w.pending ++ new := by
        simp [everyState, hp]
      -- the invariant
      have i' : CfsmInv g (done ++ [⟨id, I, ts⟩]) ⟨pending ++ new, w.nextId + new.length⟩ := by
        refine ⟨?_, ?_, ?_, ?_, ?_⟩
        · rw [hevery, List.map_append, i.ids, h4, List.range_eq_range', List.range_eq_range']
          have := List.range'_append_1 (s := 0) (m := w.nextId) (n := new.length)
          rw [Nat.zero_add] at this
          exact this
        · intro d J hd
          rw [hevery] at hd
          rcases List.mem_append.1 hd with hd | hd
          · exact i.sets d J hd
          · exact (h6 d J hd).1
        · obtain ⟨J, hJ1, hJ2⟩ := i.start
          refine ⟨J, ?_, hJ2⟩
          rw [hevery, List.head?_append, hJ1]
          rfl
        · intro s hs
          rw [hevery]
          rcases List.mem_append.1 hs with hs | hs
          · obtain ⟨a, b, c⟩ := i.trans s hs
            refine ⟨a, b, fun x d hd => ?_⟩
            obtain ⟨J, h7, h8⟩ := c x d hd
            exact ⟨J, List.mem_append.2 (.inl h7), h8⟩
          · rw [List.mem_singleton.1 hs]
            have hperm : (ts.map Prod.fst).Perm ((groupBySymbol I).map Prod.fst) := by
              rw [h2]
              exact (ord.perm _ _ _).map _
            refine ⟨hperm.nodup_iff.2 (groupBySymbol_keys I), fun x => ?_, fun x d hd => ?_⟩
            · simp only
              rw [hperm.mem_iff]
              constructor
              · intro h
                obtain ⟨⟨x', grp⟩, h7, rfl⟩ := List.mem_map.1 h
                exact (mem_groupBySymbol.1 h7).1
              · intro h
                exact List.mem_map.2 ⟨_, mem_groupBySymbol.2 ⟨h, rfl⟩, rfl⟩
            · obtain ⟨J, h7, h8⟩ := h5 x d hd
              refine ⟨J, ?_, h8⟩
              rcases List.mem_append.1 h7 with h | h
              · exact List.mem_append.2 (.inl (List.mem_append.2 (.inl h)))
              · exact List.mem_append.2 (.inr h)
        · intro d J hd
          rw [hevery] at hd
          rcases List.mem_append.1 hd with hd | hd
          · rcases i.parent d J hd with h | ⟨s, hs, h⟩
            · exact .inl h
            · exact .inr ⟨s, List.mem_append.2 (.inl hs), h⟩
          · obtain ⟨_, _, x, h7⟩ := h6 d J hd
            refine .inr ⟨_, List.mem_append.2 (.inr (List.mem_singleton.2 rfl)), ?_, x, h7⟩
            have h8 : id < w.nextId := by
              have : id ∈ List.range w.nextId := by
                rw [← i.ids]
                exact List.mem_map.2 ⟨(id, I), List.mem_append.2 (.inr (by rw [hp]; simp)), rfl⟩
              simpa using this
            have h9 : d ∈ List.range' w.nextId new.length := by
              rw [← h4]
              exact List.mem_map.2 ⟨_, hd, rfl⟩
            have := (List.mem_range'_1.1 h9).1
            show id < d
            omega
      have hnew : new.length ≤ (firstUniverse g).length := by
        have := groupBySymbol_length hI
        rw [HashOrder.length_shuffle] at h3
        omega
      -- new pending states have not been seen
      have hfresh : ∀ e ∈ new, canon g e.2 ∉ done.map fun s => canon g s.items := by
        intro e he hm
        obtain ⟨hJ, hs, _⟩ := h6 e.1 e.2 he
        obtain ⟨s, hs', heq⟩ := List.mem_map.1 hm
        have := hs s hs'
        rw [(canon_eq (i.sets s.id s.items (List.mem_append.2 (.inl (List.mem_map.2 ⟨s, hs', rfl⟩)))) hJ).1 heq] at this
        cases this
      have key := ih i' (by
        simp only [List.length_append]
        by_cases hseen : canon g I ∈ done.map fun s => canon g s.items
        · -- the state is a duplicate
          have hsame : ∀ c, c ∈ (done ++ [(⟨id, I, ts⟩ : CState V T)]).map (fun s => canon g s.items) ↔
              c ∈ done.map fun s => canon g s.items := by
            intro c
            rw [List.map_append, List.mem_append]
            simp only [List.map_cons, List.map_nil, List.mem_singleton]
            exact ⟨fun h => h.elim (fun h => h) (fun h => h ▸ hseen), .inl⟩
          have hu : unseen g (done ++ [⟨id, I, ts⟩]) = unseen g done := by
            unfold unseen
            simp only [hsame]
          have ha : again g (done ++ [⟨id, I, ts⟩]) (pending ++ new) + 1 = again g done w.pending := by
            unfold again
            simp only [hsame]
            rw [List.filter_append, hp, List.filter_cons_of_pos (by simpa using hseen)]
            have : (new.filter fun e => decide (canon g e.2 ∈ done.map fun s => canon g s.items)) = [] := by
              rw [List.filter_eq_nil_iff]
              intro e he
              simpa using hfresh e he
            rw [this]
            simp
          rw [hu]
          cases hk : unseen g done with
          | zero =>
            rw [hk] at hn
            simp only [loopWork] at hn ⊢
            omega
          | succ k =>
            rw [hk, ← ha, hp] at hn
            simp only [loopWork, List.length_cons] at hn ⊢
            have hm := Nat.add_mul (again g (done ++ [⟨id, I, ts⟩]) (pending ++ new) + 1) 1 (firstUniverse g).length
            have := loopBound_mono (firstUniverse g).length (k := k)
              (q := pending.length + new.length +
                (again g (done ++ [⟨id, I, ts⟩]) (pending ++ new) + 1) * (firstUniverse g).length)
              (q' := pending.length + 1 +
                (again g (done ++ [⟨id, I, ts⟩]) (pending ++ new) + 1 + 1) * (firstUniverse g).length)
              (by omega)
            omega
        · -- the set is new
          have hlt : unseen g (done ++ [⟨id, I, ts⟩]) + 1 ≤ unseen g done := by
            unfold unseen
            refine filter_length_lt (a := canon g I) ?_ (filter_mem_subs _ _) (by simpa using hseen) (by simp)
            intro c _ hc
            simp only [List.map_append, List.mem_append, decide_eq_true_eq] at hc ⊢
            exact fun h => hc (.inl h)
          have hd : again g (done ++ [⟨id, I, ts⟩]) (pending ++ new) ≤ pending.length + new.length := by
            unfold again
            refine Nat.le_trans (List.length_filter_le _ _) ?_
            simp
          obtain ⟨k, hk⟩ : ∃ k, unseen g done = k + 1 := ⟨unseen g done - 1, by omega⟩
          rw [hk, hp] at hn
          simp only [loopWork, List.length_cons] at hn
          have h7 := loopWork_le (firstUniverse g).length (k := unseen g (done ++ [⟨id, I, ts⟩])) hd
          have h8 : ∀ k k' q, k ≤ k' → loopBound (firstUniverse g).length k q ≤
              loopBound (firstUniverse g).length k' q := by
            intro k k' q hkk
            induction hkk with
            | refl => exact Nat.le_refl _
            | step _ ih =>
              rename_i m _
              refine Nat.le_trans ih ?_
              have := loopBound_mono (firstUniverse g).length (k := m) (q := q)
                (q' := q + (q + 1) * (firstUniverse g).length) (by omega)
              simp only [loopBound]
              omega
          have h9 := h8 (unseen g (done ++ [⟨id, I, ts⟩])) k (pending.length + new.length) (by omega)
          have h10 : (firstUniverse g).length ≤
              (again g done ((id, I) :: pending) + 1) * (firstUniverse g).length :=
            Nat.le_mul_of_pos_left _ (by omega)
          have h11 := loopBound_mono (firstUniverse g).length (k := k) (q := pending.length + new.length)
            (q' := pending.length + 1 + (again g done ((id, I) :: pending) + 1) * (firstUniverse g).length)
            (by omega)
          omega)
      obtain ⟨done', k, h7, h8⟩ := key
      refine ⟨done', k, ?_, h8⟩
      rw [cfsmLoop]
      simp only [hp]
      rw [h1]
      exact h7

/-! ## The automaton -/

/-- A state of the automaton. -/
def Cfsm.stateOf (c : Cfsm V T) (id : Nat) (s : CState V T) : Prop := c.states[id]? = some s

/-- What is known of the automaton of a grammar. -/
structure CfsmOk (g : Grammar V T) (c : Cfsm V T) : Prop where
  grammar : c.grammar = g
  ids : c.states.map CState.id = List.range c.states.length
  sets : ∀ s ∈ c.states, SetOk g s.items
  start : ∃ s, c.states[0]? = some s ∧ ∀ p, p ∈ s.items ↔ Closure g (Start g) p
  keys : ∀ s ∈ c.states, (s.transitions.map Prod.fst).Nodup
  read : ∀ s ∈ c.states, ∀ x, x ∈ s.transitions.map Prod.fst ↔ ∃ p ∈ s.items, p.2.cursorSymbol = some x
  dest : ∀ s ∈ c.states, ∀ x d, (x, d) ∈ s.transitions →
    ∃ s', c.states[d]? = some s' ∧ ∀ p, p ∈ s'.items ↔ Closure g (Next s.items x) p
  parent : ∀ s ∈ c.states, s.id = 0 ∨ ∃ s' ∈ c.states, s'.id < s.id ∧ ∃ x, (x, s.id) ∈ s'.transitions

/-- Enough iterations for every automaton. -/
def cfsmFuel (g : Grammar V T) : Nat :=
  closureFuel g + loopBound (firstUniverse g).length (2 ^ (allItems g).length) 1

theorem fromGrammar_spec (wf : WellFormed g) (ord : HashOrder) {fuel : Nat} (hf : cfsmFuel g ≤ fuel) :
    ∃ c, Cfsm.fromGrammar g ord fuel = .ok c ∧ CfsmOk g c := by
  have hf1 : closureFuel g ≤ fuel := by unfold cfsmFuel at hf; omega
  obtain ⟨I, h1, h2, h3⟩ := startItems_spec wf (ord.sub 0) hf1
  have i : CfsmInv g [] ⟨[(0, I)], 1⟩ := by
    refine ⟨rfl, ?_, ⟨I, rfl, h3⟩, by simp, fun d J h => .inl ?_⟩
    rotate_left
    · simp only [everyState, List.map_nil, List.nil_append, List.mem_singleton, Prod.mk.injEq] at h
      exact h.1
    intro d J h
    simp only [everyState, List.map_nil, List.nil_append, List.mem_singleton, Prod.mk.injEq] at h
    rw [h.2]
    exact h2
  obtain ⟨states, k, h4, i'⟩ := cfsmLoop_spec wf (ord.sub 1) hf1 (n := fuel) i (by
    have ha : again g ([] : List (CState V T)) [(0, I)] = 0 := by simp [again]
    have hu : unseen g ([] : List (CState V T)) = 2 ^ (allItems g).length := by
      unfold unseen
      rw [List.filter_eq_self.2 (by simp), subs_length]
    have := loopWork_le (firstUniverse g).length (k := 2 ^ (allItems g).length) (d := 0) (q := 1) (by omega)
    simp only [ha, hu, List.length_singleton]
    unfold cfsmFuel at hf
    omega)
  have hev : everyState states [] = states.map fun s => (s.id, s.items) := by simp [everyState]
  have hids : states.map CState.id = List.range k := by
    have := i'.ids
    simp only [hev, List.map_map] at this
    exact this
  have hlen : states.length = k := by
    have := congrArg List.length hids
    simpa using this
  -- the state with an id is at that index
  have hget : ∀ d J, (d, J) ∈ everyState states [] → ∃ s, states[d]? = some s ∧ s.items = J := by
    intro d J h
    rw [hev] at h
    obtain ⟨s, hs, he⟩ := List.mem_map.1 h
    simp only [Prod.mk.injEq] at he
    obtain ⟨n, hn⟩ := List.mem_iff_getElem?.1 hs
    have h5 : (states.map CState.id)[n]? = some s.id := by simp [hn]
    rw [hids] at h5
    have h6 := List.getElem?_eq_some_iff.1 h5
    obtain ⟨_, h6⟩ := h6
    simp at h6
    refine ⟨s, ?_, he.2⟩
    rw [← he.1, ← h6]
    exact hn
  have hok : CfsmOk g ⟨g, states⟩ := by
    refine ⟨rfl, by rw [hids, hlen], ?_, ?_, fun s hs => (i'.trans s hs).keys, fun s hs => (i'.trans s hs).read, ?_, ?_⟩
    · intro s hs
      refine i'.sets s.id s.items ?_
      rw [hev]
      exact List.mem_map.2 ⟨s, hs, rfl⟩
    · obtain ⟨J, h5, h6⟩ := i'.start
      obtain ⟨s, h7, rfl⟩ := hget 0 J (List.mem_of_mem_head? h5)
      exact ⟨s, h7, h6⟩
    · intro s hs x d hd
      obtain ⟨J, h5, h6⟩ := (i'.trans s hs).dest x d hd
      obtain ⟨s', h7, rfl⟩ := hget d J h5
      exact ⟨s', h7, h6⟩
    · intro s hs
      refine i'.parent s.id s.items ?_
      rw [hev]
      exact List.mem_map.2 ⟨s, hs, rfl⟩
  refine ⟨⟨g, states⟩, ?_, hok⟩
  simp only [Cfsm.fromGrammar, h1, h4, Outcome.bind_ok, Cfsm.checked]
  have hmem : ∀ d s, states[d]? = some s → d ∈ states.map CState.id := by
    intro d s h
    rw [hids, ← hlen, List.mem_range]
    exact (List.getElem?_eq_some_iff.1 h).1
  rw [if_pos]
  obtain ⟨s0, h0, _⟩ := hok.start
  have h0 := hmem 0 s0 h0
  rw [Bool.and_eq_true, List.all_eq_true]
  refine ⟨by simpa using h0, ?_⟩
  intro d hd
  rcases List.mem_cons.1 hd with rfl | hd
  · simpa using h0
  · obtain ⟨s, hs, hd⟩ := List.mem_flatMap.1 hd
    obtain ⟨⟨x, d'⟩, hx, rfl⟩ := List.mem_map.1 hd
    obtain ⟨s', h5, _⟩ := hok.dest s hs x d' hx
    simpa using hmem d' s' h5

end Pango.Parse
