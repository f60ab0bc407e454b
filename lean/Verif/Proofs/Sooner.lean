import Verif.Proofs.Levels

/-!
The iteration order decides which of two states at the same distance from the start is made first.
-/

namespace Pango.Parse

open Pango.Spec

variable {V T : Type} [DecidableEq V] [DecidableEq T] {g : Grammar V T} {c : Cfsm V T}

/-- The transitions of a state are made in the order in which its symbols are looked at, and states that are made for
them get increasing ids. -/
def InTurn (ord : HashOrder) (pre : List (CState V T)) (s : CState V T) : Prop :=
  s.transitions.map Prod.fst = (ord.shuffle [s.id, 0] _ (groupBySymbol s.items)).map Prod.fst ∧
    ∃ n, s.transitions.Pairwise (fun e e' => n ≤ e.2 → n ≤ e'.2 → e.2 < e'.2) ∧
      ∀ e ∈ s.transitions, (∃ s' ∈ pre, s'.id = e.2) ∨ n ≤ e.2

theorem cfsmTransitions_inTurn {ord : HashOrder} {fuel : Nat} {done : List (CState V T)} {n : Nat} :
    ∀ {gs : List (Sym V T × ItemSet V T)} {w w' : CfsmWork V T} {ts : List (Sym V T × Nat)},
    cfsmTransitions g ord fuel done gs w = .ok (ts, w') → n ≤ w.nextId → (∀ s ∈ done, s.id < n) →
    ts.map Prod.fst = gs.map Prod.fst ∧ ts.Pairwise (fun e e' => n ≤ e.2 → n ≤ e'.2 → e.2 < e'.2) ∧
      ∀ e ∈ ts, (∃ s' ∈ done, s'.id = e.2) ∨ w.nextId ≤ e.2 := by
  intro gs
  induction gs with
  | nil =>
    intro w w' ts h _ _
    simp only [cfsmTransitions, Outcome.ok.injEq, Prod.mk.injEq] at h
    obtain ⟨rfl, rfl⟩ := h
    simp
  | cons e gs ih =>
    intro w w' ts h hn hd
    obtain ⟨x, grp⟩ := e
    rw [cfsmTransitions, Outcome.bind_eq_ok] at h
    obtain ⟨J, _, h⟩ := h
    cases hfind : done.find? (fun s => sameItems s.items J) with
    | some s =>
      rw [hfind] at h
      simp only [Outcome.bind_eq_ok] at h
      obtain ⟨⟨ts', w1⟩, h1, h2⟩ := h
      cases h2
      obtain ⟨h3, h4, h5⟩ := ih h1 hn hd
      have hm := List.mem_of_find?_eq_some hfind
      refine ⟨by simp [h3], List.pairwise_cons.2 ⟨fun e _ h => ?_, h4⟩, ?_⟩
      · have := hd s hm
        simp only at h
        omega
      · intro e he
        rcases List.mem_cons.1 he with rfl | he
        · exact .inl ⟨s, hm, rfl⟩
        · exact h5 e he
    | none =>
      rw [hfind] at h
      simp only [Outcome.bind_eq_ok] at h
      obtain ⟨⟨ts', w1⟩, h1, h2⟩ := h
      cases h2
      obtain ⟨h3, h4, h5⟩ := ih h1 (Nat.le_succ_of_le hn) hd
      refine ⟨by simp [h3], List.pairwise_cons.2 ⟨fun e he _ h => ?_, h4⟩, ?_⟩
      · rcases h5 e he with ⟨s, hs, h6⟩ | h6
        · have := hd s hs
          omega
        · simp only at h6 ⊢
          omega
      · intro e he
        rcases List.mem_cons.1 he with rfl | he
        · exact .inr (Nat.le_refl _)
        · rcases h5 e he with h6 | h6
          · exact .inl h6
          · refine .inr ?_
            simp only at h6
            omega

theorem cfsmLoop_inTurn {ord : HashOrder} {fuel : Nat} : ∀ {n : Nat} {done done' : List (CState V T)}
    {w : CfsmWork V T}, cfsmLoop g ord fuel n done w = .ok done' → (∀ s ∈ done, s.id < w.nextId) →
    (∀ e ∈ w.pending, e.1 < w.nextId) →
    ∃ more, done' = done ++ more ∧ ∀ pre s post, more = pre ++ s :: post → InTurn ord (done ++ pre) s := by
  intro n
  induction n with
  | zero =>
    intro done done' w h _ _
    obtain ⟨pending, next⟩ := w
    cases pending with
    | nil =>
      rw [cfsmLoop] at h
      cases h
      exact ⟨[], by simp, by simp⟩
    | cons e pending =>
      rw [cfsmLoop] at h
      cases h
  | succ n ih =>
    intro done done' w h hd hp
    obtain ⟨pending, next⟩ := w
    cases pending with
    | nil =>
      rw [cfsmLoop] at h
      cases h
      exact ⟨[], by simp, by simp⟩
    | cons e pending =>
      obtain ⟨id, I⟩ := e
      rw [cfsmLoop] at h
      simp only [Outcome.bind_eq_ok] at h
      obtain ⟨⟨ts, w1⟩, h1, h2⟩ := h
      simp only at hd hp h2
      obtain ⟨new, h3, h4, _⟩ := cfsmTransitions_grow h1
      obtain ⟨h5, h6, h7⟩ := cfsmTransitions_inTurn (n := next) h1 (Nat.le_refl _) hd
      simp only at h3 h4 h7
      subst h3
      have hd' : ∀ s ∈ done ++ [⟨id, I, ts⟩], s.id < next + new.length := by
        intro s hs
        rcases List.mem_append.1 hs with hs | hs
        · have := hd s hs
          omega
        · have := hp _ (List.mem_cons_self ..)
          rw [List.mem_singleton.1 hs]
          simp only at this ⊢
          omega
      have hp' : ∀ e ∈ pending ++ new, e.1 < next + new.length := by
        intro e he
        rcases List.mem_append.1 he with he | he
        · have := hp e (List.mem_cons_of_mem _ he)
          omega
        · have : e.1 ∈ List.range' next new.length := by
            rw [← h4]
            exact List.mem_map.2 ⟨e, he, rfl⟩
          have := (List.mem_range'_1.1 this).2
          omega
      obtain ⟨more, h8, h9⟩ := ih h2 hd' hp'
      refine ⟨⟨id, I, ts⟩ :: more, by rw [h8]; simp, fun pre s post h => ?_⟩
      cases pre with
      | nil =>
        cases h
        rw [List.append_nil]
        exact ⟨h5, next, h6, h7⟩
      | cons t pre =>
        cases h
        have := h9 pre s post rfl
        rw [List.append_assoc] at this
        exact this

theorem fromGrammar_inTurn {ord : HashOrder} {fuel : Nat} (h : Cfsm.fromGrammar g ord fuel = .ok c) :
    ∀ pre s post, c.states = pre ++ s :: post → InTurn (ord.sub 1) pre s := by
  rw [Cfsm.fromGrammar, Outcome.bind_eq_ok] at h
  obtain ⟨I, _, h⟩ := h
  rw [Outcome.bind_eq_ok] at h
  obtain ⟨states, h1, h2⟩ := h
  have hc : c.states = states := by
    rw [Cfsm.checked] at h2
    split at h2
    · cases h2
      rfl
    · cases h2
  rw [hc]
  obtain ⟨more, h3, h4⟩ := cfsmLoop_inTurn h1 (by simp) (by simp)
  intro pre s post h
  rw [h3] at h
  exact h4 pre s post h

/-- In terms of the states: the new states of the transitions have increasing ids. -/
theorem CfsmOk.inTurn (ok : CfsmOk g c) {ord : HashOrder} {fuel : Nat} (h : Cfsm.fromGrammar g ord fuel = .ok c)
    {s : CState V T} (hs : s ∈ c.states) :
    s.transitions.map Prod.fst = ((ord.sub 1).shuffle [s.id, 0] _ (groupBySymbol s.items)).map Prod.fst ∧
      s.transitions.Pairwise (fun e e' => s.id < e.2 → s.id < e'.2 → e.2 < e'.2) := by
  obtain ⟨pre, post, h1⟩ := List.append_of_mem hs
  obtain ⟨h2, n, h3, h4⟩ := fromGrammar_inTurn h pre s post h1
  refine ⟨h2, ?_⟩
  have hpre : ∀ s' ∈ pre, s'.id < s.id := by
    have h5 : (c.states.map CState.id).Pairwise (· < ·) := by
      rw [ok.ids]
      exact List.pairwise_lt_range
    rw [h1, List.map_append, List.map_cons] at h5
    intro s' hs'
    exact (List.pairwise_append.1 h5).2.2 _ (List.mem_map.2 ⟨s', hs', rfl⟩) _ (List.mem_cons_self ..)
  have old : ∀ e ∈ s.transitions, s.id < e.2 → n ≤ e.2 := by
    intro e he hlt
    rcases h4 e he with ⟨s', hs', h5⟩ | h5
    · have := hpre s' hs'
      omega
    · exact h5
  refine h3.imp_of_mem fun {e e'} he he' h5 h6 h7 => h5 (old e he h6) (old e' he' h7)

open Classical in
/-- The order in which, of the elements of a list of this type, those come first that are picked. -/
noncomputable def frontOrder {α : Type} (pick : List α → α → Prop) : HashOrder where
  shuffle _ β l :=
    if h : β = α then
      let m : List α := h ▸ l
      h.symm ▸ (m.filter (fun a => decide (pick m a)) ++ m.filter (fun a => !decide (pick m a)))
    else l
  perm _ β l := by
    by_cases h : β = α
    · subst h
      simp only [↓reduceDIte]
      exact List.filter_append_perm _ _
    · simp [h]

open Classical in
theorem frontOrder_shuffle {α : Type} (pick : List α → α → Prop) (now : List Nat) (l : List α) :
    (frontOrder pick).shuffle now α l =
      l.filter (fun a => decide (pick l a)) ++ l.filter (fun a => !decide (pick l a)) := by
  simp [frontOrder]

omit [DecidableEq V] [DecidableEq T] in
/-- What is read next depends only on the items that read the symbol. -/
theorem viable_read_mono {γ δ : List (Sym V T)} {x : Sym V T}
    (h : ∀ q, Viable g γ q → q.2.cursorSymbol = some x → Viable g δ q) {p : V × Item V T}
    (hp : Viable g (γ ++ [x]) p) : Viable g (δ ++ [x]) p := by
  generalize hε : γ ++ [x] = ε at hp
  induction hp with
  | start _ _ => simp at hε
  | expand _ hr hβ hf ih => exact .expand (ih hε) hr hβ hf
  | @read γ' v i j y hv ha _ =>
    obtain ⟨rfl, hxy⟩ := List.append_inj' hε rfl
    cases hxy
    exact .read (h _ hv (advanced_iff.1 ha).1) ha

omit [DecidableEq V] [DecidableEq T] in
theorem _root_.Pango.Spec.SameItems.read {γ δ : List (Sym V T)} (h : SameItems g γ δ) (x : Sym V T) :
    SameItems g (γ ++ [x]) (δ ++ [x]) := fun _ =>
  ⟨viable_read_mono fun q hq _ => (h q).1 hq, viable_read_mono fun q hq _ => (h q).2 hq⟩

omit [DecidableEq V] [DecidableEq T] in
theorem _root_.Pango.Spec.CanRead.init {γ : List (Sym V T)} {x : Sym V T} (h : CanRead g (γ ++ [x])) : CanRead g γ := by
  obtain ⟨p, hp⟩ := h
  generalize hε : γ ++ [x] = ε at hp
  induction hp with
  | start _ _ => simp at hε
  | expand _ _ _ _ ih => exact ih hε
  | @read γ' v i j y hv ha _ =>
    obtain ⟨rfl, _⟩ := List.append_inj' hε rfl
    exact ⟨_, hv⟩

omit [DecidableEq V] [DecidableEq T] in
theorem _root_.Pango.Spec.Shortest.init {γ : List (Sym V T)} {x : Sym V T} (h : Shortest g (γ ++ [x])) : Shortest g γ := by
  refine ⟨h.1.init, fun δ hδ => ?_⟩
  have := h.2 _ (SameItems.read hδ x)
  simpa using this

omit [DecidableEq V] [DecidableEq T] in
theorem _root_.Pango.Spec.Shortest.take {γ : List (Sym V T)} (h : Shortest g γ) (i : Nat) : Shortest g (γ.take i) := by
  generalize hn : γ.length = n
  induction n generalizing γ with
  | zero =>
    rw [List.eq_nil_of_length_eq_zero hn] at h ⊢
    simpa using h
  | succ n ih =>
    rcases List.eq_nil_or_concat γ with rfl | ⟨β, x, rfl⟩
    · simpa using h
    · rw [List.concat_eq_append] at *
      by_cases hi : i ≤ β.length
      · rw [List.take_append_of_le_length hi]
        exact ih h.init (by simpa using hn)
      · rw [List.take_of_length_le (by simp; omega)]
        exact h

/-- Symbols and their items are looked at along the string first. -/
def Along (g : Grammar V T) (α : List (Sym V T)) (l : List (Sym V T × ItemSet V T)) (e : Sym V T × ItemSet V T) :
    Prop :=
  ∃ i items, α[i]? = some e.1 ∧ (∀ p, p ∈ items ↔ Viable g (α.take i) p) ∧ l = groupBySymbol items

/-- Item sets with the same groups are left in the same way. -/
theorem same_of_groups {γ δ : List (Sym V T)} {I J : ItemSet V T} (hI : ∀ p, p ∈ I ↔ Viable g γ p)
    (hJ : ∀ p, p ∈ J ↔ Viable g δ p) (h : groupBySymbol I = groupBySymbol J) (x : Sym V T) :
    SameItems g (γ ++ [x]) (δ ++ [x]) := by
  have half : ∀ {γ δ : List (Sym V T)} {I J : ItemSet V T}, (∀ p, p ∈ I ↔ Viable g γ p) →
      (∀ p, p ∈ J ↔ Viable g δ p) → groupBySymbol I = groupBySymbol J → ∀ q, Viable g γ q →
      q.2.cursorSymbol = some x → Viable g δ q := by
    intro γ δ I J hI hJ h q hq hx
    have h1 := mem_groupBySymbol.2 ⟨⟨q, (hI q).2 hq, hx⟩, rfl⟩
    rw [h] at h1
    have h2 := (mem_groupBySymbol.1 h1).2
    have h3 : q ∈ I.filter fun i => decide (i.2.cursorSymbol = some x) := by
      simp [(hI q).2 hq, hx]
    rw [h2] at h3
    exact (hJ q).1 (List.mem_filter.1 h3).1
  exact fun p => ⟨viable_read_mono (half hI hJ h), viable_read_mono (half hJ hI h.symm)⟩

/-- The state along a shortest string can be made before all others at its distance from the start. -/
theorem first_along (ok : CfsmOk g c) (gr : Grown c.states (c.states.map fun s => (s.id, s.items)))
    {α : List (Sym V T)} (hα : Shortest g α) {fuel : Nat}
    (h : Cfsm.fromGrammar g (frontOrder (Along g α)) fuel = .ok c) :
    ∀ i, i ≤ α.length → ∃ s, Grew c (α.take i) s ∧
      ∀ t ∈ c.states, t.id < s.id → ∀ δ, Grew c δ t → δ.length < i := by
  intro i
  induction i with
  | zero =>
    intro _
    obtain ⟨s, h1, _⟩ := ok.start
    have hs := List.mem_of_getElem? h1
    have h0 : s.id = 0 := by
      have := ok.index hs
      have h2 := (List.getElem?_eq_some_iff.1 h1)
      obtain ⟨h2, h3⟩ := h2
      have h4 := congrArg (fun l => l[0]?) ok.ids
      simp only [List.getElem?_map, h1, Option.map_some, List.getElem?_range h2, Option.some.injEq] at h4
      exact h4
    refine ⟨s, .start hs h0, fun t _ ht => ?_⟩
    omega
  | succ i ih =>
    intro hi
    obtain ⟨s, hs, hbefore⟩ := ih (by omega)
    have hx : α[i]? = some α[i] := List.getElem?_eq_getElem (by omega)
    generalize α[i] = x at hx
    have htake : α.take (i + 1) = α.take i ++ [x] := by
      rw [List.take_add_one, hx]
      rfl
    have hshort := hα.take (i + 1)
    have hitems := reached_viable ok hs.reached
    -- the symbol is the first one
    have hpick : ∀ e ∈ groupBySymbol s.items, (Along g α (groupBySymbol s.items) e ↔ e.1 = x) := by
      intro e he
      constructor
      · rintro ⟨j, items, h1, h2, h3⟩
        have key : ∀ y, SameItems g (α.take i ++ [y]) (α.take j ++ [y]) := same_of_groups hitems h2 h3
        have hj : α.take (j + 1) = α.take j ++ [e.1] := by
          rw [List.take_add_one, h1]
          rfl
        have hjl := (List.getElem?_eq_some_iff.1 h1).1
        have h4 := (hα.take (j + 1)).2 (α.take i ++ [e.1]) (fun p => by rw [hj]; exact (key e.1 p).symm)
        have h5 := hshort.2 (α.take j ++ [x]) (fun p => by rw [htake]; exact key x p)
        simp only [List.length_append, List.length_take, List.length_singleton] at h4 h5
        have : i = j := by omega
        subst this
        rw [hx] at h1
        exact (Option.some.inj h1).symm
      · intro h1
        exact ⟨i, s.items, by rw [h1, hx], hitems, rfl⟩
    obtain ⟨hkeys, hincr⟩ := ok.inTurn h hs.mem
    have hsub : (frontOrder (Along g α)).sub 1 = frontOrder (Along g α) := rfl
    rw [hsub, frontOrder_shuffle] at hkeys
    obtain ⟨q, hq, hqx⟩ : ∃ q ∈ s.items, q.2.cursorSymbol = some x := by
      obtain ⟨p, hp⟩ := hshort.1
      rw [htake] at hp
      obtain ⟨t, ht⟩ := ok.exists_reached hp
      generalize hε : α.take i ++ [x] = ε at ht
      cases ht with
      | start _ _ => simp at hε
      | @step γ' a _ z d ha hz _ _ =>
        obtain ⟨rfl, hxz⟩ := List.append_inj' hε rfl
        cases hxz
        obtain ⟨q, h1, h2⟩ := (ok.read a (reached_mem ha) x).1 (List.mem_map.2 ⟨_, hz, rfl⟩)
        exact ⟨q, (hitems q).2 ((reached_viable ok ha q).1 h1), h2⟩
    obtain ⟨d, rest, htrans⟩ : ∃ d rest, s.transitions = (x, d) :: rest := by
      have hmem := mem_groupBySymbol.2 ⟨⟨q, hq, hqx⟩, rfl⟩
      cases hf : (groupBySymbol s.items).filter
          (fun e => @decide (Along g α (groupBySymbol s.items) e) (Classical.propDecidable _)) with
      | nil =>
        have := List.filter_eq_nil_iff.1 hf _ hmem
        exact absurd ((hpick _ hmem).2 rfl) (by simpa using this)
      | cons e es =>
        have he : e ∈ (groupBySymbol s.items).filter
            (fun e => @decide (Along g α (groupBySymbol s.items) e) (Classical.propDecidable _)) := by
          rw [hf]
          exact List.mem_cons_self ..
        obtain ⟨he1, he2⟩ := List.mem_filter.1 he
        have := (hpick e he1).1 (by simpa using he2)
        rw [hf, List.cons_append, List.map_cons, this] at hkeys
        cases ht : s.transitions with
        | nil =>
          rw [ht] at hkeys
          cases hkeys
        | cons f rest =>
          rw [ht, List.map_cons] at hkeys
          exact ⟨f.2, rest, by rw [← (List.cons.inj hkeys).1]⟩
    have hxd : (x, d) ∈ s.transitions := by
      rw [htrans]
      exact List.mem_cons_self ..
    obtain ⟨t, ht, _⟩ := ok.dest s hs.mem x d hxd
    have htm := List.mem_of_getElem? ht
    have htd : t.id = d := by
      have h2 := (List.getElem?_eq_some_iff.1 ht).1
      have h4 := congrArg (fun l => l[d]?) ok.ids
      simp only [List.getElem?_map, ht, Option.map_some, List.getElem?_range h2, Option.some.injEq] at h4
      exact h4
    subst htd
    have htr : Reached c (α.take (i + 1)) t := by
      rw [htake]
      exact .step hs.reached hxd htm rfl
    have hlen : (α.take i).length = i := by
      rw [List.length_take]
      omega
    have hlt : s.id < t.id := by
      apply Nat.lt_of_not_le
      intro hle
      obtain ⟨τ, hτ⟩ := ok.grew htm
      have h1 := hshort.2 τ ((ok.same_iff htr hτ.reached).1 fun _ => Iff.rfl)
      have h2 := hτ.length_le gr hs hle
      rw [htake] at h1
      simp only [List.length_append, List.length_singleton] at h1
      omega
    have hgrew : Grew c (α.take (i + 1)) t := by
      rw [htake]
      exact .step hs hxd htm hlt
    refine ⟨t, hgrew, fun t' ht' htt δ hδ => ?_⟩
    apply Nat.lt_of_not_le
    intro hle
    cases hδ with
    | start _ _ => simp at hle
    | @step δ' q _ y hq hy _ hqt =>
      simp only [List.length_append, List.length_singleton] at hle
      rcases Nat.lt_trichotomy q.id s.id with hn | hn | hn
      · have := hbefore q hq.mem hn δ' hq
        omega
      · obtain rfl := ok.eq_of_id hq.mem hs.mem hn
        rw [htrans] at hy hincr
        rcases List.mem_cons.1 hy with hy | hy
        · have := congrArg Prod.snd hy
          simp only at this
          omega
        · have := (List.pairwise_cons.1 hincr).1 _ hy hlt hqt
          simp only at this
          omega
      · have := gr.mono s hs.mem q hq.mem x y t.id t'.id hxd hy hlt hqt hn
        omega

/-- If a way into an item set is left out by `OneWayIn`, some order makes two states for it. -/
theorem duplicates_some (wf : WellFormed g) (hnot : ¬ OneWayIn g) : ∃ ord : HashOrder, ∀ fuel c,
    Cfsm.fromGrammar g ord fuel = .ok c → ∃ s ∈ c.states, ∃ t ∈ c.states, s ≠ t ∧ ∀ p, p ∈ s.items ↔ p ∈ t.items := by
  by_cases two : TwoWaysIn g
  · exact ⟨.insertion, fun fuel c hc => duplicates (fromGrammar_ok wf hc) (fromGrammar_grown hc) two⟩
  simp only [OneWayIn, Classical.not_forall] at hnot
  obtain ⟨γ, hγ, α, x, hsame, hlen, hends⟩ := hnot
  have hlen' : α.length = γ.length := by
    apply Nat.le_antisymm hlen
    apply Nat.le_of_not_lt
    intro hlt
    exact two ⟨γ, hγ, α, x, hsame, .inl ⟨hlt, hends⟩⟩
  have hother : ¬ SameItems g α γ := fun h => two ⟨γ, hγ, α, x, hsame, .inr h⟩
  have hread : CanRead g (α ++ [x]) := by
    obtain ⟨p, hp⟩ := hγ.1
    exact ⟨p, (hsame p).2 hp⟩
  have hα : Shortest g α := by
    refine ⟨hread.init, fun δ hδ => ?_⟩
    apply Nat.le_of_not_lt
    intro hlt
    refine two ⟨γ, hγ, δ, x, fun p => ((hδ.read x) p).symm.trans (hsame p), .inl ⟨by omega, ?_⟩⟩
    rintro ⟨β, h1, h2⟩
    exact hends ⟨β, h1, fun p => (hδ p).trans (h2 p)⟩
  refine ⟨frontOrder (Along g α), fun fuel c hc => ?_⟩
  have ok := fromGrammar_ok wf hc
  have gr := fromGrammar_grown hc
  apply Classical.byContradiction
  intro hno
  have uniq : ∀ s ∈ c.states, ∀ t ∈ c.states, (∀ p, p ∈ s.items ↔ p ∈ t.items) → s = t := by
    intro s hs t ht h
    apply Classical.byContradiction
    intro hne
    exact hno ⟨s, hs, t, ht, hne, h⟩
  obtain ⟨s, hs, hfirst⟩ := first_along ok gr hα hc α.length (Nat.le_refl _)
  rw [List.take_length] at hs
  obtain ⟨p, hp⟩ := hread
  obtain ⟨t, ht⟩ := ok.exists_reached hp
  obtain ⟨u, hu⟩ := ok.exists_reached ((hsame p).1 hp)
  obtain rfl := uniq t (reached_mem ht) u (reached_mem hu) ((ok.same_iff ht hu).2 hsame)
  obtain ⟨τ, hτ⟩ := ok.grew (reached_mem ht)
  have h1 : γ.length ≤ τ.length := hγ.2 τ ((ok.same_iff hu hτ.reached).1 fun _ => Iff.rfl)
  have hlt : s.id < t.id := by
    rcases Nat.lt_trichotomy s.id t.id with hn | hn | hn
    · exact hn
    · obtain rfl := ok.eq_of_id hs.mem hτ.mem hn
      exact absurd ((ok.same_iff hs.reached hu).1 fun _ => Iff.rfl) hother
    · have := hfirst t hτ.mem hn τ hτ
      omega
  have hgrew : Grew c (α ++ [x]) t := by
    generalize hε : α ++ [x] = ε at ht
    cases ht with
    | start _ _ => simp at hε
    | @step α' a _ z d ha hz htm hd =>
      obtain ⟨rfl, hxz⟩ := List.append_inj' hε rfl
      cases hxz
      subst hd
      obtain rfl := uniq a (reached_mem ha) s hs.mem ((ok.same_iff ha hs.reached).2 fun _ => Iff.rfl)
      exact .step hs hz htm hlt
  have h2 := hgrew.le_reached ok gr hu
  simp only [List.length_append, List.length_singleton] at h2
  omega

/-! ## Orders without equal states -/

omit [DecidableEq V] [DecidableEq T] in
theorem Grew.last {γ : List (Sym V T)} {y : Sym V T} {t : CState V T} (h : Grew c (γ ++ [y]) t) :
    ∃ s, Grew c γ s ∧ (y, t.id) ∈ s.transitions ∧ s.id < t.id := by
  generalize hε : γ ++ [y] = ε at h
  cases h with
  | start _ _ => simp at hε
  | @step γ' s _ z h hz _ hlt =>
    obtain ⟨rfl, hyz⟩ := List.append_inj' hε rfl
    cases hyz
    exact ⟨s, h, hz, hlt⟩

theorem Grew.unique (ok : CfsmOk g c) {γ : List (Sym V T)} {s t : CState V T} (h : Grew c γ s) (h' : Grew c γ t) :
    s = t := by
  induction h generalizing t with
  | start hs h0 =>
    generalize hε : ([] : List (Sym V T)) = ε at h'
    cases h' with
    | start ht h0' => exact ok.eq_of_id hs ht (by omega)
    | step _ _ _ _ => simp at hε
  | @step γ s s' x _ hx hs _ ih =>
    obtain ⟨q, hq, hqx, _⟩ := h'.last
    obtain rfl := ih hq
    exact ok.eq_of_id hs h'.mem (ok.eq_of_key hq.mem hx hqx)

/-- The states behind an earlier state come before those behind a later one, at the same distance. -/
theorem Grew.lex (gr : Grown c.states (c.states.map fun s => (s.id, s.items))) {ρ ρ' : List (Sym V T)} {s s' : CState V T}
    (ok : CfsmOk g c) (h : Grew c ρ s) (h' : Grew c ρ' s') (hlt : s.id < s'.id) :
    ∀ n {γ γ' : List (Sym V T)} {t t' : CState V T}, γ.length = n → γ'.length = n → Grew c (ρ ++ γ) t →
      Grew c (ρ' ++ γ') t' → t.id < t'.id := by
  intro n
  induction n with
  | zero =>
    intro γ γ' t t' h1 h2 ht ht'
    obtain rfl := List.eq_nil_of_length_eq_zero h1
    obtain rfl := List.eq_nil_of_length_eq_zero h2
    rw [List.append_nil] at ht ht'
    obtain rfl := h.unique ok ht
    obtain rfl := h'.unique ok ht'
    exact hlt
  | succ n ih =>
    intro γ γ' t t' h1 h2 ht ht'
    rcases List.eq_nil_or_concat γ with rfl | ⟨β, y, rfl⟩
    · simp at h1
    rcases List.eq_nil_or_concat γ' with rfl | ⟨β', y', rfl⟩
    · simp at h2
    rw [List.concat_eq_append] at *
    rw [← List.append_assoc] at ht ht'
    obtain ⟨q, hq, hqy, hql⟩ := ht.last
    obtain ⟨q', hq', hqy', hql'⟩ := ht'.last
    have := ih (by simpa using h1) (by simpa using h2) hq hq'
    exact gr.mono q hq.mem q' hq'.mem y y' t.id t'.id hqy hqy' hql hql' this

omit [DecidableEq V] [DecidableEq T] in
theorem Grew.init {ρ γ : List (Sym V T)} {t : CState V T} (h : Grew c (ρ ++ γ) t) : ∃ s, Grew c ρ s := by
  generalize hn : γ.length = n
  induction n generalizing γ t with
  | zero =>
    rw [List.eq_nil_of_length_eq_zero hn, List.append_nil] at h
    exact ⟨t, h⟩
  | succ n ih =>
    rcases List.eq_nil_or_concat γ with rfl | ⟨β, y, rfl⟩
    · simp at hn
    rw [List.concat_eq_append, ← List.append_assoc] at h
    obtain ⟨q, hq, _⟩ := h.last
    exact ih hq (by simpa using hn)

omit [DecidableEq V] [DecidableEq T] in
/-- Different strings of the same length part somewhere. -/
theorem diverge {α : Type} : ∀ {a b : List α}, a.length = b.length → a ≠ b →
    ∃ ρ y z a' b', a = ρ ++ y :: a' ∧ b = ρ ++ z :: b' ∧ y ≠ z ∧ a'.length = b'.length
  | [], [], _, h => absurd rfl h
  | y :: a, z :: b, hl, h => by
    by_cases hyz : y = z
    · subst hyz
      obtain ⟨ρ, y', z', a', b', h1, h2, h3, h4⟩ := diverge (a := a) (b := b) (by simpa using hl)
        (fun e => h (by rw [e]))
      exact ⟨y :: ρ, y', z', a', b', by rw [h1]; rfl, by rw [h2]; rfl, h3, h4⟩
    · exact ⟨[], y, z, a, b, rfl, rfl, hyz, by simpa using hl⟩

omit [DecidableEq V] [DecidableEq T] in
/-- Without two ways in, there is one shortest string per item set. -/
theorem shortest_unique (one : ¬ TwoWaysIn g) : ∀ n {γ δ : List (Sym V T)}, γ.length = n → Shortest g γ →
    Shortest g δ → SameItems g γ δ → γ = δ := by
  intro n
  induction n with
  | zero =>
    intro γ δ hn _ h2 hs
    have := h2.2 γ fun p => (hs p).symm
    rw [List.eq_nil_of_length_eq_zero hn] at this ⊢
    exact (List.eq_nil_of_length_eq_zero (by simpa using this)).symm
  | succ n ih =>
    intro γ δ hn h1 h2 hs
    have hl : δ.length = n + 1 := by
      have := h1.2 δ hs
      have := h2.2 γ fun p => (hs p).symm
      omega
    rcases List.eq_nil_or_concat γ with rfl | ⟨β, y, rfl⟩
    · simp at hn
    rcases List.eq_nil_or_concat δ with rfl | ⟨β', y', rfl⟩
    · simp at hl
    simp only [List.concat_eq_append] at *
    have : EndsWith g (β ++ [y]) β' y' := by
      apply Classical.byContradiction
      intro hno
      refine one ⟨_, h1, β', y', fun p => (hs p).symm, .inl ⟨?_, hno⟩⟩
      simp only [List.length_append, List.length_singleton] at hn hl ⊢
      omega
    obtain ⟨β'', h3, h4⟩ := this
    obtain ⟨rfl, h5⟩ := List.append_inj' h3 rfl
    cases h5
    rw [ih (by simpa using hn) h1.init h2.init fun p => (h4 p).symm]

/-- A list can be sorted by a relation without cycles. -/
theorem sort_acyclic {α : Type} {R : α → α → Prop} (ha : ∀ a, ¬ Relation.TransGen R a a) :
    ∀ n (l : List α), l.length = n → ∃ m : List α, m.Perm l ∧ m.Pairwise fun a b => ¬ R b a := by
  have least : ∀ l : List α, l ≠ [] → ∃ a ∈ l, ∀ b ∈ l, ¬ Relation.TransGen R b a := by
    intro l
    induction l with
    | nil => intro h; exact absurd rfl h
    | cons a l ih =>
      intro _
      by_cases hl : l = []
      · subst hl
        refine ⟨a, List.mem_cons_self .., fun b hb => ?_⟩
        rw [List.mem_singleton.1 hb]
        exact ha a
      · obtain ⟨m, hm, hmin⟩ := ih hl
        by_cases ham : Relation.TransGen R a m
        · refine ⟨a, List.mem_cons_self .., fun b hb hba => ?_⟩
          rcases List.mem_cons.1 hb with rfl | hb
          · exact ha _ hba
          · exact hmin b hb (hba.trans ham)
        · refine ⟨m, List.mem_cons_of_mem _ hm, fun b hb => ?_⟩
          rcases List.mem_cons.1 hb with rfl | hb
          · exact ham
          · exact hmin b hb
  intro n
  induction n with
  | zero =>
    intro l hl
    rw [List.eq_nil_of_length_eq_zero hl]
    exact ⟨[], .refl _, .nil⟩
  | succ n ih =>
    intro l hl
    obtain ⟨a, hm, hmin⟩ := least l (by rintro rfl; simp at hl)
    obtain ⟨pre, post, rfl⟩ := List.append_of_mem hm
    obtain ⟨m, h1, h2⟩ := ih (pre ++ post) (by simp at hl ⊢; omega)
    refine ⟨a :: m, ?_, List.pairwise_cons.2 ⟨fun b hb hR => ?_, h2⟩⟩
    · exact (h1.cons a).trans List.perm_middle.symm
    · refine hmin b ?_ (.single hR)
      rcases List.mem_append.1 (h1.mem_iff.1 hb) with h | h <;> simp [h]

open Classical in
/-- An order that sorts the lists of this type by a relation without cycles. -/
noncomputable def sortOrder {α : Type} (R : List α → α → α → Prop) (ha : ∀ l a, ¬ Relation.TransGen (R l) a a) :
    HashOrder where
  shuffle _ β l :=
    if h : β = α then
      let m : List α := h ▸ l
      h.symm ▸ (sort_acyclic (ha m) _ m rfl).choose
    else l
  perm _ β l := by
    by_cases h : β = α
    · subst h
      simp only [↓reduceDIte]
      exact (sort_acyclic (ha l) _ l rfl).choose_spec.1
    · simp [h]

theorem sortOrder_shuffle {α : Type} {R : List α → α → α → Prop} {ha : ∀ l a, ¬ Relation.TransGen (R l) a a}
    (now : List Nat) (l : List α) : ((sortOrder R ha).shuffle now α l).Pairwise fun a b => ¬ R l b a := by
  simp only [sortOrder, ↓reduceDIte]
  exact (sort_acyclic (ha l) _ l rfl).choose_spec.2

/-- The symbols of the groups have to be looked at in this order. -/
def BeforeIn (g : Grammar V T) (l : List (Sym V T × ItemSet V T)) (a b : Sym V T × ItemSet V T) : Prop :=
  ∃ ρ items, (∀ p, p ∈ items ↔ Viable g ρ p) ∧ l = groupBySymbol items ∧ Before g ρ a.1 b.1

omit [DecidableEq V] [DecidableEq T] in
theorem _root_.Pango.Spec.Before.shortest {ρ : List (Sym V T)} {y z : Sym V T} (h : Before g ρ y z) :
    Shortest g (ρ ++ [y]) ∧ Shortest g (ρ ++ [z]) := by
  obtain ⟨_, γ, α, x, _, h1, h2, _⟩ := h
  have h3 := h1.take (ρ.length + 1)
  have h4 := h2.take (ρ.length + 1)
  rw [List.take_append] at h3 h4
  simp only [List.take_of_length_le (Nat.le_succ _), Nat.add_sub_cancel_left, List.take_succ_cons, List.take_zero]
    at h3 h4
  exact ⟨h3, h4⟩

theorem beforeIn_acyclic (h : CanBeOrdered g) (l : List (Sym V T × ItemSet V T)) (a : Sym V T × ItemSet V T) :
    ¬ Relation.TransGen (BeforeIn g l) a a := by
  intro hc
  have main : ∀ b, Relation.TransGen (BeforeIn g l) a b → ∃ ρ items, (∀ p, p ∈ items ↔ Viable g ρ p) ∧
      l = groupBySymbol items ∧ Shortest g (ρ ++ [b.1]) ∧ Relation.TransGen (Before g ρ) a.1 b.1 := by
    intro b hb
    induction hb with
    | single h1 =>
      obtain ⟨ρ, items, h2, h3, h4⟩ := h1
      exact ⟨ρ, items, h2, h3, h4.shortest.2, .single h4⟩
    | tail _ h1 ih =>
      obtain ⟨ρ, items, h2, h3, h4, h5⟩ := ih
      obtain ⟨ρ', items', h2', h3', h4'⟩ := h1
      have h6 := same_of_groups h2 h2' (h3.symm.trans h3')
      obtain ⟨rfl, _⟩ := List.append_inj' (shortest_unique h.1 _ rfl h4 h4'.shortest.1 (h6 _)) rfl
      exact ⟨ρ, items, h2, h3, h4'.shortest.2, .tail h5 h4'⟩
  obtain ⟨ρ, _, _, _, _, h1⟩ := main a hc
  exact h.2 ρ _ h1

theorem pairwise_or {α : Type} {R : α → α → Prop} {l : List α} (h : l.Pairwise R) {a b : α} (ha : a ∈ l) (hb : b ∈ l)
    (hne : a ≠ b) : R a b ∨ R b a := by
  induction h with
  | nil => cases ha
  | cons h _ ih =>
    rcases List.mem_cons.1 ha with ha | ha <;> rcases List.mem_cons.1 hb with hb | hb
    · exact absurd (ha.trans hb.symm) hne
    · exact .inl (ha ▸ h _ hb)
    · exact .inr (hb ▸ h _ ha)
    · exact ih ha hb

/-- With this order no two states hold the same items. -/
theorem noDuplicates_some (wf : WellFormed g) (h : CanBeOrdered g) : ∃ ord : HashOrder, ∀ fuel c,
    Cfsm.fromGrammar g ord fuel = .ok c → ∀ s ∈ c.states, ∀ t ∈ c.states, (∀ p, p ∈ s.items ↔ p ∈ t.items) → s = t := by
  refine ⟨sortOrder (BeforeIn g) (beforeIn_acyclic h), fun fuel c hc => ?_⟩
  have ok := fromGrammar_ok wf hc
  have gr := fromGrammar_grown hc
  -- the order of the states behind an item set
  have sorted : ∀ {ρ s y z dy dz}, Grew c ρ s → (y, dy) ∈ s.transitions → (z, dz) ∈ s.transitions → s.id < dy →
      s.id < dz → Before g ρ y z → dy < dz := by
    intro ρ s y z dy dz hs hy hz hly hlz hb
    obtain ⟨hkeys, hincr⟩ := ok.inTurn hc hs.mem
    have h1 : (s.transitions.map Prod.fst).Pairwise fun a b => ¬ Before g ρ b a := by
      rw [hkeys]
      refine List.pairwise_map.2 ((sortOrder_shuffle (ha := beforeIn_acyclic h) _ _).imp fun h2 h3 => h2 ?_)
      exact ⟨ρ, s.items, reached_viable ok hs.reached, rfl, h3⟩
    have h2 := (List.pairwise_map.1 h1).and hincr
    rcases pairwise_or h2 hy hz (fun e => hb.1 (congrArg Prod.fst e)) with h3 | h3
    · exact h3.2 hly hlz
    · exact absurd hb h3.1
  have main : ∀ n, ∀ k ∈ c.states, k.id ≤ n → ∀ i ∈ c.states, i.id < k.id → ¬ ∀ p, p ∈ i.items ↔ p ∈ k.items := by
    intro n
    induction n with
    | zero =>
      intro k _ h1 i _ h2
      omega
    | succ n ih =>
      intro k hk hkn i hi hik same
      rcases Nat.lt_or_ge k.id (n + 1) with h' | h'
      · exact ih k hk (by omega) i hi hik same
      have first : ∀ t ∈ c.states, (∀ p, p ∈ i.items ↔ p ∈ t.items) → i.id ≤ t.id := by
        intro t ht hsame
        apply Nat.le_of_not_lt
        intro hlt
        exact ih i hi (by omega) t ht hlt fun p => (hsame p).symm
      obtain ⟨γ, hγ⟩ := ok.grew hk
      cases hγ with
      | start _ h0 => omega
      | @step α j _ x hα hx _ hjk =>
        obtain ⟨γ, hγ⟩ := ok.grew hi
        have hread := ok.readable hα.reached hx
        have hsame : SameItems g (α ++ [x]) γ :=
          (ok.same_iff (Grew.step hα hx hk hjk).reached hγ.reached).1 fun p => (same p).symm
        have hij : j.id ≤ i.id := by
          apply Nat.le_of_not_lt
          intro hlt
          have := gr.fresh j hα.mem x k.id k.items hx hjk (List.mem_map.2 ⟨k, hk, rfl⟩) i hi hlt
          rw [sameItems_iff.2 same] at this
          cases this
        have hγr : CanRead g γ := by
          obtain ⟨p, hp⟩ := hread
          exact ⟨p, (hsame p).1 hp⟩
        have hshort : Shortest g γ := ⟨hγr, fun δ hδ => hγ.le_same ok gr first hγr hδ⟩
        have hlen := hα.length_le gr hγ hij
        by_cases hend : EndsWith g γ α x
        · obtain ⟨β, rfl, hβ⟩ := hend
          obtain ⟨q, hq, hqx, hqi⟩ := hγ.last
          have hqj : q = j := by
            have hs : ∀ p, p ∈ j.items ↔ p ∈ q.items := (ok.same_iff hα.reached hq.reached).2 hβ
            refine ok.eq_of_id hq.mem hα.mem ?_
            rcases Nat.lt_trichotomy q.id j.id with hn | hn | hn
            · exact absurd (fun p => (hs p).symm) (ih j hα.mem (by omega) q hq.mem hn)
            · exact hn
            · exact absurd hs (ih q hq.mem (by omega) j hα.mem hn)
          subst hqj
          have := ok.eq_of_key hα.mem hx hqx
          omega
        · have hlen' : α.length = γ.length := by
            apply Nat.le_antisymm hlen
            apply Nat.le_of_not_lt
            intro hlt
            exact h.1 ⟨γ, hshort, α, x, hsame, .inl ⟨hlt, hend⟩⟩
          have hα' : Shortest g α := by
            refine ⟨hread.init, fun δ hδ => ?_⟩
            apply Nat.le_of_not_lt
            intro hlt
            refine h.1 ⟨γ, hshort, δ, x, fun p => ((hδ.read x) p).symm.trans (hsame p), .inl ⟨by omega, ?_⟩⟩
            rintro ⟨β, h1, h2⟩
            exact hend ⟨β, h1, fun p => (hδ p).trans (h2 p)⟩
          have hne : γ ≠ α := by
            rintro rfl
            exact h.1 ⟨γ, hshort, γ, x, hsame, .inr fun _ => Iff.rfl⟩
          obtain ⟨ρ, y, z, γ', α', rfl, rfl, hyz, hl⟩ := diverge hlen'.symm hne
          have hb : Before g ρ y z := ⟨hyz, γ', α', x, hl, hshort, hα', hsame⟩
          have split : ∀ {w : Sym V T} {δ t}, Grew c (ρ ++ w :: δ) t → ∃ s u, Grew c ρ s ∧ Grew c (ρ ++ [w]) u ∧
              (w, u.id) ∈ s.transitions ∧ s.id < u.id := by
            intro w δ t ht
            rw [show ρ ++ w :: δ = ρ ++ [w] ++ δ by simp] at ht
            obtain ⟨u, hu⟩ := ht.init
            obtain ⟨s, h1, h2, h3⟩ := hu.last
            exact ⟨s, u, h1, hu, h2, h3⟩
          obtain ⟨s, u, hs, hu, hsu, hlu⟩ := split hγ
          obtain ⟨s', u', hs', hu', hsu', hlu'⟩ := split hα
          obtain rfl := hs.unique ok hs'
          have hlt := sorted hs hsu hsu' hlu hlu' hb
          have := Grew.lex gr ok hu hu' hlt γ'.length (γ := γ') (γ' := α') rfl hl.symm (by simpa using hγ) (by simpa using hα)
          omega
  intro s hs t ht hsame
  refine ok.eq_of_id hs ht ?_
  rcases Nat.lt_trichotomy s.id t.id with hn | hn | hn
  · exact absurd hsame (main _ t ht (Nat.le_refl _) s hs hn)
  · exact hn
  · exact absurd (fun p => (hsame p).symm) (main _ s hs (Nat.le_refl _) t ht hn)

/-- Without equal states, the symbols can be ordered: as they were looked at. -/
theorem ordered_of_noDuplicates (wf : WellFormed g) {ord : HashOrder} {fuel : Nat}
    (hc : Cfsm.fromGrammar g ord fuel = .ok c)
    (uniq : ∀ s ∈ c.states, ∀ t ∈ c.states, (∀ p, p ∈ s.items ↔ p ∈ t.items) → s = t) : CanBeOrdered g := by
  have ok := fromGrammar_ok wf hc
  have gr := fromGrammar_grown hc
  refine ⟨fun two => ?_, fun ρ y hcyc => ?_⟩
  · obtain ⟨s, hs, t, ht, hne, h⟩ := duplicates ok gr two
    exact hne (uniq s hs t ht h)
  -- every readable string is the string of a state that was made along a shortest one
  have grown : ∀ {γ}, Shortest g γ → ∃ s, Reached c γ s ∧ Grew c γ s := by
    intro γ hγ
    generalize hn : γ.length = n
    induction n generalizing γ with
    | zero =>
      rw [List.eq_nil_of_length_eq_zero hn]
      obtain ⟨p, hp⟩ := hγ.1
      rw [List.eq_nil_of_length_eq_zero hn] at hp
      obtain ⟨s, hs⟩ := ok.exists_reached hp
      refine ⟨s, hs, ?_⟩
      generalize hε : ([] : List (Sym V T)) = ε at hs
      cases hs with
      | start hs h0 => exact .start hs h0
      | step _ _ _ _ => simp at hε
    | succ n ih =>
      rcases List.eq_nil_or_concat γ with rfl | ⟨β, y, rfl⟩
      · simp at hn
      simp only [List.concat_eq_append] at *
      obtain ⟨p, hp⟩ := hγ.1
      obtain ⟨t, ht⟩ := ok.exists_reached hp
      obtain ⟨s, hs, hs'⟩ := ih hγ.init (by simpa using hn)
      refine ⟨t, ht, ?_⟩
      obtain ⟨τ, hτ⟩ := ok.grew (reached_mem ht)
      have h1 := hγ.2 τ ((ok.same_iff ht hτ.reached).1 fun _ => Iff.rfl)
      have hlt : s.id < t.id := by
        apply Nat.lt_of_not_le
        intro hle
        have := hτ.length_le gr hs' hle
        simp only [List.length_append, List.length_singleton] at h1
        omega
      generalize hε : β ++ [y] = ε at ht
      cases ht with
      | start _ _ => simp at hε
      | @step β' a _ z d ha hz htm hd =>
        obtain ⟨rfl, hyz⟩ := List.append_inj' hε rfl
        cases hyz
        subst hd
        obtain rfl := ok.reached_unique ha hs
        exact .step hs' hz htm hlt
  have main : ∀ z, Relation.TransGen (Before g ρ) y z → ∃ s dy dz, Grew c ρ s ∧ (y, dy) ∈ s.transitions ∧
      (z, dz) ∈ s.transitions ∧ dy < dz := by
    have one : ∀ {y z}, Before g ρ y z → ∃ s dy dz, Grew c ρ s ∧ (y, dy) ∈ s.transitions ∧
        (z, dz) ∈ s.transitions ∧ dy < dz := by
      rintro y z ⟨hyz, γ, α, x, hl, hγ, hα, hsame⟩
      obtain ⟨i, hi, hgi⟩ := grown hγ
      obtain ⟨j, hj, hgj⟩ := grown hα
      have split : ∀ {w : Sym V T} {δ t}, Grew c (ρ ++ w :: δ) t → ∃ s u, Grew c ρ s ∧ Grew c (ρ ++ [w]) u ∧
          (w, u.id) ∈ s.transitions ∧ s.id < u.id := by
        intro w δ t ht
        rw [show ρ ++ w :: δ = ρ ++ [w] ++ δ by simp] at ht
        obtain ⟨u, hu⟩ := ht.init
        obtain ⟨s, h1, h2, h3⟩ := hu.last
        exact ⟨s, u, h1, hu, h2, h3⟩
      obtain ⟨s, u, hs, hu, hsu, hlu⟩ := split hgi
      obtain ⟨s', u', hs', hu', hsu', hlu'⟩ := split hgj
      obtain rfl := hs.unique ok hs'
      refine ⟨s, u.id, u'.id, hs, hsu, hsu', ?_⟩
      apply Nat.lt_of_not_le
      intro hle
      have hne : u'.id ≠ u.id := by
        intro h
        rw [h] at hsu'
        exact hyz (gr.inj s hs.mem y z u.id hsu hsu' hlu)
      have hji := Grew.lex gr ok hu' hu (by omega) α.length (γ := α) (γ' := γ) (t := j) (t' := i) rfl hl
        (by simpa using hgj) (by simpa using hgi)
      -- then a second state for the items of `i` is made from `j`
      obtain ⟨p, hp⟩ := hγ.1
      obtain ⟨t, ht⟩ := ok.exists_reached ((hsame p).2 hp)
      obtain rfl := uniq t (reached_mem ht) i (reached_mem hi) ((ok.same_iff ht hi).2 hsame)
      have hgrew : Grew c (ρ ++ z :: α ++ [x]) t := by
        generalize hε : ρ ++ z :: α ++ [x] = ε at ht
        cases ht with
        | start _ _ => simp at hε
        | @step α' a _ z' d ha hz htm hd =>
          obtain ⟨rfl, hxz⟩ := List.append_inj' hε rfl
          cases hxz
          subst hd
          obtain rfl := ok.reached_unique ha hj
          exact .step hgj hz htm hji
      have h2 := hgrew.le_reached ok gr hi
      simp only [List.length_append, List.length_cons] at h2
      omega
    intro z hz
    induction hz with
    | single h => exact one h
    | tail _ h ih =>
      obtain ⟨s, dy, dz, h1, h2, h3, h4⟩ := ih
      obtain ⟨s', dz', dw, h1', h2', h3', h4'⟩ := one h
      obtain rfl := h1.unique ok h1'
      have := ok.eq_of_key h1.mem h3 h2'
      exact ⟨s, dy, dw, h1, h2, h3', by omega⟩
  obtain ⟨s, dy, dz, h1, h2, h3, h4⟩ := main y hcyc
  have := ok.eq_of_key h1.mem h2 h3
  omega

end Pango.Parse
