import Verif.Proofs.Derive
import Verif.Proofs.Grouped

/-!
# The computation of FIRST

The main loop works on pairs of an owner (a variable, or the strings asked for) and a string of symbols.  Such
a pair is *covered* if it is pending, or if what its first symbol contributes is in the set of the owner, it
is registered with the variable at its front, and the rest is covered if the loop went on to it.  The loop
keeps all rules of visited variables covered; when nothing is pending, the sets are complete.
-/

namespace Pango.Parse

open Pango Pango.Spec

variable {V T : Type}

/-- FIRST by the inductive descriptions. -/
def FirstOf (g : Grammar V T) (α : List (Sym V T)) : Sym V T → Prop
  | .term t => Starts g t α
  | .eps => Nullable g α
  | .var _ => False

theorem inFirst_iff {g : Grammar V T} {α : List (Sym V T)} {x : Sym V T} : InFirst g α x ↔ FirstOf g α x := by
  cases x with
  | term t => exact derives_starts
  | eps => exact derives_nullable
  | var v => exact Iff.rfl

/-- The terminals at the front of derived strings come from the string or the rules. -/
theorem Starts.mem {g : Grammar V T} {t : T} {α : List (Sym V T)} (h : Starts g t α) :
    Sym.term t ∈ α ∨ ∃ v β, (v, β) ∈ g.rules ∧ Sym.term t ∈ β := by
  induction h with
  | term => exact .inl (by simp)
  | eps _ ih =>
    rcases ih with h | h
    · exact .inl (by simp [h])
    · exact .inr h
  | inVar hr _ ih =>
    rcases ih with h | h
    · exact .inr ⟨_, _, hr, h⟩
    · exact .inr h
  | skip _ _ _ ih =>
    rcases ih with h | h
    · exact .inl (by simp [h])
    · exact .inr h

section Sums

variable {α : Type}

theorem sum_map_le {f f' : α → Nat} {l : List α} (h : ∀ a ∈ l, f' a ≤ f a) :
    (l.map f').sum ≤ (l.map f).sum := by
  induction l with
  | nil => simp
  | cons a l ih =>
    have h1 := h a (by simp)
    have h2 := ih fun b hb => h b (by simp [hb])
    simp only [List.map_cons, List.sum_cons]
    omega

theorem sum_map_lt {f f' : α → Nat} {l : List α} (h : ∀ a ∈ l, f' a ≤ f a) {a : α} (ha : a ∈ l)
    (hlt : f' a < f a) : (l.map f').sum + 1 ≤ (l.map f).sum := by
  induction l with
  | nil => cases ha
  | cons b l ih =>
    simp only [List.map_cons, List.sum_cons]
    have h1 := h b (by simp)
    rcases List.mem_cons.1 ha with rfl | ha
    · have h2 := sum_map_le (f := f) (f' := f') (l := l) fun c hc => h c (by simp [hc])
      omega
    · have h2 := ih (fun c hc => h c (by simp [hc])) ha
      omega

theorem sum_map_const (l : List α) (n : Nat) : (l.map fun _ => n).sum = l.length * n := by
  induction l with
  | nil => simp
  | cons a l ih => rw [List.map_cons, List.sum_cons, ih, List.length_cons, Nat.succ_mul]; omega

end Sums

variable [DecidableEq V] [DecidableEq T]

theorem mem_bodiesOf {g : Grammar V T} {v : V} {β : Body V T} : β ∈ g.bodiesOf v ↔ (v, β) ∈ g.rules := by
  simp only [Grammar.bodiesOf, List.mem_filterMap]
  constructor
  · rintro ⟨r, h1, h2⟩
    split at h2
    · rename_i h
      cases h2
      subst h
      exact h1
    · cases h2
  · intro h
    exact ⟨_, h, by simp⟩

theorem expectBodies_ok {g : Grammar V T} {v : V} (h : v ∈ g.rules.map Prod.fst) :
    g.expectBodies v = .ok (g.bodiesOf v) := by
  obtain ⟨⟨v', β⟩, hr, rfl⟩ := List.mem_map.1 h
  have := mem_bodiesOf.2 hr
  unfold Grammar.expectBodies
  cases hb : g.bodiesOf v' with
  | nil => rw [hb] at this; cases this
  | cons _ _ => rfl

/-- The set of an owner. -/
def FirstState.cur (s : FirstState V T) : Option V → List (Sym V T)
  | none => s.result
  | some v => (mapGet s.first v).getD []

/-- The string is pending. -/
def FirstState.InPending (s : FirstState V T) (o : Option V) (b : Body V T) : Prop :=
  ∃ bs, (o, bs) ∈ s.pending ∧ b ∈ bs

/-- The string is registered with the variable. -/
def FirstState.Reg (s : FirstState V T) (v : V) (o : Option V) (b : Body V T) : Prop :=
  ∃ ds bs, mapGet s.deps v = some ds ∧ mapGet ds o = some bs ∧ b ∈ bs

/-- The string is covered. -/
def Cov (s : FirstState V T) (o : Option V) : Body V T → Prop
  | [] => True
  | .term t :: rest => s.InPending o (.term t :: rest) ∨ .term t ∈ s.cur o
  | .eps :: rest => s.InPending o (.eps :: rest) ∨ (rest = [] ∧ .eps ∈ s.cur o) ∨ (rest ≠ [] ∧ Cov s o rest)
  | .var v :: rest => s.InPending o (.var v :: rest) ∨
      (v ∈ s.visited ∧ s.Reg v o (.var v :: rest) ∧
        (∀ x ∈ s.cur (some v), x ≠ .eps ∨ rest = [] → x ∈ s.cur o) ∧ (.eps ∈ s.cur (some v) → Cov s o rest))

theorem FirstState.InPending.cov {s : FirstState V T} {o : Option V} {b : Body V T} (h : s.InPending o b) :
    Cov s o b := by
  cases b with
  | nil => trivial
  | cons x b => cases x <;> exact .inl h

/-- A later state. -/
structure Evolves (g : Grammar V T) (s s' : FirstState V T) : Prop where
  visited : ∀ v ∈ s.visited, v ∈ s'.visited
  cur : ∀ o x, x ∈ s.cur o → x ∈ s'.cur o
  pending : ∀ o b, s.InPending o b → Cov s' o b
  reg : ∀ v o b, s.Reg v o b →
    (s'.Reg v o b ∧ ∀ x ∈ s'.cur (some v), x ∈ s.cur (some v)) ∨ Cov s' o b
  fresh : ∀ v ∈ s'.visited, v ∈ s.visited ∨ ∀ β ∈ g.bodiesOf v, Cov s' (some v) β

theorem Evolves.cov {g : Grammar V T} {s s' : FirstState V T} (e : Evolves g s s') {o : Option V}
    {b : Body V T} (h : Cov s o b) : Cov s' o b := by
  induction b with
  | nil => trivial
  | cons x b ih =>
    cases x with
    | term t =>
      rcases h with h | h
      · exact e.pending o _ h
      · exact .inr (e.cur o _ h)
    | eps =>
      rcases h with h | ⟨h1, h2⟩ | ⟨h1, h2⟩
      · exact e.pending o _ h
      · exact .inr (.inl ⟨h1, e.cur o _ h2⟩)
      · exact .inr (.inr ⟨h1, ih h2⟩)
    | var v =>
      rcases h with h | ⟨h1, h2, h3, h4⟩
      · exact e.pending o _ h
      · rcases e.reg v o _ h2 with ⟨h5, h6⟩ | h5
        · exact .inr ⟨e.visited v h1, h5, fun x hx hr => e.cur o x (h3 x (h6 x hx) hr),
            fun hx => ih (h4 (h6 _ hx))⟩
        · exact h5

theorem Evolves.refl (g : Grammar V T) (s : FirstState V T) : Evolves g s s :=
  ⟨fun _ h => h, fun _ _ h => h, fun _ _ h => h.cov, fun _ _ _ h => .inl ⟨h, fun _ h => h⟩, fun _ h => .inl h⟩

theorem Evolves.trans {g : Grammar V T} {s s' s'' : FirstState V T} (e : Evolves g s s')
    (e' : Evolves g s' s'') : Evolves g s s'' := by
  refine ⟨fun v h => e'.visited v (e.visited v h), fun o x h => e'.cur o x (e.cur o x h),
    fun o b h => e'.cov (e.pending o b h), fun v o b h => ?_, fun v h => ?_⟩
  · rcases e.reg v o b h with ⟨h1, h2⟩ | h1
    · rcases e'.reg v o b h1 with ⟨h3, h4⟩ | h3
      · exact .inl ⟨h3, fun x hx => h2 x (h4 x hx)⟩
      · exact .inr h3
    · exact .inr (e'.cov h1)
  · rcases e'.fresh v h with h | h
    · rcases e.fresh v h with h | h
      · exact .inl h
      · exact .inr fun β hβ => e'.cov (h β hβ)
    · exact .inr h

/-- What a string that belongs to an owner satisfies; `Target o` is the set that the owner should get. -/
structure Belongs (g : Grammar V T) (Target : Option V → Sym V T → Prop) (o : Option V) (b : Body V T) :
    Prop where
  sub : ∀ x, FirstOf g b x → Target o x
  vars : ∀ v, Sym.var v ∈ b → v ∈ g.rules.map Prod.fst

/-- The owner has been visited. -/
def OwnerOk (s : FirstState V T) (o : Option V) : Prop := ∀ v, o = some v → v ∈ s.visited

/-- What always holds. -/
structure FirstInv (g : Grammar V T) (Target : Option V → Sym V T → Prop) (s : FirstState V T) : Prop where
  unvisited : ∀ v, v ∉ s.visited → mapGet s.first v = none
  sound : ∀ o x, x ∈ s.cur o → Target o x
  pend : ∀ o bs, (o, bs) ∈ s.pending → OwnerOk s o ∧ ∀ b ∈ bs, Belongs g Target o b
  deps : ∀ v ds, mapGet s.deps v = some ds → (ds.map Prod.fst).Nodup ∧
    ∀ o bs, (o, bs) ∈ ds → OwnerOk s o ∧ ∀ b ∈ bs, Belongs g Target o b
  visited_nodup : s.visited.Nodup
  visited_vars : ∀ v ∈ s.visited, v ∈ g.rules.map Prod.fst
  cur_nodup : ∀ v, (s.cur (some v)).Nodup

/-- All symbols that can be in a set of a variable. -/
def firstUniverse (g : Grammar V T) : List (Sym V T) := .eps :: g.rules.flatMap Prod.snd

/-- What the loop still has to do at most. -/
def firstWork (g : Grammar V T) (s : FirstState V T) : Nat :=
  s.pending.length + (g.rules.length - s.visited.length) +
    ((g.rules.map Prod.fst).map fun v => (firstUniverse g).length - (s.cur (some v)).length).sum *
      (g.rules.length + 1)

variable {g : Grammar V T} {Target : Option V → Sym V T → Prop}

omit [DecidableEq V] [DecidableEq T] in
theorem firstOf_var_mem {v : V} {x : Sym V T} (h : FirstOf g [.var v] x) : x ∈ firstUniverse g := by
  cases x with
  | eps => exact List.mem_cons_self ..
  | var v => exact h.elim
  | term t =>
    rcases Starts.mem h with h | ⟨v, β, h1, h2⟩
    · simp at h
    · exact List.mem_cons_of_mem _ (List.mem_flatMap.2 ⟨_, h1, h2⟩)

theorem FirstInv.cur_length {s : FirstState V T} (i : FirstInv g Target s)
    (ht : ∀ v x, Target (some v) x → FirstOf g [.var v] x) (v : V) :
    (s.cur (some v)).length ≤ (firstUniverse g).length :=
  nodup_length_le (i.cur_nodup v) fun x hx => firstOf_var_mem (ht v x (i.sound _ x hx))

theorem FirstInv.visited_length {s : FirstState V T} (i : FirstInv g Target s) :
    s.visited.length ≤ g.rules.length := by
  have := nodup_length_le i.visited_nodup i.visited_vars
  simpa using this

/-- One step of the computation. -/
structure FirstStep (g : Grammar V T) (Target : Option V → Sym V T → Prop) (s s' : FirstState V T) : Prop where
  inv : FirstInv g Target s'
  evolves : Evolves g s s'
  work : firstWork g s' ≤ firstWork g s

theorem FirstStep.trans {s s' s'' : FirstState V T} (a : FirstStep g Target s s')
    (b : FirstStep g Target s' s'') : FirstStep g Target s s'' :=
  ⟨b.inv, a.evolves.trans b.evolves, Nat.le_trans b.work a.work⟩

theorem extend_spec (ord : HashOrder) {s : FirstState V T} (i : FirstInv g Target s)
    (ht : ∀ v x, Target (some v) x → FirstOf g [.var v] x) {o : Option V} (ho : OwnerOk s o)
    {xs : List (Sym V T)} (hx : ∀ x ∈ xs, Target o x) :
    FirstStep g Target s (extendForVariable ord o xs s) ∧
    (∀ x ∈ xs, x ∈ (extendForVariable ord o xs s).cur o) := by
  cases o with
  | none =>
    have hcur : ∀ o x, x ∈ (extendForVariable ord none xs s).cur o ↔ x ∈ s.cur o ∨ (o = none ∧ x ∈ xs) := by
      intro o x
      cases o with
      | none => simp [extendForVariable, FirstState.cur, mem_extendSet]
      | some v => simp [extendForVariable, FirstState.cur]
    refine ⟨⟨⟨i.unvisited, ?_, i.pend, i.deps, i.visited_nodup, i.visited_vars, i.cur_nodup⟩,
      ⟨fun _ h => h, fun o x h => (hcur o x).2 (.inl h), fun o b h => ?_, fun v o b h => ?_, fun _ h => .inl h⟩,
      Nat.le_refl _⟩, fun x h => (hcur none x).2 (.inr ⟨rfl, h⟩)⟩
    · intro o x h
      rcases (hcur o x).1 h with h | ⟨rfl, h'⟩
      · exact i.sound o x h
      · exact hx x h'
    · exact FirstState.InPending.cov h
    · exact .inl ⟨h, fun x h => h⟩
  | some v =>
    -- the new set
    let old := (mapGet s.first v).getD []
    let new := extendSet old xs
    let s1 : FirstState V T := { s with first := mapSet s.first v new }
    have hcur : ∀ o x, x ∈ s1.cur o ↔ x ∈ s.cur o ∨ (o = some v ∧ x ∈ xs) := by
      intro o x
      cases o with
      | none => simp [s1, FirstState.cur]
      | some w =>
        simp only [s1, FirstState.cur, mapGet_mapSet]
        by_cases h : v = w
        · subst h; simp [new, old, mem_extendSet]
        · simp [h, Ne.symm h]
    have hcurv : s1.cur (some v) = new := by simp [s1, FirstState.cur, mapGet_mapSet]
    have hcurw : ∀ w, w ≠ v → s1.cur (some w) = s.cur (some w) := by
      intro w h
      simp [s1, FirstState.cur, mapGet_mapSet, Ne.symm h]
    have hold : s.cur (some v) = old := rfl
    have hv : v ∈ s.visited := ho v rfl
    have i1 : FirstInv g Target s1 := by
      refine ⟨?_, ?_, i.pend, i.deps, i.visited_nodup, i.visited_vars, ?_⟩
      · intro w hw
        have : v ≠ w := by rintro rfl; exact hw hv
        simp only [s1, mapGet_mapSet, if_neg this]
        exact i.unvisited w hw
      · intro o x h
        rcases (hcur o x).1 h with h | ⟨rfl, h'⟩
        · exact i.sound o x h
        · exact hx x h'
      · intro w
        by_cases h : w = v
        · subst h; rw [hcurv]; exact nodup_extendSet (i.cur_nodup w)
        · rw [hcurw w h]; exact i.cur_nodup w
    have sum_le : ((g.rules.map Prod.fst).map fun v =>
        (firstUniverse g).length - (s1.cur (some v)).length).sum ≤ ((g.rules.map Prod.fst).map fun v =>
        (firstUniverse g).length - (s.cur (some v)).length).sum := by
      refine sum_map_le fun w _ => ?_
      by_cases h : w = v
      · subst h
        have := (extendSet_prefix old xs).length_le
        rw [hcurv, hold]
        simp only [new]
        omega
      · rw [hcurw w h]; exact Nat.le_refl _
    by_cases hlen : old.length = new.length
    · -- nothing new
      have hs : extendForVariable ord (some v) xs s = s1 := by
        simp only [extendForVariable]
        rw [if_neg]
        exact fun h => h hlen
      have hsame : new = old := extendSet_same hlen
      rw [hs]
      refine ⟨⟨i1, ⟨fun _ h => h, fun o x h => (hcur o x).2 (.inl h), fun o b h => ?_, fun w o b h => ?_,
        fun _ h => .inl h⟩, ?_⟩, fun x h => (hcur _ x).2 (.inr ⟨rfl, h⟩)⟩
      · exact FirstState.InPending.cov h
      · refine .inl ⟨h, fun x hx => ?_⟩
        by_cases hw : w = v
        · subst hw; rw [hcurv, hsame] at hx; exact hx
        · rw [hcurw w hw] at hx; exact hx
      · have := Nat.mul_le_mul_right (g.rules.length + 1) sum_le
        simp only [firstWork]
        show s.pending.length + (g.rules.length - s.visited.length) + _ ≤ _
        omega
    · -- the strings registered with the variable become pending
      have hv' : v ∈ g.rules.map Prod.fst := i.visited_vars v hv
      have sum_lt := sum_map_lt (f := fun v => (firstUniverse g).length - (s.cur (some v)).length)
        (f' := fun v => (firstUniverse g).length - (s1.cur (some v)).length)
        (l := g.rules.map Prod.fst) (fun w _ => by
          by_cases h : w = v
          · subst h
            have := (extendSet_prefix old xs).length_le
            show (firstUniverse g).length - (s1.cur (some w)).length ≤
              (firstUniverse g).length - (s.cur (some w)).length
            rw [hcurv, hold]
            simp only [new]
            omega
          · show (firstUniverse g).length - (s1.cur (some w)).length ≤
              (firstUniverse g).length - (s.cur (some w)).length
            rw [hcurw w h]; exact Nat.le_refl _) hv' (by
          show (firstUniverse g).length - (s1.cur (some v)).length <
              (firstUniverse g).length - (s.cur (some v)).length
          have h1 := (extendSet_prefix old xs).length_le
          have h2 := i1.cur_length ht v
          rw [hcurv] at h2 ⊢
          rw [hold]
          simp only [new] at h2 hlen ⊢
          omega)
      have hmul := Nat.mul_le_mul_right (g.rules.length + 1) sum_lt
      rw [Nat.add_mul, Nat.one_mul] at hmul
      cases hd : mapGet s.deps v with
      | none =>
        have hs : extendForVariable ord (some v) xs s = s1 := by
          simp only [extendForVariable]
          rw [if_pos hlen]
          simp only [hd]
          rfl
        rw [hs]
        refine ⟨⟨i1, ⟨fun _ h => h, fun o x h => (hcur o x).2 (.inl h), fun o b h => ?_, fun w o b h => ?_,
          fun _ h => .inl h⟩, ?_⟩, fun x h => (hcur _ x).2 (.inr ⟨rfl, h⟩)⟩
        · exact FirstState.InPending.cov h
        · refine .inl ⟨h, fun x hx => ?_⟩
          by_cases hw : w = v
          · subst hw
            obtain ⟨ds, bs, h1, _⟩ := h
            rw [hd] at h1
            cases h1
          · rw [hcurw w hw] at hx; exact hx
        · simp only [firstWork]
          show s.pending.length + (g.rules.length - s.visited.length) + _ ≤ _
          omega
      | some ds =>
        let s2 : FirstState V T :=
          { s1 with pending := s.pending ++ ord.shuffle [] _ ds, deps := mapRemove s.deps v }
        have hs : extendForVariable ord (some v) xs s = s2 := by
          simp only [extendForVariable]
          rw [if_pos hlen]
          simp only [hd]
          rfl
        have hcur2 : ∀ o, s2.cur o = s1.cur o := fun o => by cases o <;> rfl
        have hpend : ∀ o b, s.InPending o b → s2.InPending o b := by
          rintro o b ⟨bs, h1, h2⟩
          exact ⟨bs, List.mem_append.2 (.inl h1), h2⟩
        obtain ⟨hk, hds⟩ := i.deps v ds hd
        rw [hs]
        refine ⟨⟨⟨i1.unvisited, fun o x h => i1.sound o x (by rwa [hcur2] at h), ?_, ?_, i.visited_nodup,
          i.visited_vars, fun w => by rw [hcur2]; exact i1.cur_nodup w⟩, ⟨fun _ h => h,
          fun o x h => by rw [hcur2]; exact (hcur o x).2 (.inl h), fun o b h => (hpend o b h).cov,
          fun w o b h => ?_, fun _ h => .inl h⟩, ?_⟩, fun x h => by rw [hcur2]; exact (hcur _ x).2 (.inr ⟨rfl, h⟩)⟩
        · intro o bs h
          rcases List.mem_append.1 h with h | h
          · exact i.pend o bs h
          · rw [HashOrder.mem_shuffle] at h
            exact hds o bs h
        · intro w ds' h
          simp only [s2, mapGet_mapRemove] at h
          split at h
          · cases h
          · exact i.deps w ds' h
        · obtain ⟨ds', bs, h1, h2, h3⟩ := h
          by_cases hw : w = v
          · subst hw
            rw [hd] at h1
            cases h1
            refine .inr (FirstState.InPending.cov ⟨bs, List.mem_append.2 (.inr ?_), h3⟩)
            rw [HashOrder.mem_shuffle]
            exact mapGet_mem h2
          · refine .inl ⟨⟨ds', bs, ?_, h2, h3⟩, fun x hx => ?_⟩
            · simp only [s2, mapGet_mapRemove, if_neg (Ne.symm hw)]
              exact h1
            · rw [hcur2, hcurw w hw] at hx; exact hx
        · -- at most one entry for each owner
          have hle : ds.length ≤ g.rules.length + 1 := by
            have h1 : ∀ o ∈ ds.map Prod.fst, o ∈ none :: s.visited.map some := by
              intro o ho
              obtain ⟨⟨o', bs⟩, h1, rfl⟩ := List.mem_map.1 ho
              have := (hds o' bs h1).1
              cases o' with
              | none => simp
              | some w => simp [this w rfl]
            have h2 := nodup_length_le hk h1
            have h3 := i.visited_length
            simp only [List.length_map, List.length_cons] at h2
            omega
          simp only [firstWork]
          show (s.pending ++ ord.shuffle [] _ ds).length + (g.rules.length - s.visited.length) + _ ≤ _
          rw [List.length_append, HashOrder.length_shuffle]
          show s.pending.length + ds.length + (g.rules.length - s.visited.length) +
            ((g.rules.map Prod.fst).map fun v =>
              (firstUniverse g).length - (s1.cur (some v)).length).sum * (g.rules.length + 1) ≤ _
          omega

omit [DecidableEq T] in
theorem addDependency_reg (v : V) (o : Option V) (b : Body V T) (s : FirstState V T) :
    (addDependency v o b s).Reg v o b := by
  refine ⟨_, _, by simp only [addDependency, mapGet_mapSet, if_pos]; rfl, by
    simp only [mapGet_mapSet, if_pos]; rfl, by simp⟩

theorem addDependency_spec {s : FirstState V T} (i : FirstInv g Target s) {v : V} {o : Option V} {b : Body V T}
    (ho : OwnerOk s o) (hb : Belongs g Target o b) : FirstStep g Target s (addDependency v o b s) := by
  have hcur : ∀ o', (addDependency v o b s).cur o' = s.cur o' := fun o' => by cases o' <;> rfl
  refine ⟨⟨i.unvisited, fun o x h => i.sound o x (by rwa [hcur] at h), i.pend, ?_, i.visited_nodup,
    i.visited_vars, fun w => by rw [hcur]; exact i.cur_nodup w⟩, ⟨fun _ h => h, fun o x h => by rwa [hcur],
    fun o b h => FirstState.InPending.cov h, fun w o' b' h => .inl ⟨?_, fun x hx => by rwa [hcur] at hx⟩,
    fun _ h => .inl h⟩, Nat.le_refl _⟩
  · intro w ds h
    simp only [addDependency, mapGet_mapSet] at h
    split at h
    · rename_i hw
      subst hw
      cases h
      -- what was there
      have hold : (((mapGet s.deps v).getD []).map Prod.fst).Nodup ∧
          ∀ o bs, (o, bs) ∈ (mapGet s.deps v).getD [] → OwnerOk s o ∧ ∀ b ∈ bs, Belongs g Target o b := by
        cases hd : mapGet s.deps v with
        | none => simp
        | some ds => exact i.deps v ds hd
      refine ⟨mapSet_keys_nodup hold.1 _ _, ?_⟩
      intro o' bs h
      rcases mapSet_mem h with ⟨rfl, rfl⟩ | h
      · refine ⟨ho, fun b' hb' => ?_⟩
        rcases List.mem_append.1 hb' with hb' | hb'
        · cases hg : mapGet ((mapGet s.deps v).getD []) o' with
          | none => rw [hg] at hb'; cases hb'
          | some bs' =>
            rw [hg] at hb'
            exact (hold.2 o' bs' (mapGet_mem hg)).2 b' hb'
        · rw [List.mem_singleton.1 hb']; exact hb
      · exact hold.2 o' bs h
    · exact i.deps w ds h
  · obtain ⟨ds, bs, h1, h2, h3⟩ := h
    by_cases hw : v = w
    · subst hw
      simp only [FirstState.Reg, addDependency, mapGet_mapSet, if_true, h1, Option.getD_some]
      by_cases ho' : o = o'
      · subst ho'
        exact ⟨_, _, rfl, by simp only [mapGet_mapSet, if_true]; rfl, by simp [h2, h3]⟩
      · exact ⟨_, _, rfl, by simp only [mapGet_mapSet, if_neg ho']; exact h2, h3⟩
    · exact ⟨ds, bs, by simp only [addDependency, mapGet_mapSet, if_neg hw]; exact h1, h2, h3⟩

theorem OwnerOk.step {s s' : FirstState V T} {o : Option V} (h : OwnerOk s o) (e : Evolves g s s') :
    OwnerOk s' o := fun v hv => e.visited v (h v hv)

theorem firstBody_spec (ord : HashOrder) (ht : ∀ v x, Target (some v) x ↔ FirstOf g [.var v] x)
    (wf : ∀ v β w, (v, β) ∈ g.rules → Sym.var w ∈ β → w ∈ g.rules.map Prod.fst) {o : Option V} {b : Body V T} :
    ∀ {s : FirstState V T}, FirstInv g Target s → OwnerOk s o → Belongs g Target o b →
    ∃ s', firstBody g ord o b s = .ok s' ∧ FirstStep g Target s s' ∧ Cov s' o b := by
  induction b with
  | nil => exact fun {s} i _ _ => ⟨s, rfl, ⟨i, .refl g s, Nat.le_refl _⟩, trivial⟩
  | cons x b ih =>
    intro s i ho hb
    have hbvars : ∀ v, Sym.var v ∈ b → v ∈ g.rules.map Prod.fst := fun v h => hb.vars v (by simp [h])
    cases x with
    | term t =>
      obtain ⟨h1, h2⟩ := extend_spec (ord.sub b.length) i (fun v x => (ht v x).1) ho (xs := [.term t])
        (fun x hx => by rw [List.mem_singleton.1 hx]; exact hb.sub _ .term)
      exact ⟨_, rfl, h1, .inr (h2 _ (by simp))⟩
    | eps =>
      by_cases hr : b = []
      · subst hr
        obtain ⟨h1, h2⟩ := extend_spec (ord.sub 0) i (fun v x => (ht v x).1) ho (xs := [.eps])
          (fun x hx => by rw [List.mem_singleton.1 hx]; exact hb.sub _ (.eps .nil))
        exact ⟨_, rfl, h1, .inr (.inl ⟨rfl, h2 _ (by simp)⟩)⟩
      · have hb' : Belongs g Target o b := by
          refine ⟨fun x hx => hb.sub x ?_, hbvars⟩
          cases x with
          | term t => exact Starts.eps hx
          | eps => exact Nullable.eps hx
          | var v => exact hx
        obtain ⟨s', h1, h2, h3⟩ := ih i ho hb'
        refine ⟨s', ?_, h2, .inr (.inr ⟨hr, h3⟩)⟩
        simp only [firstBody, List.isEmpty_iff, if_neg hr]
        exact h1
    | var v =>
      have hv : v ∈ g.rules.map Prod.fst := hb.vars v (by simp)
      have st1 := addDependency_spec (v := v) i ho hb
      have hreg := addDependency_reg v o (.var v :: b) s
      generalize hs1 : addDependency v o (.var v :: b) s = s1 at st1 hreg
      have i1 := st1.inv
      have ho1 : OwnerOk s1 o := ho.step st1.evolves
      simp only [firstBody, hs1]
      by_cases hvis : v ∈ s1.visited
      · rw [if_neg (by simpa using hvis)]
        cases hf : mapGet s1.first v with
        | none =>
          refine ⟨s1, rfl, st1, .inr ⟨hvis, hreg, ?_, ?_⟩⟩ <;> simp [FirstState.cur, hf]
        | some fv =>
          have hcv : s1.cur (some v) = fv := by simp [FirstState.cur, hf]
          have hfv : ∀ x ∈ fv, FirstOf g [.var v] x := fun x hx => (ht v x).1 (i1.sound _ x (by rwa [hcv]))
          -- what is added
          have hsub : ∀ x ∈ fv.filter (fun x => !decide (x = .eps) || b.isEmpty), Target o x := by
            intro x hx
            rw [List.mem_filter] at hx
            obtain ⟨hx, hc⟩ := hx
            refine hb.sub x ?_
            have hx := hfv x hx
            cases x with
            | term t => exact (starts_append (α := [.var v]) (β := b)).2 (.inl hx)
            | eps =>
              simp at hc
              subst hc
              exact hx
            | var w => exact hx
          obtain ⟨st2, hin⟩ := extend_spec (ord.sub b.length) i1 (fun v x => (ht v x).1) ho1 hsub
          generalize hs2 : extendForVariable (ord.sub b.length) o
            (fv.filter (fun x => !decide (x = .eps) || b.isEmpty)) s1 = s2 at st2 hin
          -- the part of the covering condition without the rest
          have closed : ∀ x ∈ s1.cur (some v), x ≠ .eps ∨ b = [] → x ∈ s2.cur o := by
            intro x hx hc
            refine hin x (List.mem_filter.2 ⟨by rwa [hcv] at hx, ?_⟩)
            rcases hc with hc | hc <;> simp [hc]
          simp only
          by_cases he : Sym.eps ∈ fv
          · rw [if_pos he]
            have hb' : Belongs g Target o b := by
              refine ⟨fun x hx => hb.sub x ?_, hbvars⟩
              have hn : Nullable g [.var v] := hfv _ he
              cases x with
              | term t => exact (starts_append (α := [.var v]) (β := b)).2 (.inr ⟨hn, hx⟩)
              | eps => exact (nullable_append (α := [.var v]) (β := b)).2 ⟨hn, hx⟩
              | var w => exact hx
            obtain ⟨s3, h1, st3, h3⟩ := ih st2.inv (ho1.step st2.evolves) hb'
            refine ⟨s3, by rw [hs2]; exact h1, (st1.trans st2).trans st3, ?_⟩
            rcases (st2.evolves.trans st3.evolves).reg v o _ hreg with ⟨h4, h5⟩ | h4
            · exact .inr ⟨(st2.evolves.trans st3.evolves).visited v hvis, h4,
                fun x hx hc => st3.evolves.cur o x (closed x (h5 x hx) hc), fun _ => h3⟩
            · exact h4
          · rw [if_neg he]
            refine ⟨s2, by rw [hs2], st1.trans st2, ?_⟩
            rcases st2.evolves.reg v o _ hreg with ⟨h4, h5⟩ | h4
            · refine .inr ⟨st2.evolves.visited v hvis, h4, fun x hx hc => closed x (h5 x hx) hc, fun hx => ?_⟩
              have := h5 _ hx
              rw [hcv] at this
              exact absurd this he
            · exact h4
      · -- the variable is visited
        rw [if_pos hvis, expectBodies_ok hv]
        let s2 : FirstState V T := { s1 with
          pending := s1.pending ++ [(some v, ord.shuffle [b.length] _ (g.bodiesOf v))]
          visited := s1.visited ++ [v] }
        have hcur2 : ∀ o', s2.cur o' = s1.cur o' := fun o' => by cases o' <;> rfl
        have hvis2 : ∀ w, w ∈ s2.visited ↔ w ∈ s1.visited ∨ w = v := fun w => by simp [s2]
        have hpend : ∀ o b, s1.InPending o b → s2.InPending o b := by
          rintro o b ⟨bs, h1, h2⟩
          exact ⟨bs, List.mem_append.2 (.inl h1), h2⟩
        have hok : ∀ o', OwnerOk s1 o' → OwnerOk s2 o' := fun o' h w hw => (hvis2 w).2 (.inl (h w hw))
        have hbody : ∀ β ∈ g.bodiesOf v, Belongs g Target (some v) β := by
          intro β hβ
          have hβ := mem_bodiesOf.1 hβ
          refine ⟨fun x hx => (ht v x).2 ?_, fun w hw => wf v β w hβ hw⟩
          cases x with
          | term t => exact Starts.inVar hβ hx
          | eps => exact Nullable.var hβ hx .nil
          | var w => exact hx
        have st2 : FirstStep g Target s1 s2 := by
          refine ⟨⟨?_, fun o x h => i1.sound o x (by rwa [hcur2] at h), ?_, ?_, ?_, ?_,
            fun w => by rw [hcur2]; exact i1.cur_nodup w⟩, ⟨fun w h => (hvis2 w).2 (.inl h),
            fun o x h => by rwa [hcur2], fun o b h => (hpend o b h).cov,
            fun w o' b' h => .inl ⟨h, fun x hx => by rwa [hcur2] at hx⟩, fun w h => ?_⟩, ?_⟩
          · intro w hw
            rw [hvis2, not_or] at hw
            exact i1.unvisited w hw.1
          · intro o' bs h
            rcases List.mem_append.1 h with h | h
            · exact ⟨hok o' (i1.pend o' bs h).1, (i1.pend o' bs h).2⟩
            · cases List.mem_singleton.1 h
              refine ⟨fun w hw => ?_, fun β hβ => hbody β (by simpa using hβ)⟩
              cases hw
              exact (hvis2 v).2 (.inr rfl)
          · intro w ds h
            obtain ⟨h1, h2⟩ := i1.deps w ds h
            exact ⟨h1, fun o' bs hm => ⟨hok o' (h2 o' bs hm).1, (h2 o' bs hm).2⟩⟩
          · refine List.nodup_append.2 ⟨i1.visited_nodup, by simp, ?_⟩
            intro a ha b' hb' hab
            rw [List.mem_singleton.1 hb'] at hab
            subst hab
            exact hvis ha
          · intro w hw
            rcases (hvis2 w).1 hw with h | rfl
            · exact i1.visited_vars w h
            · exact hv
          · rcases (hvis2 w).1 h with h | rfl
            · exact .inl h
            · refine .inr fun β hβ => FirstState.InPending.cov ⟨_, List.mem_append.2 (.inr (List.mem_cons_self ..)), ?_⟩
              simpa using hβ
          · have hlt : s1.visited.length < g.rules.length := by
              have h1 : (v :: s1.visited).Nodup := List.nodup_cons.2 ⟨hvis, i1.visited_nodup⟩
              have h2 := nodup_length_le h1 (u := g.rules.map Prod.fst) (by
                intro a ha
                rcases List.mem_cons.1 ha with rfl | ha
                · exact hv
                · exact i1.visited_vars a ha)
              simp only [List.length_cons, List.length_map] at h2
              omega
            simp only [firstWork, hcur2]
            show (s1.pending ++ [_]).length + (g.rules.length - (s1.visited ++ [v]).length) + _ ≤ _
            simp only [List.length_append, List.length_singleton]
            omega
        have hnone : s2.cur (some v) = [] := by
          rw [hcur2]; simp [FirstState.cur, i1.unvisited v hvis]
        refine ⟨s2, rfl, st1.trans st2, .inr ⟨(hvis2 v).2 (.inr rfl), hreg, ?_, ?_⟩⟩ <;>
          simp [hnone]

theorem firstEach_spec (ord : HashOrder) (ht : ∀ v x, Target (some v) x ↔ FirstOf g [.var v] x)
    (wf : ∀ v β w, (v, β) ∈ g.rules → Sym.var w ∈ β → w ∈ g.rules.map Prod.fst) {o : Option V}
    {bs : List (Body V T)} :
    ∀ {s : FirstState V T}, FirstInv g Target s → OwnerOk s o → (∀ b ∈ bs, Belongs g Target o b) →
    ∃ s', firstEach g ord o bs s = .ok s' ∧ FirstStep g Target s s' ∧ ∀ b ∈ bs, Cov s' o b := by
  induction bs with
  | nil => exact fun {s} i _ _ => ⟨s, rfl, ⟨i, .refl g s, Nat.le_refl _⟩, by simp⟩
  | cons b bs ih =>
    intro s i ho hb
    obtain ⟨s1, h1, st1, c1⟩ := firstBody_spec (ord.sub bs.length) ht wf i ho (hb b (by simp))
    obtain ⟨s2, h2, st2, c2⟩ := ih st1.inv (ho.step st1.evolves) fun b' hb' => hb b' (by simp [hb'])
    refine ⟨s2, by simp [firstEach, h1, h2], st1.trans st2, ?_⟩
    intro b' hb'
    rcases List.mem_cons.1 hb' with rfl | hb'
    · exact st2.evolves.cov c1
    · exact c2 b' hb'

/-- All rules of visited variables, and the strings asked for, are covered. -/
def AllCov (g : Grammar V T) (asked : List (Body V T)) (s : FirstState V T) : Prop :=
  (∀ v ∈ s.visited, ∀ β ∈ g.bodiesOf v, Cov s (some v) β) ∧ ∀ b ∈ asked, Cov s none b

theorem firstLoop_spec (ord : HashOrder) (ht : ∀ v x, Target (some v) x ↔ FirstOf g [.var v] x)
    (wf : ∀ v β w, (v, β) ∈ g.rules → Sym.var w ∈ β → w ∈ g.rules.map Prod.fst) {asked : List (Body V T)} :
    ∀ {n : Nat} {s : FirstState V T}, FirstInv g Target s → AllCov g asked s → firstWork g s ≤ n →
    ∃ s', firstLoop g ord n s = .ok s' ∧ FirstInv g Target s' ∧ AllCov g asked s' ∧ s'.pending = [] ∧
      ∀ v ∈ s.visited, v ∈ s'.visited := by
  intro n
  induction n generalizing ord with
  | zero =>
    intro s i c hn
    cases hp : s.pending with
    | nil => exact ⟨s, by rw [firstLoop]; simp only [hp], i, c, hp, fun _ h => h⟩
    | cons p ps =>
      simp only [firstWork, hp, List.length_cons] at hn
      omega
  | succ n ih =>
    intro s i c hn
    cases hp : s.pending with
    | nil => exact ⟨s, by rw [firstLoop]; simp only [hp], i, c, hp, fun _ h => h⟩
    | cons p ps =>
      obtain ⟨o, bs⟩ := p
      let s0 : FirstState V T := { s with pending := ps }
      have hcur0 : ∀ o, s0.cur o = s.cur o := fun o => by cases o <;> rfl
      have i0 : FirstInv g Target s0 :=
        ⟨i.unvisited, fun o x h => i.sound o x (by rwa [hcur0] at h),
          fun o' bs' h => i.pend o' bs' (by rw [hp]; exact List.mem_cons_of_mem _ h), i.deps, i.visited_nodup,
          i.visited_vars, fun v => by rw [hcur0]; exact i.cur_nodup v⟩
      obtain ⟨ho, hb⟩ := i.pend o bs (by rw [hp]; exact List.mem_cons_self ..)
      obtain ⟨s1, h1, st1, c1⟩ := firstEach_spec (ord.sub 0) ht wf (o := o) i0 ho hb
      -- the popped strings have been dealt with
      have e : Evolves g s s1 := by
        refine ⟨st1.evolves.visited, fun o x h => st1.evolves.cur o x (by rwa [hcur0]), ?_, ?_, st1.evolves.fresh⟩
        · rintro o' b ⟨bs', h2, h3⟩
          rw [hp] at h2
          rcases List.mem_cons.1 h2 with h2 | h2
          · cases h2
            exact c1 b h3
          · exact st1.evolves.pending o' b ⟨bs', h2, h3⟩
        · intro v o' b h
          rcases st1.evolves.reg v o' b h with ⟨h2, h3⟩ | h2
          · exact .inl ⟨h2, fun x hx => by have := h3 x hx; rwa [hcur0] at this⟩
          · exact .inr h2
      have c' : AllCov g asked s1 := by
        refine ⟨fun v hv β hβ => ?_, fun b hb => e.cov (c.2 b hb)⟩
        rcases e.fresh v hv with h | h
        · exact e.cov (c.1 v h β hβ)
        · exact h β hβ
      have hw : firstWork g s0 + 1 = firstWork g s := by
        simp only [firstWork, hcur0, hp, List.length_cons]
        show ps.length + (g.rules.length - s.visited.length) + _ + 1 = _
        omega
      have := st1.work
      obtain ⟨s', h2, i', c'', hp', hv⟩ := ih (ord.sub 1) st1.inv c' (by omega)
      refine ⟨s', ?_, i', c'', hp', fun v h => hv v (e.visited v h)⟩
      rw [firstLoop]
      simp only [hp]
      show (firstEach g (ord.sub 0) o bs s0).bind _ = _
      rw [h1]
      exact h2

section Complete

variable {s : FirstState V T}

theorem Cov.nullable (hp : s.pending = []) (hne : ∀ v β, (v, β) ∈ g.rules → β ≠ [])
    (hc : ∀ v ∈ s.visited, ∀ β ∈ g.bodiesOf v, Cov s (some v) β) {α : Body V T} (h : Nullable g α) :
    ∀ {o : Option V}, Cov s o α → α ≠ [] → .eps ∈ s.cur o := by
  have np : ∀ {o b}, ¬ s.InPending o b := by rintro o b ⟨bs, h, _⟩; rw [hp] at h; cases h
  induction h with
  | nil => exact fun _ h => absurd rfl h
  | eps _ ih =>
    intro o hcov _
    rcases hcov with h | ⟨_, h⟩ | ⟨h1, h2⟩
    · exact absurd h np
    · exact h
    · exact ih h2 h1
  | @var v β α hr _ _ ih1 ih2 =>
    intro o hcov _
    rcases hcov with h | ⟨h1, _, h3, h4⟩
    · exact absurd h np
    · have he := ih1 (hc v h1 β (mem_bodiesOf.2 hr)) (hne v β hr)
      by_cases ha : α = []
      · exact h3 _ he (.inr ha)
      · exact ih2 (h4 he) ha

theorem Cov.starts (hp : s.pending = []) (hne : ∀ v β, (v, β) ∈ g.rules → β ≠ [])
    (hc : ∀ v ∈ s.visited, ∀ β ∈ g.bodiesOf v, Cov s (some v) β) {α : Body V T} {t : T} (h : Starts g t α) :
    ∀ {o : Option V}, Cov s o α → .term t ∈ s.cur o := by
  have np : ∀ {o b}, ¬ s.InPending o b := by rintro o b ⟨bs, h, _⟩; rw [hp] at h; cases h
  induction h with
  | term =>
    intro o hcov
    rcases hcov with h | h
    · exact absurd h np
    · exact h
  | eps h ih =>
    intro o hcov
    rcases hcov with h' | ⟨rfl, _⟩ | ⟨_, h2⟩
    · exact absurd h' np
    · cases h
    · exact ih h2
  | @inVar v β α hr _ ih =>
    intro o hcov
    rcases hcov with h | ⟨h1, _, h3, _⟩
    · exact absurd h np
    · exact h3 _ (ih (hc v h1 β (mem_bodiesOf.2 hr))) (.inl (by simp))
  | @skip v β α hr hn _ ih =>
    intro o hcov
    rcases hcov with h | ⟨h1, _, _, h4⟩
    · exact absurd h np
    · exact ih (h4 (Cov.nullable hp hne hc hn (hc v h1 β (mem_bodiesOf.2 hr)) (hne v β hr)))

end Complete

/-- Enough iterations for every computation of FIRST. -/
def firstFuel (g : Grammar V T) : Nat :=
  1 + g.rules.length + g.rules.length * (firstUniverse g).length * (g.rules.length + 1)

theorem firstWork_start (o : Option V) (bs : List (Body V T)) (vs : List V) :
    firstWork g ⟨[], [], [(o, bs)], [], vs⟩ ≤ firstFuel g := by
  have h : ((g.rules.map Prod.fst).map fun v => (firstUniverse g).length -
      ((⟨[], [], [(o, bs)], [], vs⟩ : FirstState V T).cur (some v)).length).sum
      = g.rules.length * (firstUniverse g).length := by
    have := sum_map_const (g.rules.map Prod.fst) (firstUniverse g).length
    simpa [FirstState.cur, mapGet] using this
  simp only [firstWork, h, firstFuel, List.length_singleton]
  omega

/-- FIRST of a string. -/
theorem firstBodies_string (wf : WellFormed g) (ord : HashOrder) {fuel : Nat} (hf : firstFuel g ≤ fuel)
    {α : List (Sym V T)} (hne : α ≠ []) (hv : ∀ v, Sym.var v ∈ α → v ∈ g.rules.map Prod.fst) :
    ∃ r, firstBodies g ord fuel none [α] = .ok r ∧ ∀ x, x ∈ r ↔ FirstOf g α x := by
  let Target : Option V → Sym V T → Prop := fun o x => match o with
    | none => FirstOf g α x
    | some v => FirstOf g [.var v] x
  have wf' : ∀ v β w, (v, β) ∈ g.rules → Sym.var w ∈ β → w ∈ g.rules.map Prod.fst := by
    intro v β w h1 h2
    obtain ⟨γ, h⟩ := wf.closed v β w h1 h2
    exact List.mem_map.2 ⟨_, h, rfl⟩
  have i : FirstInv g Target ⟨[], [], [(none, [α])], [], []⟩ := by
    refine ⟨fun v _ => rfl, ?_, ?_, ?_, by simp, by simp, fun v => by simp [FirstState.cur, mapGet]⟩
    · intro o x h
      cases o <;> simp [FirstState.cur, mapGet] at h
    · intro o bs h
      cases List.mem_singleton.1 h
      refine ⟨fun v h => (by cases h), fun b hb => ?_⟩
      rw [List.mem_singleton.1 hb]
      exact ⟨fun x h => h, hv⟩
    · intro v ds h
      cases h
  obtain ⟨s, h1, i', c, hp, _⟩ := firstLoop_spec ord (Target := Target) (fun v x => Iff.rfl) wf'
    (asked := [α]) i ⟨by simp, fun b hb => FirstState.InPending.cov ⟨_, List.mem_singleton.2 rfl, hb⟩⟩
    (Nat.le_trans (firstWork_start _ _ _) hf)
  refine ⟨s.result, by simp [firstBodies, h1], fun x => ⟨fun h => i'.sound none x h, fun h => ?_⟩⟩
  have hc := c.2 α (by simp)
  have hcov := c.1
  cases x with
  | term t => exact Cov.starts hp wf.nonempty hcov h hc
  | eps => exact Cov.nullable hp wf.nonempty hcov h hc hne
  | var v => exact h.elim

/-- FIRST of a variable. -/
theorem first_variable (wf : WellFormed g) (ord : HashOrder) {fuel : Nat} (hf : firstFuel g ≤ fuel)
    {v : V} (hv : v ∈ g.rules.map Prod.fst) :
    ∃ r, g.first ord fuel v = .ok r ∧ ∀ x, x ∈ r ↔ FirstOf g [.var v] x := by
  let Target : Option V → Sym V T → Prop := fun o x => match o with
    | none => False
    | some v => FirstOf g [.var v] x
  have wf' : ∀ v β w, (v, β) ∈ g.rules → Sym.var w ∈ β → w ∈ g.rules.map Prod.fst := by
    intro v β w h1 h2
    obtain ⟨γ, h⟩ := wf.closed v β w h1 h2
    exact List.mem_map.2 ⟨_, h, rfl⟩
  have i : FirstInv g Target ⟨[], [], [(some v, ord.shuffle [] _ (g.bodiesOf v))], [], [v]⟩ := by
    refine ⟨fun v _ => rfl, ?_, ?_, ?_, by simp, by simpa using hv, fun v => by simp [FirstState.cur, mapGet]⟩
    · intro o x h
      cases o <;> simp [FirstState.cur, mapGet] at h
    · intro o bs h
      cases List.mem_singleton.1 h
      refine ⟨fun w h => (by cases h; simp), fun b hb => ?_⟩
      rw [HashOrder.mem_shuffle] at hb
      have hb := mem_bodiesOf.1 hb
      refine ⟨fun x hx => ?_, fun w hw => wf' v b w hb hw⟩
      cases x with
      | term t => exact Starts.inVar hb hx
      | eps => exact Nullable.var hb hx .nil
      | var w => exact hx
    · intro v ds h
      cases h
  obtain ⟨s, h1, i', c, hp, hvis⟩ := firstLoop_spec ord (Target := Target) (fun v x => Iff.rfl) wf'
    (asked := []) i ⟨fun w hw β hβ => by
      have := List.mem_singleton.1 hw
      subst this
      exact FirstState.InPending.cov ⟨_, List.mem_singleton.2 rfl, by simpa using hβ⟩, by simp⟩
    (Nat.le_trans (firstWork_start _ _ _) hf)
  refine ⟨s.cur (some v), by simp [Grammar.first, expectBodies_ok hv, firstBodies, h1, FirstState.cur],
    fun x => ⟨fun h => i'.sound (some v) x h, fun h => ?_⟩⟩
  have hvs : v ∈ s.visited := hvis v (by simp)
  have hcov := c.1
  cases x with
  | var w => exact h.elim
  | eps =>
    cases h with
    | var hr hn _ =>
      exact Cov.nullable hp wf.nonempty hcov hn (hcov v hvs _ (mem_bodiesOf.2 hr)) (wf.nonempty _ _ hr)
  | term t =>
    cases h with
    | inVar hr hs => exact Cov.starts hp wf.nonempty hcov hs (hcov v hvs _ (mem_bodiesOf.2 hr))
    | skip _ _ hs => cases hs

end Pango.Parse
