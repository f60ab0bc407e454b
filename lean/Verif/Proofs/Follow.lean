import Verif.Proofs.First

/-!
# The computation of FOLLOW

The loop over the rules records, for every occurrence of a variable in a body, FIRST of what stands behind it,
and a dependency on the head if that can be empty.  The propagation loop then closes the sets under the
dependencies.
-/

namespace Pango.Parse

open Pango Pango.Spec

variable {V T : Type} [DecidableEq V] [DecidableEq T] {g : Grammar V T}

/-- The set of a key; empty if there is no entry. -/
def getSet {K A : Type} [DecidableEq K] (m : List (K × List A)) (k : K) : List A := (mapGet m k).getD []

theorem getSet_mapSet {K A : Type} [DecidableEq K] (m : List (K × List A)) (k k' : K) (a : List A) :
    getSet (mapSet m k a) k' = if k = k' then a else getSet m k' := by
  unfold getSet
  rw [mapGet_mapSet]
  split <;> rfl

/-- What stands behind an occurrence of a variable contributes these. -/
def Direct (g : Grammar V T) (β : Body V T) (v : V) (x : Sym V T) : Prop :=
  ∃ pre rest, β = pre ++ .var v :: rest ∧ ∃ t, x = .term t ∧ Starts g t rest

/-- The variable occurs in the string with something behind it that can be empty. -/
def AtEnd (g : Grammar V T) (β : Body V T) (v : V) : Prop :=
  ∃ pre rest, β = pre ++ .var v :: rest ∧ Nullable g rest

/-- The variable occurs in the string with something behind it. -/
def NotLast (β : Body V T) (v : V) : Prop := ∃ pre rest, β = pre ++ .var v :: rest ∧ rest ≠ []

section Split

variable {β : Body V T} {v w : V} {a : Sym V T} {x : Sym V T}

omit [DecidableEq V] [DecidableEq T] in
theorem direct_cons : Direct g (a :: β) v x ↔
    (a = .var v ∧ ∃ t, x = .term t ∧ Starts g t β) ∨ Direct g β v x := by
  constructor
  · rintro ⟨pre, rest, h, ht⟩
    cases pre with
    | nil => cases h; exact .inl ⟨rfl, ht⟩
    | cons b pre =>
      simp only [List.cons_append, List.cons.injEq] at h
      exact .inr ⟨pre, rest, h.2, ht⟩
  · rintro (⟨rfl, h⟩ | ⟨pre, rest, rfl, h⟩)
    · exact ⟨[], β, rfl, h⟩
    · exact ⟨a :: pre, rest, rfl, h⟩

omit [DecidableEq V] [DecidableEq T] in
theorem atEnd_cons : AtEnd g (a :: β) v ↔ (a = .var v ∧ Nullable g β) ∨ AtEnd g β v := by
  constructor
  · rintro ⟨pre, rest, h, ht⟩
    cases pre with
    | nil => cases h; exact .inl ⟨rfl, ht⟩
    | cons b pre =>
      simp only [List.cons_append, List.cons.injEq] at h
      exact .inr ⟨pre, rest, h.2, ht⟩
  · rintro (⟨rfl, h⟩ | ⟨pre, rest, rfl, h⟩)
    · exact ⟨[], β, rfl, h⟩
    · exact ⟨a :: pre, rest, rfl, h⟩

omit [DecidableEq V] [DecidableEq T] in
theorem notLast_cons : NotLast (a :: β) v ↔ (a = .var v ∧ β ≠ []) ∨ NotLast β v := by
  constructor
  · rintro ⟨pre, rest, h, ht⟩
    cases pre with
    | nil => cases h; exact .inl ⟨rfl, ht⟩
    | cons b pre =>
      simp only [List.cons_append, List.cons.injEq] at h
      exact .inr ⟨pre, rest, h.2, ht⟩
  · rintro (⟨rfl, h⟩ | ⟨pre, rest, rfl, h⟩)
    · exact ⟨[], β, rfl, h⟩
    · exact ⟨a :: pre, rest, rfl, h⟩

omit [DecidableEq V] [DecidableEq T] in
theorem not_direct_nil : ¬ Direct g [] v x := by
  rintro ⟨pre, rest, h, _⟩
  cases pre <;> cases h

omit [DecidableEq V] [DecidableEq T] in
theorem not_atEnd_nil : ¬ AtEnd g [] v := by
  rintro ⟨pre, rest, h, _⟩
  cases pre <;> cases h

omit [DecidableEq V] [DecidableEq T] in
theorem not_notLast_nil : ¬ NotLast ([] : Body V T) v := by
  rintro ⟨pre, rest, h, _⟩
  cases pre <;> cases h

end Split

/-- The state has sets, and its dependencies are between variables. -/
structure FollowInv (g : Grammar V T) (s : FollowState V T) : Prop where
  sets : ∀ v, (getSet s.result v).Nodup
  deps : ∀ v, (getSet s.deps v).Nodup
  keys : (s.deps.map Prod.fst).Nodup
  keys_vars : ∀ v ∈ s.deps.map Prod.fst, v ∈ g.rules.map Prod.fst
  deps_vars : ∀ v, ∀ w ∈ getSet s.deps v, w ∈ g.rules.map Prod.fst

/-- What a part of the loop over the rules does. -/
structure FollowPart (s s' : FollowState V T) (Direct : V → Sym V T → Prop)
    (End : V → V → Prop) (NotLast : V → Prop) : Prop where
  result : ∀ v x, x ∈ getSet s'.result v ↔ x ∈ getSet s.result v ∨ Direct v x
  deps : ∀ k v, v ∈ getSet s'.deps k ↔ v ∈ getSet s.deps k ∨ End k v
  entries : ∀ v, (mapGet s'.result v).isSome ↔ (mapGet s.result v).isSome ∨ NotLast v

theorem addFollowDep_spec {s : FollowState V T} (i : FollowInv g s) {h v : V}
    (hh : h ∈ g.rules.map Prod.fst) (hv : v ∈ g.rules.map Prod.fst) :
    FollowInv g (addFollowDep h v s) ∧
    ∀ k w, w ∈ getSet (addFollowDep h v s).deps k ↔ w ∈ getSet s.deps k ∨ (k = h ∧ w = v) := by
  have hm : ∀ k w, w ∈ getSet (addFollowDep h v s).deps k ↔ w ∈ getSet s.deps k ∨ (k = h ∧ w = v) := by
    intro k w
    simp only [addFollowDep, getSet_mapSet]
    split
    · rename_i hk
      subst hk
      rw [mem_insertNew]
      simp only [true_and]
      exact Or.comm
    · rename_i hk
      simp [Ne.symm hk]
  refine ⟨⟨i.sets, ?_, mapSet_keys_nodup i.keys _ _, ?_, ?_⟩, hm⟩
  · intro k
    simp only [addFollowDep, getSet_mapSet]
    split
    · exact nodup_insertNew (i.deps h)
    · exact i.deps k
  · intro k hk
    simp only [addFollowDep, mapSet_keys, mem_insertNew] at hk
    rcases hk with rfl | hk
    · exact hh
    · exact i.keys_vars k hk
  · intro k w hw
    rcases (hm k w).1 hw with hw | ⟨_, rfl⟩
    · exact i.deps_vars k w hw
    · exact hv

theorem followBody_spec (wf : WellFormed g) (ord : HashOrder) {fuel : Nat} (hf : firstFuel g ≤ fuel) {h : V}
    (hh : h ∈ g.rules.map Prod.fst) {β : Body V T} :
    ∀ {s : FollowState V T}, FollowInv g s → (∀ v, Sym.var v ∈ β → v ∈ g.rules.map Prod.fst) →
    ∃ s', followBody g ord fuel h β s = .ok s' ∧ FollowInv g s' ∧
      FollowPart s s' (Direct g β) (fun k v => k = h ∧ AtEnd g β v) (NotLast β) := by
  induction β with
  | nil =>
    intro s i _
    exact ⟨s, rfl, i, fun v x => by simp [not_direct_nil], fun k v => by simp [not_atEnd_nil],
      fun v => by simp [not_notLast_nil]⟩
  | cons a β ih =>
    intro s i hv
    have hv' : ∀ v, Sym.var v ∈ β → v ∈ g.rules.map Prod.fst := fun v h => hv v (by simp [h])
    -- symbols that are not variables are skipped
    have skip : (∀ v, a ≠ .var v) → followBody g ord fuel h (a :: β) s = followBody g ord fuel h β s →
        ∃ s', followBody g ord fuel h (a :: β) s = .ok s' ∧ FollowInv g s' ∧
        FollowPart s s' (Direct g (a :: β)) (fun k v => k = h ∧ AtEnd g (a :: β) v) (NotLast (a :: β)) := by
      intro hn he
      obtain ⟨s', h1, h2, h3⟩ := ih i hv'
      refine ⟨s', he.trans h1, h2, fun v x => ?_, fun k v => ?_, fun v => ?_⟩
      · rw [h3.result, direct_cons]; simp [hn v]
      · rw [h3.deps, atEnd_cons]; simp [hn v]
      · rw [h3.entries, notLast_cons]; simp [hn v]
    cases a with
    | term t => exact skip (fun v => by simp) rfl
    | eps => exact skip (fun v => by simp) rfl
    | var w =>
      have hw : w ∈ g.rules.map Prod.fst := hv w (by simp)
      by_cases hb : β = []
      · subst hb
        obtain ⟨i1, d1⟩ := addFollowDep_spec i hh hw
        refine ⟨addFollowDep h w s, rfl, i1, fun v x => ?_, fun k v => ?_, fun v => ?_⟩
        · rw [direct_cons]
          have : ¬ ∃ t, x = .term t ∧ Starts g t [] := by rintro ⟨t, _, h⟩; cases h
          simp [not_direct_nil, this, addFollowDep]
        · rw [d1, atEnd_cons]
          have : Nullable g [] := .nil
          simp only [not_atEnd_nil, or_false, this, and_true, Sym.var.injEq]
          constructor
          · rintro (h | ⟨h1, h2⟩)
            · exact .inl h
            · exact .inr ⟨h1, h2.symm⟩
          · rintro (h | ⟨h1, h2⟩)
            · exact .inl h
            · exact .inr ⟨h1, h2.symm⟩
        · rw [notLast_cons]
          simp [not_notLast_nil, addFollowDep]
      · obtain ⟨r, hr, hx⟩ := firstBodies_string wf (ord.sub β.length) hf hb hv'
        -- the dependency
        obtain ⟨s1, hs1⟩ : ∃ s1, s1 = if .eps ∈ r then addFollowDep h w s else s := ⟨_, rfl⟩
        have i1 : FollowInv g s1 := by
          rw [hs1]
          split
          · exact (addFollowDep_spec i hh hw).1
          · exact i
        have d1 : ∀ k v, v ∈ getSet s1.deps k ↔ v ∈ getSet s.deps k ∨ (k = h ∧ w = v ∧ Nullable g β) := by
          intro k v
          have he : .eps ∈ r ↔ Nullable g β := hx .eps
          rw [hs1]
          split
          · rename_i hn
            rw [(addFollowDep_spec i hh hw).2]
            have := he.1 hn
            simp only [this, and_true]
            constructor <;> (rintro (h | ⟨h1, h2⟩); exact .inl h; exact .inr ⟨h1, h2.symm⟩)
          · rename_i hn
            rw [he] at hn
            simp [hn]
        have r1 : s1.result = s.result := by
          rw [hs1]
          split <;> rfl
        -- the set
        obtain ⟨s2, hs2⟩ : ∃ s2 : FollowState V T, s2 = ⟨mapSet s1.result w
          (extendSet ((mapGet s1.result w).getD []) (r.filter fun x => !decide (x = .eps))), s1.deps⟩ := ⟨_, rfl⟩
        have i2 : FollowInv g s2 := by
          rw [hs2]
          refine ⟨fun v => ?_, i1.deps, i1.keys, i1.keys_vars, i1.deps_vars⟩
          rw [getSet_mapSet]
          split
          · exact nodup_extendSet (i1.sets w)
          · exact i1.sets v
        have g2 : ∀ v x, x ∈ getSet s2.result v ↔ x ∈ getSet s.result v ∨
            (w = v ∧ ∃ t, x = .term t ∧ Starts g t β) := by
          intro v x
          rw [hs2, getSet_mapSet, r1]
          split
          · rename_i hwv
            subst hwv
            rw [mem_extendSet]
            refine or_congr Iff.rfl ?_
            simp only [List.mem_filter, true_and, hx]
            cases x with
            | term t => simp [FirstOf]
            | eps => simp
            | var u => simp [FirstOf]
          · rename_i hwv
            simp [hwv]
        have e2 : ∀ v, (mapGet s2.result v).isSome ↔ (mapGet s.result v).isSome ∨ w = v := by
          intro v
          rw [hs2]
          simp only [mapGet_mapSet, r1]
          split
          · rename_i hwv; simp [hwv]
          · rename_i hwv; simp [hwv]
        obtain ⟨s', h1, h2, h3⟩ := ih i2 hv'
        refine ⟨s', ?_, h2, fun v x => ?_, fun k v => ?_, fun v => ?_⟩
        · rw [followBody]
          simp only [List.isEmpty_iff, if_neg hb, hr, Outcome.bind_ok]
          rw [← hs1, ← hs2]
          exact h1
        · rw [h3.result, g2, direct_cons, or_assoc]
          simp only [Sym.var.injEq]
        · have : getSet s2.deps k = getSet s1.deps k := by rw [hs2]
          rw [h3.deps, this, d1, atEnd_cons, or_assoc]
          simp only [Sym.var.injEq]
          refine or_congr Iff.rfl ?_
          constructor
          · rintro (⟨h1, h2, h3⟩ | ⟨h1, h2⟩)
            · exact ⟨h1, .inl ⟨h2, h3⟩⟩
            · exact ⟨h1, .inr h2⟩
          · rintro ⟨h1, (⟨h2, h3⟩ | h2)⟩
            · exact .inl ⟨h1, h2, h3⟩
            · exact .inr ⟨h1, h2⟩
        · rw [h3.entries, e2, notLast_cons, or_assoc]
          simp [hb]

theorem followRules_spec (wf : WellFormed g) (ord : HashOrder) {fuel : Nat} (hf : firstFuel g ≤ fuel)
    {rules : List (V × Body V T)} :
    ∀ {s : FollowState V T}, FollowInv g s → (∀ r ∈ rules, r ∈ g.rules) →
    ∃ s', followRules g ord fuel rules s = .ok s' ∧ FollowInv g s' ∧
      FollowPart s s' (fun v x => ∃ h β, (h, β) ∈ rules ∧ Direct g β v x)
        (fun k v => ∃ β, (k, β) ∈ rules ∧ AtEnd g β v) (fun v => ∃ h β, (h, β) ∈ rules ∧ NotLast β v) := by
  induction rules with
  | nil => exact fun {s} i _ => ⟨s, rfl, i, by simp, by simp, by simp⟩
  | cons r rules ih =>
    intro s i hr
    obtain ⟨h, β⟩ := r
    have hin := hr (h, β) (by simp)
    obtain ⟨s1, h1, i1, p1⟩ := followBody_spec wf (ord.sub rules.length) hf
      (List.mem_map.2 ⟨_, hin, rfl⟩) (β := β) i (fun v hv => by
        obtain ⟨γ, hγ⟩ := wf.closed h β v hin hv
        exact List.mem_map.2 ⟨_, hγ, rfl⟩)
    obtain ⟨s2, h2, i2, p2⟩ := ih i1 (fun r h => hr r (by simp [h]))
    refine ⟨s2, by simp [followRules, h1, h2], i2, fun v x => ?_, fun k v => ?_, fun v => ?_⟩
    · rw [p2.result, p1.result, or_assoc]
      refine or_congr Iff.rfl ⟨?_, ?_⟩
      · rintro (h' | ⟨h', β', hm, hd⟩)
        · exact ⟨h, β, by simp, h'⟩
        · exact ⟨h', β', by simp [hm], hd⟩
      · rintro ⟨h', β', hm, hd⟩
        rcases List.mem_cons.1 hm with hm | hm
        · cases hm; exact .inl hd
        · exact .inr ⟨h', β', hm, hd⟩
    · rw [p2.deps, p1.deps, or_assoc]
      refine or_congr Iff.rfl ⟨?_, ?_⟩
      · rintro (⟨rfl, h'⟩ | ⟨β', hm, hd⟩)
        · exact ⟨β, by simp, h'⟩
        · exact ⟨β', by simp [hm], hd⟩
      · rintro ⟨β', hm, hd⟩
        rcases List.mem_cons.1 hm with hm | hm
        · cases hm; exact .inl ⟨rfl, hd⟩
        · exact .inr ⟨β', hm, hd⟩
    · rw [p2.entries, p1.entries, or_assoc]
      refine or_congr Iff.rfl ⟨?_, ?_⟩
      · rintro (h' | ⟨h', β', hm, hd⟩)
        · exact ⟨h, β, by simp, h'⟩
        · exact ⟨h', β', by simp [hm], hd⟩
      · rintro ⟨h', β', hm, hd⟩
        rcases List.mem_cons.1 hm with hm | hm
        · cases hm; exact .inl hd
        · exact .inr ⟨h', β', hm, hd⟩

/-! ## The propagation loop -/

/-- What always holds in the propagation loop; `Target` is what the sets should be at the end. -/
structure PropInv (vars : List V) (U : List (Sym V T)) (deps : List (V × List V))
    (Target : V → Sym V T → Prop) (queue : List (V × V)) (result : List (V × List (Sym V T))) : Prop where
  sound : ∀ v x, x ∈ getSet result v → Target v x
  nodup : ∀ v, (getSet result v).Nodup
  edges : ∀ l r, (l, r) ∈ queue → l ∈ getSet deps r
  complete : ∀ l r, l ∈ getSet deps r → (l, r) ∈ queue ∨ ∀ x ∈ getSet result r, x ∈ getSet result l

/-- What the loop still has to do at most. -/
def propWork (vars : List V) (U : List (Sym V T)) (queue : List (V × V))
    (result : List (V × List (Sym V T))) : Nat :=
  queue.length + (vars.map fun v => U.length - (getSet result v).length).sum * vars.length

theorem followLoop_spec (ord : HashOrder) {vars : List V} {U : List (Sym V T)} {deps : List (V × List V)}
    {Target : V → Sym V T → Prop} (hU : ∀ v x, Target v x → x ∈ U)
    (ht : ∀ l r x, l ∈ getSet deps r → Target r x → Target l x)
    (hd : ∀ v, (getSet deps v).Nodup) (hv : ∀ v, ∀ w ∈ getSet deps v, w ∈ vars) :
    ∀ {n : Nat} {queue : List (V × V)} {result : List (V × List (Sym V T))},
    PropInv vars U deps Target queue result → propWork vars U queue result ≤ n →
    ∃ r, followLoop deps ord n queue result = .ok r ∧ PropInv vars U deps Target [] r ∧
      (∀ v x, x ∈ getSet result v → x ∈ getSet r v) ∧
      (∀ v, (mapGet result v).isSome → (mapGet r v).isSome) := by
  intro n
  induction n generalizing ord with
  | zero =>
    intro queue result i hn
    cases queue with
    | nil => exact ⟨result, rfl, i, fun _ _ h => h, fun _ h => h⟩
    | cons e queue => simp only [propWork, List.length_cons] at hn; omega
  | succ n ih =>
    intro queue result i hn
    cases queue with
    | nil => exact ⟨result, rfl, i, fun _ _ h => h, fun _ h => h⟩
    | cons e queue =>
      obtain ⟨l, r⟩ := e
      have hedge : l ∈ getSet deps r := i.edges l r (by simp)
      have hl : l ∈ vars := hv r l hedge
      rw [followLoop]
      cases hr : mapGet result r with
      | none =>
        have hnone : getSet result r = [] := by simp [getSet, hr]
        simp only
        refine ih (ord.sub 1) ⟨i.sound, i.nodup, fun l r h => i.edges l r (by simp [h]), fun l' r' h => ?_⟩ ?_
        · rcases i.complete l' r' h with h | h
          · rcases List.mem_cons.1 h with h | h
            · cases h; exact .inr (by simp [hnone])
            · exact .inl h
          · exact .inr h
        · simp only [propWork, List.length_cons] at hn ⊢; omega
      | some rf =>
        have hrf : getSet result r = rf := by simp [getSet, hr]
        simp only
        obtain ⟨new, hnew⟩ : ∃ new, new = extendSet ((mapGet result l).getD []) rf := ⟨_, rfl⟩
        obtain ⟨result', hres⟩ : ∃ result', result' = mapSet result l new := ⟨_, rfl⟩
        rw [← hnew, ← hres]
        have hmem : ∀ v x, x ∈ getSet result' v ↔ x ∈ getSet result v ∨ (v = l ∧ x ∈ getSet result r) := by
          intro v x
          rw [hres, getSet_mapSet]
          split
          · rename_i h
            subst h
            rw [hnew, mem_extendSet, hrf]
            simp [getSet]
          · rename_i h
            simp [Ne.symm h]
        have hother : ∀ v, v ≠ l → getSet result' v = getSet result v := by
          intro v h
          rw [hres, getSet_mapSet, if_neg (Ne.symm h)]
        have hself : getSet result' l = new := by rw [hres, getSet_mapSet, if_pos rfl]
        have hsome : ∀ v, (mapGet result v).isSome → (mapGet result' v).isSome := by
          intro v h
          rw [hres, mapGet_mapSet]
          split
          · rfl
          · exact h
        have hpre : (getSet result l).length ≤ new.length := by
          rw [hnew]; exact (extendSet_prefix _ _).length_le
        have sound' : ∀ v x, x ∈ getSet result' v → Target v x := by
          intro v x h
          rcases (hmem v x).1 h with h | ⟨rfl, h⟩
          · exact i.sound v x h
          · exact ht _ _ _ hedge (i.sound _ _ h)
        have nodup' : ∀ v, (getSet result' v).Nodup := by
          intro v
          by_cases h : v = l
          · subst h; rw [hself, hnew]; exact nodup_extendSet (i.nodup v)
          · rw [hother v h]; exact i.nodup v
        have each : ∀ v ∈ vars, U.length - (getSet result' v).length ≤ U.length - (getSet result v).length := by
          intro v _
          by_cases h : v = l
          · subst h; rw [hself]; omega
          · rw [hother v h]; exact Nat.le_refl _
        split
        · rename_i hlen
          -- the set has grown
          have hlt : (getSet result l).length < new.length := by
            have : (getSet result l).length ≠ new.length := hlen
            omega
          have hUl : new.length ≤ U.length := by
            rw [← hself]
            exact nodup_length_le (nodup' l) fun x hx => hU l x (sound' l x hx)
          have hsum := sum_map_lt (f := fun v => U.length - (getSet result v).length)
            (f' := fun v => U.length - (getSet result' v).length) each hl (by
              show U.length - (getSet result' l).length < U.length - (getSet result l).length
              rw [hself]; omega)
          have hmul := Nat.mul_le_mul_right vars.length hsum
          rw [Nat.add_mul, Nat.one_mul] at hmul
          have hdl : (getSet deps l).length ≤ vars.length := nodup_length_le (hd l) (hv l)
          have hq : ∀ a b, (a, b) ∈ queue ++ (ord.shuffle [0] _ ((mapGet deps l).getD [])).map (fun k => (k, l)) ↔
              (a, b) ∈ queue ∨ (b = l ∧ a ∈ getSet deps l) := by
            intro a b
            rw [List.mem_append]
            refine or_congr Iff.rfl ?_
            simp only [List.mem_map, HashOrder.mem_shuffle, Prod.mk.injEq]
            constructor
            · rintro ⟨k, h1, rfl, rfl⟩; exact ⟨rfl, h1⟩
            · rintro ⟨rfl, h⟩; exact ⟨a, h, rfl, rfl⟩
          refine (fun key => ?_) ( ih (ord.sub 1) (queue := queue ++
              (ord.shuffle [0] _ ((mapGet deps l).getD [])).map (fun k => (k, l))) (result := result')
            ⟨sound', nodup', fun a b h => ?_, fun a b h => ?_⟩ ?_)
          · obtain ⟨res, h1, h2, h3, h4⟩ := key
            exact ⟨res, h1, h2, fun v x h => h3 v x ((hmem v x).2 (.inl h)), fun v h => h4 v (hsome v h)⟩
          · rcases (hq a b).1 h with h | ⟨rfl, h⟩
            · exact i.edges a b (by simp [h])
            · exact h
          · by_cases hb : b = l
            · subst hb; exact .inl ((hq a b).2 (.inr ⟨rfl, h⟩))
            · rcases i.complete a b h with h' | h'
              · rcases List.mem_cons.1 h' with h' | h'
                · cases h'
                  exact .inr fun x hx => (hmem _ x).2 (.inr ⟨rfl, by rwa [hother _ hb] at hx⟩)
                · exact .inl ((hq a b).2 (.inl h'))
              · exact .inr fun x hx => (hmem a x).2 (.inl (h' x (by rwa [hother b hb] at hx)))
          · simp only [propWork, List.length_cons, List.length_append, List.length_map,
              HashOrder.length_shuffle] at hn ⊢
            have : ((mapGet deps l).getD []).length = (getSet deps l).length := rfl
            omega
        · rename_i hlen
          have hsame : new = getSet result l := by
            rw [hnew]
            refine extendSet_same ?_
            rw [← hnew]
            exact Decidable.not_not.1 hlen
          have hall : ∀ v, getSet result' v = getSet result v := by
            intro v
            by_cases h : v = l
            · subst h; rw [hself, hsame]
            · exact hother v h
          refine (fun key => ?_) ( ih (ord.sub 1) (queue := queue) (result := result')
            ⟨sound', nodup', fun a b h => i.edges a b (by simp [h]), fun a b h => ?_⟩ ?_)
          · obtain ⟨res, h1, h2, h3, h4⟩ := key
            exact ⟨res, h1, h2, fun v x h => h3 v x ((hmem v x).2 (.inl h)), fun v h => h4 v (hsome v h)⟩
          · rcases i.complete a b h with h' | h'
            · rcases List.mem_cons.1 h' with h' | h'
              · cases h'
                refine .inr fun x hx => (hmem _ x).2 (.inr ⟨rfl, by rwa [hall] at hx⟩)
              · exact .inl h'
            · exact .inr fun x hx => by rw [hall] at hx ⊢; exact h' x hx
          · have hsum := sum_map_le each
            have hmul := Nat.mul_le_mul_right vars.length hsum
            simp only [propWork, List.length_cons] at hn ⊢
            omega

/-- Only certain variables get an entry. -/
theorem followLoop_entries (ord : HashOrder) {deps : List (V × List V)} {P : V → Prop}
    (hP : ∀ l r, l ∈ getSet deps r → P r → P l) :
    ∀ {n : Nat} {queue : List (V × V)} {result r : List (V × List (Sym V T))},
    followLoop deps ord n queue result = .ok r → (∀ a b, (a, b) ∈ queue → a ∈ getSet deps b) →
    (∀ v, (mapGet result v).isSome → P v) → ∀ v, (mapGet r v).isSome → P v := by
  intro n
  induction n generalizing ord with
  | zero =>
    intro queue result r h _ hr
    cases queue with
    | nil => cases h; exact hr
    | cons e queue => cases h
  | succ n ih =>
    intro queue result r h hq hr
    cases queue with
    | nil => cases h; exact hr
    | cons e queue =>
      obtain ⟨a, b⟩ := e
      have hq' : ∀ a b, (a, b) ∈ queue → a ∈ getSet deps b := fun a b h => hq a b (by simp [h])
      rw [followLoop] at h
      cases hb : mapGet result b with
      | none =>
        simp only [hb] at h
        exact ih (ord.sub 1) h hq' hr
      | some f =>
        simp only [hb] at h
        have hr' : ∀ v, (mapGet (mapSet result a (extendSet ((mapGet result a).getD []) f)) v).isSome → P v := by
          intro v hv
          rw [mapGet_mapSet] at hv
          split at hv
          · rename_i he
            subst he
            exact hP _ _ (hq _ _ (List.mem_cons_self ..)) (hr b (by rw [hb]; rfl))
          · exact hr v hv
        split at h
        · refine ih (ord.sub 1) h (fun x y hxy => ?_) hr'
          rcases List.mem_append.1 hxy with hxy | hxy
          · exact hq' x y hxy
          · simp only [List.mem_map, HashOrder.mem_shuffle, Prod.mk.injEq] at hxy
            obtain ⟨k, h1, rfl, rfl⟩ := hxy
            exact h1
        · exact ih (ord.sub 1) h hq' hr'

/-- The variables that can have an entry: something stands behind the variable in some body, or it stands at the
end of a body of such a variable. -/
inductive Entered (g : Grammar V T) : V → Prop
  | notLast {h v : V} {β : Body V T} : (h, β) ∈ g.rules → NotLast β v → Entered g v
  | up {h v : V} {β : Body V T} : (h, β) ∈ g.rules → AtEnd g β v → Entered g h → Entered g v

/-- The variables that have an entry in any case: something stands behind the variable in some body, or it stands at
the end of a body of a variable behind which something stands. -/
inductive SureEntry (g : Grammar V T) : V → Prop
  | notLast {h v : V} {β : Body V T} : (h, β) ∈ g.rules → NotLast β v → SureEntry g v
  | up {h h' v : V} {β β' : Body V T} : (h, β) ∈ g.rules → AtEnd g β v → (h', β') ∈ g.rules → NotLast β' h →
      SureEntry g v

/-- A dependency on a variable that has an entry makes an entry. -/
theorem followLoop_entry (ord : HashOrder) {deps : List (V × List V)} {l k : V} :
    ∀ {n : Nat} {queue : List (V × V)} {result r : List (V × List (Sym V T))},
    followLoop deps ord n queue result = .ok r →
    ((mapGet result l).isSome ∨ (l, k) ∈ queue ∧ (mapGet result k).isSome) → (mapGet r l).isSome := by
  intro n
  induction n generalizing ord with
  | zero =>
    intro queue result r h hl
    cases queue with
    | nil =>
      cases h
      rcases hl with h | ⟨h, _⟩
      · exact h
      · cases h
    | cons e queue => cases h
  | succ n ih =>
    intro queue result r h hl
    cases queue with
    | nil =>
      cases h
      rcases hl with h | ⟨h, _⟩
      · exact h
      · cases h
    | cons e queue =>
      obtain ⟨a, b⟩ := e
      rw [followLoop] at h
      cases hb : mapGet result b with
      | none =>
        simp only [hb] at h
        refine ih (ord.sub 1) h (hl.imp id ?_)
        rintro ⟨hm, hk⟩
        rcases List.mem_cons.1 hm with he | hm
        · cases he; rw [hb] at hk; cases hk
        · exact ⟨hm, hk⟩
      | some f =>
        simp only [hb] at h
        have key : ∀ new, (mapGet (mapSet result a new) l).isSome ∨
            (l, k) ∈ queue ∧ (mapGet (mapSet result a new) k).isSome := by
          intro new
          rw [mapGet_mapSet, mapGet_mapSet]
          rcases hl with hl | ⟨hm, hk⟩
          · left; split
            · rfl
            · exact hl
          · rcases List.mem_cons.1 hm with he | hm
            · cases he; left; simp
            · refine .inr ⟨hm, ?_⟩
              split
              · rfl
              · exact hk
        split at h
        · exact ih (ord.sub 1) h ((key _).imp id fun h => ⟨by simp [h.1], h.2⟩)
        · exact ih (ord.sub 1) h (key _)

/-- Enough iterations for every computation of FOLLOW. -/
def followFuel (g : Grammar V T) : Nat :=
  firstFuel g + g.rules.length * g.rules.length +
    g.rules.length * (firstUniverse g).length * g.rules.length

omit [DecidableEq V] [DecidableEq T] in
theorem Fol.mem {t : T} {v : V} (h : Fol g t v) : Sym.term t ∈ firstUniverse g := by
  induction h with
  | here hr hs =>
    rcases hs.mem with h | ⟨v, β, h1, h2⟩
    · exact List.mem_cons_of_mem _ (List.mem_flatMap.2 ⟨_, hr, by simp [h]⟩)
    · exact List.mem_cons_of_mem _ (List.mem_flatMap.2 ⟨_, h1, h2⟩)
  | up _ _ _ ih => exact ih

theorem followSet_spec (wf : WellFormed g) (ord : HashOrder) {fuel : Nat} (hf : followFuel g ≤ fuel) :
    ∃ r, g.followSet ord fuel = .ok r ∧
      (∀ v x, x ∈ getSet r v ↔ ∃ t, x = .term t ∧ Fol g t v) ∧
      (∀ v, SureEntry g v → (mapGet r v).isSome) ∧
      (∀ v, (mapGet r v).isSome → Entered g v) ∧ (∀ v, (getSet r v).Nodup) := by
  have hf1 : firstFuel g ≤ fuel := by unfold followFuel at hf; omega
  obtain ⟨s, h1, i, p⟩ := followRules_spec wf (ord.sub 1) hf1 (rules := (ord.sub 0).grouped Prod.fst g.rules)
    (s := ⟨[], []⟩) ⟨by simp [getSet, mapGet], by simp [getSet, mapGet], by simp, by simp,
      by simp [getSet, mapGet]⟩ (fun r hr => by simpa using hr)
  let Target : V → Sym V T → Prop := fun v x => ∃ t, x = .term t ∧ Fol g t v
  have hempty : ∀ {A : Type} (v : V), getSet ([] : List (V × List A)) v = [] := fun v => rfl
  have hdirect : ∀ v x, x ∈ getSet s.result v ↔ ∃ h β, (h, β) ∈ g.rules ∧ Direct g β v x := by
    intro v x; rw [p.result]; simp [hempty]
  have hdeps : ∀ k v, v ∈ getSet s.deps k ↔ ∃ β, (k, β) ∈ g.rules ∧ AtEnd g β v := by
    intro k v; rw [p.deps]; simp [hempty]
  have hq : ∀ l r, (l, r) ∈ (ord.sub 2).grouped Prod.snd (s.deps.flatMap fun d => d.2.map fun l => (l, d.1)) ↔
      l ∈ getSet s.deps r := by
    intro l r
    simp only [HashOrder.mem_grouped, List.mem_flatMap, List.mem_map, Prod.mk.injEq, Prod.exists]
    constructor
    · rintro ⟨k, ls, h1, l', h2, rfl, rfl⟩
      simp only [getSet, mapGet_of_mem i.keys h1]
      exact h2
    · intro h
      cases hg : mapGet s.deps r with
      | none => simp [getSet, hg] at h
      | some ls =>
        simp only [getSet, hg, Option.getD_some] at h
        exact ⟨r, ls, mapGet_mem hg, l, h, rfl, rfl⟩
  have hlen : (s.deps.flatMap fun d => d.2.map fun l => (l, d.1)).length ≤ g.rules.length * g.rules.length := by
    have h1 : (s.deps.flatMap fun d => d.2.map fun l => (l, d.1)).length =
        (s.deps.map fun d => d.2.length).sum := by
      rw [List.length_flatMap]; simp
    have h2 : (s.deps.map fun d => d.2.length).sum ≤ (s.deps.map fun _ => g.rules.length).sum := by
      refine sum_map_le fun d hd => ?_
      have hg : getSet s.deps d.1 = d.2 := by simp only [getSet, mapGet_of_mem i.keys (k := d.1) (v := d.2) hd]; rfl
      have hn := nodup_length_le (i.deps d.1) (i.deps_vars d.1)
      rw [hg, List.length_map] at hn
      exact hn
    rw [sum_map_const] at h2
    have h3 := nodup_length_le i.keys i.keys_vars
    simp only [List.length_map] at h3
    have h4 := Nat.mul_le_mul_right g.rules.length h3
    omega
  have hwork : propWork (g.rules.map Prod.fst) (firstUniverse g)
      ((ord.sub 2).grouped Prod.snd (s.deps.flatMap fun d => d.2.map fun l => (l, d.1))) s.result ≤ fuel := by
    have h1 : ((g.rules.map Prod.fst).map fun v => (firstUniverse g).length - (getSet s.result v).length).sum ≤
        ((g.rules.map Prod.fst).map fun _ => (firstUniverse g).length).sum :=
      sum_map_le fun v _ => Nat.sub_le _ _
    rw [sum_map_const, List.length_map] at h1
    have h2 := Nat.mul_le_mul_right g.rules.length h1
    simp only [propWork, HashOrder.length_grouped, List.length_map]
    unfold followFuel at hf
    omega
  obtain ⟨r, h2, ir, h3, h4⟩ := followLoop_spec (ord.sub 3) (vars := g.rules.map Prod.fst)
    (U := firstUniverse g) (deps := s.deps) (Target := Target)
    (by rintro v x ⟨t, rfl, h⟩; exact h.mem)
    (by
      rintro l r x hl ⟨t, rfl, h⟩
      obtain ⟨β, hr, pre, rest, rfl, hn⟩ := (hdeps r l).1 hl
      exact ⟨t, rfl, .up hr hn h⟩)
    i.deps i.deps_vars (n := fuel)
    (queue := (ord.sub 2).grouped Prod.snd (s.deps.flatMap fun d => d.2.map fun l => (l, d.1))) (result := s.result)
    ⟨by
      intro v x h
      obtain ⟨h', β, hr, pre, rest, rfl, t, rfl, hs⟩ := (hdirect v x).1 h
      exact ⟨t, rfl, .here hr hs⟩, i.sets, fun l r h => (hq l r).1 h, fun l r h => .inl ((hq l r).2 h)⟩
    hwork
  refine ⟨r, by simp [Grammar.followSet, h1, h2], fun v x => ⟨ir.sound v x, ?_⟩, fun v h => ?_, ?_, ir.nodup⟩
  · rintro ⟨t, rfl, h⟩
    induction h with
    | here hr hs => exact h3 _ _ ((hdirect _ _).2 ⟨_, _, hr, _, _, rfl, t, rfl, hs⟩)
    | @up h v pre rest hr hn _ ih =>
      rcases ir.complete v h ((hdeps h v).2 ⟨_, hr, _, _, rfl, hn⟩) with h | h
      · cases h
      · exact h _ ih
  · cases h with
    | @notLast h v β hr hn => exact h4 v ((p.entries v).2 (.inr ⟨h, β, by simpa using hr, hn⟩))
    | @up h h' v β β' hr he hr' hn =>
      refine followLoop_entry (ord.sub 3) (k := h) h2 (.inr ⟨(hq _ _).2 ((hdeps _ _).2 ⟨β, hr, he⟩), ?_⟩)
      exact (p.entries h).2 (.inr ⟨h', β', by simpa using hr', hn⟩)
  · refine followLoop_entries (ord.sub 3) (deps := s.deps) ?_ h2 (fun a b h => (hq a b).1 h) ?_
    · intro l r hl hr
      obtain ⟨β, h1, h2⟩ := (hdeps r l).1 hl
      exact .up h1 h2 hr
    · intro v hv
      rcases (p.entries v).1 hv with h | ⟨h, β, h1, h2⟩
      · cases h
      · exact .notLast (by simpa using h1) h2

end Pango.Parse
