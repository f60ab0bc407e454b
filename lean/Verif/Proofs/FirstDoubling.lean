import Verif.Model.FirstWork
import Verif.Proofs.Maps

/-!
# A grammar for which `first_bodies` looks at very many bodies

While the body `opt₀ ... optₙ₋₁` is looked at, `c` copies of its rest wait for `optⱼ` and for `optⱼ₊₁`.  The set of each
of them grows, and each copy is looked at again, so `2c` copies of the rests wait for `optⱼ₊₁` and for `optⱼ₊₂`.
-/

namespace Pango.Parse.Optionals

open Pango Pango.Parse

/-- The variables of the grammar `whole → front opt₀ ... optₙ₋₁`, `front → tₙ`, `optᵢ → ε | realᵢ`, `realᵢ → tᵢ`. -/
inductive OptVar where
  | whole
  | front
  | opt (i : Nat)
  | real (i : Nat)
  deriving Repr, DecidableEq

abbrev OptSym := Sym OptVar Nat

/-- `optₘ ... optₘ₊ₖ₋₁`. -/
def optsFrom (m : Nat) : Nat → Body OptVar Nat
  | 0 => []
  | k + 1 => .var (.opt m) :: optsFrom (m + 1) k

variable {n : Nat}

/-- `optₘ ... optₙ₋₁`. -/
def opts (n m : Nat) : Body OptVar Nat := optsFrom m (n - m)

theorem opts_cons {m : Nat} (h : m < n) : opts n m = .var (.opt m) :: opts n (m + 1) := by
  obtain ⟨k, hk⟩ : ∃ k, n - m = k + 1 := ⟨n - m - 1, by omega⟩
  have : n - (m + 1) = k := by omega
  rw [opts, opts, hk, this, optsFrom]

/-- The bodies of `optᵢ`, in some order. -/
def OptBodies (i : Nat) (bs : List (Body OptVar Nat)) : Prop :=
  bs = [[.eps], [.var (.real i)]] ∨ bs = [[.var (.real i)], [.eps]]

/-- The rules of the grammar, as far as they matter. -/
structure Optional (n : Nat) (g : Grammar OptVar Nat) : Prop where
  opt : ∀ i, i < n → ∃ bs, g.expectBodies (.opt i) = .ok bs ∧ OptBodies i bs
  real : ∀ i, i < n → g.expectBodies (.real i) = .ok [[.term i]]

theorem OptBodies.of_perm {i : Nat} {bs : List (Body OptVar Nat)} (hp : bs.Perm [[.eps], [.var (.real i)]]) :
    OptBodies i bs := by
  match bs, hp.length_eq with
  | [x, y], _ =>
    have hx : x ∈ [[.eps], [.var (.real i)]] := hp.subset (by simp)
    simp only [List.mem_cons, List.not_mem_nil, or_false] at hx
    rcases hx with rfl | rfl
    · exact .inl (by rw [List.singleton_perm_singleton.1 hp.cons_inv])
    · exact .inr (by rw [List.singleton_perm_singleton.1 (hp.trans (.swap ..)).cons_inv])

theorem OptBodies.shuffle {i : Nat} {bs : List (Body OptVar Nat)} (h : OptBodies i bs) (ord : HashOrder)
    (now : List Nat) : OptBodies i (ord.shuffle now _ bs) := by
  refine .of_perm ((ord.perm now _ _).trans ?_)
  rcases h with rfl | rfl
  · exact .refl _
  · exact .swap ..

/-- What is waiting for a variable. -/
def waiting (n m q : Nat) : Option (List (Option OptVar × List (Body OptVar Nat))) :=
  if q = 0 then none else some [(none, List.replicate q (opts n m))]

/-- The state of `first_bodies`. -/
structure Sim (n : Nat) (fa fb : Nat → Option (List OptSym)) (q : Nat → Nat)
    (db : Nat → Option (List (Option OptVar × List (Body OptVar Nat)))) (va vb : Nat → Prop)
    (pending : List (Option OptVar × List (Body OptVar Nat))) (s : FirstState OptVar Nat) : Prop where
  pending : s.pending = pending
  fa : ∀ m, mapGet s.first (.opt m) = fa m
  fb : ∀ m, mapGet s.first (.real m) = fb m
  da : ∀ m, mapGet s.deps (.opt m) = waiting n m (q m)
  db : ∀ m, mapGet s.deps (.real m) = db m
  va : ∀ m, .opt m ∈ s.visited ↔ va m
  vb : ∀ m, .real m ∈ s.visited ↔ vb m

/-- A function with another value at one place. -/
def upd {α : Type} (f : Nat → α) (i : Nat) (x : α) : Nat → α := fun m => if m = i then x else f m

variable {fa fb : Nat → Option (List OptSym)} {q : Nat → Nat}
  {db : Nat → Option (List (Option OptVar × List (Body OptVar Nat)))} {va vb : Nat → Prop}
  {pending : List (Option OptVar × List (Body OptVar Nat))} {s : FirstState OptVar Nat}
  {g : Grammar OptVar Nat}

theorem Sim.addDependency (h : Sim n fa fb q db va vb pending s) (m : Nat) :
    Sim n fa fb (upd q m (q m + 1)) db va vb pending (addDependency (.opt m) none (opts n m) s) := by
  refine ⟨h.pending, h.fa, h.fb, fun k => ?_, fun k => ?_, h.va, h.vb⟩
  · simp only [Parse.addDependency, mapGet_mapSet, OptVar.opt.injEq, upd]
    by_cases hk : m = k
    · subst hk
      simp only [if_true, h.da, waiting]
      by_cases hq : q m = 0
      · simp [hq, mapGet, mapSet]
      · simp [hq, mapGet, mapSet, List.replicate_succ']
    · have : k ≠ m := fun e => hk e.symm
      simp only [hk, this, if_false, h.da]
  · simp only [Parse.addDependency, mapGet_mapSet, reduceCtorEq, if_false]
    exact h.db k

/-- `first_bodies` for the body itself adds to the result only. -/
theorem Sim.extendNone (h : Sim n fa fb q db va vb pending s) (ord : HashOrder) (xs : List OptSym) :
    Sim n fa fb q db va vb pending (extendForVariable ord none xs s) :=
  ⟨h.pending, h.fa, h.fb, h.da, h.db, h.va, h.vb⟩

/-- The counts between two places go up. -/
def more (q : Nat → Nat) (j k c : Nat) : Nat → Nat := fun m => if j ≤ m ∧ m < k then q m + c else q m

theorem more_zero (q : Nat → Nat) (j k : Nat) : more q j k 0 = q := by
  funext m
  simp [more]

theorem more_more (q : Nat → Nat) (j k c d : Nat) : more (more q j k c) j k d = more q j k (c + d) := by
  funext m
  simp only [more]
  split <;> omega

theorem more_upd (q : Nat → Nat) {j k : Nat} (h : j < k) : more (upd q j (q j + 1)) (j + 1) k 1 = more q j k 1 := by
  funext m
  simp only [more, upd]
  repeat' split
  all_goals first | omega | (subst_vars; omega)

theorem upd_more (q : Nat → Nat) {j k : Nat} (h : j ≤ k) :
    upd (more q j k 1) k (more q j k 1 k + 1) = more q j (k + 1) 1 := by
  funext m
  simp only [more, upd]
  repeat' split
  all_goals first | omega | (subst_vars; omega)

/-- One body: from `optⱼ` on over those which can be empty. -/
theorem Sim.walk (ord : HashOrder) {k : Nat} (hk : k ≤ n) :
    ∀ {d j : Nat} {q : Nat → Nat} {s : FirstState OptVar Nat}, j + d = k →
    (∀ m, j ≤ m → m < k → va m ∧ ∃ f, fa m = some f ∧ .eps ∈ f) → Sim n fa fb q db va vb pending s →
    ∃ s', firstBody g ord none (opts n j) s = firstBody g ord none (opts n k) s' ∧
      Sim n fa fb (more q j k 1) db va vb pending s' := by
  intro d
  induction d with
  | zero =>
    intro j q s hj _ h
    obtain rfl : j = k := by omega
    refine ⟨s, rfl, ?_⟩
    have : more q j j 1 = q := by funext m; simp only [more]; split <;> omega
    rw [this]
    exact h
  | succ d ih =>
    intro j q s hj hm h
    have h1 := h.addDependency j
    obtain ⟨hv, f, hf, he⟩ := hm j (Nat.le_refl _) (by omega)
    rw [opts_cons (show j < n by omega)] at h1 ⊢
    obtain ⟨s', h2, h3⟩ := ih (j := j + 1) (by omega) (fun m h4 h5 => hm m (by omega) h5)
      (h1.extendNone (ord.sub (opts n (j + 1)).length)
        (f.filter fun x => !decide (x = .eps) || (opts n (j + 1)).isEmpty))
    rw [more_upd q (by omega)] at h3
    refine ⟨s', ?_, h3⟩
    rw [← h2, firstBody]
    have hv' := (h1.va j).2 hv
    simp only [hv', not_true, if_false, h1.fa, hf, he, if_true]

/-- The body ends at a variable of which nothing is known. -/
theorem Sim.stop (h : Sim n fa fb q db va vb pending s) (ord : HashOrder) {k : Nat} (hk : k < n) (hv : va k)
    (hf : fa k = none) : ∃ s', firstBody g ord none (opts n k) s = .ok s' ∧
      Sim n fa fb (upd q k (q k + 1)) db va vb pending s' := by
  have h1 := h.addDependency k
  refine ⟨_, ?_, h1⟩
  rw [opts_cons hk] at h1 ⊢
  rw [firstBody]
  have hv' := (h1.va k).2 hv
  simp only [hv', not_true, if_false, h1.fa, hf]

/-- The body ends at a variable that has not been seen. -/
theorem Sim.visit (hg : Optional n g) (h : Sim n fa fb q db va vb pending s) (ord : HashOrder) {k : Nat} (hk : k < n)
    (hv : ¬ va k) : ∃ s' bs, OptBodies k bs ∧ firstBody g ord none (opts n k) s = .ok s' ∧
      Sim n fa fb (upd q k (q k + 1)) db (fun m => va m ∨ m = k) vb (pending ++ [(some (.opt k), bs)]) s' := by
  have h1 := h.addDependency k
  obtain ⟨bs, hb, ho⟩ := hg.opt k hk
  have hv' : .opt k ∉ (Parse.addDependency (.opt k) none (opts n k) s).visited := fun h2 => hv ((h1.va k).1 h2)
  refine ⟨{ Parse.addDependency (.opt k) none (opts n k) s with
      pending := (Parse.addDependency (.opt k) none (opts n k) s).pending ++
        [(some (.opt k), ord.shuffle [(opts n (k + 1)).length] _ bs)]
      visited := (Parse.addDependency (.opt k) none (opts n k) s).visited ++ [.opt k] }, _,
    ho.shuffle ord [(opts n (k + 1)).length], ?_, ⟨?_, h1.fa, h1.fb, h1.da, h1.db, fun m => ?_, fun m => ?_⟩⟩
  · rw [opts_cons hk] at hv' ⊢
    rw [firstBody]
    simp only [hv', not_false_eq_true, if_true, hb, Outcome.bind_ok, Outcome.pure_eq]
  · exact congrArg (· ++ _) h1.pending
  · simp only [List.mem_append, List.mem_singleton, OptVar.opt.injEq]
    exact or_congr (h1.va m) Iff.rfl
  · simp only [List.mem_append, List.mem_singleton, reduceCtorEq, or_false]
    exact h1.vb m

/-- All copies of a body, up to a variable of which nothing is known. -/
theorem Sim.eachStop (ord : HashOrder) {j k : Nat} (hjk : j ≤ k) (hk : k < n) (hv : va k) (hf : fa k = none)
    (hm : ∀ m, j ≤ m → m < k → va m ∧ ∃ f, fa m = some f ∧ .eps ∈ f) :
    ∀ {c : Nat} {q : Nat → Nat} {s : FirstState OptVar Nat}, Sim n fa fb q db va vb pending s →
    ∃ s', firstEach g ord none (List.replicate c (opts n j)) s = .ok s' ∧
      Sim n fa fb (more q j (k + 1) c) db va vb pending s' := by
  intro c
  induction c with
  | zero =>
    intro q s h
    exact ⟨s, rfl, by rw [more_zero]; exact h⟩
  | succ c ih =>
    intro q s h
    obtain ⟨s1, h1, h2⟩ := Sim.walk (g := g) (ord.sub (List.replicate c (opts n j)).length) (Nat.le_of_lt hk)
      (d := k - j) (by omega) hm h
    obtain ⟨s2, h3, h4⟩ := h2.stop (g := g) (ord.sub (List.replicate c (opts n j)).length) hk hv hf
    rw [upd_more q hjk] at h4
    obtain ⟨s3, h5, h6⟩ := ih h4
    refine ⟨s3, ?_, ?_⟩
    · rw [List.replicate_succ, firstEach, h1, h3, Outcome.bind_ok, h5]
    · rw [more_more, Nat.add_comm 1 c] at h6
      exact h6

/-- All copies of a body, up to a variable that has not been seen. -/
theorem Sim.eachVisit (hg : Optional n g) (ord : HashOrder) {j k : Nat} (hjk : j ≤ k) (hk : k < n) (hv : ¬ va k)
    (hf : fa k = none) (hm : ∀ m, j ≤ m → m < k → va m ∧ ∃ f, fa m = some f ∧ .eps ∈ f) {c : Nat} (hc : 0 < c)
    (h : Sim n fa fb q db va vb pending s) :
    ∃ s' bs, OptBodies k bs ∧ firstEach g ord none (List.replicate c (opts n j)) s = .ok s' ∧
      Sim n fa fb (more q j (k + 1) c) db (fun m => va m ∨ m = k) vb (pending ++ [(some (.opt k), bs)]) s' := by
  obtain ⟨c, rfl⟩ : ∃ c', c = c' + 1 := ⟨c - 1, by omega⟩
  obtain ⟨s1, h1, h2⟩ := Sim.walk (g := g) (ord.sub (List.replicate c (opts n j)).length) (Nat.le_of_lt hk)
    (d := k - j) (by omega) hm h
  obtain ⟨s2, bs, hb, h3, h4⟩ := h2.visit hg (ord.sub (List.replicate c (opts n j)).length) hk hv
  rw [upd_more q hjk] at h4
  obtain ⟨s3, h5, h6⟩ := Sim.eachStop (g := g) ord hjk hk (.inr rfl) hf
    (fun m h7 h8 => ⟨.inl (hm m h7 h8).1, (hm m h7 h8).2⟩) (c := c) h4
  refine ⟨s3, bs, hb, ?_, ?_⟩
  · rw [List.replicate_succ, firstEach, h1, h3, Outcome.bind_ok, h5]
  · rw [more_more, Nat.add_comm 1 c] at h6
    exact h6

theorem shuffle_one {α : Type} (ord : HashOrder) (now : List Nat) (a : α) : ord.shuffle now α [a] = [a] :=
  List.perm_singleton.1 (ord.perm now α [a])

/-- A set grows, and all that waits for it is looked at again. -/
theorem Sim.growOpt (h : Sim n fa fb q db va vb pending s) (ord : HashOrder) (i : Nat) (xs : List OptSym)
    (hx : ((fa i).getD []).length ≠ (extendSet ((fa i).getD []) xs).length) :
    Sim n (upd fa i (some (extendSet ((fa i).getD []) xs))) fb (upd q i 0) db va vb
      (pending ++ if q i = 0 then [] else [(none, List.replicate (q i) (opts n i))])
      (extendForVariable ord (some (.opt i)) xs s) := by
  simp only [extendForVariable, h.fa, hx, ne_eq, not_false_eq_true, if_true, h.da, waiting]
  by_cases hq : q i = 0
  · simp only [hq, if_true, List.append_nil]
    have e : upd q i 0 = q := by funext m; simp only [upd]; split <;> simp_all
    rw [e]
    refine ⟨h.pending, fun m => ?_, fun m => ?_, h.da, h.db, h.va, h.vb⟩
    · simp only [mapGet_mapSet, OptVar.opt.injEq, upd, h.fa, eq_comm]
    · simp only [mapGet_mapSet, reduceCtorEq, if_false, h.fb]
  · simp only [hq, if_false, shuffle_one]
    refine ⟨by rw [h.pending], fun m => ?_, fun m => ?_, fun m => ?_, fun m => ?_, h.va, h.vb⟩
    · simp only [mapGet_mapSet, OptVar.opt.injEq, upd, h.fa, eq_comm]
    · simp only [mapGet_mapSet, reduceCtorEq, if_false, h.fb]
    · simp only [mapGet_mapRemove, OptVar.opt.injEq, upd, h.da, waiting]
      by_cases hm : i = m
      · subst hm; simp
      · have : m ≠ i := fun e => hm e.symm
        simp [hm, this]
    · simp only [mapGet_mapRemove, reduceCtorEq, if_false, h.db]

/-- The bodies of `realᵢ`. -/
def realBodies (i : Nat) : List (Body OptVar Nat) := [[.term i]]
/-- The body of `optᵢ` that is not empty. -/
def optBody (i : Nat) : Body OptVar Nat := [.var (.real i)]

/-- The variable `realᵢ` is seen for the first time. -/
theorem Sim.meet (hg : Optional n g) (h : Sim n fa fb q db va vb pending s) (ord : HashOrder) {i : Nat} (hi : i < n)
    (hv : ¬ vb i) (hd : db i = none) : ∃ s', firstBody g ord (some (.opt i)) (optBody i) s = .ok s' ∧
      Sim n fa fb q (upd db i (some [(some (.opt i), [optBody i])])) va (fun m => vb m ∨ m = i)
        (pending ++ [(some (.real i), (realBodies i))]) s' := by
  have hv' : .real i ∉ s.visited := fun h2 => hv ((h.vb i).1 h2)
  refine ⟨{ Parse.addDependency (.real i) (some (.opt i)) (optBody i) s with
      pending := s.pending ++ [(some (.real i), (realBodies i))]
      visited := s.visited ++ [.real i] }, ?_, ⟨by rw [h.pending], h.fa, h.fb, fun m => ?_, fun m => ?_, fun m => ?_, fun m => ?_⟩⟩
  · simp only [optBody, firstBody, Parse.addDependency, hv', not_false_eq_true, if_true, hg.real i hi, Outcome.bind_ok,
      shuffle_one, realBodies, Outcome.pure_eq]
  · simp only [Parse.addDependency, mapGet_mapSet, reduceCtorEq, if_false, h.da]
  · simp only [Parse.addDependency, mapGet_mapSet, OptVar.real.injEq, upd, h.db, hd, eq_comm]
    rfl
  · simp only [List.mem_append, List.mem_singleton, reduceCtorEq, or_false, h.va]
  · simp only [List.mem_append, List.mem_singleton, OptVar.real.injEq, h.vb]

/-- The bodies of `optᵢ` are looked at for the first time. -/
theorem Sim.opened (hg : Optional n g) (h : Sim n fa fb q db va vb pending s) (ord : HashOrder) {i : Nat} (hi : i < n)
    {bs : List (Body OptVar Nat)} (hb : OptBodies i bs) (hf : fa i = none) (hq : q i ≠ 0) (hv : ¬ vb i)
    (hd : db i = none) : ∃ s' p, firstEach g ord (some (.opt i)) bs s = .ok s' ∧
      (p = [(none, List.replicate (q i) (opts n i)), (some (.real i), (realBodies i))] ∨
        p = [(some (.real i), (realBodies i)), (none, List.replicate (q i) (opts n i))]) ∧
      Sim n (upd fa i (some [.eps])) fb (upd q i 0) (upd db i (some [(some (.opt i), [optBody i])])) va
        (fun m => vb m ∨ m = i) (pending ++ p) s' := by
  have hext : extendSet ((fa i).getD []) [(.eps : OptSym)] = [.eps] := by rw [hf]; rfl
  have hlen : ((fa i).getD []).length ≠ (extendSet ((fa i).getD []) [(.eps : OptSym)]).length := by
    rw [hext, hf]; simp
  rcases hb with rfl | rfl
  · have h1 := h.growOpt ((ord.sub 1).sub 0) i [.eps] hlen
    rw [hext] at h1
    simp only [hq, if_false] at h1
    obtain ⟨s', h2, h3⟩ := h1.meet hg (ord.sub 0) hi hv hd
    refine ⟨s', _, ?_, .inl rfl, by simpa using h3⟩
    change (firstBody g (ord.sub 0) (some (.opt i)) (optBody i)
      (extendForVariable ((ord.sub 1).sub 0) (some (.opt i)) [.eps] s) >>=
        fun s => firstEach g ord (some (.opt i)) [] s) = _
    rw [h2]
    rfl
  · obtain ⟨s', h2, h3⟩ := h.meet hg (ord.sub 1) hi hv hd
    have h1 := h3.growOpt ((ord.sub 0).sub 0) i [.eps] hlen
    rw [hext] at h1
    simp only [hq, if_false] at h1
    refine ⟨_, _, ?_, .inr rfl, by simpa using h1⟩
    rw [show ([.var (.real i)] : Body OptVar Nat) = optBody i from rfl]
    simp only [firstEach, firstBody, List.isEmpty_nil, if_true, Outcome.bind_ok, List.length_cons, List.length_nil,
      Nat.zero_add, h2]

/-- The terminal comes to `optⱼ`. -/
theorem Sim.arrive (h : Sim n fa fb q db va vb pending s) (ord : HashOrder) {j : Nat} (hv : vb j)
    (hfb : fb j = some [.term j]) (hf : fa j = some [.eps]) (hq : q j ≠ 0) :
    ∃ s' x, firstEach g ord (some (.opt j)) [optBody j] s = .ok s' ∧
      Sim n (upd fa j (some [.eps, .term j])) fb (upd q j 0) (upd db j x) va vb
        (pending ++ [(none, List.replicate (q j) (opts n j))]) s' := by
  have h1 : Sim n fa fb q (upd db j (mapGet (Parse.addDependency (.real j) (some (.opt j)) (optBody j) s).deps (.real j)))
      va vb pending (Parse.addDependency (.real j) (some (.opt j)) (optBody j) s) := by
    refine ⟨h.pending, h.fa, h.fb, fun m => ?_, fun m => ?_, h.va, h.vb⟩
    · simp only [Parse.addDependency, mapGet_mapSet, reduceCtorEq, if_false, h.da]
    · simp only [Parse.addDependency, mapGet_mapSet, OptVar.real.injEq, upd, h.db, eq_comm]
      by_cases hm : m = j <;> simp [hm]
  have h2 := h1.growOpt (((ord.sub 0).sub 0)) j [.term j] (by rw [hf]; simp [extendSet, insertNew])
  simp only [hq, if_false] at h2
  refine ⟨_, _, ?_, by rw [hf] at h2; exact h2⟩
  have hv' := (h.vb j).2 hv
  have hfb' := h.fb j
  rw [hfb] at hfb'
  simp only [firstEach, firstBody, optBody, List.length_nil, Parse.addDependency, hv', not_true, if_false, hfb']
  rfl

/-- The bodies of `realᵢ` are looked at. -/
theorem Sim.terminal (h : Sim n fa fb q db va vb pending s) (ord : HashOrder) {i : Nat} (hf : fb i = none)
    (hd : db i = some [(some (.opt i), [optBody i])]) : ∃ s', firstEach g ord (some (.real i)) (realBodies i) s = .ok s' ∧
      Sim n fa (upd fb i (some [.term i])) q (upd db i none) va vb (pending ++ [(some (.opt i), [optBody i])]) s' := by
  refine ⟨_, rfl, ?_⟩
  simp only [extendForVariable, h.fb, hf]
  rw [if_pos (by simp [extendSet, insertNew])]
  simp only [h.db, hd, shuffle_one]
  refine ⟨by rw [h.pending], fun m => ?_, fun m => ?_, fun m => ?_, fun m => ?_, h.va, h.vb⟩
  · simp only [mapGet_mapSet, reduceCtorEq, if_false, h.fa]
  · simp only [mapGet_mapSet, OptVar.real.injEq, upd, h.fb, eq_comm]
    rfl
  · simp only [mapGet_mapRemove, reduceCtorEq, if_false, h.da]
  · simp only [mapGet_mapRemove, OptVar.real.injEq, upd, h.db, eq_comm]

theorem count_step {o : Option OptVar} {bs : List (Body OptVar Nat)} {p : List (Option OptVar × List (Body OptVar Nat))}
    (hp : s.pending = (o, bs) :: p) {ord : HashOrder} {s' : FirstState OptVar Nat}
    (h : firstEach g (ord.sub 0) o bs { s with pending := p } = .ok s') (fuel : Nat) :
    firstCount g ord (fuel + 1) s = bs.length + firstCount g (ord.sub 1) fuel s' := by
  rw [firstCount]
  simp only [hp, h]

theorem Sim.pop {o : Option OptVar} {bs : List (Body OptVar Nat)} (h : Sim n fa fb q db va vb ((o, bs) :: pending) s) :
    Sim n fa fb q db va vb pending { s with pending := pending } :=
  ⟨rfl, h.fa, h.fb, h.da, h.db, h.va, h.vb⟩

/-- `optⱼ` has got its terminal or is about to, and `optⱼ₊₁` is about to be looked at; `c` copies of the body wait for
each. -/
structure PhaseFn (j c : Nat) (fa fb : Nat → Option (List OptSym)) (q : Nat → Nat)
    (db : Nat → Option (List (Option OptVar × List (Body OptVar Nat)))) (va vb : Nat → Prop) : Prop where
  eps : fa j = some [.eps]
  unknown : ∀ m, j < m → fa m = none
  term : fb j = some [.term j]
  unknown' : ∀ m, j < m → fb m = none
  count : q j = c
  count1 : q (j + 1) = c
  zero : ∀ m, j + 1 < m → q m = 0
  deps : ∀ m, j < m → db m = none
  seen : ∀ m, va m ↔ m ≤ j + 1
  seen' : ∀ m, vb m ↔ m ≤ j

/-- A point between the main steps. -/
def Phase (n j c : Nat) (s : FirstState OptVar Nat) : Prop :=
  ∃ fa fb q db va vb bs, PhaseFn j c fa fb q db va vb ∧ OptBodies (j + 1) bs ∧
    (Sim n fa fb q db va vb [(some (.opt (j + 1)), bs), (some (.opt j), [optBody j])] s ∨
      Sim n fa fb q db va vb [(some (.opt j), [optBody j]), (some (.opt (j + 1)), bs)] s)

/-- The numbers of copies double. -/
theorem phase_next (hg : Optional n g) {j c : Nat} (hj : j + 2 < n) (hc : 0 < c) (h : Phase n j c s) (ord : HashOrder)
    (fuel : Nat) : ∃ s' ord', Phase n (j + 1) (2 * c) s' ∧
      2 * c + firstCount g ord' fuel s' ≤ firstCount g ord (fuel + 5) s := by
  obtain ⟨fa, fb, q, db, va, vb, bs, P, hb, h | h⟩ := h
  · obtain ⟨s1, p, e1, hp, h1⟩ := h.pop.opened hg (ord.sub 0) (i := j + 1) (by omega) hb (P.unknown _ (by omega))
      (by rw [P.count1]; omega) (by rw [P.seen']; omega) (P.deps _ (by omega))
    have c1 := count_step h.pending e1 (fuel + 4)
    rw [P.count1] at hp
    obtain ⟨s2, x, e2, h2⟩ := h1.pop.arrive (g := g) ((ord.sub 1).sub 0) (j := j) (.inl ((P.seen' j).2 (Nat.le_refl _)))
      P.term (by simp [upd, P.eps]) (by simp [upd, P.count]; omega)
    have c2 := count_step h1.pending e2 (fuel + 3)
    have e3 : upd q (j + 1) 0 j = c := by simp [upd, P.count]
    rw [e3] at h2
    rcases hp with rfl | rfl
    · obtain ⟨s3, bs', hb', e3, h3⟩ := h2.pop.eachVisit hg (((ord.sub 1).sub 1).sub 0) (j := j + 1) (k := j + 2)
        (by omega) hj (by rw [P.seen]; omega) (by simp [upd, P.unknown]) (fun m h5 h6 => by
          obtain rfl : m = j + 1 := by omega
          exact ⟨((P.seen _).2 (by omega)), [.eps], by simp [upd], by simp⟩) hc
      have c3 := count_step h2.pending e3 (fuel + 2)
      obtain ⟨s4, e4, h4⟩ := h3.pop.terminal (g := g) ((((ord.sub 1).sub 1).sub 1).sub 0) (i := j + 1)
        (P.unknown' _ (by omega)) (by simp [upd])
      have c4 := count_step h3.pending e4 (fuel + 1)
      obtain ⟨s5, e5, h5⟩ := Sim.eachStop (g := g) (((((ord.sub 1).sub 1).sub 1).sub 1).sub 0) (j := j) (k := j + 2)
        (by omega) hj (.inr rfl) (by simp [upd, P.unknown]) (fun m h5 h6 => by
          obtain rfl | rfl : m = j ∨ m = j + 1 := by omega
          · exact ⟨.inl ((P.seen _).2 (by omega)), [.eps, .term m], by simp [upd], by simp⟩
          · exact ⟨.inl ((P.seen _).2 (by omega)), [.eps], by simp [upd], by simp⟩) (c := c) h4.pop
      have c5 := count_step h4.pending e5 fuel
      refine ⟨s5, ((((ord.sub 1).sub 1).sub 1).sub 1).sub 1, ⟨_, _, _, _, _, _, bs', ?_, hb', .inl h5⟩, ?_⟩
      · refine ⟨by simp [upd], fun m hm => ?_, by simp [upd], fun m hm => ?_, ?_, ?_, fun m hm => ?_, fun m hm => ?_,
          fun m => ?_, fun m => ?_⟩
        · have h6 := P.unknown m (by omega)
          simp only [upd]; repeat' split
          all_goals first | omega | assumption
        · have h6 := P.unknown' m (by omega)
          simp only [upd]; repeat' split
          all_goals first | omega | assumption
        · simp only [upd, more]; grind
        · have h6 := P.zero (j + 2) (by omega)
          simp only [upd, more]; grind
        · have h6 := P.zero m (by omega)
          simp only [upd, more]; grind
        · have h6 := P.deps m (by omega)
          simp only [upd]; repeat' split
          all_goals first | omega | assumption | rfl
        · rw [P.seen]; omega
        · rw [P.seen']; omega
      · rw [c1, c2, c3, c4, c5]
        simp only [List.length_replicate]
        omega
    · obtain ⟨s3, e3, h3⟩ := h2.pop.terminal (g := g) (((ord.sub 1).sub 1).sub 0) (i := j + 1)
        (P.unknown' _ (by omega)) (by simp [upd])
      have c3 := count_step h2.pending e3 (fuel + 2)
      obtain ⟨s4, bs', hb', e4, h4⟩ := h3.pop.eachVisit hg ((((ord.sub 1).sub 1).sub 1).sub 0) (j := j + 1) (k := j + 2)
        (by omega) hj (by rw [P.seen]; omega) (by simp [upd, P.unknown]) (fun m h5 h6 => by
          obtain rfl : m = j + 1 := by omega
          exact ⟨((P.seen _).2 (by omega)), [.eps], by simp [upd], by simp⟩) hc
      have c4 := count_step h3.pending e4 (fuel + 1)
      obtain ⟨s5, e5, h5⟩ := Sim.eachStop (g := g) (((((ord.sub 1).sub 1).sub 1).sub 1).sub 0) (j := j) (k := j + 2)
        (by omega) hj (.inr rfl) (by simp [upd, P.unknown]) (fun m h5 h6 => by
          obtain rfl | rfl : m = j ∨ m = j + 1 := by omega
          · exact ⟨.inl ((P.seen _).2 (by omega)), [.eps, .term m], by simp [upd], by simp⟩
          · exact ⟨.inl ((P.seen _).2 (by omega)), [.eps], by simp [upd], by simp⟩) (c := c) h4.pop
      have c5 := count_step h4.pending e5 fuel
      refine ⟨s5, ((((ord.sub 1).sub 1).sub 1).sub 1).sub 1, ⟨_, _, _, _, _, _, bs', ?_, hb', .inr h5⟩, ?_⟩
      · refine ⟨by simp [upd], fun m hm => ?_, by simp [upd], fun m hm => ?_, ?_, ?_, fun m hm => ?_, fun m hm => ?_,
          fun m => ?_, fun m => ?_⟩
        · have h6 := P.unknown m (by omega)
          simp only [upd]; repeat' split
          all_goals first | omega | assumption
        · have h6 := P.unknown' m (by omega)
          simp only [upd]; repeat' split
          all_goals first | omega | assumption
        · simp only [upd, more]; grind
        · have h6 := P.zero (j + 2) (by omega)
          simp only [upd, more]; grind
        · have h6 := P.zero m (by omega)
          simp only [upd, more]; grind
        · have h6 := P.deps m (by omega)
          simp only [upd]; repeat' split
          all_goals first | omega | assumption | rfl
        · rw [P.seen]; omega
        · rw [P.seen']; omega
      · rw [c1, c2, c3, c4, c5]
        simp only [List.length_replicate]
        omega
  · obtain ⟨s1, x, e1, h1⟩ := h.pop.arrive (g := g) (ord.sub 0) (j := j) ((P.seen' j).2 (Nat.le_refl _))
      P.term P.eps (by rw [P.count]; omega)
    have c1 := count_step h.pending e1 (fuel + 4)
    rw [P.count] at h1
    have e3 : upd q j 0 (j + 1) = c := by simp [upd, P.count1]
    obtain ⟨s2, p, e2, hp, h2⟩ := h1.pop.opened hg ((ord.sub 1).sub 0) (i := j + 1) (by omega) hb
      (by simp [upd, P.unknown]) (by rw [e3]; omega) (by rw [P.seen']; omega) (by simp [upd, P.deps])
    have c2 := count_step h1.pending e2 (fuel + 3)
    rw [e3] at hp
    rcases hp with rfl | rfl
    · obtain ⟨s3, bs', hb', e3, h3⟩ := h2.pop.eachVisit hg (((ord.sub 1).sub 1).sub 0) (j := j) (k := j + 2)
        (by omega) hj (by rw [P.seen]; omega) (by simp [upd, P.unknown]) (fun m h5 h6 => by
          obtain rfl | rfl : m = j ∨ m = j + 1 := by omega
          · exact ⟨((P.seen _).2 (by omega)), [.eps, .term m], by simp [upd], by simp⟩
          · exact ⟨((P.seen _).2 (by omega)), [.eps], by simp [upd], by simp⟩) hc
      have c3 := count_step h2.pending e3 (fuel + 2)
      obtain ⟨s4, e4, h4⟩ := Sim.eachStop (g := g) ((((ord.sub 1).sub 1).sub 1).sub 0) (j := j + 1) (k := j + 2)
        (by omega) hj (.inr rfl) (by simp [upd, P.unknown]) (fun m h5 h6 => by
          obtain rfl : m = j + 1 := by omega
          exact ⟨.inl ((P.seen _).2 (by omega)), [.eps], by simp [upd], by simp⟩) (c := c) h3.pop
      have c4 := count_step h3.pending e4 (fuel + 1)
      obtain ⟨s5, e5, h5⟩ := h4.pop.terminal (g := g) (((((ord.sub 1).sub 1).sub 1).sub 1).sub 0) (i := j + 1)
        (P.unknown' _ (by omega)) (by simp [upd])
      have c5 := count_step h4.pending e5 fuel
      refine ⟨s5, ((((ord.sub 1).sub 1).sub 1).sub 1).sub 1, ⟨_, _, _, _, _, _, bs', ?_, hb', .inl h5⟩, ?_⟩
      · refine ⟨by simp [upd], fun m hm => ?_, by simp [upd], fun m hm => ?_, ?_, ?_, fun m hm => ?_, fun m hm => ?_,
          fun m => ?_, fun m => ?_⟩
        · have h6 := P.unknown m (by omega)
          simp only [upd]; repeat' split
          all_goals first | omega | assumption
        · have h6 := P.unknown' m (by omega)
          simp only [upd]; repeat' split
          all_goals first | omega | assumption
        · simp only [upd, more]; grind
        · have h6 := P.zero (j + 2) (by omega)
          simp only [upd, more]; grind
        · have h6 := P.zero m (by omega)
          simp only [upd, more]; grind
        · have h6 := P.deps m (by omega)
          simp only [upd]; repeat' split
          all_goals first | omega | assumption | rfl
        · rw [P.seen]; omega
        · rw [P.seen']; omega
      · rw [c1, c2, c3, c4, c5]
        simp only [List.length_replicate]
        omega
    · obtain ⟨s3, bs', hb', e3, h3⟩ := h2.pop.eachVisit hg (((ord.sub 1).sub 1).sub 0) (j := j) (k := j + 2)
        (by omega) hj (by rw [P.seen]; omega) (by simp [upd, P.unknown]) (fun m h5 h6 => by
          obtain rfl | rfl : m = j ∨ m = j + 1 := by omega
          · exact ⟨((P.seen _).2 (by omega)), [.eps, .term m], by simp [upd], by simp⟩
          · exact ⟨((P.seen _).2 (by omega)), [.eps], by simp [upd], by simp⟩) hc
      have c3 := count_step h2.pending e3 (fuel + 2)
      obtain ⟨s4, e4, h4⟩ := h3.pop.terminal (g := g) ((((ord.sub 1).sub 1).sub 1).sub 0) (i := j + 1)
        (P.unknown' _ (by omega)) (by simp [upd])
      have c4 := count_step h3.pending e4 (fuel + 1)
      obtain ⟨s5, e5, h5⟩ := Sim.eachStop (g := g) (((((ord.sub 1).sub 1).sub 1).sub 1).sub 0) (j := j + 1) (k := j + 2)
        (by omega) hj (.inr rfl) (by simp [upd, P.unknown]) (fun m h5 h6 => by
          obtain rfl : m = j + 1 := by omega
          exact ⟨.inl ((P.seen _).2 (by omega)), [.eps], by simp [upd], by simp⟩) (c := c) h4.pop
      have c5 := count_step h4.pending e5 fuel
      refine ⟨s5, ((((ord.sub 1).sub 1).sub 1).sub 1).sub 1, ⟨_, _, _, _, _, _, bs', ?_, hb', .inl h5⟩, ?_⟩
      · refine ⟨by simp [upd], fun m hm => ?_, by simp [upd], fun m hm => ?_, ?_, ?_, fun m hm => ?_, fun m hm => ?_,
          fun m => ?_, fun m => ?_⟩
        · have h6 := P.unknown m (by omega)
          simp only [upd]; repeat' split
          all_goals first | omega | assumption
        · have h6 := P.unknown' m (by omega)
          simp only [upd]; repeat' split
          all_goals first | omega | assumption
        · simp only [upd, more]; grind
        · have h6 := P.zero (j + 2) (by omega)
          simp only [upd, more]; grind
        · have h6 := P.zero m (by omega)
          simp only [upd, more]; grind
        · have h6 := P.deps m (by omega)
          simp only [upd]; repeat' split
          all_goals first | omega | assumption | rfl
        · rw [P.seen]; omega
        · rw [P.seen']; omega
      · rw [c1, c2, c3, c4, c5]
        simp only [List.length_replicate]
        omega

/-- The first steps. -/
theorem phase_zero (hg : Optional n g) (hn : 2 ≤ n) (ord : HashOrder) (fuel : Nat) : ∃ s' ord', Phase n 0 1 s' ∧
    firstCount g ord' fuel s' ≤ firstCount g ord (fuel + 4) ⟨[], [], [(none, [opts n 0])], [], []⟩ := by
  have h : Sim n (fun _ => none) (fun _ => none) (fun _ => 0) (fun _ => none) (fun _ => False) (fun _ => False)
      [(none, List.replicate 1 (opts n 0))] ⟨[], [], [(none, [opts n 0])], [], []⟩ :=
    ⟨rfl, fun _ => rfl, fun _ => rfl, fun _ => rfl, fun _ => rfl, fun _ => by simp, fun _ => by simp⟩
  obtain ⟨s1, bs, hb, e1, h1⟩ := h.pop.eachVisit hg (ord.sub 0) (j := 0) (k := 0) (Nat.le_refl _) (by omega)
    (fun h => h) rfl (fun m h5 h6 => by omega) Nat.zero_lt_one
  have c1 := count_step h.pending e1 (fuel + 3)
  have e0 : more (fun _ => 0) 0 (0 + 1) 1 0 = 1 := by simp [more]
  obtain ⟨s2, p, e2, hp, h2⟩ := h1.pop.opened hg ((ord.sub 1).sub 0) (i := 0) (by omega) hb rfl
    (by rw [e0]; omega) (fun h => h) rfl
  have c2 := count_step h1.pending e2 (fuel + 2)
  rw [e0] at hp
  rcases hp with rfl | rfl
  · obtain ⟨s3, bs', hb', e3, h3⟩ := h2.pop.eachVisit hg (((ord.sub 1).sub 1).sub 0) (j := 0) (k := 1) (by omega)
      (by omega) (by simp) (by simp [upd]) (fun m h5 h6 => by
        obtain rfl : m = 0 := by omega
        exact ⟨.inr rfl, [.eps], by simp [upd], by simp⟩) Nat.zero_lt_one
    have c3 := count_step h2.pending e3 (fuel + 1)
    obtain ⟨s4, e4, h4⟩ := h3.pop.terminal (g := g) ((((ord.sub 1).sub 1).sub 1).sub 0) (i := 0) rfl (by simp [upd])
    have c4 := count_step h3.pending e4 fuel
    refine ⟨s4, (((ord.sub 1).sub 1).sub 1).sub 1, ⟨_, _, _, _, _, _, bs', ?_, hb', .inl h4⟩, ?_⟩
    · refine ⟨by simp [upd], fun m hm => ?_, by simp [upd], fun m hm => ?_, ?_, ?_, fun m hm => ?_, fun m hm => ?_,
        fun m => ?_, fun m => ?_⟩
      all_goals try simp only [upd, more]
      all_goals grind
    · rw [c1, c2, c3, c4]; omega
  · obtain ⟨s3, e3, h3⟩ := h2.pop.terminal (g := g) (((ord.sub 1).sub 1).sub 0) (i := 0) rfl (by simp [upd])
    have c3 := count_step h2.pending e3 (fuel + 1)
    obtain ⟨s4, bs', hb', e4, h4⟩ := h3.pop.eachVisit hg ((((ord.sub 1).sub 1).sub 1).sub 0) (j := 0) (k := 1) (by omega)
      (by omega) (by simp) (by simp [upd]) (fun m h5 h6 => by
        obtain rfl : m = 0 := by omega
        exact ⟨.inr rfl, [.eps], by simp [upd], by simp⟩) Nat.zero_lt_one
    have c4 := count_step h3.pending e4 fuel
    refine ⟨s4, (((ord.sub 1).sub 1).sub 1).sub 1, ⟨_, _, _, _, _, _, bs', ?_, hb', .inr h4⟩, ?_⟩
    · refine ⟨by simp [upd], fun m hm => ?_, by simp [upd], fun m hm => ?_, ?_, ?_, fun m hm => ?_, fun m hm => ?_,
        fun m => ?_, fun m => ?_⟩
      all_goals try simp only [upd, more]
      all_goals grind
    · rw [c1, c2, c3, c4]; omega

theorem phases (hg : Optional n g) : ∀ {d j c : Nat} {s : FirstState OptVar Nat} {ord : HashOrder} {fuel : Nat},
    j + d + 2 < n → 0 < c → Phase n j c s → 5 * (d + 1) ≤ fuel → c * 2 ^ (d + 1) ≤ firstCount g ord fuel s := by
  intro d
  induction d with
  | zero =>
    intro j c s ord fuel hj hc h hf
    obtain ⟨fuel, rfl⟩ : ∃ f, fuel = f + 5 := ⟨fuel - 5, by omega⟩
    obtain ⟨_, _, _, h1⟩ := phase_next hg (by omega) hc h ord fuel
    omega
  | succ d ih =>
    intro j c s ord fuel hj hc h hf
    obtain ⟨fuel, rfl⟩ : ∃ f, fuel = f + 5 := ⟨fuel - 5, by omega⟩
    obtain ⟨s', ord', h1, h2⟩ := phase_next hg (by omega) hc h ord fuel
    have := ih (ord := ord') (fuel := fuel) (by omega) (by omega) h1 (by omega)
    have e : c * 2 ^ (d + 1 + 1) = 2 * c * 2 ^ (d + 1) := by
      rw [Nat.pow_succ, Nat.mul_comm _ 2, ← Nat.mul_assoc, Nat.mul_comm c 2]
    omega

/-- The body is looked at exponentially often. -/
theorem opts_count (hg : Optional n g) (hn : 3 ≤ n) (ord : HashOrder) {fuel : Nat} (hf : 5 * n ≤ fuel) :
    2 ^ (n - 2) ≤ firstBodiesCount g ord fuel none [opts n 0] := by
  obtain ⟨fuel, rfl⟩ : ∃ f, fuel = f + 4 := ⟨fuel - 4, by omega⟩
  obtain ⟨s', ord', h1, h2⟩ := phase_zero hg (by omega) ord fuel
  have := phases hg (d := n - 3) (ord := ord') (fuel := fuel) (by omega) Nat.zero_lt_one h1 (by omega)
  rw [show n - 3 + 1 = n - 2 by omega, Nat.one_mul] at this
  exact Nat.le_trans this h2

end Pango.Parse.Optionals
