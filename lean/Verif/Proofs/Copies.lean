import Verif.Proofs.ThreeCounts

/-!
# The same words twice
-/

namespace Pango.Parse

open Pango Pango.Spec

variable {V T : Type} [TerminalEq T] {g : Grammar V T}

/-- In long sentences there are two parts, of different lengths but both with the property or both without it, that can be
exchanged. -/
theorem same_part {W : Nat → List T} (hW : ∀ n, 1 ≤ n → ∃ m, ParseTree g m (W n)) (hl : ∀ n, n < (W n).length)
    (C : List T → Prop) : ∃ n n' x u y x' u' y', W n = x ++ u ++ y ∧ W n' = x' ++ u' ++ y' ∧ u.length ≤ n ∧
      u'.length ≤ n' ∧ u.length < u'.length ∧ (C u ↔ C u') ∧ ∃ m, ParseTree g m (x ++ u' ++ y) := by
  classical
  have hM : 1 ≤ bodyMax g := by
    unfold bodyMax
    generalize g.rules = l
    induction l with
    | nil => simp
    | cons r l ih => simp only [List.foldr_cons]; omega
  have part : ∀ k : Nat, ∃ (v : V) (x u y : List T), (v ∈ g.rules.map Prod.fst) ∧
      W (bodyMax g * (k + 1)) = x ++ u ++ y ∧ Within g [.var g.start] v x u y ∧ k + 1 < u.length ∧
      u.length ≤ bodyMax g * (k + 1) := by
    intro k
    have hpos : k + 1 ≤ bodyMax g * (k + 1) := Nat.le_mul_of_pos_left _ hM
    obtain ⟨m, h⟩ := hW (bodyMax g * (k + 1)) (by omega)
    have := hl (bodyMax g * (k + 1))
    obtain ⟨v, x, u, y, h3, h4, h5, h6⟩ := forest_part (k := k + 1) (by omega) h (by simp; omega)
    obtain ⟨β, hβ⟩ := h4.rule
    exact ⟨v, x, u, y, List.mem_map.2 ⟨_, hβ, rfl⟩, h3, h4, h5, h6⟩
  choose v x u y hv hw hin hlo hhi using part
  let F : Nat → {v // v ∈ g.rules.map Prod.fst} × Bool := fun k => (⟨v k, hv k⟩, decide (C (u k)))
  have : Finite {v // v ∈ g.rules.map Prod.fst} := List.finite_toSet _
  obtain ⟨r, hr⟩ := Finite.exists_infinite_fiber F
  have hinf : (F ⁻¹' {r}).Infinite := Set.infinite_coe_iff.1 hr
  obtain ⟨k, hk⟩ := hinf.nonempty
  obtain ⟨k', hk', hlt⟩ := hinf.exists_gt (bodyMax g * (k + 1))
  have heq : F k = F k' := (show F k = r from hk).trans (show F k' = r from hk').symm
  have e1 : v k = v k' := congrArg (fun r => r.1.1) heq
  have e2 : decide (C (u k)) = decide (C (u k')) := congrArg (fun r => r.2) heq
  obtain ⟨n, hn⟩ := (hin k').here
  rw [← e1] at hn
  obtain ⟨ns, hf⟩ := (hin k).swap _ n hn
  have hns : ∀ w, Forest g [.var g.start] ns w → ∃ m, ns = [m] := by
    intro w h
    cases h with
    | var _ _ h => cases h; exact ⟨_, rfl⟩
  obtain ⟨m, rfl⟩ := hns _ hf
  have := hhi k
  have := hlo k'
  exact ⟨_, _, x k, u k, y k, x k', u k', y k', hw k, hw k', hhi k, hhi k', by omega, by simpa using e2, m, hf⟩

theorem split_once {s : T} : ∀ {p p' r r' : List T}, s ∉ p → s ∉ p' → p ++ s :: r = p' ++ s :: r' → p = p' ∧ r = r'
  | [], [], _, _, _, _, h => ⟨rfl, (List.cons.inj h).2⟩
  | [], t :: p', _, _, _, h2, h => absurd (List.cons.inj h).1 (fun h => h2 (by simp [h]))
  | t :: p, [], _, _, h1, _, h => absurd (List.cons.inj h).1 (fun h => h1 (by simp [h]))
  | t :: p, t' :: p', _, _, h1, h2, h => by
    obtain ⟨h3, h4⟩ := List.cons.inj h
    obtain ⟨h5, h6⟩ := split_once (fun h => h1 (by simp [h])) (fun h => h2 (by simp [h])) h4
    exact ⟨by rw [h3, h5], h6⟩

variable [DecidableEq T]

private theorem length_counts {a b : T} (hab : a ≠ b) {l : List T} (h : ∀ t ∈ l, t = a ∨ t = b) :
    l.length = l.count a + l.count b := by
  induction l with
  | nil => rfl
  | cons t l ih =>
    have := ih fun t ht => h t (by simp [ht])
    rcases h t (by simp) with rfl | rfl
    · simp [List.count_cons, hab.symm, hab]; omega
    · simp [List.count_cons, hab.symm, hab]; omega

/-- `a ... a b ... b`. -/
private def block (a b : T) (n : Nat) : List T := List.replicate n a ++ List.replicate n b

private theorem block_mem {a b t : T} {n : Nat} (h : t ∈ block a b n) : t = a ∨ t = b := by
  simp only [block, List.mem_append, List.mem_replicate] at h
  rcases h with h | h
  · exact .inl h.2
  · exact .inr h.2

private theorem block_counts {a b : T} (hab : a ≠ b) {n : Nat} : (block a b n).count a = n ∧ (block a b n).count b = n := by
  simp [block, List.count_append, List.count_replicate, hab, hab.symm]

private theorem block_order {a b : T} (hab : a ≠ b) {n : Nat} {p r : List T} (h : p ++ r = block a b n) (ha : a ∈ r) :
    b ∉ p := by
  have ord : List.Pairwise (fun s t => t = a → s = a) (p ++ r) := by
    rw [h]
    simp only [block, List.pairwise_append, List.pairwise_replicate, List.mem_replicate]
    refine ⟨.inr id, .inr id, ?_⟩
    rintro s ⟨_, rfl⟩ t ⟨_, rfl⟩
    exact fun _ => rfl
  simp only [List.pairwise_append] at ord
  exact fun hb => hab (ord.2.2 b hb a ha rfl).symm

/-- What is left and right of the separator in a part that is not long. -/
private theorem part_split {a b s : T} (hab : a ≠ b) (has : a ≠ s) (hbs : b ≠ s) {n : Nat} {x u y : List T}
    (h : block a b n ++ s :: block a b n = x ++ u ++ y) (hu : u.length ≤ n) (hs : s ∈ u) :
    ∃ u1 u2, u = u1 ++ s :: u2 ∧ s ∉ x ++ u1 ∧ x ++ u1 = block a b n ∧ u2 ++ y = block a b n ∧ u1.count a = 0 ∧ u1.count b = u1.length ∧
      u2.count b = 0 ∧ u2.count a = u2.length := by
  have hns : ∀ n, s ∉ block a b n := fun n h => by
    rcases block_mem h with h | h
    · exact has h.symm
    · exact hbs h.symm
  obtain ⟨u1, u2, rfl, hu1⟩ := List.eq_append_cons_of_mem hs
  have hone := congrArg (List.count s) h
  simp [List.count_append, List.count_eq_zero_of_not_mem (hns n)] at hone
  have hx : s ∉ x := fun hx => by
    have := List.count_pos_iff.2 hx
    omega
  have hxu : s ∉ x ++ u1 := by simp [hx, hu1]
  obtain ⟨h1, h2⟩ := split_once (hns n) hxu (show block a b n ++ s :: block a b n = (x ++ u1) ++ s :: (u2 ++ y) by
    rw [h]; simp)
  simp only [List.length_append, List.length_cons] at hu
  have c1 := congrArg (List.count b) h1
  have c2 := congrArg (List.count a) h2
  rw [(block_counts hab).2, List.count_append] at c1
  rw [(block_counts hab).1, List.count_append] at c2
  have ha : a ∉ u1 := fun ha => by
    have := block_order hab h1.symm ha
    rw [List.count_eq_zero_of_not_mem this] at c1
    have := List.count_le_length (a := b) (l := u1)
    omega
  have hb : b ∉ u2 := fun hb => by
    have hy : a ∉ y := fun ha => block_order hab h2.symm ha hb
    rw [List.count_eq_zero_of_not_mem hy] at c2
    have := List.count_le_length (a := a) (l := u2)
    omega
  have l1 := length_counts hab (l := u1) (fun t ht => block_mem (n := n) (by rw [h1]; simp [ht]))
  have l2 := length_counts hab (l := u2) (fun t ht => block_mem (n := n) (by rw [h2]; simp [ht]))
  have := List.count_eq_zero_of_not_mem ha
  have := List.count_eq_zero_of_not_mem hb
  exact ⟨u1, u2, rfl, hxu, h1.symm, h2.symm, by omega, by omega, by omega, by omega⟩

theorem copies_impossible {a b s : T} (hab : a ≠ b) (has : a ≠ s) (hbs : b ≠ s)
    (h1 : ∀ v : List T, v ≠ [] → (∀ t ∈ v, t = a ∨ t = b) → ∃ m, ParseTree g m (v ++ s :: v))
    (h2 : ∀ m w, (∀ t ∈ w, t = a ∨ t = b ∨ t = s) → ParseTree g m w →
      ∃ v, (∀ t ∈ v, t = a ∨ t = b) ∧ w = v ++ s :: v) : False := by
  obtain ⟨n, n', x, u, y, x', u', y', e1, e2, l1, l2, hlt, hC, m, hm⟩ :=
    same_part (g := g) (W := fun n => block a b n ++ s :: block a b n)
      (fun n hn => h1 _ (by
        intro h
        have := congrArg List.length h
        simp [block] at this
        omega) fun t ht => block_mem ht) (fun n => by simp [block]; omega) (fun u => s ∈ u)
  have hns : ∀ v : List T, (∀ t ∈ v, t = a ∨ t = b) → s ∉ v := fun v hv h => by
    rcases hv s h with h | h
    · exact has h.symm
    · exact hbs h.symm
  have hblock := fun n => hns (block a b n) fun t ht => block_mem ht
  have hall : ∀ n t, t ∈ block a b n ++ s :: block a b n → t = a ∨ t = b ∨ t = s := by
    intro n t ht
    simp only [List.mem_append, List.mem_cons] at ht
    rcases ht with h | h | h
    · rcases block_mem h with h | h <;> simp [h]
    · simp [h]
    · rcases block_mem h with h | h <;> simp [h]
  obtain ⟨v, hv, hw⟩ := h2 m _ (by
    intro t ht
    simp only [List.mem_append] at ht
    rcases ht with (h | h) | h
    · exact hall n t (by rw [e1]; simp [h])
    · exact hall n' t (by rw [e2]; simp [h])
    · exact hall n t (by rw [e1]; simp [h])) hm
  by_cases hs : s ∈ u
  · obtain ⟨u1, u2, rfl, k1, k2, k3, k4, k5, k6, k7⟩ := part_split hab has hbs e1 l1 hs
    obtain ⟨w1, w2, rfl, j1, j2, j3, j4, j5, j6, j7⟩ := part_split hab has hbs e2 l2 (hC.1 hs)
    have hxw : s ∉ x ++ w1 := by
      simp only [List.mem_append, not_or] at k1 j1 ⊢
      exact ⟨k1.1, j1.2⟩
    obtain ⟨i1, i2⟩ := split_once hxw (hns v hv) (show (x ++ w1) ++ s :: (w2 ++ y) = v ++ s :: v by rw [← hw]; simp)
    have i3 := i1.trans i2.symm
    have c1 := congrArg (List.count a) i3
    have c2 := congrArg (List.count b) i3
    have d1 := congrArg (List.count a) k2
    have d2 := congrArg (List.count b) k2
    have d3 := congrArg (List.count a) k3
    have d4 := congrArg (List.count b) k3
    simp only [(block_counts hab).1, (block_counts hab).2, List.count_append] at c1 c2 d1 d2 d3 d4
    simp only [List.length_append, List.length_cons] at hlt
    omega
  · have hs' : s ∉ u' := fun h => hs (hC.2 h)
    have hmem : s ∈ x ++ u ++ y := by rw [← e1]; simp
    simp only [List.mem_append, hs, or_false] at hmem
    have hlen := congrArg List.length e1
    rcases hmem with h | h
    · obtain ⟨p, r, rfl, hp⟩ := List.eq_append_cons_of_mem h
      obtain ⟨i1, i2⟩ := split_once (hblock n) hp (show block a b n ++ s :: block a b n = p ++ s :: (r ++ u ++ y) by
        rw [e1]; simp)
      obtain ⟨j1, j2⟩ := split_once (hns v hv) hp (show v ++ s :: v = p ++ s :: (r ++ u' ++ y) by rw [← hw]; simp)
      have := congrArg List.length (i1.symm.trans i2)
      have := congrArg List.length (j1.symm.trans j2)
      simp only [List.length_append] at *
      omega
    · obtain ⟨p, r, rfl, hp⟩ := List.eq_append_cons_of_mem h
      have hx : s ∉ x := fun hx => by
        have hone := congrArg (List.count s) e1
        simp [List.count_append, List.count_eq_zero_of_not_mem (hblock n)] at hone
        have := List.count_pos_iff.2 hx
        omega
      obtain ⟨i1, i2⟩ := split_once (hblock n) (p' := x ++ u ++ p) (by simp [hx, hs, hp])
        (show block a b n ++ s :: block a b n = (x ++ u ++ p) ++ s :: r by rw [e1]; simp)
      obtain ⟨j1, j2⟩ := split_once (hns v hv) (p' := x ++ u' ++ p) (by simp [hx, hs', hp])
        (show v ++ s :: v = (x ++ u' ++ p) ++ s :: r by rw [← hw]; simp)
      have := congrArg List.length (i1.symm.trans i2)
      have := congrArg List.length (j1.symm.trans j2)
      simp only [List.length_append] at *
      omega

end Pango.Parse
