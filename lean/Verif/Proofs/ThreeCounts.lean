import Mathlib.Data.Fintype.Pigeonhole
import Mathlib.Data.Finite.Prod
import Mathlib.Data.Set.Finite.Lattice
import Mathlib.Order.Interval.Finset.Nat
import Verif.Proofs.Sound

/-!
# Three numbers at once

A part of a sentence that comes from a variable can be exchanged for anything else that comes from it.
-/

namespace Pango.Parse

open Pango Pango.Spec

variable {V T : Type} [TerminalEq T] {g : Grammar V T}

/-- `u` comes from the variable `v` between `x` and `y`, and so could everything else that comes from it. -/
structure Within (g : Grammar V T) (α : List (Sym V T)) (v : V) (x u y : List T) : Prop where
  rule : ∃ β, (v, β) ∈ g.rules
  here : ∃ n, Forest g [.var v] [n] u
  swap : ∀ u' n, Forest g [.var v] [n] u' → ∃ ns, Forest g α ns (x ++ u' ++ y)

/-- The bodies of the rules are not longer than this. -/
def bodyMax (g : Grammar V T) : Nat := g.rules.foldr (fun r n => r.2.length + n) 1

omit [TerminalEq T] in
theorem le_bodyMax {v : V} {β : List (Sym V T)} (h : (v, β) ∈ g.rules) : β.length ≤ bodyMax g := by
  unfold bodyMax
  generalize g.rules = l at h
  induction l with
  | nil => simp at h
  | cons r l ih =>
    rcases List.mem_cons.1 h with h | h
    · subst h
      simp only [List.foldr_cons]
      omega
    · have := ih h
      simp only [List.foldr_cons]
      omega

/-- Where the tokens are many, there is a part that is neither short nor long. -/
theorem forest_part {k : Nat} (hk : 1 ≤ k) {α : List (Sym V T)} {ns : List (Node V T)} {w : List T}
    (h : Forest g α ns w) (hl : k * α.length < w.length) :
    ∃ v x u y, w = x ++ u ++ y ∧ Within g α v x u y ∧ k < u.length ∧ u.length ≤ bodyMax g * k := by
  induction h with
  | nil => simp at hl
  | @eps α ns w h ih =>
    obtain ⟨v, x, u, y, h1, h2, h3⟩ := ih (by
      simp only [List.length_cons, Nat.mul_succ] at hl
      omega)
    refine ⟨v, x, u, y, h1, ⟨h2.rule, h2.here, fun u' n hu => ?_⟩, h3⟩
    obtain ⟨ms, h4⟩ := h2.swap u' n hu
    exact ⟨ms, .eps h4⟩
  | @term t t' α ns w ht h ih =>
    obtain ⟨v, x, u, y, h1, h2, h3⟩ := ih (by
      simp only [List.length_cons, Nat.mul_succ] at hl
      omega)
    refine ⟨v, t' :: x, u, y, by rw [h1]; rfl, ⟨h2.rule, h2.here, fun u' n hu => ?_⟩, h3⟩
    obtain ⟨ms, h4⟩ := h2.swap u' n hu
    exact ⟨_, .term ht h4⟩
  | @var v β α cs ns z w hr h1 h2 ih1 ih2 =>
    by_cases hz : z.length ≤ k
    · obtain ⟨v', x, u, y, h3, h4, h5⟩ := ih2 (by
        simp only [List.length_cons, Nat.mul_succ, List.length_append] at hl
        omega)
      refine ⟨v', z ++ x, u, y, by rw [h3]; simp, ⟨h4.rule, h4.here, fun u' n hu => ?_⟩, h5⟩
      obtain ⟨ms, h6⟩ := h4.swap u' n hu
      have h7 := Forest.var hr h1 h6
      exact ⟨_, by simpa using h7⟩
    · by_cases hz' : z.length ≤ bodyMax g * k
      · refine ⟨v, [], z, w, rfl, ⟨⟨β, hr⟩, ⟨_, by simpa using Forest.var hr h1 .nil⟩, fun u' n hu => ?_⟩, by omega, hz'⟩
        exact ⟨_, forest_append hu h2⟩
      · obtain ⟨v', x, u, y, h3, h4, h5⟩ := ih1 (by
          have := Nat.mul_le_mul_right k (le_bodyMax hr)
          rw [Nat.mul_comm] at this
          omega)
        refine ⟨v', x, u, y ++ w, by rw [h3]; simp, ⟨h4.rule, h4.here, fun u' n hu => ?_⟩, h5⟩
        obtain ⟨ms, h6⟩ := h4.swap u' n hu
        have h7 := Forest.var hr h6 h2
        exact ⟨_, by simpa using h7⟩

/-- A part without `a`, or one without `c`, could be exchanged for a longer one of the kind; then there would be too few of
these. -/
theorem three_impossible [DecidableEq T] {a b c : T} (hab : a ≠ b) (hac : a ≠ c) (hbc : b ≠ c)
    (h1 : ∀ n, 1 ≤ n → ∃ m, ParseTree g m (List.replicate n a ++ List.replicate n b ++ List.replicate n c))
    (h2 : ∀ m w, (∀ t ∈ w, t = a ∨ t = b ∨ t = c) → ParseTree g m w →
      ∃ n, w = List.replicate n a ++ List.replicate n b ++ List.replicate n c) : False := by
  have hM : 1 ≤ bodyMax g := by
    unfold bodyMax
    generalize g.rules = l
    induction l with
    | nil => simp
    | cons r l ih => simp only [List.foldr_cons]; omega
  -- a part for every number
  have part : ∀ k : Nat, ∃ (v : V) (o : Bool) (x u y : List T), (v ∈ g.rules.map Prod.fst) ∧
      List.replicate (bodyMax g * (k + 1)) a ++ List.replicate (bodyMax g * (k + 1)) b ++
        List.replicate (bodyMax g * (k + 1)) c = x ++ u ++ y ∧ Within g [.var g.start] v x u y ∧ k + 1 < u.length ∧
      u.length ≤ bodyMax g * (k + 1) ∧ (if o then a else c) ∉ u := by
    intro k
    have hpos : k + 1 ≤ bodyMax g * (k + 1) := Nat.le_mul_of_pos_left _ hM
    obtain ⟨m, h⟩ := h1 (bodyMax g * (k + 1)) (by omega)
    obtain ⟨v, x, u, y, h3, h4, h5, h6⟩ := forest_part (k := k + 1) (by omega) h (by simp; omega)
    obtain ⟨β, hβ⟩ := h4.rule
    have hv : v ∈ g.rules.map Prod.fst := List.mem_map.2 ⟨_, hβ, rfl⟩
    by_cases ha : a ∈ u
    · refine ⟨v, false, x, u, y, hv, h3, h4, h5, h6, fun hc => ?_⟩
      simp only [Bool.false_eq_true, if_false] at hc
      -- all of the `b`s are between
      have ord : List.Pairwise (fun s t => (t = a → s = a) ∧ (s = c → t = c)) (x ++ u ++ y) := by
        rw [← h3]
        simp only [List.pairwise_append, List.pairwise_replicate, List.mem_append, List.mem_replicate]
        refine ⟨⟨?_, ?_, ?_⟩, ?_, ?_⟩
        · exact .inr ⟨id, id⟩
        · exact .inr ⟨id, id⟩
        · rintro s ⟨_, rfl⟩ t ⟨_, rfl⟩
          exact ⟨fun h => absurd h.symm hab, fun h => absurd h hac⟩
        · exact .inr ⟨id, id⟩
        · rintro s (⟨_, rfl⟩ | ⟨_, rfl⟩) t ⟨_, rfl⟩
          · exact ⟨fun _ => rfl, fun _ => rfl⟩
          · exact ⟨fun h => absurd h.symm hac, fun _ => rfl⟩
      simp only [List.pairwise_append, List.mem_append] at ord
      have hx : b ∉ x := fun hb => hab ((ord.1.2.2 b hb a ha).1 rfl).symm
      have hy : b ∉ y := fun hb => hbc ((ord.2.2 c (.inr hc) b hb).2 rfl)
      have cb := congrArg (List.count b) h3
      simp [List.count_append, List.count_replicate, hab, hbc.symm, List.count_eq_zero_of_not_mem hx,
        List.count_eq_zero_of_not_mem hy] at cb
      have hfull : u.count b = u.length := Nat.le_antisymm List.count_le_length (by omega)
      exact hab (List.count_eq_length.1 hfull a ha).symm
    · exact ⟨v, true, x, u, y, hv, h3, h4, h5, h6, by simpa using ha⟩
  choose v o x u y hv hw hin hlo hhi hno using part
  let F : Nat → {v // v ∈ g.rules.map Prod.fst} × Bool := fun k => (⟨v k, hv k⟩, o k)
  have : Finite {v // v ∈ g.rules.map Prod.fst} := List.finite_toSet _
  obtain ⟨r, hr⟩ := Finite.exists_infinite_fiber F
  have hinf : (F ⁻¹' {r}).Infinite := Set.infinite_coe_iff.1 hr
  obtain ⟨k, hk⟩ := hinf.nonempty
  obtain ⟨k', hk', hlt⟩ := hinf.exists_gt (bodyMax g * (k + 1))
  have heq : F k = F k' := (show F k = r from hk).trans (show F k' = r from hk').symm
  have e1 : v k = v k' := congrArg (fun r => r.1.1) heq
  have e2 : o k = o k' := congrArg (fun r => r.2) heq
  obtain ⟨n, hn⟩ := (hin k').here
  rw [← e1] at hn
  obtain ⟨ns, hf⟩ := (hin k).swap _ n hn
  have hmem : ∀ k, ∀ t, t ∈ x k ++ u k ++ y k → t = a ∨ t = b ∨ t = c := by
    intro k t ht
    rw [← hw k] at ht
    simp only [List.mem_append, List.mem_replicate] at ht
    rcases ht with (h | h) | h
    · exact .inl h.2
    · exact .inr (.inl h.2)
    · exact .inr (.inr h.2)
  have hns : ∀ w, Forest g [.var g.start] ns w → ∃ m, ns = [m] := by
    intro w h
    cases h with
    | var _ _ h => cases h; exact ⟨_, rfl⟩
  obtain ⟨m, rfl⟩ := hns _ hf
  obtain ⟨j, hj⟩ := h2 m _ (by
    intro t ht
    simp only [List.mem_append] at ht
    rcases ht with (h | h) | h
    · exact hmem k t (by simp [h])
    · exact hmem k' t (by simp [h])
    · exact hmem k t (by simp [h])) hf
  -- the number of the tokens that are not in the part does not change
  have hlen := congrArg List.length hj
  have hlen' := congrArg List.length (hw k)
  have hlo' := hlo k'
  have hhi' := hhi k
  simp only [List.length_append, List.length_replicate] at hlen hlen'
  have hcount : j = bodyMax g * (k + 1) := by
    have n1 := hno k
    have n2 := hno k'
    rw [← e2] at n2
    cases ho : o k with
    | true =>
      rw [ho] at n1 n2
      have c1 := congrArg (List.count a) hj
      have c2 := congrArg (List.count a) (hw k)
      simp only [if_true] at n1 n2
      simp [List.count_append, List.count_replicate, hab.symm, hac.symm, List.count_eq_zero_of_not_mem n1,
        List.count_eq_zero_of_not_mem n2] at c1 c2
      omega
    | false =>
      rw [ho] at n1 n2
      have c1 := congrArg (List.count c) hj
      have c2 := congrArg (List.count c) (hw k)
      simp only [Bool.false_eq_true, if_false] at n1 n2
      simp [List.count_append, List.count_replicate, hac, hbc, List.count_eq_zero_of_not_mem n1,
        List.count_eq_zero_of_not_mem n2] at c1 c2
      omega
  omega

end Pango.Parse
