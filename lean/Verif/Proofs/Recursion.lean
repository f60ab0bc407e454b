import Verif.Spec.Recursion
import Verif.Proofs.Height
import Verif.Proofs.StackSize

/-!
# How long the sentences of grammars with and without recursion are
-/

namespace Pango.Parse

open Pango.Spec

variable {V T : Type} {g : Grammar V T}

open Classical in
/-- How many heads of rules are inside of the variable. -/
noncomputable def rankOf (g : Grammar V T) (v : V) : Nat :=
  (g.rules.map Prod.fst).countP fun w => decide (HasInside g v w)

theorem rankOf_le (v : V) : rankOf g v ≤ g.rules.length := by
  have := List.countP_le_length (p := fun w => @decide (HasInside g v w) (Classical.propDecidable _))
    (l := g.rules.map Prod.fst)
  simpa [rankOf] using this

theorem rankOf_lt (wf : WellFormed g) {h v : V} {β : Body V T} (hr : (h, β) ∈ g.rules) (hm : .var v ∈ β)
    (hv : ¬ HasInside g v v) : rankOf g v < rankOf g h := by
  obtain ⟨γ, hγ⟩ := wf.closed _ _ v hr hm
  refine countP_lt (a := v) (fun w _ hw => ?_) (List.mem_map.2 ⟨_, hγ, rfl⟩) ?_ ?_
  · simp only [decide_eq_true_eq] at hw ⊢
    exact .step hr hm hw
  · simp only [decide_eq_true_eq]
    exact .one hr hm
  · simpa using hv

variable [TerminalEq T]

theorem forest_short (wf : WellFormed g) (hn : NoRecursion g) {α : List (Sym V T)} {ns : List (Node V T)} {w : List T}
    (h : Forest g α ns w) : ∀ k, (∀ v, .var v ∈ α → Reachable g v ∧ rankOf g v < k) →
      w.length ≤ α.length * (bodiesLength g + 1) ^ k := by
  induction h with
  | nil => simp
  | eps _ ih =>
    intro k hk
    have := ih k fun v hv => hk v (List.mem_cons_of_mem _ hv)
    rw [List.length_cons, Nat.succ_mul]
    omega
  | term _ _ ih =>
    intro k hk
    have := ih k fun v hv => hk v (List.mem_cons_of_mem _ hv)
    have h1 : 0 < (bodiesLength g + 1) ^ k := Nat.pow_pos (Nat.succ_pos _)
    rw [List.length_cons, List.length_cons, Nat.succ_mul]
    omega
  | @var v β α cs ns x w hr _ _ ih1 ih2 =>
    intro k hk
    have h2 := ih2 k fun v hv => hk v (List.mem_cons_of_mem _ hv)
    obtain ⟨h3, h4⟩ := hk v (by simp)
    obtain ⟨k, rfl⟩ : ∃ j, k = j + 1 := ⟨k - 1, by omega⟩
    have h1 := ih1 k fun u hu => ⟨.step h3 hr hu, by
      have := rankOf_lt wf hr hu (hn u (.step h3 hr hu))
      omega⟩
    have h5 := Nat.mul_le_mul_right ((bodiesLength g + 1) ^ k) (Nat.le_succ_of_le (le_bodiesLength hr))
    rw [show (bodiesLength g).succ * (bodiesLength g + 1) ^ k = (bodiesLength g + 1) ^ (k + 1) by
      rw [Nat.mul_comm, ← Nat.pow_succ]] at h5
    rw [List.length_append, List.length_cons, Nat.succ_mul]
    omega

/-- A tree of a variable can be put into a tree of any variable it is inside of. -/
theorem body_context (hp : Productive g) (hrefl : ∀ t : T, teq t t = true) (wf : WellFormed g) {v w : V} {β : Body V T}
    (hr : (v, β) ∈ g.rules) (hm : .var w ∈ β) :
    ∃ (p q : List T) (c : Nat) (f : Node V T → Node V T), 0 < c ∧
      (∀ n x, Forest g [.var w] [n] x → Forest g [.var v] [f n] (p ++ x ++ q)) ∧ ∀ n, nodeCount (f n) = nodeCount n + c := by
  obtain ⟨pre, post, rfl⟩ := List.append_of_mem hm
  obtain ⟨ns, p, h1⟩ := productive_all hp hrefl (α := pre) fun u hu => wf.closed _ _ u hr (by simp [hu])
  obtain ⟨ms, q, h2⟩ := productive_all hp hrefl (α := post) fun u hu => wf.closed _ _ u hr (by simp [hu])
  refine ⟨p, q, nodesCount ns.reverse + nodesCount ms.reverse + 1, fun n => .mk (.var v) (ns ++ (n :: ms)).reverse,
    by omega, ?_, ?_⟩
  · intro n x h
    have h3 := forest_append h1 (forest_append h h2)
    have h4 : Forest g [.var v] _ _ := .var hr h3 .nil
    simpa using h4
  · intro n
    simp only [nodeCount, List.reverse_append, List.reverse_cons, nodesCount_append, nodesCount]
    omega

theorem inside_context (hp : Productive g) (hrefl : ∀ t : T, teq t t = true) (wf : WellFormed g) {v w : V}
    (h : HasInside g v w) :
    ∃ (p q : List T) (c : Nat) (f : Node V T → Node V T), 0 < c ∧
      (∀ n x, Forest g [.var w] [n] x → Forest g [.var v] [f n] (p ++ x ++ q)) ∧ ∀ n, nodeCount (f n) = nodeCount n + c := by
  induction h with
  | one hr hm => exact body_context hp hrefl wf hr hm
  | step hr hm _ ih =>
    obtain ⟨p, q, c, f, h1, h2, h3⟩ := body_context hp hrefl wf hr hm
    obtain ⟨p', q', c', f', h1', h2', h3'⟩ := ih
    refine ⟨p ++ p', q' ++ q, c' + c, f ∘ f', by omega, fun n x h => ?_, fun n => ?_⟩
    · simpa using h2 _ _ (h2' n x h)
    · simp only [Function.comp_apply, h3, h3']
      omega

theorem reachable_context (hp : Productive g) (hrefl : ∀ t : T, teq t t = true) (wf : WellFormed g) {v : V}
    (h : Reachable g v) :
    ∃ (p q : List T) (c : Nat) (f : Node V T → Node V T),
      (∀ n x, Forest g [.var v] [n] x → ParseTree g (f n) (p ++ x ++ q)) ∧ ∀ n, nodeCount (f n) = nodeCount n + c := by
  induction h with
  | start => exact ⟨[], [], 0, id, fun n x h => by simpa [ParseTree] using h, fun n => rfl⟩
  | step _ hr hm ih =>
    obtain ⟨p, q, c, f, _, h2, h3⟩ := body_context hp hrefl wf hr hm
    obtain ⟨p', q', c', f', h2', h3'⟩ := ih
    refine ⟨p' ++ p, q ++ q', c + c', f' ∘ f, fun n x h => ?_, fun n => ?_⟩
    · simpa using h2' _ _ (h2 n x h)
    · simp only [Function.comp_apply, h3, h3']
      omega

/-- If no sentence has two trees, then a variable inside of itself makes sentences of any length. -/
theorem recursion_long (hp : Productive g) (hrefl : ∀ t : T, teq t t = true) (wf : WellFormed g)
    (hu : ∀ w m m', ParseTree g m w → ParseTree g m' w → m = m') {v : V} (hv : Reachable g v) (hi : HasInside g v v)
    (k : Nat) : ∃ m w, ParseTree g m w ∧ k ≤ w.length := by
  obtain ⟨p, q, c, f, hc, h1, h2⟩ := inside_context hp hrefl wf hi
  obtain ⟨p', q', c', f', h1', h2'⟩ := reachable_context hp hrefl wf hv
  obtain ⟨n, x, hx⟩ : ∃ n x, Forest g [.var v] [n] x := by
    cases hi with
    | one hr _ => exact hp _ _ hr
    | step hr _ _ => exact hp _ _ hr
  have hpq : 0 < p.length + q.length := by
    refine Nat.pos_of_ne_zero fun h0 => ?_
    obtain rfl : p = [] := List.length_eq_zero_iff.1 (by omega)
    obtain rfl : q = [] := List.length_eq_zero_iff.1 (by omega)
    have h3 := congrArg nodeCount (hu _ _ _ (h1' n x hx) (h1' (f n) x (by simpa using h1 n x hx)))
    simp only [h2, h2'] at h3
    omega
  have hk : ∃ n x, Forest g [.var v] [n] x ∧ k ≤ x.length := by
    clear hu h1' h2' h2
    induction k with
    | zero => exact ⟨n, x, hx, Nat.zero_le _⟩
    | succ k ih =>
      obtain ⟨n, x, h3, h4⟩ := ih
      refine ⟨_, _, h1 n x h3, ?_⟩
      simp only [List.length_append]
      omega
  obtain ⟨n, x, h3, h4⟩ := hk
  refine ⟨_, _, h1' n x h3, ?_⟩
  simp only [List.length_append]
  omega

end Pango.Parse
