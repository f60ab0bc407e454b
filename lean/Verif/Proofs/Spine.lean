import Verif.Proofs.Recursion

/-!
# Variables that begin and end with themselves
-/

namespace Pango.Parse

open Pango.Spec

variable {V T : Type} {g : Grammar V T}

mutual
/-- How far down the leftmost leaf of the tree is. -/
def leftSpine : Node V T → Nat
  | .mk _ children => leftSpines children + 1
/-- How far down the leftmost leaf of the trees, which are in reverse order, is. -/
def leftSpines : List (Node V T) → Nat
  | [] => 0
  | [n] => leftSpine n
  | _ :: n :: ns => leftSpines (n :: ns)
end

theorem leftSpines_last (l : List (Node V T)) (n : Node V T) : leftSpines (l ++ [n]) = leftSpine n := by
  induction l with
  | nil => simp [leftSpines]
  | cons x l ih =>
    cases l with
    | nil => simp [leftSpines]
    | cons y l => simpa [leftSpines] using ih

variable [TerminalEq T]

theorem forest_no_nodes {α : List (Sym V T)} {ns : List (Node V T)} {w : List T} (h : Forest g α ns w) (hn : ns = []) :
    w = [] := by
  induction h with
  | nil => rfl
  | eps _ ih => exact ih hn
  | term _ _ _ => cases hn
  | var _ _ _ _ _ => cases hn

theorem startsBy_context (hp : Productive g) (hrefl : ∀ t : T, teq t t = true) (wf : WellFormed g) {v w : V}
    (h : StartsBy g v w) : ∃ (q : List T) (c : Nat) (f : Node V T → Node V T), 0 < c ∧
      (∀ n x, Forest g [.var w] [n] x → Forest g [.var v] [f n] (x ++ q)) ∧ ∀ n, leftSpine (f n) = leftSpine n + c := by
  have one : ∀ {v w : V} {β : List (Sym V T)}, (v, .var w :: β) ∈ g.rules →
      ∃ (q : List T) (f : Node V T → Node V T),
        (∀ n x, Forest g [.var w] [n] x → Forest g [.var v] [f n] (x ++ q)) ∧ ∀ n, leftSpine (f n) = leftSpine n + 1 := by
    intro v w β hr
    obtain ⟨ms, q, h2⟩ := productive_all hp hrefl (α := β) fun u hu => wf.closed _ _ u hr (by simp [hu])
    refine ⟨q, fun n => .mk (.var v) (n :: ms).reverse, fun n x h => ?_, fun n => ?_⟩
    · have h4 : Forest g [.var v] _ _ := .var hr (forest_append h h2) .nil
      simpa using h4
    · rw [leftSpine, List.reverse_cons, leftSpines_last]
  induction h with
  | one hr =>
    obtain ⟨q, f, h1, h2⟩ := one hr
    exact ⟨q, 1, f, by omega, h1, h2⟩
  | step hr _ ih =>
    obtain ⟨q, f, h1, h2⟩ := one hr
    obtain ⟨q', c, f', _, h1', h2'⟩ := ih
    refine ⟨q' ++ q, c + 1, f ∘ f', by omega, fun n x h => ?_, fun n => ?_⟩
    · simpa using h1 _ _ (h1' n x h)
    · simp only [Function.comp_apply, h2, h2']
      omega

theorem endsBy_context (hp : Productive g) (hrefl : ∀ t : T, teq t t = true) (wf : WellFormed g) {v w : V}
    (h : EndsBy g v w) : ∃ (p : List T) (f : Node V T → Node V T),
      (∀ n x, Forest g [.var w] [n] x → Forest g [.var v] [f n] (p ++ x)) ∧
      ((∃ c, ∀ n, leftSpine (f n) = c) ∨ p = [] ∧ ∃ c, 0 < c ∧ ∀ n, leftSpine (f n) = leftSpine n + c) := by
  have one : ∀ {v w : V} {α : List (Sym V T)}, (v, α ++ [.var w]) ∈ g.rules →
      ∃ (p : List T) (f : Node V T → Node V T),
        (∀ n x, Forest g [.var w] [n] x → Forest g [.var v] [f n] (p ++ x)) ∧
        ((∃ c, ∀ n, leftSpine (f n) = c) ∨ p = [] ∧ ∀ n, leftSpine (f n) = leftSpine n + 1) := by
    intro v w α hr
    obtain ⟨ns, p, h2⟩ := productive_all hp hrefl (α := α) fun u hu => wf.closed _ _ u hr (by simp [hu])
    refine ⟨p, fun n => .mk (.var v) (ns ++ [n]).reverse, fun n x h => ?_, ?_⟩
    · have h4 : Forest g [.var v] _ _ := .var hr (forest_append h2 h) .nil
      simpa using h4
    · cases ns with
      | nil => exact .inr ⟨forest_no_nodes h2 rfl, fun n => by simp [leftSpine, leftSpines]⟩
      | cons m ns =>
        refine .inl ⟨leftSpine m + 1, fun n => ?_⟩
        rw [leftSpine, List.cons_append, List.reverse_cons, leftSpines_last]
  induction h with
  | one hr =>
    obtain ⟨p, f, h1, h2⟩ := one hr
    exact ⟨p, f, h1, h2.imp_right fun h => ⟨h.1, 1, by omega, h.2⟩⟩
  | step hr _ ih =>
    obtain ⟨p, f, h1, h2⟩ := one hr
    obtain ⟨p', f', h1', h2'⟩ := ih
    refine ⟨p ++ p', f ∘ f', fun n x h => ?_, ?_⟩
    · simpa using h1 _ _ (h1' n x h)
    · rcases h2 with ⟨c, h2⟩ | ⟨rfl, h2⟩
      · exact .inl ⟨c, fun n => h2 _⟩
      · rcases h2' with ⟨c, h2'⟩ | ⟨rfl, c, _, h2'⟩
        · exact .inl ⟨c + 1, fun n => by simp only [Function.comp_apply, h2, h2']⟩
        · refine .inr ⟨rfl, c + 1, by omega, fun n => ?_⟩
          simp only [Function.comp_apply, h2, h2']
          omega

/-- A variable that begins with itself and ends with itself has two trees for some tokens. -/
theorem both_sides_two (hp : Productive g) (hrefl : ∀ t : T, teq t t = true) (wf : WellFormed g) {v : V}
    (hs : StartsBy g v v) (he : EndsBy g v v) : ∃ n n' x, Forest g [.var v] [n] x ∧ Forest g [.var v] [n'] x ∧ n ≠ n' := by
  obtain ⟨q, c, f, hc, h1, h2⟩ := startsBy_context hp hrefl wf hs
  obtain ⟨p, f', h1', h2'⟩ := endsBy_context hp hrefl wf he
  obtain ⟨n, x, hx⟩ : ∃ n x, Forest g [.var v] [n] x := by
    cases hs with
    | one hr => exact hp _ _ hr
    | step hr _ => exact hp _ _ hr
  rcases h2' with ⟨k, h2'⟩ | ⟨rfl, k, hk, h2'⟩
  · refine ⟨f (f' n), f' (f n), p ++ x ++ q, h1 _ _ (h1' n x hx), by simpa using h1' _ _ (h1 n x hx), fun h => ?_⟩
    have := congrArg leftSpine h
    simp only [h2, h2'] at this
    omega
  · refine ⟨n, f' n, x, hx, by simpa using h1' n x hx, fun h => ?_⟩
    have := congrArg leftSpine h
    simp only [h2'] at this
    omega

end Pango.Parse
