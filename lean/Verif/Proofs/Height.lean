import Verif.Spec.Height
import Verif.Model.StackSize
import Verif.Proofs.Cycle
import Verif.Proofs.Confuse
import Verif.Proofs.Useful

/-!
# The height of the stack
-/

namespace Pango.Parse

open Pango Pango.Spec

/-! ## Where the grammar is recursive at the front only -/

theorem countP_lt {α : Type} {p q : α → Bool} {l : List α} (h : ∀ x ∈ l, p x = true → q x = true) {a : α}
    (ha : a ∈ l) (hq : q a = true) (hp : p a = false) : l.countP p < l.countP q := by
  obtain ⟨l1, l2, rfl⟩ := List.append_of_mem ha
  have h1 : l1.countP p ≤ l1.countP q := List.countP_mono_left fun x hx => h x (by simp [hx])
  have h2 : l2.countP p ≤ l2.countP q := List.countP_mono_left fun x hx => h x (by simp [hx])
  simp only [List.countP_append, List.countP_cons, hp, hq]
  simp
  omega

section

variable {V T : Type} {g : Grammar V T}

open Classical in
/-- How many heads of rules are inside of the variable, behind something else. -/
noncomputable def depthOf (g : Grammar V T) (v : V) : Nat :=
  (g.rules.map Prod.fst).countP fun w => decide (Encloses g true v w)

theorem depthOf_le (v : V) : depthOf g v ≤ g.rules.length := by
  have := List.countP_le_length (p := fun w => @decide (Encloses g true v w) (Classical.propDecidable _))
    (l := g.rules.map Prod.fst)
  simpa [depthOf] using this

theorem depthOf_front {h v : V} {post : List (Sym V T)} (hr : (h, .var v :: post) ∈ g.rules) :
    depthOf g v ≤ depthOf g h := by
  refine List.countP_mono_left fun w _ hw => ?_
  simp only [decide_eq_true_eq] at hw ⊢
  exact .front hr hw

theorem depthOf_behind (wf : WellFormed g) {h v : V} {x : Sym V T} {pre post : List (Sym V T)}
    (hr : (h, x :: (pre ++ .var v :: post)) ∈ g.rules) (hv : ¬ Encloses g true v v) : depthOf g v < depthOf g h := by
  obtain ⟨β, hβ⟩ := wf.closed _ _ v hr (by simp)
  refine countP_lt (a := v) (fun w _ hw => ?_) (List.mem_map.2 ⟨_, hβ, rfl⟩) ?_ ?_
  · simp only [decide_eq_true_eq] at hw ⊢
    exact .behind hr hw
  · simp only [decide_eq_true_eq]
    exact .behind hr .self
  · simpa using hv

/-- The sum of the lengths of the bodies. -/
def bodiesLength (g : Grammar V T) : Nat := (g.rules.map fun r => r.2.length).sum

theorem le_bodiesLength {v : V} {β : Body V T} (h : (v, β) ∈ g.rules) : β.length ≤ bodiesLength g := by
  unfold bodiesLength
  obtain ⟨l1, l2, h1⟩ := List.append_of_mem h
  rw [h1]
  simp
  omega

theorem viable_low (wf : WellFormed g) (hl : LeftOnly g) {γ : List (Sym V T)} {p : V × Item V T} (h : Viable g γ p) :
    Reachable g p.1 ∧
      γ.length + bodiesLength g * depthOf g p.1 ≤ bodiesLength g * depthOf g g.start + p.2.cursor := by
  induction h with
  | start _ _ => exact ⟨.start, by simp⟩
  | @expand γ h v i j β hv hr hβ hf ih =>
    obtain ⟨ih1, ih2⟩ := ih
    have hok := Viable_ok hv
    have hrule := hok.rule
    obtain ⟨pre, post, h1, h2⟩ := hr
    simp only at hrule ih2 ih1 ⊢
    have hreach : Reachable g v := .step ih1 hrule (by rw [h1]; simp)
    refine ⟨hreach, ?_⟩
    cases pre with
    | nil =>
      have h3 := Nat.mul_le_mul_left (bodiesLength g) (depthOf_front (g := g) (h := h) (v := v) (post := post)
        (by simpa [h1] using hrule))
      simp only [List.length_nil] at h2
      omega
    | cons x pre =>
      have h3 := depthOf_behind wf (h := h) (v := v) (x := x) (pre := pre) (post := post) (by simpa [h1] using hrule)
        (hl v hreach)
      have h4 := Nat.mul_le_mul_left (bodiesLength g) h3
      have h5 : i.cursor ≤ bodiesLength g := Nat.le_trans hok.le (le_bodiesLength hrule)
      rw [Nat.mul_succ] at h4
      omega
  | @read γ h i j x hv ha ih =>
    obtain ⟨ih1, ih2⟩ := ih
    obtain ⟨_, pre, k, rest, _, _, h3, h4⟩ := ha
    refine ⟨ih1, ?_⟩
    simp only [List.length_append, List.length_singleton] at ih2 ⊢
    omega

/-- The symbols on the stack are few. -/
theorem viable_bound (wf : WellFormed g) (hl : LeftOnly g) {γ : List (Sym V T)} {p : V × Item V T} (h : Viable g γ p) :
    γ.length ≤ bodiesLength g * (g.rules.length + 1) := by
  have h1 := (viable_low wf hl h).2
  have h2 : p.2.cursor ≤ bodiesLength g := Nat.le_trans (Viable_ok h).le (le_bodiesLength (Viable_ok h).rule)
  have h3 := Nat.mul_le_mul_left (bodiesLength g) (depthOf_le (g := g) g.start)
  rw [Nat.mul_succ]
  omega

/-- Bodies in which only the first symbol can be a variable. -/
theorem leftOnly_of_terms (h : ∀ v β, (v, β) ∈ g.rules → ∀ x ∈ β.tail, ∃ t, x = Sym.term t) : LeftOnly g := by
  have : ∀ {b : Bool} {v w : V}, Encloses g b v w → b = false := by
    intro b v w he
    induction he with
    | self => rfl
    | front _ _ ih => exact ih
    | @behind b h' v w x pre post hr _ _ =>
      obtain ⟨t, ht⟩ := h _ _ hr (.var v) (by simp)
      cases ht
  intro v _ he
  cases this he

/-! ## Where it is not -/

theorem source_viable (he : EpsFree g) {γ : List (Sym V T)} {v : V} (h : Source g γ v) {β : Body V T}
    (hr : (v, β) ∈ g.rules) : Viable g γ (v, ⟨β, 0⟩) := by
  rcases h with ⟨rfl, rfl⟩ | ⟨h', i, hv, hrd⟩
  · exact .start hr (fresh_plain (he _ _ hr))
  · exact .expand hv hrd hr (fresh_plain (he _ _ hr))

theorem encloses_source (he : EpsFree g) {b : Bool} {h w : V} (hw : Encloses g b h w) {γ : List (Sym V T)}
    (hs : Source g γ h) : ∃ δ, (b = true → δ ≠ []) ∧ Source g (γ ++ δ) w := by
  induction hw generalizing γ with
  | self => exact ⟨[], by simp, by simpa using hs⟩
  | @front b h v w post hr _ ih =>
    exact ih (.inr ⟨h, _, source_viable he hs hr, [], post, rfl, rfl⟩)
  | @behind b h v w x pre post hr _ ih =>
    have h1 := viable_run (source_viable he hs hr) (he _ _ hr) (α := x :: pre) (pre := []) (post := .var v :: post) rfl rfl
    obtain ⟨δ, _, h2⟩ := ih (γ := γ ++ (x :: pre)) (.inr ⟨h, _, h1, x :: pre, post, rfl, by simp⟩)
    exact ⟨x :: pre ++ δ, by simp, by simpa using h2⟩

theorem source_high (he : EpsFree g) {v : V} (hv : Reachable g v) (hw : Encloses g true v v) (n : Nat) :
    ∃ γ, n ≤ γ.length ∧ Source g γ v := by
  induction n with
  | zero =>
    obtain ⟨γ, h⟩ := reachable_source he hv
    exact ⟨γ, Nat.zero_le _, h⟩
  | succ n ih =>
    obtain ⟨γ, h1, h2⟩ := ih
    obtain ⟨δ, h3, h4⟩ := encloses_source he hw h2
    have := List.length_pos_iff.2 (h3 rfl)
    exact ⟨γ ++ δ, by simp; omega, h4⟩

end

/-! ## The stacks -/

section

variable {V T : Type} [DecidableEq V] [DecidableEq T] [TerminalEq T] {g : Grammar V T} {c : Cfsm V T} {entry : Prop}
  {tbl : Table V T}

omit [TerminalEq T] in
/-- The symbols on the stack are empty or can be read. -/
theorem StackOk.viable (ok : CfsmOk g c) {b : Node V T} {γ : List (Sym V T)} {ns : List (Node V T)}
    {st : List (ParseNode V T)} {s : CState V T} (h : StackOk c b γ ns st s) : γ = [] ∨ ∃ p, Viable g γ p := by
  cases h with
  | bottom _ _ => exact .inl rfl
  | @push γ ns st s s' x n h1 h2 h3 =>
    have hr := h1.reached
    obtain ⟨q, hq, hx⟩ := (ok.read s (reached_mem hr) _).1 (List.mem_map.2 ⟨_, h2, rfl⟩)
    exact .inr ⟨_, .read ((reached_viable ok hr q).1 hq) (advanced_iff.2 ⟨hx, rfl⟩)⟩

/-- Every stack of a run has the symbols of a string that can be read. -/
theorem loopStacks_ok (ok : SlrOk g c entry tbl) {b : Node V T} {fin : InputEnd} {n : Nat} {w : List T}
    {γ : List (Sym V T)} {ns : List (Node V T)} {st : List (ParseNode V T)} {s : CState V T}
    (h : StackOk c b γ ns st s) {rest : List T} {st' : List (ParseNode V T)}
    (hm : (rest, st') ∈ loopStacks tbl fin n w st s.id) : ∃ γ' ns' s', StackOk c b γ' ns' st' s' := by
  induction n generalizing w γ ns st s with
  | zero => simp [loopStacks] at hm
  | succ n ih =>
    cases w with
    | nil =>
      cases fin with
      | ok _ =>
        simp only [loopStacks, List.mem_map, Prod.mk.injEq] at hm
        obtain ⟨st1, hm, _, rfl⟩ := hm
        rw [eofStacks] at hm
        rcases List.mem_cons.1 hm with rfl | hm
        · exact ⟨_, _, _, h⟩
        · have hd := handle_does ok h none
          generalize handleToken tbl none st s.id = r at hd hm
          cases hd <;> simp at hm
      | panic =>
        simp [loopStacks] at hm
        obtain ⟨_, rfl⟩ := hm
        exact ⟨_, _, _, h⟩
      | diverge =>
        simp [loopStacks] at hm
        obtain ⟨_, rfl⟩ := hm
        exact ⟨_, _, _, h⟩
    | cons u w =>
      rw [loopStacks] at hm
      rcases List.mem_cons.1 hm with hm | hm
      · cases hm
        exact ⟨_, _, _, h⟩
      · have hd := handle_does ok h (some u)
        generalize handleToken tbl (some u) st s.id = r at hd hm
        cases hd with
        | noRow _ _ => simp at hm
        | error _ _ => simp at hm
        | under _ _ _ _ _ => simp at hm
        | noGoto _ _ _ _ _ _ _ _ hr => rcases hr with ⟨rfl, _⟩ | ⟨rfl, _⟩ <;> simp at hm
        | shift h1 h2 h3 h4 => exact ih h4 (by simpa using hm)
        | reduce h1 h2 h3 h4 h5 h6 h7 h8 h9 => exact ih h9 (by simpa using hm)

variable [LawfulTerminalEq T]

/-- The stack after some steps is one of those of the run. -/
theorem moves_stacks (ok : SlrOk g c entry tbl) {b : Node V T} {fin : InputEnd} {k : Nat} {x y : Conf V T}
    (hm : Moves g k x y) (hy : y.input ≠ []) {st : List (ParseNode V T)} {s : CState V T}
    (h : StackOk c b x.syms x.nodes st s) :
    ∃ st', (y.input, st') ∈ loopStacks tbl fin (k + 1) x.input st s.id ∧ st'.length = y.syms.length + 1 := by
  induction hm generalizing st s with
  | @refl x =>
    refine ⟨st, ?_, h.length_stack⟩
    cases hi : x.input with
    | nil => exact absurd hi hy
    | cons u w => simp [loopStacks]
  | @step k x y z h1 _ ih =>
    obtain ⟨u, w, r, s', h2, h3, h4, h5, h6, h7⟩ := h1.handles ok h
    obtain ⟨st', h8, h9⟩ := ih hy h6
    refine ⟨st', ?_, h9⟩
    rw [h2, loopStacks, h3]
    simp only [h4, h5, ← h7]
    exact List.mem_cons_of_mem _ (by simpa using h8)

end

end Pango.Parse
