import Verif.Proofs.Complete

/-!
# The parser stops

Every step reads a token, makes the stack smaller, or replaces the symbol on top of the stack by a variable that
derives it.
-/

namespace Pango.Parse

open Pango Pango.Spec

variable {V T : Type} {g : Grammar V T}

theorem UnitChain.snoc {h v w : V} (hc : UnitChain g h v) (hr : (v, [.var w]) ∈ g.rules) : UnitChain g h w := by
  induction hc with
  | one h1 => exact .step h1 (.one hr)
  | step h1 _ ih => exact .step h1 (ih hr)

theorem length_filter_lt {α : Type} {P Q : α → Bool} {l : List α} (h : ∀ a, P a = true → Q a = true) {a : α}
    (ha : a ∈ l) (hp : P a = false) (hq : Q a = true) : (l.filter P).length < (l.filter Q).length := by
  induction l with
  | nil => cases ha
  | cons b l ih =>
    have hle : (l.filter P).length ≤ (l.filter Q).length := by
      have := (List.filter_sublist (l := l.filter Q) (p := P)).length_le
      have h2 : (l.filter Q).filter P = l.filter P := by
        rw [List.filter_filter]
        congr 1
        funext x
        cases hx : P x with
        | true => simp [h x hx]
        | false => simp
      rw [h2] at this
      exact this
    rw [List.filter_cons, List.filter_cons]
    rcases List.mem_cons.1 ha with rfl | ha'
    · rw [hp, hq]
      simp only [Bool.false_eq_true, if_false, if_true, List.length_cons]
      omega
    · have := ih ha'
      cases hb : P b with
      | true => simp only [h b hb, if_true, List.length_cons]; omega
      | false =>
        simp only [Bool.false_eq_true, if_false]
        split
        · simp only [List.length_cons]; omega
        · exact this

open Classical in
/-- The number of rules of variables that can be derived by unit rules. -/
noncomputable def rank (g : Grammar V T) (v : V) : Nat :=
  ((g.rules.map Prod.fst).filter fun u => decide (UnitChain g v u)).length

theorem rank_le (v : V) : rank g v ≤ g.rules.length := by
  unfold rank
  refine Nat.le_trans (List.length_filter_le ..) ?_
  simp

theorem rank_lt (wf : WellFormed g) (hno : ∀ v, ¬ UnitChain g v v) {h v : V} (hr : (h, [.var v]) ∈ g.rules) :
    rank g v < rank g h := by
  unfold rank
  obtain ⟨β, hβ⟩ := wf.closed _ _ v hr (by simp)
  refine length_filter_lt (a := v) ?_ ?_ ?_ ?_
  · intro u hu
    simp only [decide_eq_true_eq] at hu ⊢
    exact .step hr hu
  · exact List.mem_map.2 ⟨_, hβ, rfl⟩
  · simpa using hno v
  · simpa using UnitChain.one hr

/-- The rank of the symbol on top of the stack. -/
noncomputable def topRank (g : Grammar V T) (γ : List (Sym V T)) : Nat :=
  match γ.getLast? with
  | some (.var v) => rank g v + 1
  | _ => 0

theorem topRank_le (γ : List (Sym V T)) : topRank g γ ≤ g.rules.length + 1 := by
  unfold topRank
  split
  · have := rank_le (g := g) (by assumption)
    omega
  · omega

/-- The number of steps that are still possible. -/
noncomputable def potential (g : Grammar V T) (x : Conf V T) : Nat :=
  (2 * x.input.length + x.syms.length) * (g.rules.length + 2) + (g.rules.length + 1 - topRank g x.syms)

variable [TerminalEq T]

theorem Move.potential_lt (wf : WellFormed g) (hno : ∀ v, ¬ UnitChain g v v) (heps : ∀ h, (h, [.eps]) ∉ g.rules)
    {x y : Conf V T} (h : Move g x y) : potential g y < potential g x := by
  have hlt : ∀ {a b c d : Nat}, a < b → c ≤ g.rules.length + 1 → a * (g.rules.length + 2) + c < b * (g.rules.length + 2) + d := by
    intro a b c d hab hc
    have : (a + 1) * (g.rules.length + 2) ≤ b * (g.rules.length + 2) := Nat.mul_le_mul_right _ hab
    rw [Nat.add_mul] at this
    omega
  cases h with
  | shift _ _ _ =>
    unfold potential
    simp only [List.length_cons, List.length_append, List.length_nil]
    exact hlt (by omega) (by omega)
  | @reduce γ ρ ns hd i t u w q h1 h2 h3 h4 h5 h6 h7 =>
    have hrule := (Viable_ok h1).rule
    simp only at hrule
    have hne := wf.nonempty _ _ hrule
    unfold potential
    simp only [List.length_cons, List.length_append, List.length_nil]
    have hpos := List.length_pos_iff.2 hne
    by_cases hlen : i.body.length = 1
    · rw [h5, hlen]
      obtain ⟨x, hx⟩ := List.length_eq_one_iff.1 hlen
      rw [hx] at hrule
      have he : Sym.eps ∉ i.body := by
        rw [hx]
        intro hm
        rw [List.mem_singleton] at hm
        subst hm
        exact heps _ hrule
      obtain ⟨γ', h8, _⟩ := viable_complete h1 h2 he
      obtain ⟨_, rfl⟩ := List.append_inj' h8 h5
      rw [hx]
      have hr : topRank g (γ ++ [x]) < topRank g (γ ++ [.var hd]) := by
        unfold topRank
        simp only [List.getLast?_append, List.getLast?_singleton, Option.some_or]
        cases x with
        | var v =>
          have := rank_lt wf hno hrule
          simp only
          omega
        | term t => simp
        | eps => simp
      have := topRank_le (g := g) (γ ++ [.var hd])
      rw [Nat.zero_add]
      omega
    · exact hlt (by omega) (by omega)

theorem Moves.le_potential (wf : WellFormed g) (hno : ∀ v, ¬ UnitChain g v v) (heps : ∀ h, (h, [.eps]) ∉ g.rules)
    {k : Nat} {x y : Conf V T} (h : Moves g k x y) : k ≤ potential g x := by
  induction h with
  | refl => omega
  | step h1 _ ih =>
    have := h1.potential_lt wf hno heps
    omega

omit [TerminalEq T] in
theorem potential_start (w : List T) :
    potential g (⟨[], [], w⟩ : Conf V T) ≤ (2 * w.length + 1) * (g.rules.length + 2) := by
  unfold potential
  simp only [List.length_nil, Nat.add_zero]
  rw [Nat.add_mul]
  omega

variable [DecidableEq V] [DecidableEq T] [LawfulTerminalEq T] {c : Cfsm V T} {entry : Prop} {tbl : Table V T}

theorem parse_terminates (wf : WellFormed g) (ok : SlrOk g c entry tbl) (hno : ∀ v, ¬ UnitChain g v v)
    (heps : ∀ h, (h, [.eps]) ∉ g.rules) {w : List T} {n : Nat} {fin : InputEnd} (hfin : fin ≠ .diverge)
    (hn : (2 * w.length + 1) * (g.rules.length + 2) < n) : parseTokens tbl n w fin ≠ .diverge := by
  obtain ⟨k, γ, ns, w', h1, ⟨rfl, _⟩ | ⟨_, h2⟩⟩ := parseTokens_runs ok (fin := fin) (n := n) (w := w)
  · have := h1.le_potential wf hno heps
    have := potential_start (g := g) w
    omega
  · intro h
    rw [h] at h2
    cases h2 with
    | panic _ _ h3 => cases h3
    | diverge _ h3 _ => exact hfin h3
    | last _ _ _ hr => cases hr

/-! ## Unambiguity -/

omit [DecidableEq V] [DecidableEq T] [LawfulTerminalEq T] in
theorem Move.one_token {x y : Conf V T} (wf : WellFormed g) (h : Move g x y) (hin : y.input = x.input) :
    y.syms.length ≤ x.syms.length := by
  cases h with
  | shift _ _ _ => simp at hin
  | @reduce γ ρ ns hd i t u w q h1 h2 h3 h4 h5 h6 h7 =>
    have := List.length_pos_iff.2 (wf.nonempty _ _ (Viable_ok h1).rule)
    simp only [List.length_append, List.length_cons, List.length_nil]
    simp only at this
    omega

omit [DecidableEq V] [DecidableEq T] [LawfulTerminalEq T] in
theorem Moves.input_le {k : Nat} {x y : Conf V T} (h : Moves g k x y) : y.input.length ≤ x.input.length := by
  induction h with
  | refl => omega
  | step h1 _ ih =>
    have : ∀ {a b : Conf V T}, Move g a b → b.input.length ≤ a.input.length := by
      intro a b hm
      cases hm <;> simp
    have := this h1
    omega

omit [DecidableEq V] [DecidableEq T] [LawfulTerminalEq T] in
theorem Move.same_input {x y : Conf V T} (h : Move g x y) (hl : x.input.length ≤ y.input.length) :
    y.input = x.input := by
  cases h with
  | shift _ _ _ => simp only [List.length_cons] at hl; omega
  | reduce _ _ _ _ _ _ _ => rfl

omit [DecidableEq V] [DecidableEq T] [LawfulTerminalEq T] in
theorem Moves.height_le {k : Nat} {x y : Conf V T} (wf : WellFormed g) (h : Moves g k x y)
    (hin : y.input = x.input) : y.syms.length ≤ x.syms.length := by
  induction h with
  | refl => omega
  | @step k x y z h1 h2 ih =>
    have h3 := h2.input_le
    have h4 := h1.same_input (by rw [hin] at h3; exact h3)
    have := h1.one_token wf h4
    have := ih (by rw [hin, h4])
    omega

omit [DecidableEq V] [DecidableEq T] [LawfulTerminalEq T] in
/-- Steps that do not read anything and do not make the stack smaller go up a chain of unit rules. -/
theorem Moves.chain (wf : WellFormed g) (he : EpsFree g) {k : Nat} {x y : Conf V T} (h : Moves g k x y)
    {γ δ : List (Sym V T)} {a : V} (hx : x.syms = γ ++ [.var a]) (hy : y.syms = γ ++ δ) (hδ : δ ≠ [])
    (hin : y.input = x.input) : ∃ b, δ = [.var b] ∧ (b = a ∨ UnitChain g b a) := by
  induction h generalizing a with
  | refl =>
    rw [hx] at hy
    exact ⟨a, (List.append_cancel_left hy).symm, .inl rfl⟩
  | @step k x y z h1 h2 ih =>
    have h3 := h2.input_le
    have h4 := h1.same_input (by rw [hin] at h3; exact h3)
    have h5 := h2.height_le wf (by rw [hin, h4])
    have hpos := List.length_pos_iff.2 hδ
    rw [hy] at h5
    cases h1 with
    | shift _ _ _ => simp at h4
    | @reduce γ' ρ ns hd i t u w q h6 h7 h8 h9 h10 h11 h12 =>
      simp only at hx
      have hrule := (Viable_ok h6).rule
      simp only at hrule
      have hne := List.length_pos_iff.2 (wf.nonempty _ _ hrule)
      have hlen := congrArg List.length hx
      simp only [List.length_append, List.length_cons, List.length_nil] at hlen h5
      have h13 : ρ.length = 1 := by omega
      obtain ⟨γ'', h14, _⟩ := viable_complete h6 h7 (he _ _ hrule)
      obtain ⟨rfl, rfl⟩ := List.append_inj' h14 h10
      obtain ⟨rfl, h15⟩ := List.append_inj' hx (by simpa using h13)
      rw [h15] at hrule
      obtain ⟨b, h16, h17⟩ := ih rfl hy (by rw [hin])
      refine ⟨b, h16, .inr ?_⟩
      rcases h17 with rfl | h17
      · exact .one hrule
      · exact UnitChain.snoc h17 hrule

/-- The trees of a variable: if something can follow the variable, there is only one for each list of tokens. -/
theorem unambiguous (wf : WellFormed g) (ok : SlrOk g c entry tbl) (he : EpsFree g)
    {γ : List (Sym V T)} {v : V} (hno : ¬ UnitChain g v v) (hs : Source g γ v) {t : T} (ht : Fol g t v) {β1 β2 : Body V T}
    {cs1 cs2 : List (Node V T)} {w : List T} (hr1 : (v, β1) ∈ g.rules) (hf1 : Forest g β1 cs1 w)
    (hr2 : (v, β2) ∈ g.rules) (hf2 : Forest g β2 cs2 w) : cs1 = cs2 := by
  have hrun : ∀ {β cs}, (v, β) ∈ g.rules → Forest g β cs w →
      Viable g (γ ++ β) (v, ⟨β, β.length⟩) ∧ ∃ k, Moves g k ⟨γ, [], w ++ [t]⟩ ⟨γ ++ β, cs.reverse, [t]⟩ := by
    intro β cs hr hf
    have he' := he _ _ hr
    have hv : Viable g γ (v, ⟨β, 0⟩) := by
      rcases hs with ⟨rfl, rfl⟩ | ⟨h, i, hv, hrd⟩
      · exact .start hr (fresh_plain he')
      · exact .expand hv hrd hr (fresh_plain he')
    have hv' := viable_run hv he' (α := β) (pre := []) (post := []) (by simp) rfl
    obtain ⟨k, hk⟩ := forest_moves wf ((forest_dropEps he).2 hf) (ms := []) (rest := [t]) hv he' (pre := []) (post := [])
      (by simp) rfl (by
        intro β' v' hβ
        exact ⟨t, t, [], rfl, LawfulTerminalEq.refl t, .up (hβ ▸ hr) .nil ht⟩)
    simp only [List.append_nil, List.nil_append] at hk hv'
    exact ⟨hv', k, hk⟩
  have hdet : ∀ {k m : Nat} {x y z : Conf V T}, Moves g k x y → Moves g (k + m) x z → Moves g m y z := by
    intro k m x y z h1
    induction h1 with
    | refl => intro h2; rwa [Nat.zero_add] at h2
    | @step k x y z' h3 _ ih =>
      intro h2
      rw [Nat.add_right_comm] at h2
      cases h2 with
      | step h4 h5 =>
        rw [← h3.det ok h4] at h5
        exact ih h5
  have key : ∀ {β β' cs cs'} {k m : Nat}, (v, β) ∈ g.rules → (v, β') ∈ g.rules →
      Viable g (γ ++ β) (v, ⟨β, β.length⟩) → Forest g β cs w → Forest g β' cs' w →
      Moves g k ⟨γ, [], w ++ [t]⟩ ⟨γ ++ β, cs.reverse, [t]⟩ →
      Moves g (k + m) ⟨γ, [], w ++ [t]⟩ ⟨γ ++ β', cs'.reverse, [t]⟩ → cs = cs' := by
    intro β β' cs cs' k m hr hr' hv hf hf' h1 h2
    have h3 := hdet h1 h2
    generalize hy : (⟨γ ++ β', cs'.reverse, [t]⟩ : Conf V T) = y at h3
    cases h3 with
    | refl =>
      simp only [Conf.mk.injEq] at hy
      simpa using hy.2.1.symm
    | @step m x y z h4 h5 =>
      exfalso
      have hin : y.input = [t] := by
        have := h5.input_le
        rw [← hy] at this
        exact h4.same_input this
      generalize hx : (⟨γ ++ β, cs.reverse, [t]⟩ : Conf V T) = x at h4
      cases h4 with
      | shift _ _ _ =>
        simp only [Conf.mk.injEq, List.cons.injEq] at hx
        simp only at hin
        rw [hin] at hx
        simp at hx
      | @reduce γ' ρ ns hd i t' u w' q h6 h7 h8 h9 h10 h11 h12 =>
        simp only [Conf.mk.injEq, List.cons.injEq] at hx
        obtain ⟨hx1, _, rfl, _⟩ := hx
        have hneed : Needs g entry (γ ++ β) (v, ⟨β, β.length⟩) (some t) := .reduce hv rfl (inFollow_iff.2 ht)
        rw [← hx1] at h6
        have hk : keyEq (some t) (some t') = true := LawfulTerminalEq.symm _ _ h9
        cases (ok.needs_unique hneed (.reduce h6 h7 (inFollow_iff.2 h8)) hk).1
        obtain ⟨rfl, rfl⟩ := List.append_inj' hx1 h10.symm
        obtain ⟨b, h13, h14⟩ := h5.chain wf he (a := v) (δ := β') rfl (by rw [← hy]) (wf.nonempty _ _ hr')
          (by rw [← hy, hin])
        rw [h13] at hr'
        rcases h14 with rfl | h14
        · exact hno (.one hr')
        · exact hno (.step hr' h14)
  obtain ⟨hv1, k1, hk1⟩ := hrun hr1 hf1
  obtain ⟨hv2, k2, hk2⟩ := hrun hr2 hf2
  rcases Nat.le_total k1 k2 with h | h
  · obtain ⟨m, rfl⟩ := Nat.exists_eq_add_of_le h
    exact key hr1 hr2 hv1 hf1 hf2 hk1 hk2
  · obtain ⟨m, rfl⟩ := Nat.exists_eq_add_of_le h
    exact (key hr2 hr1 hv2 hf2 hf1 hk2 hk1).symm

end Pango.Parse
