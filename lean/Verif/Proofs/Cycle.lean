import Verif.Proofs.Terminate
import Verif.Proofs.Machine
import Verif.Proofs.NoPanic

/-!
# On which inputs the parser does not stop

For grammars without epsilon: where a variable that derives itself by unit rules gets on top of the stack, with a token
behind it that can follow it.
-/

namespace Pango.Parse

open Pango Pango.Spec

variable {V T : Type} {g : Grammar V T}

theorem rank_lt_of (wf : WellFormed g) {h v : V} (hno : ¬ UnitChain g v v) (hr : (h, [.var v]) ∈ g.rules) :
    rank g v < rank g h := by
  unfold rank
  obtain ⟨β, hβ⟩ := wf.closed _ _ v hr (by simp)
  refine length_filter_lt (a := v) ?_ ?_ ?_ ?_
  · intro u hu
    simp only [decide_eq_true_eq] at hu ⊢
    exact .step hr hu
  · exact List.mem_map.2 ⟨_, hβ, rfl⟩
  · simpa using hno
  · simpa using UnitChain.one hr

variable [TerminalEq T]

/-- The top of the stack is a variable that derives itself, and the next token can follow it. -/
def Spins (g : Grammar V T) (x : Conf V T) : Prop :=
  ∃ γ v h i t u w, x.syms = γ ++ [.var v] ∧ x.input = u :: w ∧ UnitChain g v v ∧ Viable g γ (h, i) ∧
    Reads i (.var v) ∧ Fol g t v ∧ teq t u = true

/-- A step leaves fewer steps, unless there are infinitely many. -/
theorem Move.potential_or (wf : WellFormed g) (he : EpsFree g) {x y : Conf V T} (h : Move g x y) :
    potential g y < potential g x ∨ Spins g x := by
  have hlt : ∀ {a b c d : Nat}, a < b → c ≤ g.rules.length + 1 → a * (g.rules.length + 2) + c < b * (g.rules.length + 2) + d := by
    intro a b c d hab hc
    have : (a + 1) * (g.rules.length + 2) ≤ b * (g.rules.length + 2) := Nat.mul_le_mul_right _ hab
    rw [Nat.add_mul] at this
    omega
  cases h with
  | shift _ _ _ =>
    left
    unfold potential
    simp only [List.length_cons, List.length_append, List.length_nil]
    exact hlt (by omega) (by omega)
  | @reduce γ ρ ns hd i t u w q h1 h2 h3 h4 h5 h6 h7 =>
    have hrule := (Viable_ok h1).rule
    simp only at hrule
    have hne := wf.nonempty _ _ hrule
    have hpos := List.length_pos_iff.2 hne
    by_cases hlen : i.body.length = 1
    · obtain ⟨x, hx⟩ := List.length_eq_one_iff.1 hlen
      obtain ⟨γ', h8, _⟩ := viable_complete h1 h2 (he _ _ hrule)
      obtain ⟨_, rfl⟩ := List.append_inj' h8 h5
      rw [hx] at hrule
      by_cases hc : ∃ v, x = .var v ∧ UnitChain g v v
      · right
        obtain ⟨v, rfl, hc⟩ := hc
        obtain ⟨h', i'⟩ := q
        refine ⟨γ, v, hd, ⟨[.var v], 0⟩, t, u, w, by rw [hx], rfl, hc,
          .expand h6 h7 hrule (fresh_plain (by simp)), ⟨[], [], rfl, rfl⟩, ?_, h4⟩
        exact .up (h := hd) (pre := []) (rest := []) hrule .nil h3
      · left
        unfold potential
        simp only [List.length_cons, List.length_append, List.length_nil]
        rw [hlen, hx]
        have hr : topRank g (γ ++ [x]) < topRank g (γ ++ [.var hd]) := by
          unfold topRank
          simp only [List.getLast?_append, List.getLast?_singleton, Option.some_or]
          cases x with
          | var v =>
            have := rank_lt_of wf (fun h => hc ⟨v, rfl, h⟩) hrule
            simp only
            omega
          | term t => simp
          | eps => simp
        have := topRank_le (g := g) (γ ++ [.var hd])
        rw [Nat.zero_add]
        omega
    · left
      unfold potential
      simp only [List.length_cons, List.length_append, List.length_nil]
      exact hlt (by omega) (by omega)

/-- Enough steps spin. -/
theorem Moves.spins (wf : WellFormed g) (he : EpsFree g) {k : Nat} {x y : Conf V T} (h : Moves g k x y)
    (hk : potential g x < k) : ∃ m z, Moves g m x z ∧ Spins g z := by
  induction h with
  | refl => omega
  | @step k x y z h1 _ ih =>
    rcases h1.potential_or wf he with h2 | h2
    · obtain ⟨m, z', h3, h4⟩ := ih (by omega)
      exact ⟨m + 1, z', .step h1 h3, h4⟩
    · exact ⟨0, x, .refl, h2⟩

/-- A chain of unit rules is reduced. -/
theorem unit_moves {v x : V} (hc : UnitChain g v x) : ∀ {γ : List (Sym V T)} {h : V} {i : Item V T} {t u : T},
    Viable g γ (h, i) → Reads i (.var v) → Fol g t v → teq t u = true → ∀ (ns : List (Node V T)) (w : List T),
    ∃ k ms, Moves g (k + 1) ⟨γ ++ [.var x], ns, u :: w⟩ ⟨γ ++ [.var v], ms, u :: w⟩ := by
  have one : ∀ {v x : V} {γ : List (Sym V T)} {h : V} {i : Item V T} {t u : T}, (v, [.var x]) ∈ g.rules →
      Viable g γ (h, i) → Reads i (.var v) → Fol g t v → teq t u = true → ∀ (ns : List (Node V T)) (w : List T),
      Viable g γ (v, ⟨[.var x], 0⟩) ∧
        ∃ ms, Move g ⟨γ ++ [.var x], ns, u :: w⟩ ⟨γ ++ [.var v], ms, u :: w⟩ := by
    intro v x γ h i t u hr hv hrd ht hu ns w
    have h1 : Viable g γ (v, ⟨[.var x], 0⟩) := .expand hv hrd hr (fresh_plain (by simp))
    have h2 : Viable g (γ ++ [.var x]) (v, ⟨[.var x], 1⟩) :=
      .read h1 (advanced_plain (i := ⟨[.var x], 0⟩) (by simp) (pre := []) (post := []) rfl rfl)
    exact ⟨h1, _, .reduce (ρ := [.var x]) h2 rfl ht hu rfl hv hrd⟩
  induction hc with
  | one hr =>
    intro γ h i t u hv hrd ht hu ns w
    obtain ⟨_, ms, h1⟩ := one hr hv hrd ht hu ns w
    exact ⟨0, ms, h1.moves⟩
  | step hr _ ih =>
    intro γ h i t u hv hrd ht hu ns w
    obtain ⟨h1, _⟩ := one hr hv hrd ht hu ns w
    obtain ⟨k, ms, h2⟩ := ih h1 ⟨[], [], rfl, rfl⟩ (.up (pre := []) (rest := []) hr .nil ht) hu ns w
    obtain ⟨_, ms', h3⟩ := one hr hv hrd ht hu ms w
    exact ⟨k + 1, ms', h2.trans h3.moves⟩

theorem Moves.prefix {k n : Nat} {x y : Conf V T} (h : Moves g n x y) (hk : k ≤ n) : ∃ z, Moves g k x z := by
  induction h generalizing k with
  | refl =>
    obtain rfl : k = 0 := by omega
    exact ⟨_, .refl⟩
  | step h1 _ ih =>
    cases k with
    | zero => exact ⟨_, .refl⟩
    | succ k =>
      obtain ⟨z, hz⟩ := ih (k := k) (by omega)
      exact ⟨z, .step h1 hz⟩

/-- From where it spins, there are steps forever. -/
theorem Spins.forever {x : Conf V T} (h : Spins g x) (n : Nat) : ∃ k y, n ≤ k ∧ Moves g k x y := by
  obtain ⟨syms, ns, input⟩ := x
  obtain ⟨γ, v, h, i, t, u, w, rfl, rfl, hc, hv, hrd, ht, hu⟩ := h
  have : ∃ k ms, n ≤ k ∧ Moves g k ⟨γ ++ [.var v], ns, u :: w⟩ ⟨γ ++ [.var v], ms, u :: w⟩ := by
    induction n with
    | zero => exact ⟨0, ns, Nat.le_refl _, .refl⟩
    | succ n ih =>
      obtain ⟨k, ms, h1, h2⟩ := ih
      obtain ⟨k', ms', h3⟩ := unit_moves hc hv hrd ht hu ms w
      exact ⟨k + (k' + 1), ms', by omega, h2.trans h3⟩
  obtain ⟨k, ms, h1, h2⟩ := this
  exact ⟨k, _, h1, h2⟩

/-- There are steps forever exactly if somewhere it spins. -/
theorem forever_iff (wf : WellFormed g) (he : EpsFree g) {x : Conf V T} :
    (∀ n, ∃ y, Moves g n x y) ↔ ∃ m z, Moves g m x z ∧ Spins g z := by
  constructor
  · intro h
    obtain ⟨y, hy⟩ := h (potential g x + 1)
    exact hy.spins wf he (by omega)
  · rintro ⟨m, z, h1, h2⟩ n
    obtain ⟨k, y, h3, h4⟩ := h2.forever n
    exact (h1.trans h4).prefix (by omega)

/-- Where it spins, in terms of what was read. -/
theorem spins_iff (wf : WellFormed g) (he : EpsFree g) {input : List T} :
    (∃ m z, Moves g m ⟨[], [], input⟩ z ∧ Spins g z) ↔
      ∃ v γ ns read u rest h i t, input = read ++ u :: rest ∧ UnitChain g v v ∧ Viable g γ (h, i) ∧ Reads i (.var v) ∧
        Forest g (γ ++ [.var v]) ns read ∧ Fol g t v ∧ teq t u = true := by
  constructor
  · rintro ⟨m, z, h1, γ, v, h, i, t, u, w, h2, h3, h4, h5, h6, h7, h8⟩
    obtain ⟨d, h9, h10⟩ := h1.forest he (w := []) .nil
    rw [h2] at h10
    rw [h3] at h9
    exact ⟨v, γ, _, d, u, w, h, i, t, h9, h4, h5, h6, h10, h7, h8⟩
  · rintro ⟨v, γ, ns, read, u, rest, h, i, t, rfl, h4, h5, h6, h7, h8, h9⟩
    have hrule := (Viable_ok h5).rule
    obtain ⟨pre, post, h10, h11⟩ := h6
    have hv := Viable.read h5 (advanced_plain (he _ _ hrule) h10 h11)
    obtain ⟨k, h12⟩ := viable_moves wf he hv (rest := u :: rest) h7 (by
      intro α' v' hα
      obtain ⟨_, h13⟩ := List.append_inj' hα rfl
      cases h13
      exact ⟨t, u, rest, rfl, h9, h8⟩)
    exact ⟨k, _, h12, γ, v, h, i, t, u, rest, rfl, rfl, h4, h5, ⟨pre, post, h10, h11⟩, h8, h9⟩

omit [TerminalEq T] in
/-- A variable that can be reached gets on the stack. -/
theorem reachable_source (he : EpsFree g) {v : V} (h : Reachable g v) : ∃ γ, Source g γ v := by
  induction h with
  | start => exact ⟨[], .inl ⟨rfl, rfl⟩⟩
  | @step h v β _ hr hv ih =>
    obtain ⟨γ, hs⟩ := ih
    have he' := he _ _ hr
    have h1 : Viable g γ (h, ⟨β, 0⟩) := by
      rcases hs with ⟨rfl, rfl⟩ | ⟨h', i, hv, hrd⟩
      · exact .start hr (fresh_plain he')
      · exact .expand hv hrd hr (fresh_plain he')
    obtain ⟨pre, post, rfl⟩ := List.append_of_mem hv
    have h2 := viable_run h1 he' (α := pre) (pre := []) (post := .var v :: post) rfl rfl
    exact ⟨γ ++ pre, .inr ⟨h, _, h2, pre, post, rfl, by simp⟩⟩

omit [TerminalEq T] in
/-- The rule at the end of a chain. -/
theorem _root_.Pango.Spec.UnitChain.last {a b : V} (h : UnitChain g a b) :
    ∃ h', (h', [.var b]) ∈ g.rules ∧ (a = h' ∨ UnitChain g a h') := by
  induction h with
  | one h => exact ⟨_, h, .inl rfl⟩
  | step h1 _ ih =>
    obtain ⟨h', h2, rfl | h3⟩ := ih
    · exact ⟨_, h2, .inr (.one h1)⟩
    · exact ⟨h', h2, .inr (.step h1 h3)⟩

omit [TerminalEq T] in
theorem _root_.Pango.Spec.UnitChain.fol {a b : V} (h : UnitChain g a b) {t : T} (ht : Fol g t a) : Fol g t b := by
  induction h with
  | one h => exact .up (pre := []) (rest := []) h .nil ht
  | step h _ ih => exact ih (.up (pre := []) (rest := []) h .nil ht)

omit [TerminalEq T] in
/-- Chains from a variable that is read are followed by the closure. -/
theorem _root_.Pango.Spec.UnitChain.viable {a b : V} (h : UnitChain g a b) : ∀ {γ : List (Sym V T)} {x : V} {i : Item V T},
    Viable g γ (x, i) → Reads i (.var a) → ∃ x' i', Viable g γ (x', i') ∧ Reads i' (.var b) := by
  have one : ∀ {a b : V}, (a, [.var b]) ∈ g.rules → ∀ {γ : List (Sym V T)} {x : V} {i : Item V T},
      Viable g γ (x, i) → Reads i (.var a) →
      Viable g γ (a, ⟨[.var b], 0⟩) ∧ Reads (⟨[.var b], 0⟩ : Item V T) (.var b) := by
    intro a b hr γ x i hv hrd
    exact ⟨.expand hv hrd hr (fresh_plain (by simp)), [], [], rfl, rfl⟩
  induction h with
  | one hr =>
    intro γ x i hv hrd
    exact ⟨_, _, one hr hv hrd⟩
  | step hr _ ih =>
    intro γ x i hv hrd
    obtain ⟨h1, h2⟩ := one hr hv hrd
    exact ih h1 h2

variable [DecidableEq V] [DecidableEq T] [LawfulTerminalEq T] {c : Cfsm V T} {entry : Prop} {tbl : Table V T}

/-- If all variables can be reached, a variable that can be followed does not derive itself: there would be a conflict
with whatever lets it be followed. -/
theorem no_cycle (wf : WellFormed g) (ok : SlrOk g c entry tbl) (he : EpsFree g)
    (hreach : ∀ v β, (v, β) ∈ g.rules → Reachable g v) {t : T} {v : V} (ht : Fol g t v) : ¬ UnitChain g v v := by
  have hitem : ∀ {h : V} {pre post : List (Sym V T)}, (h, pre ++ post) ∈ g.rules →
      ∃ γ, Viable g γ (h, ⟨pre ++ post, pre.length⟩) := by
    intro h pre post hr
    obtain ⟨γ, hs⟩ := reachable_source he (hreach _ _ hr)
    have he' := he _ _ hr
    have h1 : Viable g γ (h, ⟨pre ++ post, 0⟩) := by
      rcases hs with ⟨rfl, rfl⟩ | ⟨h', i, hv, hrd⟩
      · exact .start hr (fresh_plain he')
      · exact .expand hv hrd hr (fresh_plain he')
    have h2 := viable_run h1 he' (α := pre) (pre := []) (post := post) rfl rfl
    exact ⟨_, by simpa using h2⟩
  -- behind `γ` and the variable there is an item of the end of the chain
  have hend : ∀ {v : V} {γ : List (Sym V T)} {x : V} {i : Item V T} {h' : V}, Viable g γ (x, i) → Reads i (.var v) →
      (h', [.var v]) ∈ g.rules → (v = h' ∨ UnitChain g v h') → Viable g (γ ++ [.var v]) (h', ⟨[.var v], 1⟩) := by
    intro v γ x i h' hv hrd hr hc
    have : ∃ x' i', Viable g γ (x', i') ∧ Reads i' (.var h') := by
      rcases hc with rfl | hc
      · exact ⟨x, i, hv, hrd⟩
      · exact hc.viable hv hrd
    obtain ⟨x', i', h1, h2⟩ := this
    exact .read (.expand h1 h2 hr (fresh_plain (by simp)))
      (advanced_plain (i := ⟨[.var v], 0⟩) (by simp) (pre := []) (post := []) rfl rfl)
  have hfol : ∀ {v h' : V}, (v = h' ∨ UnitChain g v h') → Fol g t v → Fol g t h' := by
    rintro v h' (rfl | hc) ht
    · exact ht
    · exact hc.fol ht
  have hrefl : keyEq (some t) (some t) = true := LawfulTerminalEq.refl t
  induction ht with
  | @here h v pre rest hr hs =>
    intro hc
    obtain ⟨h', hr', hc'⟩ := hc.last
    obtain ⟨γ, hv⟩ := hitem hr
    have hrd : Reads (⟨pre ++ .var v :: rest, pre.length⟩ : Item V T) (.var v) := ⟨pre, rest, rfl, rfl⟩
    have h1 := hend hv hrd hr' hc'
    have h2 := Viable.read hv (advanced_plain (he _ _ hr) rfl rfl)
    obtain ⟨x, i, h3, h4⟩ := viable_starts wf he hs (pre := pre ++ [.var v]) h2 (by simp) rfl
    have h5 : Fol g t h' := hfol hc' (.here hr hs)
    cases (ok.needs_unique (.shift h3 h4) (.reduce h1 rfl (inFollow_iff.2 h5)) hrefl).1
    exact reads_not_complete h4 rfl
  | @up h v pre rest hr hn ht ih =>
    intro hc
    obtain rfl : rest = [] := by
      cases rest with
      | nil => rfl
      | cons y rest =>
        refine absurd hn (not_nullable wf he (by simp) fun hm => he _ _ hr ?_)
        exact List.mem_append_right _ (List.mem_cons_of_mem _ hm)
    obtain ⟨h', hr', hc'⟩ := hc.last
    obtain ⟨γ, hv⟩ := hitem hr
    have hrd : Reads (⟨pre ++ [.var v], pre.length⟩ : Item V T) (.var v) := ⟨pre, [], rfl, rfl⟩
    have h1 := hend hv hrd hr' hc'
    have h2 := Viable.read hv (advanced_plain (he _ _ hr) rfl rfl)
    have h5 : Fol g t h' := hfol hc' (.up hr hn ht)
    have h6 := (ok.needs_unique (.reduce h2 (by simp [Complete]) (inFollow_iff.2 ht))
      (.reduce h1 rfl (inFollow_iff.2 h5)) hrefl).1
    have h7 : h = h' := congrArg Prod.fst h6
    subst h7
    rcases hc' with rfl | hc'
    · exact ih hc
    · exact ih (.step hr' hc')

/-- Then the parser stops. -/
theorem parse_stops (wf : WellFormed g) (ok : SlrOk g c entry tbl) (he : EpsFree g)
    (hreach : ∀ v β, (v, β) ∈ g.rules → Reachable g v) {w : List T} {n : Nat} {fin : InputEnd} (hfin : fin ≠ .diverge)
    (hn : (2 * w.length + 1) * (g.rules.length + 2) < n) : parseTokens tbl n w fin ≠ .diverge := by
  obtain ⟨k, γ, ns, w', h1, ⟨rfl, _⟩ | ⟨_, h2⟩⟩ := parseTokens_runs ok (fin := fin) (n := n) (w := w)
  · have := potential_start (g := g) w
    obtain ⟨m, z, _, _, v, _, _, t, _, _, _, _, h3, _, _, h4, _⟩ := h1.spins wf he (by omega)
    exact absurd h3 (no_cycle wf ok he hreach h4)
  · intro h
    rw [h] at h2
    cases h2 with
    | panic _ _ h3 => cases h3
    | diverge _ h3 _ => exact hfin h3
    | last _ _ _ hr => cases hr

omit [DecidableEq V] [DecidableEq T] [LawfulTerminalEq T] in
/-- A chain makes larger trees. -/
theorem _root_.Pango.Spec.UnitChain.forest {a b : V} (h : UnitChain g a b) : ∀ {n : Node V T} {w : List T}, Forest g [.var b] [n] w →
    ∃ m, Forest g [.var a] [m] w ∧ sizeOf n < sizeOf m := by
  have one : ∀ {a b : V}, (a, [.var b]) ∈ g.rules → ∀ {n : Node V T} {w : List T}, Forest g [.var b] [n] w →
      ∃ m, Forest g [.var a] [m] w ∧ sizeOf n < sizeOf m := by
    intro a b hr n w hf
    have := Forest.var hr hf .nil
    refine ⟨.mk (.var a) [n], by simpa using this, ?_⟩
    simp only [Node.mk.sizeOf_spec, List.cons.sizeOf_spec]
    omega
  induction h with
  | one hr => exact one hr
  | step hr _ ih =>
    intro n w hf
    obtain ⟨m, h1, h2⟩ := ih hf
    obtain ⟨m', h3, h4⟩ := one hr h1
    exact ⟨m', h3, by omega⟩

end Pango.Parse
