import Verif.Spec.ShiftReduce
import Verif.Proofs.Verdict

/-!
# The parser does what the SLR(1) machine does
-/

namespace Pango.Parse

open Pango Pango.Spec

variable {V T : Type} [TerminalEq T] {g : Grammar V T} {entry : Prop}

/-- The same as the steps of `Verif.Proofs.Parse`. -/
theorem shiftReduce_iff {x y : Config V T} :
    ShiftReduce g x y ↔ Move g ⟨x.syms, x.trees, x.input⟩ ⟨y.syms, y.trees, y.input⟩ := by
  constructor
  · intro h
    cases h with
    | shift h1 h2 h3 => exact .shift h1 h2 h3
    | reduce h1 h2 h3 h4 h5 h6 h7 => exact .reduce h1 h2 (inFollow_iff.1 h3) h4 h5 h6 h7
  · intro h
    obtain ⟨a, b, d⟩ := x
    obtain ⟨a', b', d'⟩ := y
    generalize hx : (⟨a, b, d⟩ : Conf V T) = x at h
    generalize hy : (⟨a', b', d'⟩ : Conf V T) = y at h
    cases h with
    | shift h1 h2 h3 =>
      cases hx
      cases hy
      exact .shift h1 h2 h3
    | @reduce _ _ _ _ _ _ _ _ q h1 h2 h3 h4 h5 h6 h7 =>
      cases hx
      cases hy
      obtain ⟨h', i'⟩ := q
      exact .reduce h1 h2 (inFollow_iff.2 h3) h4 h5 h6 h7

theorem shiftReduces_iff {k : Nat} {x y : Config V T} :
    ShiftReduces g k x y ↔ Moves g k ⟨x.syms, x.trees, x.input⟩ ⟨y.syms, y.trees, y.input⟩ := by
  constructor
  · intro h
    induction h with
    | refl => exact .refl
    | step h1 _ ih => exact .step (shiftReduce_iff.1 h1) ih
  · intro h
    generalize hx : (⟨x.syms, x.trees, x.input⟩ : Conf V T) = x' at h
    generalize hy : (⟨y.syms, y.trees, y.input⟩ : Conf V T) = y' at h
    induction h generalizing x with
    | refl =>
      obtain ⟨a, b, d⟩ := x
      obtain ⟨a', b', d'⟩ := y
      subst hx
      cases hy
      exact .refl
    | @step k _ z _ h1 _ ih =>
      subst hx
      exact .step (y := ⟨z.syms, z.nodes, z.input⟩) (shiftReduce_iff.2 h1) (ih rfl hy)

/-- What the parser may return where the machine stops. -/
inductive Gives : Halt V T → Outcome (Option (Node V T)) → Prop
  | tree {n : Node V T} : Gives (.tree n) (.ok (some n))
  | error : Gives .error (.ok none)
  | panic : Gives .error .panic
  | underflow : Gives .underflow .panic

/-- Items that ask for the same are the same. -/
def Unique (g : Grammar V T) (entry : Prop) : Prop :=
  ∀ (γ : List (Sym V T)) (p p' : V × Item V T) (k k' : Option T), Needs g entry γ p k → Needs g entry γ p' k' →
    keyEq k k' = true → p = p' ∧ k = k'

section

variable [LawfulTerminalEq T]

theorem _root_.Pango.Spec.Halts.unique (hu : Unique g entry) {x : Config V T} {s s' : Halt V T}
    (h : Halts g entry x s) (h' : Halts g entry x s') : s = s' := by
  have hkey : ∀ {t t' u : T}, teq t u = true → teq t' u = true → keyEq (some t) (some t') = true :=
    fun h1 h2 => LawfulTerminalEq.trans _ _ _ h1 (LawfulTerminalEq.symm _ _ h2)
  have hno : ∀ {γ : List (Sym V T)} {u : T} {w : List T} {h : V} {i : Item V T} {t : T},
      (∀ p k, Needs g entry γ p k → keyEq k (u :: w).head? = false) → Viable g γ (h, i) → Complete i →
      InFollow g h (.term t) → teq t u = true → False := by
    intro γ u w h i t h1 h2 h3 h4 h5
    have := h1 _ _ (.reduce h2 h3 h4)
    simp only [List.head?_cons, keyEq, h5] at this
    cases this
  have hno' : ∀ {γ : List (Sym V T)} {i : Item V T},
      (∀ p k, Needs g entry γ p k → keyEq k ([] : List T).head? = false) → Viable g γ (g.start, i) → Complete i →
      entry → False := by
    intro γ i h1 h2 h3 h4
    have := h1 _ _ (.accept h2 h3 h4)
    simp [keyEq] at this
  cases h with
  | noAction h1 =>
    generalize hx : (⟨_, _, _⟩ : Config V T) = x at h'
    cases h' with
    | noAction _ => rfl
    | noGoto _ _ _ _ _ _ => rfl
    | accept h2 h3 h4 _ => cases hx; exact (hno' h1 h2 h3 h4).elim
    | reduceUnder h2 h3 h4 h5 _ => cases hx; exact (hno h1 h2 h3 h4 h5).elim
    | acceptUnder h2 h3 h4 _ => cases hx; exact (hno' h1 h2 h3 h4).elim
  | noGoto h1 h2 h3 h4 h5 h6 =>
    generalize hx : (⟨_, _, _⟩ : Config V T) = x at h'
    cases h' with
    | noAction _ => rfl
    | noGoto _ _ _ _ _ _ => rfl
    | accept _ _ _ _ => cases hx
    | reduceUnder h7 h8 h9 h10 h11 =>
      cases hx
      cases (hu _ _ _ _ _ (.reduce h1 h2 h3) (.reduce h7 h8 h9) (hkey h4 h10)).1
      simp only [List.length_append] at h11
      omega
    | acceptUnder _ _ _ _ => cases hx
  | accept h1 h2 h3 h4 =>
    generalize hx : (⟨_, _, _⟩ : Config V T) = x at h'
    cases h' with
    | noAction h5 => cases hx; exact (hno' h5 h1 h2 h3).elim
    | noGoto _ _ _ _ _ _ => cases hx
    | accept h5 h6 h7 _ =>
      cases hx
      cases (hu _ _ _ _ _ (.accept h1 h2 h3) (.accept h5 h6 h7) rfl).1
      rfl
    | reduceUnder _ _ _ _ _ => cases hx
    | acceptUnder h5 h6 h7 h8 =>
      cases hx
      cases (hu _ _ _ _ _ (.accept h1 h2 h3) (.accept h5 h6 h7) rfl).1
      omega
  | reduceUnder h1 h2 h3 h4 h5 =>
    generalize hx : (⟨_, _, _⟩ : Config V T) = x at h'
    cases h' with
    | noAction h6 => cases hx; exact (hno h6 h1 h2 h3 h4).elim
    | noGoto h7 h8 h9 h10 h11 h12 =>
      cases hx
      cases (hu _ _ _ _ _ (.reduce h1 h2 h3) (.reduce h7 h8 h9) (hkey h4 h10)).1
      simp only [List.length_append] at h5
      omega
    | accept _ _ _ _ => cases hx
    | reduceUnder _ _ _ _ _ => rfl
    | acceptUnder _ _ _ _ => cases hx
  | acceptUnder h1 h2 h3 h4 =>
    generalize hx : (⟨_, _, _⟩ : Config V T) = x at h'
    cases h' with
    | noAction h5 => cases hx; exact (hno' h5 h1 h2 h3).elim
    | noGoto _ _ _ _ _ _ => cases hx
    | accept h5 h6 h7 h8 =>
      cases hx
      cases (hu _ _ _ _ _ (.accept h1 h2 h3) (.accept h5 h6 h7) rfl).1
      omega
    | reduceUnder _ _ _ _ _ => cases hx
    | acceptUnder _ _ _ _ => rfl

theorem _root_.Pango.Spec.Halts.stuck (hu : Unique g entry) {x y : Config V T} {s : Halt V T} (h : Halts g entry x s)
    (hm : ShiftReduce g x y) : False := by
  have hkey : ∀ {t t' u : T}, teq t u = true → teq t' u = true → keyEq (some t) (some t') = true :=
    fun h1 h2 => LawfulTerminalEq.trans _ _ _ h1 (LawfulTerminalEq.symm _ _ h2)
  cases hm with
  | shift h1 h2 h3 =>
    generalize hx : (⟨_, _, _⟩ : Config V T) = x at h
    cases h with
    | noAction h4 =>
      cases hx
      have := h4 _ _ (.shift h1 h2)
      simp only [List.head?_cons, keyEq, h3] at this
      cases this
    | noGoto h4 h5 h6 h7 _ _ =>
      cases hx
      cases (hu _ _ _ _ _ (.shift h1 h2) (.reduce h4 h5 h6) (hkey h3 h7)).1
      exact reads_not_complete h2 h5
    | accept _ _ _ _ => cases hx
    | reduceUnder h4 h5 h6 h7 _ =>
      cases hx
      cases (hu _ _ _ _ _ (.shift h1 h2) (.reduce h4 h5 h6) (hkey h3 h7)).1
      exact reads_not_complete h2 h5
    | acceptUnder _ _ _ _ => cases hx
  | reduce h1 h2 h3 h4 h5 h6 h7 =>
    generalize hx : (⟨_, _, _⟩ : Config V T) = x at h
    cases h with
    | noAction h8 =>
      cases hx
      have := h8 _ _ (.reduce h1 h2 h3)
      simp only [List.head?_cons, keyEq, h4] at this
      cases this
    | noGoto h8 h9 h10 h11 h12 h13 =>
      simp only [Config.mk.injEq, List.cons.injEq] at hx
      obtain ⟨hx1, rfl, rfl, rfl⟩ := hx
      rw [← hx1] at h8
      cases (hu _ _ _ _ _ (.reduce h1 h2 h3) (.reduce h8 h9 h10) (hkey h4 h11)).1
      obtain ⟨rfl, _⟩ := List.append_inj' hx1 (by omega)
      exact h13 _ h6 h7
    | accept _ _ _ _ => cases hx
    | reduceUnder h8 h9 h10 h11 h12 =>
      cases hx
      cases (hu _ _ _ _ _ (.reduce h1 h2 h3) (.reduce h8 h9 h10) (hkey h4 h11)).1
      simp only [List.length_append] at h12
      omega
    | acceptUnder _ _ _ _ => cases hx

end

variable [DecidableEq V] [DecidableEq T] {c : Cfsm V T} {tbl : Table V T} {γ : List (Sym V T)}
  {ns : List (Node V T)} {w : List T}

theorem Ends.halts {fin : InputEnd} {res : Outcome (Option (Node V T))}
    (h : Ends g c entry tbl (bottomNode g) fin γ ns w res) :
    (∃ s, Halts g entry ⟨γ, ns, w⟩ s ∧ Gives s res ∧ (w = [] → fin = .ok ())) ∨
      (w = [] ∧ fin = .panic ∧ res = .panic) ∨ w = [] ∧ fin = .diverge ∧ res = .diverge := by
  cases h with
  | panic h1 h2 h3 => exact .inr (.inl ⟨h1, h2, h3⟩)
  | diverge h1 h2 h3 => exact .inr (.inr ⟨h1, h2, h3⟩)
  | last _ hfin hd hr =>
    suffices ∃ s, Halts g entry ⟨γ, ns, w⟩ s ∧ Gives s res by
      obtain ⟨s, h1, h2⟩ := this
      exact .inl ⟨s, h1, h2, hfin⟩
    generalize hk : w.head? = key at hd
    have hcons : ∀ {u : T}, w.head? = some u → ∃ w', w = u :: w' := by
      intro u hu
      cases w with
      | nil => cases hu
      | cons a w' => cases hu; exact ⟨w', rfl⟩
    have hnil : w.head? = none → w = [] := by
      intro hu
      cases w with
      | nil => rfl
      | cons a w' => cases hu
    cases hd with
    | noRow _ h1 => cases hr; exact ⟨_, .noAction (hk ▸ h1), .panic⟩
    | error _ h1 => cases hr; exact ⟨_, .noAction (hk ▸ h1), .error⟩
    | shift _ _ _ _ => cases hr
    | reduce _ _ _ _ _ _ _ _ _ => cases hr
    | noGoto h1 h2 h3 h4 h5 h6 _ h7 h8 =>
      obtain ⟨w', rfl⟩ := hcons hk
      subst h5
      refine ⟨_, .noGoto h1 h2 (inFollow_iff.2 h3) h4 h6 h7, ?_⟩
      rcases h8 with ⟨rfl, _⟩ | ⟨rfl, _⟩ <;> cases hr
      · exact .error
      · exact .panic
    | under h1 h2 h3 h4 h5 =>
      obtain ⟨w', rfl⟩ := hcons hk
      cases hr
      exact ⟨_, .reduceUnder h1 h2 (inFollow_iff.2 h3) h4 h5, .underflow⟩
    | accept h1 h2 h3 h4 =>
      obtain rfl := hnil hk
      cases hr
      exact ⟨_, .accept h1 h2 h3 h4, .tree⟩
    | acceptUnder h1 h2 h3 h4 =>
      obtain rfl := hnil hk
      cases hr
      exact ⟨_, .acceptUnder h1 h2 h3 h4, .underflow⟩

variable [LawfulTerminalEq T]

/-- What the parser returns, in terms of the machine. -/
theorem parse_run (ok : SlrOk g c entry tbl) (fuel : Nat) (w : List T) :
    (parseTokens tbl fuel w = .diverge ∧ ∃ x, ShiftReduces g fuel (.start w) x) ∨
    ∃ k < fuel, ∃ s, MachineRun g entry w k s ∧ Gives s (parseTokens tbl fuel w) := by
  obtain ⟨k, γ, ns, w', h1, ⟨rfl, h2⟩ | ⟨hk, h2⟩⟩ := parseTokens_runs ok (fin := .ok ()) (n := fuel) (w := w)
  · exact .inl ⟨h2, ⟨γ, ns, w'⟩, shiftReduces_iff.2 h1⟩
  · obtain ⟨s, h3, h4, _⟩ | ⟨_, h3, _⟩ | ⟨_, h3, _⟩ := h2.halts
    · exact .inr ⟨k, hk, s, ⟨⟨γ, ns, w'⟩, shiftReduces_iff.2 h1, h3⟩, h4⟩
    · cases h3
    · cases h3

theorem SlrOk.uniq (ok : SlrOk g c entry tbl) : Unique g entry :=
  fun _ _ _ _ _ h h' hk => ok.needs_unique h h' hk

theorem ShiftReduce.det (ok : SlrOk g c entry tbl) {x y y' : Config V T} (h : ShiftReduce g x y)
    (h' : ShiftReduce g x y') : y = y' := by
  have := Move.det ok (shiftReduce_iff.1 h) (shiftReduce_iff.1 h')
  obtain ⟨a, b, d⟩ := y
  obtain ⟨a', b', d'⟩ := y'
  cases this
  rfl

/-- A run that stops is the only one. -/
theorem ShiftReduces.stops (ok : SlrOk g c entry tbl) {k k' : Nat} {x y y' : Config V T} {s : Halt V T}
    (h : ShiftReduces g k x y) (hs : Halts g entry y s) (h' : ShiftReduces g k' x y') :
    k' ≤ k ∧ (k' = k → y' = y) := by
  induction h generalizing k' with
  | refl =>
    cases h' with
    | refl => exact ⟨Nat.le_refl _, fun _ => rfl⟩
    | step h1 _ => exact (hs.stuck ok.uniq h1).elim
  | @step k x y1 z h1 h2 ih =>
    cases h' with
    | refl => exact ⟨by omega, by omega⟩
    | step h3 h4 =>
      cases ShiftReduce.det ok h1 h3
      obtain ⟨h5, h6⟩ := ih hs h4
      exact ⟨by omega, fun h => h6 (by omega)⟩

theorem MachineRun.unique (ok : SlrOk g c entry tbl) {k k' : Nat} {s s' : Halt V T} (h : MachineRun g entry w k s)
    (h' : MachineRun g entry w k' s') : k = k' ∧ s = s' := by
  obtain ⟨x, h1, h2⟩ := h
  obtain ⟨x', h1', h2'⟩ := h'
  obtain ⟨h3, h4⟩ := ShiftReduces.stops ok h1 h2 h1'
  obtain ⟨h5, _⟩ := ShiftReduces.stops ok h1' h2' h1
  obtain rfl : k' = k := by omega
  cases h4 rfl
  exact ⟨rfl, h2.unique ok.uniq h2'⟩

theorem MachineRun.gives (ok : SlrOk g c entry tbl) {k fuel : Nat} {s : Halt V T} (h : MachineRun g entry w k s) (hk : k < fuel) :
    Gives s (parseTokens tbl fuel w) := by
  rcases parse_run ok fuel w with ⟨_, x, h1⟩ | ⟨k', _, s', h1, h2⟩
  · obtain ⟨y, h2, h3⟩ := h
    have := (ShiftReduces.stops ok h2 h3 h1).1
    omega
  · rw [(MachineRun.unique ok h h1).2]
    exact h2

theorem MachineRun.not_steps (ok : SlrOk g c entry tbl) {k n : Nat} {s : Halt V T} {x : Config V T} (h : MachineRun g entry w k s)
    (h' : ShiftReduces g n (.start w) x) : n ≤ k := by
  obtain ⟨y, h2, h3⟩ := h
  exact (ShiftReduces.stops ok h2 h3 h').1

end Pango.Parse
