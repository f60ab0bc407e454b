import Verif.Proofs.Sentence

/-!
# What the parser forgets

What the parser does depends on its stack, but only on a bounded part of it as long as the stack does not get smaller.
So there are different beginnings that it treats alike.
-/

namespace Pango.Parse

open Pango Pango.Spec

variable {V T : Type} [TerminalEq T] {g : Grammar V T}

/-! ## The symbols on the stack -/

/-- A reduction in front of a token. -/
inductive Redu (g : Grammar V T) (u : T) : List (Sym V T) → List (Sym V T) → Prop
  | mk {σ ρ : List (Sym V T)} {h : V} {i : Item V T} {t : T} {q : V × Item V T} : Viable g (σ ++ ρ) (h, i) →
      Complete i → Fol g t h → teq t u = true → ρ.length = i.body.length → Viable g σ q → Reads q.2 (.var h) →
      Redu g u (σ ++ ρ) (σ ++ [.var h])

/-- Reductions, and then the token is shifted. -/
inductive Takes (g : Grammar V T) (u : T) : List (Sym V T) → List (Sym V T) → Prop
  | shift {γ : List (Sym V T)} {h : V} {i : Item V T} {t : T} : Viable g γ (h, i) → Reads i (.term t) →
      teq t u = true → Takes g u γ (γ ++ [.term t])
  | reduce {γ γ1 γ2 : List (Sym V T)} : Redu g u γ γ1 → Takes g u γ1 γ2 → Takes g u γ γ2

/-- Some tokens are read. -/
def Path (g : Grammar V T) : List (Sym V T) → List T → List (Sym V T) → Prop
  | γ, [], γ' => γ' = γ
  | γ, u :: w, γ' => ∃ γ1, Takes g u γ γ1 ∧ Path g γ1 w γ'

theorem path_append {γ γ' : List (Sym V T)} {w z : List T} :
    Path g γ (w ++ z) γ' ↔ ∃ γ1, Path g γ w γ1 ∧ Path g γ1 z γ' := by
  induction w generalizing γ with
  | nil =>
    constructor
    · exact fun h => ⟨γ, rfl, h⟩
    · rintro ⟨_, rfl, h⟩
      exact h
  | cons u w ih =>
    constructor
    · rintro ⟨γ1, h1, h2⟩
      obtain ⟨γ2, h3, h4⟩ := ih.1 h2
      exact ⟨γ2, ⟨γ1, h1, h3⟩, h4⟩
    · rintro ⟨γ2, ⟨γ1, h1, h3⟩, h4⟩
      exact ⟨γ1, h1, ih.2 ⟨γ2, h3, h4⟩⟩

theorem path_one {γ γ' : List (Sym V T)} {u : T} : Path g γ [u] γ' ↔ Takes g u γ γ' := by
  constructor
  · rintro ⟨γ1, h, rfl⟩
    exact h
  · exact fun h => ⟨γ', h, rfl⟩

theorem Moves.path {k : Nat} {x y : Conf V T} (h : Moves g k x y) (hy : y.input = []) :
    Path g x.syms x.input y.syms := by
  induction h with
  | @refl x =>
    rw [hy]
    rfl
  | step h1 _ ih =>
    have := ih hy
    cases h1 with
    | shift h1 h2 h3 => exact ⟨_, .shift h1 h2 h3, this⟩
    | reduce h1 h2 h3 h4 h5 h6 h7 =>
      obtain ⟨γ1, h8, h9⟩ := this
      exact ⟨γ1, .reduce (.mk h1 h2 h3 h4 h5 h6 h7) h8, h9⟩

theorem Takes.moves {u : T} {γ γ' : List (Sym V T)} (h : Takes g u γ γ') (ns : List (Node V T)) (w : List T) :
    ∃ k ns', Moves g k ⟨γ, ns, u :: w⟩ ⟨γ', ns', w⟩ := by
  induction h generalizing ns with
  | shift h1 h2 h3 => exact ⟨_, _, .step (.shift h1 h2 h3) .refl⟩
  | reduce h1 _ ih =>
    cases h1 with
    | mk h1 h2 h3 h4 h5 h6 h7 =>
      obtain ⟨k, ns', h8⟩ := ih _
      exact ⟨_, _, .step (.reduce h1 h2 h3 h4 h5 h6 h7) h8⟩

theorem Path.moves {γ γ' : List (Sym V T)} {w : List T} (h : Path g γ w γ') (ns : List (Node V T)) (rest : List T) :
    ∃ k ns', Moves g k ⟨γ, ns, w ++ rest⟩ ⟨γ', ns', rest⟩ := by
  induction w generalizing γ ns with
  | nil =>
    cases h
    exact ⟨0, ns, .refl⟩
  | cons u w ih =>
    obtain ⟨γ1, h1, h2⟩ := h
    obtain ⟨k1, ns1, h3⟩ := h1.moves ns (w ++ rest)
    obtain ⟨k2, ns2, h4⟩ := ih h2 ns1
    exact ⟨_, ns2, h3.trans h4⟩

/-- The steps of the parser leave no choice. -/
def Det (g : Grammar V T) : Prop := ∀ x y y' : Conf V T, Move g x y → Move g x y' → y = y'

theorem Takes.det (hd : Det g) {u : T} {γ γ1 : List (Sym V T)} (h : Takes g u γ γ1) :
    ∀ {γ2}, Takes g u γ γ2 → γ1 = γ2 := by
  induction h with
  | shift h1 h2 h3 =>
    intro γ2 h
    have m1 := Move.shift (ns := []) (w := []) h1 h2 h3
    cases h with
    | shift k1 k2 k3 => exact congrArg Conf.syms (hd _ _ _ m1 (Move.shift (ns := []) (w := []) k1 k2 k3))
    | reduce k _ =>
      cases k with
      | mk k1 k2 k3 k4 k5 k6 k7 =>
        have := congrArg Conf.input (hd _ _ _ m1 (Move.reduce (ns := []) (w := []) k1 k2 k3 k4 k5 k6 k7))
        simp at this
  | reduce h1 _ ih =>
    intro γ2 h
    cases h1 with
    | @mk σ ρ _ _ _ _ h1 h2 h3 h4 h5 h6 h7 =>
      have m1 := Move.reduce (ns := []) (w := []) h1 h2 h3 h4 h5 h6 h7
      generalize hγ : σ ++ ρ = γ0 at h m1
      cases h with
      | shift k1 k2 k3 =>
        have := congrArg Conf.input (hd _ _ _ m1 (Move.shift (ns := []) (w := []) k1 k2 k3))
        simp at this
      | reduce k k' =>
        cases k with
        | mk k1 k2 k3 k4 k5 k6 k7 =>
          have := congrArg Conf.syms (hd _ _ _ m1 (Move.reduce (ns := []) (w := []) k1 k2 k3 k4 k5 k6 k7))
          simp only at this
          rw [← this] at k'
          exact ih k'

theorem Path.det (hd : Det g) {w : List T} {γ γ1 γ2 : List (Sym V T)} (h : Path g γ w γ1) (h' : Path g γ w γ2) :
    γ1 = γ2 := by
  induction w generalizing γ with
  | nil => exact h.trans h'.symm
  | cons u w ih =>
    obtain ⟨δ1, h1, h2⟩ := h
    obtain ⟨δ2, h3, h4⟩ := h'
    rw [h1.det hd h3] at h2
    exact ih h2 h4

/-! ## Heights -/

theorem Redu.height (wf : WellFormed g) {u : T} {γ γ' : List (Sym V T)} (h : Redu g u γ γ') : γ'.length ≤ γ.length := by
  cases h with
  | mk h1 h2 h3 h4 h5 h6 h7 =>
    have := List.length_pos_iff.2 (wf.nonempty _ _ (Viable_ok h1).rule)
    simp only [List.length_append, List.length_singleton]
    simp only at this
    omega

theorem Takes.height (wf : WellFormed g) {u : T} {γ γ' : List (Sym V T)} (h : Takes g u γ γ') :
    γ'.length ≤ γ.length + 1 := by
  induction h with
  | shift => simp
  | reduce h1 _ ih => exact Nat.le_trans ih (by have := h1.height wf; omega)

/-! ## Alike below -/

/-- The same items can be read behind both. -/
def Alike (g : Grammar V T) (P P' : List (Sym V T)) : Prop := ∀ p, Viable g P p ↔ Viable g P' p

omit [TerminalEq T] in
private theorem Alike.one {P P' : List (Sym V T)} (h : Alike g P P') (x : Sym V T) {γ : List (Sym V T)}
    {p : V × Item V T} (hv : Viable g γ p) : γ = P ++ [x] → Viable g (P' ++ [x]) p := by
  induction hv with
  | start => intro hγ; simp at hγ
  | expand _ h2 h3 h4 ih => exact fun hγ => .expand (ih hγ) h2 h3 h4
  | read h1 h2 _ =>
    intro hγ
    obtain ⟨rfl, h3⟩ := List.append_inj' hγ rfl
    cases h3
    exact .read ((h _).1 h1) h2

omit [TerminalEq T] in
theorem Alike.symm {P P' : List (Sym V T)} (h : Alike g P P') : Alike g P' P := fun p => (h p).symm

omit [TerminalEq T] in
theorem Alike.append {P P' : List (Sym V T)} (h : Alike g P P') (δ : List (Sym V T)) : Alike g (P ++ δ) (P' ++ δ) := by
  induction δ generalizing P P' with
  | nil => simpa using h
  | cons x δ ih =>
    have := ih (P := P ++ [x]) (P' := P' ++ [x]) fun p => ⟨fun hv => h.one x hv rfl, fun hv => h.symm.one x hv rfl⟩
    simpa using this

theorem Takes.keeps (wf : WellFormed g) {P P' : List (Sym V T)} (hs : Alike g P P') {u : T}
    {γ γ' : List (Sym V T)} (h : Takes g u γ γ') :
    ∀ {δ}, γ = P ++ δ → P.length ≤ γ'.length - 2 → ∃ δ', γ' = P ++ δ' ∧ Takes g u (P' ++ δ) (P' ++ δ') := by
  induction h with
  | @shift γ h i t h1 h2 h3 =>
    rintro δ rfl _
    refine ⟨δ ++ [.term t], by simp, ?_⟩
    rw [← List.append_assoc]
    exact .shift ((hs.append δ _).1 h1) h2 h3
  | @reduce γ γ1 γ2 h1 h2 ih =>
    intro δ hγ hle
    cases h1 with
    | @mk σ ρ h i t q h1 h3 h4 h5 h6 h7 h8 =>
      have := h2.height wf
      simp only [List.length_append, List.length_singleton] at this
      rcases List.append_eq_append_iff.1 hγ with ⟨a, rfl, rfl⟩ | ⟨a, rfl, rfl⟩
      · simp only [List.length_append] at hle
        obtain rfl : a = [] := List.length_eq_zero_iff.1 (by omega)
        simp only [List.append_nil, List.nil_append] at *
        obtain ⟨δ', h9, h10⟩ := ih rfl hle
        exact ⟨δ', h9, .reduce (.mk ((hs.append δ _).1 h1) h3 h4 h5 h6 ((hs _).1 h7) h8) h10⟩
      · obtain ⟨δ', h9, h10⟩ := ih (δ := a ++ [.var h]) (by simp) hle
        refine ⟨δ', h9, .reduce ?_ h10⟩
        have h11 := (hs.append (a ++ ρ) _).1 (by simpa using h1)
        rw [← List.append_assoc] at h11 ⊢
        rw [← List.append_assoc]
        exact .mk h11 h3 h4 h5 h6 ((hs.append a _).1 h7) h8

/-- With `j` symbols less and the variable instead, the token can be read. -/
def Fin (g : Grammar V T) (e : T) (P : List (Sym V T)) (j : Nat) (h : V) : Prop :=
  j ≤ P.length ∧ (∃ q, Viable g (P.take (P.length - j)) q ∧ Reads q.2 (.var h)) ∧
    ∃ γ', Takes g e (P.take (P.length - j) ++ [.var h]) γ'

theorem Takes.ends {P P' : List (Sym V T)} (hs : Alike g P P') {e : T}
    (hF : ∀ j h β, (h, β) ∈ g.rules → j ≤ β.length → Fin g e P j h → Fin g e P' j h)
    {γ γ' : List (Sym V T)} (h : Takes g e γ γ') :
    ∀ {δ}, γ = P ++ δ → ∃ γ'', Takes g e (P' ++ δ) γ'' := by
  induction h with
  | @shift γ h i t h1 h2 h3 =>
    rintro δ rfl
    exact ⟨_, .shift ((hs.append δ _).1 h1) h2 h3⟩
  | @reduce γ γ1 γ2 h1 h2 ih =>
    intro δ hγ
    cases h1 with
    | @mk σ ρ h i t q h1 h3 h4 h5 h6 h7 h8 =>
      rcases List.append_eq_append_iff.1 hγ with ⟨a, rfl, rfl⟩ | ⟨a, rfl, rfl⟩
      · simp only [List.length_append] at h6
        have hr := (Viable_ok h1).rule
        have hσ : (σ ++ a).take ((σ ++ a).length - a.length) = σ := by simp
        obtain ⟨k1, ⟨q', k2, k3⟩, γ', k4⟩ := hF a.length h _ hr (by simp only; omega) ⟨by simp, ⟨q, by rw [hσ]; exact h7, h8⟩,
          γ2, by rw [hσ]; exact h2⟩
        refine ⟨γ', .reduce ?_ k4⟩
        have h11 := (hs.append δ _).1 (by simpa using h1)
        rw [show P' ++ δ = P'.take (P'.length - a.length) ++ (P'.drop (P'.length - a.length) ++ δ) by
          rw [← List.append_assoc, List.take_append_drop]] at h11 ⊢
        refine .mk h11 h3 h4 h5 ?_ k2 k3
        simp only [List.length_append, List.length_drop]
        omega
      · obtain ⟨γ'', h10⟩ := ih (δ := a ++ [.var h]) (by simp)
        refine ⟨γ'', .reduce ?_ h10⟩
        have h11 := (hs.append (a ++ ρ) _).1 (by simpa using h1)
        rw [← List.append_assoc] at h11 ⊢
        rw [← List.append_assoc]
        exact .mk h11 h3 h4 h5 h6 ((hs.append a _).1 h7) h8

/-! ## Low stacks -/

variable {A : T → Prop}

/-- The stack does not get smaller. -/
def Low (g : Grammar V T) (A : T → Prop) (γ : List (Sym V T)) : Prop :=
  ∀ z γ', (∀ t ∈ z, A t) → Path g γ z γ' → γ.length ≤ γ'.length

theorem exists_low (n : Nat) : ∀ γ : List (Sym V T), γ.length ≤ n →
    ∃ z γ', (∀ t ∈ z, A t) ∧ Path g γ z γ' ∧ Low g A γ' := by
  induction n with
  | zero => exact fun γ h => ⟨[], γ, by simp, rfl, fun z γ' _ _ => by omega⟩
  | succ n ih =>
    intro γ hγ
    by_cases hl : Low g A γ
    · exact ⟨[], γ, by simp, rfl, hl⟩
    · obtain ⟨z, h1⟩ := Classical.not_forall.1 hl
      obtain ⟨γ1, h2⟩ := Classical.not_forall.1 h1
      obtain ⟨h3, h4⟩ := Classical.not_imp.1 h2
      obtain ⟨h5, h6⟩ := Classical.not_imp.1 h4
      obtain ⟨z', γ', h7, h8, h9⟩ := ih γ1 (by omega)
      refine ⟨z ++ z', γ', fun t ht => ?_, path_append.2 ⟨γ1, h5, h8⟩, h9⟩
      rcases List.mem_append.1 ht with ht | ht
      · exact h3 t ht
      · exact h7 t ht

theorem path_alike (wf : WellFormed g) (hd : Det g) {P P' : List (Sym V T)} (hs : Alike g P P') (z : List T) :
    ∀ τ, (∀ t ∈ z, A t) → (∀ z γ', (∀ t ∈ z, A t) → Path g (P ++ τ) z γ' → P.length ≤ γ'.length - 2) →
      (∀ z, (∀ t ∈ z, A t) → ∃ γ', Path g (P ++ τ) z γ') →
      ∃ δ, Path g (P ++ τ) z (P ++ δ) ∧ Path g (P' ++ τ) z (P' ++ δ) := by
  induction z with
  | nil => exact fun τ _ _ _ => ⟨τ, rfl, rfl⟩
  | cons c z ih =>
    intro τ hz hlow hall
    obtain ⟨hc, hz⟩ := List.forall_mem_cons.1 hz
    obtain ⟨γ1, h1⟩ := hall [c] (by simpa using hc)
    have h2 := path_one.1 h1
    obtain ⟨δ, rfl, h3⟩ := h2.keeps wf hs rfl (hlow [c] _ (by simpa using hc) h1)
    obtain ⟨δ', h4, h5⟩ := ih δ hz
      (fun z γ' hz hp => hlow (c :: z) γ' (List.forall_mem_cons.2 ⟨hc, hz⟩) ⟨_, h2, hp⟩) (by
        intro z hz
        obtain ⟨γ', γ1, h4, h5⟩ := hall (c :: z) (List.forall_mem_cons.2 ⟨hc, hz⟩)
        rw [h4.det hd h2] at h5
        exact ⟨γ', h5⟩)
    exact ⟨δ', ⟨_, h2, h4⟩, ⟨_, h3, h5⟩⟩

/-! ## Two that give the same answers -/

theorem agree {X : Type} (Q : List (X → Prop)) : ∀ l : List X, l.Nodup → 2 ^ Q.length < l.length →
    ∃ x ∈ l, ∃ y ∈ l, x ≠ y ∧ ∀ q ∈ Q, q x ↔ q y := by
  induction Q with
  | nil =>
    intro l hl hlen
    match l with
    | [] | [_] => simp at hlen
    | x :: y :: l => exact ⟨x, by simp, y, by simp, by rintro rfl; simp at hl, by simp⟩
  | cons q Q ih =>
    classical
    intro l hl hlen
    have hsum := List.length_eq_countP_add_countP (fun x => decide (q x)) (l := l)
    rw [List.countP_eq_length_filter, List.countP_eq_length_filter] at hsum
    rw [List.length_cons, Nat.pow_succ] at hlen
    have : 2 ^ Q.length < (l.filter fun x => decide (q x)).length ∨
        2 ^ Q.length < (l.filter fun x => decide ¬decide (q x) = true).length := by omega
    rcases this with h | h
    · obtain ⟨x, hx, y, hy, hne, h1⟩ := ih _ (hl.filter _) h
      have hx' := List.mem_filter.1 hx
      have hy' := List.mem_filter.1 hy
      refine ⟨x, hx'.1, y, hy'.1, hne, fun r hr => ?_⟩
      rcases List.mem_cons.1 hr with rfl | hr
      · simp only [decide_eq_true_eq] at hx' hy'
        exact ⟨fun _ => hy'.2, fun _ => hx'.2⟩
      · exact h1 r hr
    · obtain ⟨x, hx, y, hy, hne, h1⟩ := ih _ (hl.filter _) h
      have hx' := List.mem_filter.1 hx
      have hy' := List.mem_filter.1 hy
      refine ⟨x, hx'.1, y, hy'.1, hne, fun r hr => ?_⟩
      rcases List.mem_cons.1 hr with rfl | hr
      · simp only [decide_eq_true_eq] at hx' hy'
        exact ⟨fun h => absurd h hx'.2, fun h => absurd h hy'.2⟩
      · exact h1 r hr

/-- All symbols in the rules. -/
def allSyms (g : Grammar V T) : List (Sym V T) := g.rules.flatMap (·.2)

omit [TerminalEq T] in
theorem viable_syms {γ : List (Sym V T)} {p : V × Item V T} (h : Viable g γ p) : ∀ x ∈ γ, x ∈ allSyms g := by
  induction h with
  | start => simp
  | expand _ _ _ _ ih => exact ih
  | @read γ h i j x h1 h2 ih =>
    intro y hy
    rcases List.mem_append.1 hy with hy | hy
    · exact ih y hy
    · obtain rfl := List.mem_singleton.1 hy
      obtain ⟨_, pre, k, rest, h3, _⟩ := h2
      exact List.mem_flatMap.2 ⟨_, (Viable_ok h1).rule, by simp [h3]⟩

theorem Takes.viable {u : T} {γ γ' : List (Sym V T)} (h : Takes g u γ γ') : ∃ p, Viable g γ' p := by
  induction h with
  | shift h1 h2 _ => exact ⟨_, .read h1 (advanced_iff.2 ⟨reads_iff.1 h2, rfl⟩)⟩
  | reduce _ _ ih => exact ih

theorem path_syms {w : List T} : ∀ {γ γ' : List (Sym V T)}, (∀ x ∈ γ, x ∈ allSyms g) → Path g γ w γ' →
    ∀ x ∈ γ', x ∈ allSyms g := by
  induction w with
  | nil =>
    rintro γ _ h rfl
    exact h
  | cons u w ih =>
    rintro γ γ' _ ⟨γ1, h1, h2⟩
    obtain ⟨p, h3⟩ := h1.viable
    exact ih (viable_syms h3) h2

/-- A beginning, and the stack behind it, whose two topmost symbols are kept apart. -/
structure Seen (V T : Type) where
  word : List T
  below : List (Sym V T)
  top : List (Sym V T)

/-- The stack will not get smaller. -/
structure Seen.Good (g : Grammar V T) (A : T → Prop) (x : Seen V T) : Prop where
  letters : ∀ t ∈ x.word, A t
  path : Path g [] x.word (x.below ++ x.top)
  low : Low g A (x.below ++ x.top)
  short : x.below.length = (x.below ++ x.top).length - 2

theorem exists_good (hall : ∀ w, (∀ t ∈ w, A t) → ∃ γ, Path g [] w γ) {a : T} (ha : A a) (n : Nat) :
    ∃ x : Seen V T, x.Good g A ∧ n ≤ x.word.length := by
  have h1 : ∀ t ∈ List.replicate n a, A t := by
    intro t ht
    rw [List.eq_of_mem_replicate ht]
    exact ha
  obtain ⟨γ, h2⟩ := hall _ h1
  obtain ⟨z, γ', h3, h4, h5⟩ := exists_low (g := g) (A := A) γ.length γ (Nat.le_refl _)
  refine ⟨⟨List.replicate n a ++ z, γ'.take (γ'.length - 2), γ'.drop (γ'.length - 2)⟩, ⟨?_, ?_, ?_, ?_⟩, by simp⟩
  · intro t ht
    rcases List.mem_append.1 ht with ht | ht
    · exact h1 t ht
    · exact h3 t ht
  · rw [List.take_append_drop]
    exact path_append.2 ⟨γ, h2, h4⟩
  · rw [List.take_append_drop]
    exact h5
  · rw [List.take_append_drop, List.length_take]
    omega

/-- The questions that tell the beginnings apart. -/
def questions (g : Grammar V T) (e : T) : List (Seen V T → Prop) :=
  (g.rules.flatMap fun r => (List.range (r.2.length + 1)).map fun c => fun x => Viable g x.below (r.1, ⟨r.2, c⟩)) ++
  (([] :: (allSyms g).flatMap fun s => [s] :: (allSyms g).map fun s' => [s, s']).map fun l => fun x => x.top = l) ++
  g.rules.flatMap fun r => (List.range (r.2.length + 1)).map fun j => fun x => Fin g e x.below j r.1

private theorem one_way (wf : WellFormed g) (hd : Det g) (hall : ∀ w, (∀ t ∈ w, A t) → ∃ γ, Path g [] w γ) {e : T}
    {x y : Seen V T} (hx : x.Good g A) (hy : y.Good g A) (hq : ∀ q ∈ questions g e, q x ↔ q y) {z : List T}
    (hz : ∀ t ∈ z, A t) (h : ∃ γ, Path g [] (x.word ++ z ++ [e]) γ) : ∃ γ, Path g [] (y.word ++ z ++ [e]) γ := by
  have hs : Alike g x.below y.below := by
    have key : ∀ {v : V} {i : Item V T}, ItemOk g (v, i) → (Viable g x.below (v, i) ↔ Viable g y.below (v, i)) := by
      intro v i hok
      refine hq (fun x => Viable g x.below (v, i)) (List.mem_append_left _ (List.mem_append_left _
        (List.mem_flatMap.2 ⟨(v, i.body), hok.rule, List.mem_map.2 ⟨i.cursor, ?_, rfl⟩⟩)))
      have := hok.le
      simp only at this
      simp only [List.mem_range]
      omega
    exact fun p => ⟨fun h => (key (Viable_ok h)).1 h, fun h => (key (Viable_ok h)).2 h⟩
  have ht : y.top = x.top := by
    refine (hq (fun y => y.top = x.top) (List.mem_append_left _ (List.mem_append_right _ (List.mem_map.2 ⟨x.top, ?_, rfl⟩)))).1
      rfl
    have h1 : ∀ s ∈ x.top, s ∈ allSyms g := fun s hs => path_syms (γ := []) (by simp) hx.path s (by simp [hs])
    have h2 := hx.short
    rw [List.length_append] at h2
    match htop : x.top with
    | [] => simp
    | [s] =>
      rw [htop] at h1
      exact List.mem_cons_of_mem _ (List.mem_flatMap.2 ⟨s, h1 s (by simp), by simp⟩)
    | [s, s'] =>
      rw [htop] at h1
      exact List.mem_cons_of_mem _ (List.mem_flatMap.2 ⟨s, h1 s (by simp), List.mem_cons_of_mem _
        (List.mem_map.2 ⟨s', h1 s' (by simp), rfl⟩)⟩)
    | _ :: _ :: _ :: l =>
      rw [htop] at h2
      simp only [List.length_cons] at h2
      omega
  have hF : ∀ j h β, (h, β) ∈ g.rules → j ≤ β.length → Fin g e x.below j h → Fin g e y.below j h := by
    intro j h β hr hj
    exact (hq (fun x => Fin g e x.below j h) (List.mem_append_right _
      (List.mem_flatMap.2 ⟨(h, β), hr, List.mem_map.2 ⟨j, by simp only [List.mem_range]; omega, rfl⟩⟩))).1
  have hpy := hy.path
  rw [ht] at hpy
  obtain ⟨δ, h1, h2⟩ := path_alike wf hd hs z x.top hz
    (by
      intro z γ' hz hp
      have h1 := hx.low z γ' hz hp
      have h2 := hx.short
      omega)
    (by
      intro z hz
      obtain ⟨γ, h1⟩ := hall (x.word ++ z) (by
        intro t ht
        rcases List.mem_append.1 ht with ht | ht
        · exact hx.letters t ht
        · exact hz t ht)
      obtain ⟨γ1, h2, h3⟩ := path_append.1 h1
      rw [h2.det hd hx.path] at h3
      exact ⟨γ, h3⟩)
  obtain ⟨γ, h3⟩ := h
  obtain ⟨γ1, h4, h5⟩ := path_append.1 h3
  obtain ⟨γ2, h6, h7⟩ := path_append.1 h4
  rw [h6.det hd hx.path] at h7
  rw [h7.det hd h1] at h5
  obtain ⟨γ', h8⟩ := (path_one.1 h5).ends hs hF rfl
  exact ⟨γ', path_append.2 ⟨_, path_append.2 ⟨_, hpy, h2⟩, path_one.2 h8⟩⟩

/-- If every word of some letters is read, there are two of different lengths, as long as one likes, behind which the
same words can be read. -/
theorem confused (wf : WellFormed g) (hd : Det g) (hall : ∀ w, (∀ t ∈ w, A t) → ∃ γ, Path g [] w γ) {a : T} (ha : A a)
    (e : T) (m : Nat) : ∃ x y : List T, (∀ t ∈ x, A t) ∧ (∀ t ∈ y, A t) ∧ m ≤ x.length ∧ x.length < y.length ∧
      ∀ z, (∀ t ∈ z, A t) → ((∃ γ, Path g [] (x ++ z ++ [e]) γ) ↔ ∃ γ, Path g [] (y ++ z ++ [e]) γ) := by
  have hex := fun n => exists_good hall ha n
  let f : Nat → Seen V T := fun n => n.rec (hex m).choose fun _ p => (hex (p.word.length + 1)).choose
  have hstep : ∀ n, (f n).word.length < (f (n + 1)).word.length := fun n => (hex ((f n).word.length + 1)).choose_spec.2
  have hgood : ∀ n, (f n).Good g A ∧ m ≤ (f n).word.length := by
    intro n
    induction n with
    | zero => exact (hex m).choose_spec
    | succ n ih => exact ⟨(hex ((f n).word.length + 1)).choose_spec.1, by have := hstep n; omega⟩
  have hmono : ∀ k n, (f n).word.length < (f (n + k + 1)).word.length := by
    intro k
    induction k with
    | zero => exact hstep
    | succ k ih => exact fun n => Nat.lt_trans (ih n) (hstep (n + k + 1))
  obtain ⟨i, _, j, _, hne, h1⟩ := agree ((questions g e).map fun q => fun n => q (f n))
    (List.range (2 ^ (questions g e).length + 1)) List.nodup_range (by simp)
  have h2 : ∀ q ∈ questions g e, q (f i) ↔ q (f j) := fun q hq => h1 _ (List.mem_map.2 ⟨q, hq, rfl⟩)
  have main : ∀ {i j}, i < j → (∀ q ∈ questions g e, q (f i) ↔ q (f j)) → ∃ x y : List T, (∀ t ∈ x, A t) ∧ (∀ t ∈ y, A t) ∧
      m ≤ x.length ∧ x.length < y.length ∧
      ∀ z, (∀ t ∈ z, A t) → ((∃ γ, Path g [] (x ++ z ++ [e]) γ) ↔ ∃ γ, Path g [] (y ++ z ++ [e]) γ) := by
    intro i j hij h2
    refine ⟨(f i).word, (f j).word, (hgood i).1.letters, (hgood j).1.letters, (hgood i).2, ?_, fun z hz =>
      ⟨one_way wf hd hall (hgood i).1 (hgood j).1 h2 hz,
        one_way wf hd hall (hgood j).1 (hgood i).1 (fun q hq => (h2 q hq).symm) hz⟩⟩
    have := hmono (j - i - 1) i
    rwa [show i + (j - i - 1) + 1 = j by omega] at this
  rcases Nat.lt_or_gt_of_ne hne with h | h
  · exact main h h2
  · exact main h fun q hq => (h2 q hq).symm

end Pango.Parse
