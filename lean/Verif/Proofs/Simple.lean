import Verif.Proofs.EndMarker
import Verif.Spec.Simple

/-!
# The items of simple grammars

Behind every string of symbols there is at most one item whose cursor is not at the front.
-/

namespace Pango.Parse

open Pango Pango.Spec

variable {V T : Type} [TerminalEq T] {g : Grammar V T}

private theorem fresh_zero (hs : Simple g) {v : V} {β : Body V T} {i : Item V T} (hr : (v, β) ∈ g.rules)
    (h : Fresh β i) : i.cursor = 0 := by
  obtain ⟨_, rest, h2, _⟩ := h
  cases hc : i.cursor with
  | zero => rfl
  | succ n =>
    rw [hc] at h2
    exact absurd (by rw [h2]; simp [List.replicate_succ]) (hs.noEps _ _ hr)

/-- An item with its cursor at the front reads a terminal. -/
theorem _root_.Pango.Spec.Simple.reads_front (hs : Simple g) {γ : List (Sym V T)} {h : V} {i : Item V T} {x : Sym V T}
    (hv : Viable g γ (h, i)) (hc : i.cursor = 0) (hx : Reads i x) :
    ∃ t α, x = .term t ∧ i = ⟨.term t :: α, 0⟩ ∧ (h, .term t :: α) ∈ g.rules := by
  obtain ⟨b, c⟩ := i
  have hr := (Viable_ok hv).rule
  simp only at hc hr
  subst hc
  obtain ⟨t, α, rfl⟩ := hs.begins _ _ hr
  rw [reads_iff] at hx
  simp [Item.cursorSymbol] at hx
  exact ⟨t, α, hx.symm, rfl, hr⟩

/-- Such an item is one of the start variable, or of the variable that another item reads. -/
theorem _root_.Pango.Spec.Simple.front (hs : Simple g) {γ : List (Sym V T)} {h : V} {i : Item V T} (hv : Viable g γ (h, i))
    (hc : i.cursor = 0) : (γ = [] ∧ h = g.start) ∨ ∃ h' i', Viable g γ (h', i') ∧ 0 < i'.cursor ∧ Reads i' (.var h) := by
  cases hv with
  | start _ _ => exact .inl ⟨rfl, rfl⟩
  | @expand _ h' _ i' _ _ h1 h2 _ _ =>
    refine .inr ⟨h', i', h1, ?_, h2⟩
    apply Nat.pos_of_ne_zero
    intro h0
    obtain ⟨t, _, h3, _⟩ := hs.reads_front h1 h0 h2
    cases h3
  | read _ ha =>
    obtain ⟨_, _, _, _, _, _, _, h5⟩ := ha
    omega

/-- The cursor is not at the front only if something was read. -/
theorem _root_.Pango.Spec.Simple.behind (hs : Simple g) {γ : List (Sym V T)} {h : V} {i : Item V T} (hv : Viable g γ (h, i))
    (hc : 0 < i.cursor) : ∃ δ x j, γ = δ ++ [x] ∧ Viable g δ (h, j) ∧ Advanced j x i := by
  cases hv with
  | start hr hf => rw [fresh_zero hs hr hf] at hc; omega
  | expand _ _ hr hf => rw [fresh_zero hs hr hf] at hc; omega
  | read h1 ha => exact ⟨_, _, _, rfl, h1, ha⟩

variable [LawfulTerminalEq T]

/-- Two items that read terminals of the same kind are the same. -/
private theorem reads_same (hs : Simple g) {γ : List (Sym V T)}
    (hk : ∀ p q : V × Item V T, Viable g γ p → Viable g γ q → 0 < p.2.cursor → 0 < q.2.cursor → p = q)
    {h h' : V} {i i' : Item V T} {t t' : T} (hv : Viable g γ (h, i)) (hv' : Viable g γ (h', i'))
    (hr : Reads i (.term t)) (hr' : Reads i' (.term t')) (ht : teq t t' = true) : (h, i) = (h', i') := by
  have mixed : ∀ {h h' : V} {i i' : Item V T} {t t' : T}, Viable g γ (h, i) → Viable g γ (h', i') → Reads i (.term t) →
      Reads i' (.term t') → i.cursor = 0 → 0 < i'.cursor → False := by
    intro h h' i i' t t' a1 a2 a3 a4 a5 a6
    rcases hs.front a1 a5 with ⟨rfl, _⟩ | ⟨h2, i2, a7, a8, a9⟩
    · obtain ⟨δ, x, _, a7, _⟩ := hs.behind a2 a6
      simp at a7
    · cases hk _ _ a2 a7 a6 a8
      rw [reads_iff] at a4 a9
      rw [a4] at a9
      cases a9
  rcases Nat.eq_zero_or_pos i.cursor with h0 | h0
  · rcases Nat.eq_zero_or_pos i'.cursor with h0' | h0'
    · have hh : h = h' := by
        rcases hs.front hv h0 with ⟨h1, rfl⟩ | ⟨h1, i1, b1, b2, b3⟩
        · rcases hs.front hv' h0' with ⟨_, rfl⟩ | ⟨h2, i2, c1, c2, c3⟩
          · rfl
          · obtain ⟨δ, x, _, h3, _⟩ := hs.behind c1 c2
            simp [h1] at h3
        · rcases hs.front hv' h0' with ⟨h3, rfl⟩ | ⟨h2, i2, c1, c2, c3⟩
          · obtain ⟨δ, x, _, h4, _⟩ := hs.behind b1 b2
            simp [h3] at h4
          · cases hk _ _ b1 c1 b2 c2
            rw [reads_iff] at b3 c3
            rw [b3] at c3
            cases c3
            rfl
      subst hh
      obtain ⟨u, α, h1, rfl, h2⟩ := hs.reads_front hv h0 hr
      obtain ⟨u', α', h3, rfl, h4⟩ := hs.reads_front hv' h0' hr'
      cases h1
      cases h3
      have h5 := hs.differ _ _ _ _ _ h2 h4 ht
      have h6 := hs.kinds _ _ _ _ _ _ h2 (by simp) h4 (by simp) ht
      subst h5 h6
      rfl
    · exact (mixed hv hv' hr hr' h0 h0').elim
  · rcases Nat.eq_zero_or_pos i'.cursor with h0' | h0'
    · exact (mixed hv' hv hr' hr h0' h0).elim
    · exact hk _ _ hv hv' h0 h0'

theorem _root_.Pango.Spec.Simple.one_kernel (hs : Simple g) (γ : List (Sym V T)) (p q : V × Item V T) (hp : Viable g γ p)
    (hq : Viable g γ q) (h1 : 0 < p.2.cursor) (h2 : 0 < q.2.cursor) : p = q := by
  generalize hn : γ.length = n
  induction n generalizing γ p q with
  | zero =>
    obtain ⟨δ, x, _, h3, _⟩ := hs.behind hp h1
    rw [h3] at hn
    simp at hn
  | succ n ih =>
    obtain ⟨δ, x, j, rfl, h3, h4⟩ := hs.behind hp h1
    obtain ⟨δ', x', j', h5, h6, h7⟩ := hs.behind hq h2
    obtain ⟨rfl, h8⟩ := List.append_inj' h5 rfl
    cases h8
    have hk := fun p q hp hq h1 h2 => ih δ p q hp hq h1 h2 (by simpa using hn)
    obtain ⟨a1, a2⟩ := advanced_iff.1 h4
    obtain ⟨b1, b2⟩ := advanced_iff.1 h7
    have key : (p.1, j) = (q.1, j') := by
      cases x with
      | eps => exact absurd a1 (Viable_ok h3).noEps
      | term t =>
        exact reads_same hs hk h3 h6 (reads_iff.2 a1) (reads_iff.2 b1) (LawfulTerminalEq.refl t)
      | var v =>
        have pos : ∀ {h : V} {i : Item V T}, Viable g δ (h, i) → Reads i (.var v) → 0 < i.cursor := by
          intro h i h9 h10
          apply Nat.pos_of_ne_zero
          intro h0
          obtain ⟨t, _, h11, _⟩ := hs.reads_front h9 h0 h10
          cases h11
        exact hk _ _ h3 h6 (pos h3 (reads_iff.2 a1)) (pos h6 (reads_iff.2 b1))
    obtain ⟨p1, p2⟩ := p
    obtain ⟨q1, q2⟩ := q
    simp only [Prod.mk.injEq] at key
    obtain ⟨rfl, rfl⟩ := key
    simp only at a2 b2
    rw [a2, b2]

theorem _root_.Pango.Spec.Simple.oneEntry (hs : Simple g) : OneEntryEach g := by
  have hk := hs.one_kernel
  have complete : ∀ {γ : List (Sym V T)} {h : V} {i : Item V T}, Viable g γ (h, i) → Complete i → 0 < i.cursor := by
    intro γ h i h1 h2
    obtain ⟨t, α, h3⟩ := hs.begins _ _ (Viable_ok h1).rule
    simp only [Complete] at h2
    simp only at h3
    rw [h2, h3]
    simp
  have unread : ∀ {i : Item V T} {x : Sym V T}, Complete i → ¬ Reads i x := by
    rintro i x h1 ⟨pre, post, h2, h3⟩
    simp only [Complete] at h1
    rw [h1, h2] at h3
    simp at h3
  -- a complete item is alone
  have alone : ∀ {γ : List (Sym V T)} {h h' : V} {i i' : Item V T}, Viable g γ (h, i) → Complete i →
      Viable g γ (h', i') → (h', i') = (h, i) := by
    intro γ h h' i i' h1 h2 h3
    rcases Nat.eq_zero_or_pos i'.cursor with h0 | h0
    · exfalso
      rcases hs.front h3 h0 with ⟨rfl, _⟩ | ⟨h4, i4, h5, h6, h7⟩
      · obtain ⟨δ, x, _, h8, _⟩ := hs.behind h1 (complete h1 h2)
        simp at h8
      · cases hk _ _ _ h5 h1 h6 (complete h1 h2)
        exact unread h2 h7
    · exact hk _ _ _ h3 h1 h0 (complete h1 h2)
  have start : ∀ {h : V} {i : Item V T}, ¬ Viable g [.var g.start] (h, i) := by
    intro h i h1
    have : ∃ h' i', Viable g [.var g.start] (h', i') ∧ 0 < i'.cursor := by
      rcases Nat.eq_zero_or_pos i.cursor with h0 | h0
      · rcases hs.front h1 h0 with ⟨h2, _⟩ | ⟨h4, i4, h5, h6, _⟩
        · cases h2
        · exact ⟨h4, i4, h5, h6⟩
      · exact ⟨h, i, h1, h0⟩
    obtain ⟨h', i', h2, h3⟩ := this
    obtain ⟨δ, x, j, h4, h5, h6⟩ := hs.behind h2 h3
    cases δ with
    | cons y δ => simp at h4
    | nil =>
      simp at h4
      subst h4
      have h7 := reads_iff.2 (advanced_iff.1 h6).1
      rcases Nat.eq_zero_or_pos j.cursor with h0 | h0
      · obtain ⟨t, _, h8, _⟩ := hs.reads_front h5 h0 h7
        cases h8
      · obtain ⟨δ, x, _, h8, _⟩ := hs.behind h5 h0
        simp at h8
  have follow : ∀ {h : V} {t : T}, InFollow g h (.term t) → ∃ v β, (v, β) ∈ g.rules ∧ .term t ∈ β := by
    intro h t h1
    rw [inFollow_iff] at h1
    induction h1 with
    | here hr hs' =>
      rcases hs'.mem with h | ⟨v, β, h1, h2⟩
      · exact ⟨_, _, hr, by simp [h]⟩
      · exact ⟨_, _, h1, h2⟩
    | up _ _ _ ih => exact ih
  have shifted : ∀ {γ : List (Sym V T)} {h : V} {i : Item V T} {t : T}, Viable g γ (h, i) → Reads i (.term t) →
      ∃ v β, (v, β) ∈ g.rules ∧ .term t ∈ β := by
    rintro γ h i t h1 ⟨pre, post, h2, _⟩
    exact ⟨_, _, (Viable_ok h1).rule, by simp only; rw [h2]; simp⟩
  have same : ∀ {t u : T}, (∃ v β, (v, β) ∈ g.rules ∧ .term t ∈ β) → (∃ v β, (v, β) ∈ g.rules ∧ .term u ∈ β) →
      keyEq (some t) (some u) = true → t = u := by
    rintro t u ⟨_, _, h1, h2⟩ ⟨_, _, h3, h4⟩ h5
    exact hs.kinds _ _ _ _ _ _ h1 h2 h3 h4 h5
  intro γ p p' k k' h1 h2 hkey
  cases h1 with
  | @shift h i t v1 r1 =>
    cases h2 with
    | @shift h' i' t' v2 r2 =>
      have h3 := same (shifted v1 r1) (shifted v2 r2) hkey
      subst h3
      exact ⟨by rw [reads_same hs (hk γ) v1 v2 r1 r2 hkey], rfl⟩
    | reduce v2 c2 f2 =>
      cases alone v2 c2 v1
      exact absurd r1 (unread c2)
    | reduceEnd _ _ _ => simp [keyEq] at hkey
    | accept _ => simp [keyEq] at hkey
  | @reduce h i t v1 c1 f1 =>
    cases h2 with
    | shift v2 r2 =>
      cases alone v1 c1 v2
      exact absurd r2 (unread c1)
    | reduce v2 c2 f2 =>
      have h3 := same (follow f1) (follow f2) hkey
      subst h3
      exact ⟨by rw [alone v1 c1 v2], rfl⟩
    | reduceEnd _ _ _ => simp [keyEq] at hkey
    | accept _ => simp [keyEq] at hkey
  | reduceEnd v1 c1 f1 =>
    cases h2 with
    | shift _ _ => simp [keyEq] at hkey
    | reduce _ _ _ => simp [keyEq] at hkey
    | reduceEnd v2 c2 f2 => exact ⟨by rw [alone v1 c1 v2], rfl⟩
    | accept h => subst h; exact absurd v1 start
  | accept h =>
    subst h
    cases h2 with
    | shift _ _ => simp [keyEq] at hkey
    | reduce _ _ _ => simp [keyEq] at hkey
    | reduceEnd v2 _ _ => exact absurd v2 start
    | accept _ => exact ⟨rfl, rfl⟩

end Pango.Parse
