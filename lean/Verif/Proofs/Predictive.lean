import Verif.Proofs.Plugged
import Verif.Spec.Predictive

/-!
# The items of LL(1) grammars

Behind every string of symbols there is at most one item whose cursor is not at the front.
-/

namespace Pango.Parse

open Pango Pango.Spec

variable {V T : Type} {g : Grammar V T}

/-- The second variable can come first in something derived from the first one. -/
inductive Leftmost (g : Grammar V T) : V → V → Prop
  | refl {v : V} : Leftmost g v v
  | step {v u w : V} {β : List (Sym V T)} : (v, .var u :: β) ∈ g.rules → Leftmost g u w → Leftmost g v w

theorem Leftmost.trans {u v w : V} (h : Leftmost g u v) (h' : Leftmost g v w) : Leftmost g u w := by
  induction h with
  | refl => exact h'
  | step h1 _ ih => exact .step h1 (ih h')

private theorem starts_cons {t : T} {x : Sym V T} (α : List (Sym V T)) (h : Starts g t [x]) : Starts g t (x :: α) := by
  cases h with
  | term => exact .term
  | eps h => cases h
  | inVar h1 h2 => exact .inVar h1 h2
  | skip _ _ h => cases h

private theorem Leftmost.starts {v w : V} {t : T} (h : Leftmost g v w) (h' : Starts g t [.var w]) : Starts g t [.var v] := by
  induction h with
  | refl => exact h'
  | step h1 _ ih => exact .inVar h1 (starts_cons _ (ih h'))

variable [TerminalEq T]

private theorem fresh_zero (hp : Predictive g) {v : V} {β : Body V T} {i : Item V T} (hr : (v, β) ∈ g.rules)
    (h : Fresh β i) : i.cursor = 0 := by
  obtain ⟨_, rest, h2, _⟩ := h
  cases hc : i.cursor with
  | zero => rfl
  | succ n =>
    rw [hc] at h2
    exact absurd (by rw [h2]; simp [List.replicate_succ]) (hp.noEps _ _ hr)

/-- Nothing is read, or the cursor is at the front, or something was read. -/
theorem _root_.Pango.Spec.Predictive.behind (hp : Predictive g) {γ : List (Sym V T)} {h : V} {i : Item V T}
    (hv : Viable g γ (h, i)) (hc : 0 < i.cursor) : ∃ δ x j, γ = δ ++ [x] ∧ Viable g δ (h, j) ∧ Advanced j x i := by
  cases hv with
  | start hr hf => rw [fresh_zero hp hr hf] at hc; omega
  | expand _ _ hr hf => rw [fresh_zero hp hr hf] at hc; omega
  | read h1 ha => exact ⟨_, _, _, rfl, h1, ha⟩

/-- What an item with its cursor at the front reads. -/
private theorem reads_front {γ : List (Sym V T)} {h : V} {i : Item V T} {x : Sym V T} (hv : Viable g γ (h, i))
    (hc : i.cursor = 0) (hx : Reads i x) : ∃ α, i = ⟨x :: α, 0⟩ ∧ (h, x :: α) ∈ g.rules := by
  obtain ⟨b, c⟩ := i
  have hr := (Viable_ok hv).rule
  simp only at hc hr
  subst hc
  obtain ⟨pre, post, h1, h2⟩ := hx
  simp only at h1 h2
  obtain rfl := List.length_eq_zero_iff.1 h2.symm
  simp only [List.nil_append] at h1
  subst h1
  exact ⟨post, rfl, hr⟩

/-- An item with its cursor at the front is there since the start variable, or a variable that another item reads, can
begin with its variable. -/
theorem _root_.Pango.Spec.Predictive.front (_ : Predictive g) {γ : List (Sym V T)} {p : V × Item V T} (hv : Viable g γ p)
    (hc : p.2.cursor = 0) : (γ = [] ∧ Leftmost g g.start p.1) ∨
      ∃ h' i' v, Viable g γ (h', i') ∧ 0 < i'.cursor ∧ Reads i' (.var v) ∧ Leftmost g v p.1 := by
  induction hv with
  | start _ _ => exact .inl ⟨rfl, .refl⟩
  | @expand γ h v i j β h1 h2 _ _ ih =>
    rcases Nat.eq_zero_or_pos i.cursor with h0 | h0
    · obtain ⟨α, rfl, h3⟩ := reads_front h1 h0 h2
      rcases ih h0 with ⟨h4, h5⟩ | ⟨h', i', v', h4, h5, h6, h7⟩
      · exact .inl ⟨h4, h5.trans (.step h3 .refl)⟩
      · exact .inr ⟨h', i', v', h4, h5, h6, h7.trans (.step h3 .refl)⟩
    · exact .inr ⟨h, i, v, h1, h0, h2, .refl⟩
  | read _ ha =>
    obtain ⟨_, _, _, _, _, _, _, h5⟩ := ha
    simp only at hc
    omega

variable [LawfulTerminalEq T]

/-- No variable can begin with itself. -/
theorem _root_.Pango.Spec.Predictive.noLoop (hp : Predictive g) (wf : Spec.WellFormed g) {v u : V} {β : List (Sym V T)}
    (hr : (v, .var u :: β) ∈ g.rules) (hl : Leftmost g u v) : False := by
  obtain ⟨t, ht⟩ := hp.first _ _ hr
  replace ht := derives_starts.1 ht
  have key : ∀ {α : List (Sym V T)}, Starts g t α → ∀ {v u : V} {δ β : List (Sym V T)}, α = .var v :: δ →
      Starts g t [.var v] → (v, .var u :: β) ∈ g.rules → Leftmost g u v → False := by
    intro α h
    induction h with
    | term => intro v u δ β he; cases he
    | eps _ _ => intro v u δ β he; cases he
    | @inVar v0 β0 α h1 h2 ih =>
      intro v u δ β he hs hr hl
      cases he
      have hu := hl.starts hs
      have := hp.differ _ _ _ t t h1 hr (derives_starts.2 h2) (derives_starts.2 (starts_cons _ hu)) (LawfulTerminalEq.refl t)
      subst this
      cases hl with
      | refl => exact ih rfl hu hr .refl
      | step h3 h4 => exact ih rfl hu h3 (h4.trans (.step hr .refl))
    | skip h1 h2 _ _ =>
      intros
      exact wf.nonempty _ _ h1 (nonEps_nullable wf.nonempty hp.noEps (hp.noEps _ _ h1) h2)
  exact key ht rfl ht hr hl

/-- Two rules at the left of a variable that begin with the same variable, or with terminals of the same kind, are the
same. -/
private theorem left_same (hp : Predictive g) (wf : Spec.WellFormed g) {v w w' : V} {x x' : Sym V T}
    {β β' : List (Sym V T)} {t t' : T} (h : Leftmost g v w) (h' : Leftmost g v w') (hr : (w, x :: β) ∈ g.rules)
    (hr' : (w', x' :: β') ∈ g.rules) (hx : ∀ u, x = .var u ↔ x' = .var u) (ht : Starts g t [x]) (ht' : Starts g t' [x'])
    (he : teq t t' = true) : w = w' ∧ x :: β = x' :: β' := by
  have loop : ∀ {v w : V} {x x' : Sym V T} {β β' γ : List (Sym V T)} {u : V} {t t' : T}, (v, x :: β) ∈ g.rules →
      (v, .var u :: γ) ∈ g.rules → Leftmost g u w → (w, x' :: β') ∈ g.rules → (∀ u, x = .var u ↔ x' = .var u) →
      Starts g t [x] → Starts g t' [x'] → teq t t' = true → False := by
    intro v w x x' β β' γ u t t' h1 h2 h3 h4 h5 h6 h7 h8
    have := hp.differ _ _ _ t t' h1 h2 (derives_starts.2 (starts_cons _ h6))
      (derives_starts.2 (starts_cons _ (h3.starts (.inVar h4 (starts_cons _ h7))))) h8
    simp only [List.cons.injEq] at this
    obtain ⟨rfl, rfl⟩ := this
    have := (h5 u).1 rfl
    subst this
    exact hp.noLoop wf h4 h3
  induction h generalizing w' with
  | refl =>
    cases h' with
    | refl =>
      exact ⟨rfl, hp.differ _ _ _ t t' hr hr' (derives_starts.2 (starts_cons _ ht)) (derives_starts.2 (starts_cons _ ht')) he⟩
    | step h1 h2 => exact (loop hr h1 h2 hr' hx ht ht' he).elim
  | step h1 h2 ih =>
    cases h' with
    | refl =>
      exact (loop hr' h1 h2 hr (fun u => (hx u).symm) ht' ht (LawfulTerminalEq.symm _ _ he)).elim
    | step h3 h4 =>
      have := hp.differ _ _ _ t t' h1 h3
        (derives_starts.2 (starts_cons _ (h2.starts (.inVar hr (starts_cons _ ht)))))
        (derives_starts.2 (starts_cons _ (h4.starts (.inVar hr' (starts_cons _ ht'))))) he
      simp only [List.cons.injEq, Sym.var.injEq] at this
      obtain ⟨rfl, rfl⟩ := this
      exact ih h4 hr hr'

/-- What an item reads can begin with some terminal. -/
private theorem reads_starts (hp : Predictive g) (wf : Spec.WellFormed g) {γ : List (Sym V T)} {h : V} {i : Item V T}
    {x : Sym V T} (hv : Viable g γ (h, i)) (hx : Reads i x) : ∃ t, Starts g t [x] := by
  obtain ⟨pre, post, h1, _⟩ := hx
  have hr := (Viable_ok hv).rule
  simp only at hr
  rw [h1] at hr
  cases x with
  | eps => exact absurd (by simp) (hp.noEps _ _ hr)
  | term t => exact ⟨t, .term⟩
  | var v =>
    obtain ⟨β, h2⟩ := wf.closed _ _ v hr (by simp)
    obtain ⟨t, ht⟩ := hp.first _ _ h2
    exact ⟨t, derives_starts.1 ht⟩

/-- Two items that read the same variable, or terminals of the same kind, are the same. -/
private theorem reads_same (hp : Predictive g) (wf : Spec.WellFormed g) {γ : List (Sym V T)}
    (hk : ∀ p q : V × Item V T, Viable g γ p → Viable g γ q → 0 < p.2.cursor → 0 < q.2.cursor → p = q)
    {h h' : V} {i i' : Item V T} {x x' : Sym V T} {t t' : T} (hv : Viable g γ (h, i)) (hv' : Viable g γ (h', i'))
    (hr : Reads i x) (hr' : Reads i' x') (hx : ∀ u, x = .var u ↔ x' = .var u) (ht : Starts g t [x])
    (ht' : Starts g t' [x']) (he : teq t t' = true) : (h, i) = (h', i') := by
  have mixed : ∀ {h h' : V} {i i' : Item V T} {x x' : Sym V T}, Viable g γ (h, i) → Viable g γ (h', i') → Reads i x →
      Reads i' x' → (∀ u, x' = .var u → x = .var u) → i.cursor = 0 → 0 < i'.cursor → False := by
    intro h h' i i' x x' a1 a2 a3 a4 ax a5 a6
    rcases hp.front a1 a5 with ⟨rfl, _⟩ | ⟨h2, i2, v, a7, a8, a9, a10⟩
    · obtain ⟨δ, x, _, a7, _⟩ := hp.behind a2 a6
      simp at a7
    · cases hk _ _ a2 a7 a6 a8
      rw [reads_iff] at a4 a9
      rw [a4] at a9
      cases a9
      have := ax v rfl
      subst this
      obtain ⟨α, rfl, h3⟩ := reads_front a1 a5 a3
      exact hp.noLoop wf h3 a10
  rcases Nat.eq_zero_or_pos i.cursor with h0 | h0
  · rcases Nat.eq_zero_or_pos i'.cursor with h0' | h0'
    · obtain ⟨α, rfl, r1⟩ := reads_front hv h0 hr
      obtain ⟨α', rfl, r2⟩ := reads_front hv' h0' hr'
      have : ∃ v, Leftmost g v h ∧ Leftmost g v h' := by
        rcases hp.front hv h0 with ⟨h1, l1⟩ | ⟨h1, i1, v1, b1, b2, b3, l1⟩
        · rcases hp.front hv' h0' with ⟨_, l2⟩ | ⟨h2, i2, v2, c1, c2, c3, l2⟩
          · exact ⟨_, l1, l2⟩
          · obtain ⟨δ, x, _, h3, _⟩ := hp.behind c1 c2
            simp [h1] at h3
        · rcases hp.front hv' h0' with ⟨h3, l2⟩ | ⟨h2, i2, v2, c1, c2, c3, l2⟩
          · obtain ⟨δ, x, _, h4, _⟩ := hp.behind b1 b2
            simp [h3] at h4
          · cases hk _ _ b1 c1 b2 c2
            rw [reads_iff] at b3 c3
            rw [b3] at c3
            cases c3
            exact ⟨_, l1, l2⟩
      obtain ⟨v, l1, l2⟩ := this
      obtain ⟨rfl, h3⟩ := left_same hp wf l1 l2 r1 r2 hx ht ht' he
      rw [h3]
    · exact (mixed hv hv' hr hr' (fun u => (hx u).2) h0 h0').elim
  · rcases Nat.eq_zero_or_pos i'.cursor with h0' | h0'
    · exact (mixed hv' hv hr' hr (fun u => (hx u).1) h0' h0).elim
    · exact hk _ _ hv hv' h0 h0'

theorem _root_.Pango.Spec.Predictive.one_kernel (hp : Predictive g) (wf : Spec.WellFormed g) (γ : List (Sym V T))
    (p q : V × Item V T) (h1 : Viable g γ p) (h2 : Viable g γ q) (hc1 : 0 < p.2.cursor) (hc2 : 0 < q.2.cursor) : p = q := by
  generalize hn : γ.length = n
  induction n generalizing γ p q with
  | zero =>
    obtain ⟨δ, x, _, h3, _⟩ := hp.behind h1 hc1
    rw [h3] at hn
    simp at hn
  | succ n ih =>
    obtain ⟨δ, x, j, rfl, h3, h4⟩ := hp.behind h1 hc1
    obtain ⟨δ', x', j', h5, h6, h7⟩ := hp.behind h2 hc2
    obtain ⟨rfl, h8⟩ := List.append_inj' h5 rfl
    cases h8
    have hk := fun p q h1 h2 hc1 hc2 => ih δ p q h1 h2 hc1 hc2 (by simpa using hn)
    obtain ⟨a1, a2⟩ := advanced_iff.1 h4
    obtain ⟨b1, b2⟩ := advanced_iff.1 h7
    obtain ⟨t, ht⟩ := reads_starts hp wf h3 (reads_iff.2 a1)
    have key : (p.1, j) = (q.1, j') :=
      reads_same hp wf hk h3 h6 (reads_iff.2 a1) (reads_iff.2 b1) (fun _ => Iff.rfl) ht ht (LawfulTerminalEq.refl t)
    obtain ⟨p1, p2⟩ := p
    obtain ⟨q1, q2⟩ := q
    simp only [Prod.mk.injEq] at key
    obtain ⟨rfl, rfl⟩ := key
    simp only at a2 b2
    rw [a2, b2]

theorem _root_.Pango.Spec.Predictive.oneEntry (hp : Predictive g) (wf : Spec.WellFormed g) : OneEntryEach g := by
  have hk := hp.one_kernel wf
  have complete : ∀ {γ : List (Sym V T)} {h : V} {i : Item V T}, Viable g γ (h, i) → Complete i → 0 < i.cursor := by
    intro γ h i h1 h2
    simp only [Complete] at h2
    rw [h2]
    exact List.length_pos_iff.2 (wf.nonempty _ _ (Viable_ok h1).rule)
  have unread : ∀ {i : Item V T} {x : Sym V T}, Complete i → ¬ Reads i x := by
    rintro i x h1 ⟨pre, post, h2, h3⟩
    simp only [Complete] at h1
    rw [h1, h2] at h3
    simp at h3
  -- a complete item is alone
  have alone : ∀ {γ : List (Sym V T)} {h h' : V} {i i' : Item V T}, Viable g γ (h, i) → Complete i →
      Viable g γ (h', i') → (h', i') = (h, i) := by
    intro γ h h' i i' h1 h2 h3
    rcases Nat.eq_zero_or_pos i'.cursor with h0 | h0
    · exfalso
      rcases hp.front h3 h0 with ⟨rfl, _⟩ | ⟨h4, i4, _, h5, h6, h7, _⟩
      · obtain ⟨δ, x, _, h8, _⟩ := hp.behind h1 (complete h1 h2)
        simp at h8
      · cases hk _ _ _ h5 h1 h6 (complete h1 h2)
        exact unread h2 h7
    · exact hk _ _ _ h3 h1 h0 (complete h1 h2)
  have start : ∀ {h : V} {i : Item V T}, ¬ Viable g [.var g.start] (h, i) := by
    intro h i h1
    have : ∃ h' i', Viable g [.var g.start] (h', i') ∧ 0 < i'.cursor := by
      rcases Nat.eq_zero_or_pos i.cursor with h0 | h0
      · rcases hp.front h1 h0 with ⟨h2, _⟩ | ⟨h4, i4, _, h5, h6, _⟩
        · cases h2
        · exact ⟨h4, i4, h5, h6⟩
      · exact ⟨h, i, h1, h0⟩
    obtain ⟨h', i', h2, h3⟩ := this
    obtain ⟨δ, x, j, h4, h5, h6⟩ := hp.behind h2 h3
    cases δ with
    | cons y δ => simp at h4
    | nil =>
      simp at h4
      subst h4
      have h7 := reads_iff.2 (advanced_iff.1 h6).1
      rcases Nat.eq_zero_or_pos j.cursor with h0 | h0
      · obtain ⟨α, rfl, h8⟩ := reads_front h5 h0 h7
        rcases hp.front h5 rfl with ⟨_, h9⟩ | ⟨_, _, _, h9, h10, _⟩
        · exact hp.noLoop wf h8 h9
        · obtain ⟨δ, x, _, h8, _⟩ := hp.behind h9 h10
          simp at h8
      · obtain ⟨δ, x, _, h8, _⟩ := hp.behind h5 h0
        simp at h8
  have follow : ∀ {h : V} {t : T}, InFollow g h (.term t) → ∃ v β, (v, β) ∈ g.rules ∧ .term t ∈ β := by
    intro h t h1
    rw [inFollow_iff] at h1
    induction h1 with
    | here hr hs' =>
      rcases hs'.mem with h | ⟨v, β, h1, h2⟩
      · exact ⟨_, _, hr, by simp [h]⟩
      · exact ⟨_, _, h1, h2⟩
    | up _ _ _ ih => exact ih
  have shifted : ∀ {γ : List (Sym V T)} {h : V} {i : Item V T} {t : T}, Viable g γ (h, i) → Reads i (.term t) →
      ∃ v β, (v, β) ∈ g.rules ∧ .term t ∈ β := by
    rintro γ h i t h1 ⟨pre, post, h2, _⟩
    exact ⟨_, _, (Viable_ok h1).rule, by simp only; rw [h2]; simp⟩
  have same : ∀ {t u : T}, (∃ v β, (v, β) ∈ g.rules ∧ .term t ∈ β) → (∃ v β, (v, β) ∈ g.rules ∧ .term u ∈ β) →
      keyEq (some t) (some u) = true → t = u := by
    rintro t u ⟨_, _, h1, h2⟩ ⟨_, _, h3, h4⟩ h5
    exact hp.kinds _ _ _ _ _ _ h1 h2 h3 h4 h5
  intro γ p p' k k' h1 h2 hkey
  cases h1 with
  | @shift h i t v1 r1 =>
    cases h2 with
    | @shift h' i' t' v2 r2 =>
      have h3 := same (shifted v1 r1) (shifted v2 r2) hkey
      subst h3
      exact ⟨by rw [reads_same hp wf (hk γ) v1 v2 r1 r2 (fun _ => Iff.rfl) .term .term hkey], rfl⟩
    | reduce v2 c2 f2 =>
      cases alone v2 c2 v1
      exact absurd r1 (unread c2)
    | reduceEnd _ _ _ => simp [keyEq] at hkey
    | accept _ => simp [keyEq] at hkey
  | @reduce h i t v1 c1 f1 =>
    cases h2 with
    | shift v2 r2 =>
      cases alone v1 c1 v2
      exact absurd r2 (unread c1)
    | reduce v2 c2 f2 =>
      have h3 := same (follow f1) (follow f2) hkey
      subst h3
      exact ⟨by rw [alone v1 c1 v2], rfl⟩
    | reduceEnd _ _ _ => simp [keyEq] at hkey
    | accept _ => simp [keyEq] at hkey
  | reduceEnd v1 c1 f1 =>
    cases h2 with
    | shift _ _ => simp [keyEq] at hkey
    | reduce _ _ _ => simp [keyEq] at hkey
    | reduceEnd v2 c2 f2 => exact ⟨by rw [alone v1 c1 v2], rfl⟩
    | accept h => subst h; exact absurd v1 start
  | accept h =>
    subst h
    cases h2 with
    | shift _ _ => simp [keyEq] at hkey
    | reduce _ _ _ => simp [keyEq] at hkey
    | reduceEnd v2 _ _ => exact absurd v2 start
    | accept _ => exact ⟨rfl, rfl⟩

end Pango.Parse
