import Mathlib.Computability.DFA
import Verif.Proofs.ContextFree
import Verif.Proofs.EndMarker
import Verif.Spec.Marked

/-!
# Left-linear grammars
-/

namespace Pango.Parse

open Pango Pango.Spec

instance {A : Type} [DecidableEq A] : LawfulTerminalEq (Marked A) where
  refl := by simp [teq]
  symm := by simp [teq]
  trans := by simp [teq]

/-- The variables: one that only the end marker is behind, the start variable, and the states. -/
inductive StateVar (σ : Type) where
  | top
  | start
  | state (q : σ)

variable {A σ : Type}

/-- An accepting state can be reached. -/
def Live (D : DFA A σ) (q : σ) : Prop := ∃ v, D.evalFrom q v ∈ D.accept

/-- A word that is not empty leads to the state, and an accepting state can be reached. -/
def Useful (D : DFA A σ) (q : σ) : Prop := (∃ u, u ≠ [] ∧ D.eval u = q) ∧ Live D q

/-- The rules: a state stands for the words that lead to it. -/
inductive RuleOf (D : DFA A σ) : StateVar σ → Body (StateVar σ) (Marked A) → Prop
  | accept {q : σ} : Useful D q → q ∈ D.accept → RuleOf D .start [.var (.state q)]
  | first {t : A} : Live D (D.step D.start t) → RuleOf D (.state (D.step D.start t)) [.term (.letter t)]
  | next {q : σ} {t : A} : Useful D q → Live D (D.step q t) →
      RuleOf D (.state (D.step q t)) [.var (.state q), .term (.letter t)]

variable {D : DFA A σ} {g : Grammar (StateVar σ) (Marked A)}

theorem RuleOf.no_eps {v : StateVar σ} {β : Body (StateVar σ) (Marked A)} (h : RuleOf D v β) : Sym.eps ∉ β := by
  cases h <;> simp

theorem RuleOf.front {v w : StateVar σ} {β pre post : Body (StateVar σ) (Marked A)} (h : RuleOf D v β)
    (hb : β = pre ++ .var w :: post) : pre = [] := by
  cases h with
  | accept _ _ =>
    cases pre with
    | nil => rfl
    | cons x pre => simp at hb
  | first _ =>
    cases pre with
    | nil => rfl
    | cons x pre => simp at hb
  | next _ _ =>
    cases pre with
    | nil => rfl
    | cons x pre =>
      cases pre with
      | nil => simp at hb
      | cons y pre => simp at hb

/-- What is on the stack: just what the cursor of the item is behind. -/
theorem viable_ruleOf (hs : g.start = .start) (hr : ∀ v β, (v, β) ∈ g.rules ↔ RuleOf D v β)
    {γ : List (Sym (StateVar σ) (Marked A))} {p : StateVar σ × Item (StateVar σ) (Marked A)} (h : Viable g γ p) :
    RuleOf D p.1 p.2.body ∧ γ = p.2.body.take p.2.cursor := by
  have fresh : ∀ {v β} {i : Item (StateVar σ) (Marked A)}, RuleOf D v β → Fresh β i → i.cursor = 0 := by
    rintro v β i h ⟨h1, rest, h2, _⟩
    cases hc : i.cursor with
    | zero => rfl
    | succ n =>
      rw [hc] at h2
      exact absurd (by rw [h2]; simp [List.replicate_succ]) h.no_eps
  induction h with
  | start h1 h2 =>
    have h3 := (hr _ _).1 h1
    refine ⟨by rw [h2.1]; exact h3, ?_⟩
    rw [fresh h3 h2]
    rfl
  | @expand γ hd v i j β _ h1 h2 h3 ih =>
    have h4 := (hr _ _).1 h2
    refine ⟨by rw [h3.1]; exact h4, ?_⟩
    obtain ⟨pre, post, h5, h6⟩ := h1
    obtain rfl := ih.1.front h5
    rw [fresh h4 h3, ih.2]
    simp [h6]
  | @read γ hd i j x _ h1 ih =>
    obtain ⟨h2, pre, k, rest, h3, _, h4, h5⟩ := h1
    have hk : k = 0 := by
      cases k with
      | zero => rfl
      | succ k => exact absurd (by simp only; rw [h3]; simp [List.replicate_succ]) ih.1.no_eps
    subst hk
    refine ⟨by simp only [h2]; exact ih.1, ?_⟩
    rw [ih.2]
    simp only [h2, h5, h4]
    rw [h3]
    simp [List.take_append]

/-- Behind the start variable there is no terminal. -/
theorem follow_ruleOf (hr : ∀ v β, (v, β) ∈ g.rules ↔ RuleOf D v β) {t : Marked A} :
    ¬ InFollow g .start (.term t) := by
  rw [inFollow_iff]
  intro h
  have h1 : ∃ v pre rest, RuleOf D v (pre ++ .var .start :: rest) := by
    cases h with
    | here h1 _ => exact ⟨_, _, _, (hr _ _).1 h1⟩
    | up h1 _ _ => exact ⟨_, _, _, (hr _ _).1 h1⟩
  obtain ⟨v, pre, rest, h1⟩ := h1
  generalize hb : pre ++ .var StateVar.start :: rest = β at h1
  obtain rfl := h1.front hb.symm
  cases h1 <;> simp at hb

variable [DecidableEq A]

theorem one_entry (hs : g.start = .start) (hr : ∀ v β, (v, β) ∈ g.rules ↔ RuleOf D v β) : OneEntryEach g := by
  have key : ∀ {k k' : Option (Marked A)}, keyEq k k' = true → k = k' := by
    intro k k' h
    cases k <;> cases k' <;> simp [keyEq, teq] at h ⊢
    exact h
  -- what an entry is, depending on the item
  have entry : ∀ {γ p k}, TableEntry g γ p k →
      (∃ t, γ = [] ∧ k = some (.letter t) ∧ p = some (.state (D.step D.start t), ⟨[.term (.letter t)], 0⟩)) ∨
      (∃ q t, γ = [.var (.state q)] ∧ k = some (.letter t) ∧
        p = some (.state (D.step q t), ⟨[.var (.state q), .term (.letter t)], 1⟩)) ∨
      (∃ q, γ = [.var (.state q)] ∧ k = none ∧ p = some (.start, ⟨[.var (.state q)], 1⟩)) ∨
      (∃ t, γ = [.term (.letter t)] ∧ p = some (.state (D.step D.start t), ⟨[.term (.letter t)], 1⟩)) ∨
      (∃ q t, γ = [.var (.state q), .term (.letter t)] ∧
        p = some (.state (D.step q t), ⟨[.var (.state q), .term (.letter t)], 2⟩)) ∨
      (γ = [.var .start] ∧ k = none ∧ p = none) := by
    intro γ p k h
    have reduced : ∀ {hd i}, Viable g γ (hd, i) → Complete i →
        (hd = .start ∧ ∃ q, γ = [.var (.state q)] ∧ i = ⟨[.var (.state q)], 1⟩) ∨
        (∃ t, γ = [.term (.letter t)] ∧ hd = .state (D.step D.start t) ∧ i = ⟨[.term (.letter t)], 1⟩) ∨
        (∃ q t, γ = [.var (.state q), .term (.letter t)] ∧ hd = .state (D.step q t) ∧
          i = ⟨[.var (.state q), .term (.letter t)], 2⟩) := by
      rintro hd ⟨b, c⟩ h1 h2
      obtain ⟨h3, h4⟩ := viable_ruleOf hs hr h1
      simp only [Complete] at h2 h3 h4
      subst h2
      rw [List.take_length] at h4
      subst h4
      cases h3 with
      | @accept q _ _ => exact .inl ⟨rfl, q, rfl, rfl⟩
      | @first t _ => exact .inr (.inl ⟨t, rfl, rfl, rfl⟩)
      | @next q t _ _ => exact .inr (.inr ⟨q, t, rfl, rfl, rfl⟩)
    cases h with
    | @shift hd i t h1 h2 =>
      obtain ⟨b, c⟩ := i
      obtain ⟨h3, h4⟩ := viable_ruleOf hs hr h1
      obtain ⟨pre, post, h5, h6⟩ := h2
      simp only at h3 h4 h5 h6
      subst h6
      cases h3 with
      | accept _ _ =>
        cases pre with
        | nil => simp at h5
        | cons x pre => simp at h5
      | @first u _ =>
        cases pre with
        | nil =>
          simp at h5
          obtain ⟨rfl, rfl⟩ := h5
          exact .inl ⟨u, h4, rfl, rfl⟩
        | cons x pre => simp at h5
      | @next q u _ _ =>
        cases pre with
        | nil => simp at h5
        | cons x pre =>
          cases pre with
          | nil =>
            simp at h5
            obtain ⟨rfl, rfl, rfl⟩ := h5
            exact .inr (.inl ⟨q, u, h4, rfl, rfl⟩)
          | cons y pre => simp at h5
    | @reduce hd i t h1 h2 h3 =>
      rcases reduced h1 h2 with ⟨rfl, _⟩ | ⟨t, h4, rfl, rfl⟩ | ⟨q, t, h4, rfl, rfl⟩
      · exact absurd h3 (follow_ruleOf hr)
      · exact .inr (.inr (.inr (.inl ⟨t, h4, rfl⟩)))
      · exact .inr (.inr (.inr (.inr (.inl ⟨q, t, h4, rfl⟩))))
    | @reduceEnd hd i h1 h2 h3 =>
      rcases reduced h1 h2 with ⟨rfl, q, h4, rfl⟩ | ⟨t, h4, rfl, rfl⟩ | ⟨q, t, h4, rfl, rfl⟩
      · exact .inr (.inr (.inl ⟨q, h4, rfl, rfl⟩))
      · exact .inr (.inr (.inr (.inl ⟨t, h4, rfl⟩)))
      · exact .inr (.inr (.inr (.inr (.inl ⟨q, t, h4, rfl⟩))))
    | accept h => exact .inr (.inr (.inr (.inr (.inr ⟨by rw [h, hs], rfl, rfl⟩))))
  intro γ p p' k k' h1 h2 hk
  obtain rfl := key hk
  refine ⟨?_, rfl⟩
  have e1 := entry h1
  have e2 := entry h2
  clear entry key h1 h2 hk hr hs
  rcases e1 with ⟨t, a1, a2, rfl⟩ | ⟨q, t, a1, a2, rfl⟩ | ⟨q, a1, a2, rfl⟩ | ⟨t, a1, rfl⟩ | ⟨q, t, a1, rfl⟩ |
      ⟨a1, a2, rfl⟩ <;>
    rcases e2 with ⟨t', b1, b2, rfl⟩ | ⟨q', t', b1, b2, rfl⟩ | ⟨q', b1, b2, rfl⟩ | ⟨t', b1, rfl⟩ |
      ⟨q', t', b1, rfl⟩ | ⟨b1, b2, rfl⟩ <;> simp_all

/-! ## Trees -/

theorem state_word (hr : ∀ v β, (v, β) ∈ g.rules ↔ RuleOf D v β) (n : Nat) {q : σ}
    {ns : List (Node (StateVar σ) (Marked A))} {w : List (Marked A)} (hn : w.length ≤ n)
    (h : Forest g [.var (.state q)] ns w) : ∃ u, u ≠ [] ∧ w = u.map .letter ∧ D.eval u = q := by
  induction n generalizing q ns w with
  | zero =>
    cases h with
    | @var _ β _ cs _ x _ h1 h2 h3 =>
      cases h3
      have hx : x = [] := by simpa using hn
      subst hx
      generalize hw : ([] : List (Marked A)) = y at h2
      cases (hr _ _).1 h1 with
      | first _ => cases h2 with | term _ _ => cases hw
      | next _ _ =>
        cases h2 with
        | var _ _ h4 => cases h4 with | term _ _ => simp at hw
  | succ n ih =>
    cases h with
    | @var _ β _ cs _ x _ h1 h2 h3 =>
      cases h3
      rw [List.append_nil] at hn ⊢
      cases (hr _ _).1 h1 with
      | @first t _ =>
        cases h2 with
        | @term _ u _ _ _ h4 h5 =>
          cases h5
          have h6 : Marked.letter t = u := by simpa [teq] using h4
          subst h6
          exact ⟨[t], by simp, rfl, rfl⟩
      | @next q t _ _ =>
        cases h2 with
        | @var _ β' _ cs' _ x' _ h4 h5 h6 =>
          cases h6 with
          | @term _ u _ _ _ h7 h8 =>
            cases h8
            have h9 : Marked.letter t = u := by simpa [teq] using h7
            subst h9
            obtain ⟨u, h10, h11, h12⟩ := ih (w := x') (by simp at hn; omega)
              (by simpa using Forest.var h4 h5 Forest.nil)
            exact ⟨u ++ [t], by simp, by simp [h11], by rw [DFA.eval_append_singleton, h12]⟩

omit [DecidableEq A] in
theorem Live.before {q : σ} {t : A} (h : Live D (D.step q t)) : Live D q := by
  obtain ⟨v, h⟩ := h
  exact ⟨t :: v, h⟩

theorem word_state (hr : ∀ v β, (v, β) ∈ g.rules ↔ RuleOf D v β) (u : List A) (hu : u ≠ [])
    (hl : Live D (D.eval u)) : ∃ n, Forest g [.var (.state (D.eval u))] [n] (u.map .letter) := by
  induction u using List.reverseRecOn with
  | nil => exact absurd rfl hu
  | append_singleton u t ih =>
    rw [DFA.eval_append_singleton] at hl ⊢
    rw [List.map_append]
    have ht : ∀ {t : A}, Forest g [.term (.letter t)] [.mk (.term (.letter t)) []] [.letter t] :=
      .term (by simp [teq]) .nil
    by_cases h : u = []
    · subst h
      exact ⟨_, by simpa using Forest.var ((hr _ _).2 (.first hl)) ht Forest.nil⟩
    · obtain ⟨n, h1⟩ := ih h hl.before
      have h2 := forest_append h1 (ht (t := t))
      exact ⟨_, by simpa using Forest.var ((hr _ _).2 (.next ⟨⟨u, h, rfl⟩, hl.before⟩ hl)) h2 Forest.nil⟩

/-- The sentences are the words of the automaton, without the empty one. -/
theorem tree_ruleOf (hs : g.start = .start) (hr : ∀ v β, (v, β) ∈ g.rules ↔ RuleOf D v β) {w : List (Marked A)} :
    (∃ n, ParseTree g n w) ↔ ∃ u, u ≠ [] ∧ w = u.map .letter ∧ u ∈ D.accepts := by
  constructor
  · rintro ⟨n, h⟩
    obtain ⟨β, cs, h1, _, h2⟩ := parseTree_iff.1 h
    rw [hs] at h1
    cases (hr _ _).1 h1 with
    | @accept q _ hq =>
      obtain ⟨u, h3, h4, h5⟩ := state_word hr w.length (Nat.le_refl _) h2
      exact ⟨u, h3, h4, by rw [DFA.mem_accepts, h5]; exact hq⟩
  · rintro ⟨u, h1, rfl, h2⟩
    rw [DFA.mem_accepts] at h2
    have hl : Live D (D.eval u) := ⟨[], h2⟩
    obtain ⟨n, h3⟩ := word_state hr u h1 hl
    exact ⟨_, parseTree_iff.2 ⟨_, _, by rw [hs]; exact (hr _ _).2 (.accept ⟨⟨u, h1, rfl⟩, hl⟩ h2), rfl, h3⟩⟩

omit [DecidableEq A] in
theorem Useful.step {q : σ} {t : A} (h : Useful D q) (hl : Live D (D.step q t)) : Useful D (D.step q t) := by
  obtain ⟨⟨u, _, rfl⟩, _⟩ := h
  exact ⟨⟨u ++ [t], by simp, D.eval_append_singleton u t⟩, hl⟩

omit [DecidableEq A] in
theorem ruleOf_useful {v : StateVar σ} {β : Body (StateVar σ) (Marked A)} (h : RuleOf D v β) :
    v = .start ∨ ∃ q, v = .state q ∧ Useful D q := by
  cases h with
  | accept _ _ => exact .inl rfl
  | @first t hl => exact .inr ⟨_, rfl, ⟨[t], by simp, rfl⟩, hl⟩
  | next hu hl => exact .inr ⟨_, rfl, hu.step hl⟩

omit [DecidableEq A] in
theorem reachable_ruleOf (hs : g.start = .start) (hr : ∀ v β, (v, β) ∈ g.rules ↔ RuleOf D v β) (v : StateVar σ)
    (β : Body (StateVar σ) (Marked A)) (h : (v, β) ∈ g.rules) : Reachable g v := by
  rcases ruleOf_useful ((hr _ _).1 h) with rfl | ⟨q, rfl, hu⟩
  · rw [← hs]
    exact .start
  · clear h
    obtain ⟨v, hv⟩ := hu.2
    induction v generalizing q with
    | nil =>
      have h1 : Reachable g .start := by rw [← hs]; exact .start
      exact h1.step ((hr _ _).2 (.accept hu hv)) (by simp)
    | cons t v ih =>
      have hl : Live D (D.step q t) := ⟨v, hv⟩
      exact (ih _ (hu.step hl) hv).step ((hr _ _).2 (.next hu hl)) (by simp)

theorem first_ruleOf (hr : ∀ v β, (v, β) ∈ g.rules ↔ RuleOf D v β) (v : StateVar σ)
    (β : Body (StateVar σ) (Marked A)) (h : (v, β) ∈ g.rules) : ∃ t, InFirst g [.var v] (.term t) := by
  have word : ∀ {v n} {w : List (Marked A)}, Forest g [.var v] n w → w ≠ [] → ∃ t, InFirst g [.var v] (.term t) := by
    intro v n w h1 h2
    obtain ⟨u, h3, h4⟩ := forest_derives h1
    cases h3 with
    | nil => exact absurd rfl h2
    | @cons t _ u _ _ _ => exact ⟨t, _, h4⟩
  rcases ruleOf_useful ((hr _ _).1 h) with rfl | ⟨q, rfl, ⟨u, hu, rfl⟩, hl⟩
  · cases (hr _ _).1 h with
    | @accept q hq _ =>
      obtain ⟨⟨u, hu, rfl⟩, hl⟩ := hq
      obtain ⟨n, h1⟩ := word_state hr u hu hl
      exact word (Forest.var h h1 Forest.nil) (by simpa using hu)
  · obtain ⟨n, h1⟩ := word_state hr u hu hl
    exact word h1 (by simpa using hu)

end Pango.Parse
