import Verif.Proofs.EndMarker
import Verif.Proofs.Plugged
import Verif.Spec.Choice

/-!
# The items and follow sets of a choice between grammars
-/

namespace Pango.Parse

open Pango Pango.Spec

variable {V T : Type} {g a b : Grammar V T} {gs : List (Grammar V T)}

theorem starts_congr {t : T} {α α' : List (Sym V T)} (h : Starts g t α → Starts g t α') {γ : List (Sym V T)}
    (h1 : Starts g t (γ ++ α)) : Starts g t (γ ++ α') := by
  induction γ with
  | nil => exact h h1
  | cons x γ ih =>
    cases h1 with
    | term => exact .term
    | eps h1 => exact .eps (ih h1)
    | inVar hr h1 => exact .inVar hr h1
    | skip hr hn h1 => exact .skip hr hn (ih h1)

/-- What begins a string of symbols with an item behind it begins a sentence. -/
theorem viable_begins (he : EpsFree g) {γ : List (Sym V T)} {p : V × Item V T} (h : Viable g γ p) {t : T}
    (ht : Starts g t (γ ++ p.2.body.drop p.2.cursor)) : Starts g t [.var g.start] := by
  induction h with
  | @start β i hr hf =>
    rw [fresh_iff.1 hf, ← fresh_iff.1 (fresh_plain (he _ _ hr))] at ht
    exact .inVar hr ht
  | @expand γ h v i j β _ hrd hr hf ih =>
    rw [fresh_iff.1 hf, ← fresh_iff.1 (fresh_plain (he _ _ hr))] at ht
    refine ih (starts_congr (fun h => ?_) ht)
    obtain ⟨pre, post, h1, h2⟩ := hrd
    simp only
    rw [h1, h2, List.drop_left]
    exact .inVar hr h
  | @read γ h i j x hv ha ih =>
    obtain ⟨h4, pre, k, rest, h5, _, h6, h7⟩ := ha
    have hk : k = 0 := by
      cases k with
      | zero => rfl
      | succ k =>
        refine absurd ?_ (he _ _ (Viable_ok hv).rule)
        simp only
        rw [h5]
        simp [List.replicate_succ]
    subst hk
    refine ih ?_
    simp only at ht ⊢
    rw [h4, h5, h7] at ht
    rw [h5, h6, List.drop_left]
    have h8 : pre ++ x :: (List.replicate 0 .eps ++ rest) = (pre ++ [x]) ++ rest := by simp
    have h9 : (pre ++ [x]).length = pre.length + 1 + 0 := by simp
    rw [h8, ← h9, List.drop_left] at ht
    simpa using ht

/-- Where a sentence can begin with a terminal, some item reads it. -/
theorem starts_viable (hw : ∀ v β, (v, β) ∈ g.rules → β ≠ []) (he : EpsFree g) {t : T} {α : List (Sym V T)}
    (h : Starts g t α) : ∀ {v : V} {β : Body V T}, (v, β) ∈ g.rules → Viable g [] (v, ⟨β, 0⟩) → (∃ rest, β = α ++ rest) →
      ∃ p, Viable g [] p ∧ Reads p.2 (.term t) := by
  induction h with
  | term =>
    rintro v β _ hv ⟨rest, rfl⟩
    exact ⟨_, hv, reads_iff.2 rfl⟩
  | eps _ _ =>
    rintro v β hr hv ⟨rest, rfl⟩
    exact absurd (by simp) (he _ _ hr)
  | @inVar w δ α hr _ ih =>
    rintro v β _ hv ⟨rest, rfl⟩
    exact ih hr (.expand hv (reads_iff.2 rfl) hr (fresh_plain (he _ _ hr))) ⟨[], by simp⟩
  | skip hr hn _ _ => exact absurd (nonEps_nullable hw he (he _ _ hr) hn) (hw _ _ hr)

theorem viable_nil_cursor (he : EpsFree g) {p : V × Item V T} (h : Viable g [] p) : p.2.cursor = 0 := by
  generalize hγ : ([] : List (Sym V T)) = γ at h
  induction h with
  | start h1 h2 => rw [fresh_iff.1 h2, ← fresh_iff.1 (fresh_plain (he _ _ h1))]
  | expand _ _ h1 h2 _ => rw [fresh_iff.1 h2, ← fresh_iff.1 (fresh_plain (he _ _ h1))]
  | read _ _ _ => simp at hγ

section

variable (hc : Choice g gs) (wf : ∀ a ∈ gs, WellFormed a) (he : ∀ a ∈ gs, EpsFree a)

include hc in
theorem _root_.Pango.Spec.Choice.sub (ha : a ∈ gs) : ∀ r ∈ a.rules, r ∈ g.rules :=
  fun ⟨_, _⟩ h => (hc.rules _ _).2 (.inl ⟨a, ha, h⟩)

include hc in
/-- A rule of a variable of one of the grammars is a rule of this grammar. -/
theorem _root_.Pango.Spec.Choice.rule (ha : a ∈ gs) {v : V} (hv : ∃ γ, (v, γ) ∈ a.rules) {β : Body V T} :
    (v, β) ∈ g.rules ↔ (v, β) ∈ a.rules := by
  refine ⟨fun h => ?_, hc.sub ha _⟩
  obtain ⟨γ, hv⟩ := hv
  rcases (hc.rules _ _).1 h with ⟨b, hb, h⟩ | ⟨rfl, _⟩
  · rwa [hc.apart a ha b hb _ _ _ hv h]
  · exact absurd hv (hc.fresh a ha _)

include hc he in
theorem _root_.Pango.Spec.Choice.epsFree : EpsFree g := by
  intro v β h
  rcases (hc.rules _ _).1 h with ⟨a, ha, h⟩ | ⟨_, a, _, rfl⟩
  · exact he a ha _ _ h
  · simp

include hc wf in
theorem _root_.Pango.Spec.Choice.nonempty : ∀ v β, (v, β) ∈ g.rules → β ≠ [] := by
  intro v β h
  rcases (hc.rules _ _).1 h with ⟨a, ha, h⟩ | ⟨_, a, _, rfl⟩
  · exact (wf a ha).nonempty _ _ h
  · simp

include hc wf in
theorem _root_.Pango.Spec.Choice.body (ha : a ∈ gs) {h : V} {β : Body V T} (hr : (h, β) ∈ a.rules) : .var g.start ∉ β := by
  intro hv
  obtain ⟨γ, h1⟩ := (wf a ha).closed _ _ _ hr hv
  exact hc.fresh a ha _ h1

/-! ## Items -/

/-- The items of the new rules. -/
def TopItem (g : Grammar V T) (gs : List (Grammar V T)) (γ : List (Sym V T)) (p : V × Item V T) : Prop :=
  p.1 = g.start ∧ ∃ a ∈ gs, p.2.body = [.var a.start] ∧ p.2.cursor ≤ 1 ∧ γ = p.2.body.take p.2.cursor

include hc wf in
theorem viable_choice {γ : List (Sym V T)} {p : V × Item V T} :
    Viable g γ p ↔ TopItem g gs γ p ∨ ∃ a ∈ gs, Viable a γ p := by
  constructor
  · intro h
    induction h with
    | @start β i hr hf =>
      rw [fresh_iff] at hf
      subst hf
      rcases (hc.rules _ _).1 hr with ⟨a, ha, h⟩ | ⟨_, a, ha, rfl⟩
      · exact absurd h (hc.fresh a ha _)
      · exact .inl ⟨rfl, a, ha, rfl, Nat.zero_le _, rfl⟩
    | @expand γ h v i j β hv hrd hr hf ih =>
      rw [fresh_iff] at hf
      subst hf
      obtain ⟨pre, post, h4, h5⟩ := hrd
      rcases ih with ⟨_, a, ha, h1, h2, h3⟩ | ⟨a, ha, h1⟩
      · simp only at h1 h2 h3
        rw [h4] at h1
        cases pre with
        | nil =>
          simp at h1
          obtain ⟨rfl, rfl⟩ := h1
          rw [h5] at h3
          simp only [List.length_nil, List.take_zero] at h3
          subst h3
          exact .inr ⟨a, ha, .start ((hc.rule ha (wf a ha).start).1 hr) (fresh_iff.2 rfl)⟩
        | cons x pre => simp at h1
      · have hv' : ∃ γ, (v, γ) ∈ a.rules := (wf a ha).closed _ _ _ (Viable_ok h1).rule (by simp only; rw [h4]; simp)
        exact .inr ⟨a, ha, .expand h1 ⟨pre, post, h4, h5⟩ ((hc.rule ha hv').1 hr) (fresh_iff.2 rfl)⟩
    | @read γ h i j x hv ha ih =>
      rcases ih with ⟨hh, a, ha', h1, h2, h3⟩ | ⟨a, ha', h1⟩
      · left
        simp only at hh h1 h2 h3 ⊢
        obtain ⟨h4, pre, k, rest, h5, _, h6, h7⟩ := ha
        rw [h5] at h1
        cases pre with
        | nil =>
          simp at h1
          obtain ⟨rfl, h8, rfl⟩ := h1
          subst h8
          simp only [List.length_nil, List.replicate_zero, List.append_nil, List.nil_append] at h5 h6 h7
          refine ⟨hh, a, ha', by rw [h4]; exact h5, by rw [h7]; simp, ?_⟩
          simp only
          rw [h4, h3, h7, h6, h5]
          rfl
        | cons y pre => simp at h1
      · exact .inr ⟨a, ha', .read h1 ha⟩
  · have hz : ∀ {a : Grammar V T}, a ∈ gs → Viable g [] (g.start, ⟨[.var a.start], 0⟩) := by
      intro a ha
      exact .start ((hc.rules _ _).2 (.inr ⟨rfl, a, ha, rfl⟩)) (fresh_plain (by simp))
    rintro (⟨h1, a, ha, h2, h3, h4⟩ | ⟨a, ha, h1⟩)
    · obtain ⟨v, b, c⟩ := p
      simp only at h1 h2 h3 h4
      subst h1 h2
      match c, h3 with
      | 0, _ => subst h4; exact hz ha
      | 1, _ =>
        subst h4
        have := viable_run (hz ha) (by simp) (pre := []) (α := [.var a.start]) (post := []) (by simp) rfl
        simpa using this
    · induction h1 with
      | @start β i hr hf => exact .expand (hz ha) (reads_iff.2 rfl) (hc.sub ha _ hr) hf
      | expand _ hrd hr hf ih => exact .expand ih hrd (hc.sub ha _ hr) hf
      | read _ ha ih => exact .read ih ha

/-! ## First and follow sets -/

include hc wf in
theorem nullable_choice (ha : a ∈ gs) {α : List (Sym V T)} (h : Nullable g α)
    (hα : ∀ v, .var v ∈ α → ∃ γ, (v, γ) ∈ a.rules) : Nullable a α := by
  induction h with
  | nil => exact .nil
  | eps _ ih => exact .eps (ih fun v h => hα v (by simp [h]))
  | @var v β α hr _ _ ih1 ih2 =>
    have hr' := (hc.rule ha (hα v (by simp))).1 hr
    exact .var hr' (ih1 fun w hw => (wf a ha).closed _ _ _ hr' hw) (ih2 fun w h => hα w (by simp [h]))

include hc wf in
theorem starts_choice (ha : a ∈ gs) {t : T} {α : List (Sym V T)} (h : Starts g t α)
    (hα : ∀ v, .var v ∈ α → ∃ γ, (v, γ) ∈ a.rules) : Starts a t α := by
  induction h with
  | term => exact .term
  | eps _ ih => exact .eps (ih fun v h => hα v (by simp [h]))
  | @inVar v β α hr _ ih =>
    have hr' := (hc.rule ha (hα v (by simp))).1 hr
    exact .inVar hr' (ih fun w hw => (wf a ha).closed _ _ _ hr' hw)
  | @skip v β α hr hnl _ ih =>
    have hr' := (hc.rule ha (hα v (by simp))).1 hr
    exact .skip hr' (nullable_choice hc wf ha hnl fun w hw => (wf a ha).closed _ _ _ hr' hw) (ih fun w h => hα w (by simp [h]))

include hc wf in
/-- The rules with a variable of one of the grammars in their bodies are those of this grammar, or the new one. -/
theorem rule_choice (ha : a ∈ gs) {h v : V} {pre rest : List (Sym V T)} (hr : (h, pre ++ .var v :: rest) ∈ g.rules)
    (hv : ∃ γ, (v, γ) ∈ a.rules) : (h, pre ++ .var v :: rest) ∈ a.rules ∨ h = g.start ∧ v = a.start ∧ pre = [] ∧ rest = [] := by
  obtain ⟨γ, hv⟩ := hv
  rcases (hc.rules _ _).1 hr with ⟨b, hb, h1⟩ | ⟨rfl, b, hb, h1⟩
  · obtain ⟨γ', h2⟩ := (wf b hb).closed _ _ v h1 (by simp)
    cases hc.apart a ha b hb _ _ _ hv h2
    exact .inl h1
  · cases pre with
    | nil =>
      simp at h1
      obtain ⟨rfl, rfl⟩ := h1
      obtain ⟨γ', h2⟩ := (wf b hb).start
      cases hc.apart a ha b hb _ _ _ hv h2
      exact .inr ⟨rfl, rfl, rfl, rfl⟩
    | cons x pre => simp at h1

include hc wf in
/-- The new start variable is followed by nothing. -/
theorem fol_top {t : T} : ¬ Fol g t g.start := by
  have key : ∀ {h : V} {pre rest : List (Sym V T)}, (h, pre ++ .var g.start :: rest) ∉ g.rules := by
    intro h pre rest hr
    rcases (hc.rules _ _).1 hr with ⟨b, hb, h1⟩ | ⟨_, b, hb, h1⟩
    · exact hc.body wf hb h1 (by simp)
    · cases pre with
      | nil =>
        simp at h1
        obtain ⟨γ, h2⟩ := (wf b hb).start
        exact hc.fresh b hb γ (by rw [h1.1]; exact h2)
      | cons x pre => simp at h1
  intro h
  cases h with
  | here hr _ => exact key hr
  | up hr _ _ => exact key hr

include hc wf in
theorem fol_choice (ha : a ∈ gs) {t : T} {v : V} (hv : ∃ γ, (v, γ) ∈ a.rules) : Fol g t v ↔ Fol a t v := by
  constructor
  · intro h
    induction h with
    | @here h v pre rest hr hs =>
      rcases rule_choice hc wf ha hr hv with hr' | ⟨_, _, _, rfl⟩
      · exact .here hr' (starts_choice hc wf ha hs fun w hw => (wf a ha).closed _ _ _ hr' (by simp [hw]))
      · cases hs
    | @up h v pre rest hr hnl hf ih =>
      rcases rule_choice hc wf ha hr hv with hr' | ⟨rfl, _, _, rfl⟩
      · exact .up hr' (nullable_choice hc wf ha hnl fun w hw => (wf a ha).closed _ _ _ hr' (by simp [hw])) (ih ⟨_, hr'⟩)
      · exact absurd hf (fol_top hc wf)
  · exact fun h => h.mono (hc.sub ha)

include hc wf in
theorem canEnd_choice (ha : a ∈ gs) {v : V} (hv : ∃ γ, (v, γ) ∈ a.rules) : CanEnd g v ↔ CanEnd a v := by
  constructor
  · intro h
    induction h with
    | start =>
      obtain ⟨γ, hv⟩ := hv
      exact absurd hv (hc.fresh a ha _)
    | @last h v pre hr _ ih =>
      rcases rule_choice hc wf ha (rest := []) hr hv with hr' | ⟨_, rfl, _⟩
      · exact .last hr' (ih ⟨_, hr'⟩)
      · exact .start
  · intro h
    induction h with
    | start => exact .last (pre := []) ((hc.rules _ _).2 (.inr ⟨rfl, a, ha, rfl⟩)) .start
    | @last h v pre hr _ ih => exact .last (hc.sub ha _ hr) (ih ⟨_, hr⟩)

/-! ## Trees -/

include hc wf in
theorem forest_choice (ha : a ∈ gs) {α : List (Sym V T)} {ns : List (Node V T)} {w : List T} [TerminalEq T]
    (hα : ∀ v, .var v ∈ α → ∃ γ, (v, γ) ∈ a.rules) : Forest g α ns w ↔ Forest a α ns w := by
  refine ⟨fun h => ?_, forest_mono (hc.sub ha)⟩
  induction h with
  | nil => exact .nil
  | eps _ ih => exact .eps (ih fun v h => hα v (by simp [h]))
  | term ht _ ih => exact .term ht (ih fun v h => hα v (by simp [h]))
  | @var v β α cs ns x w hr _ _ ih1 ih2 =>
    have hr' := (hc.rule ha (hα v (by simp))).1 hr
    exact .var hr' (ih1 fun w hw => (wf a ha).closed _ _ _ hr' hw) (ih2 fun w h => hα w (by simp [h]))

/-! ## Entries of the table -/

/-- An entry of one of the grammars, as an entry of the choice. -/
def topEntry (g a : Grammar V T) : Option (V × Item V T) → Option (V × Item V T)
  | some p => some p
  | none => some (g.start, ⟨[.var a.start], 1⟩)

include hc wf in
theorem entry_of_choice {γ : List (Sym V T)} {p : Option (V × Item V T)} {k : Option T} (h : TableEntry g γ p k) :
    γ = [.var g.start] ∧ p = none ∧ k = none ∨ ∃ a ∈ gs, ∃ q, TableEntry a γ q k ∧ p = topEntry g a q := by
  have reads : ∀ {h : V} {i : Item V T} {t : T}, TopItem g gs γ (h, i) → ¬ Reads i (.term t) := by
    rintro h i t ⟨_, a, _, h1, _⟩ ⟨pre, post, h2, _⟩
    simp only at h1
    rw [h1] at h2
    cases pre with
    | nil => simp at h2
    | cons x pre => simp at h2
  have head : ∀ {a : Grammar V T} {h : V} {i : Item V T}, Viable a γ (h, i) → ∃ γ, (h, γ) ∈ a.rules :=
    fun h => ⟨_, (Viable_ok h).rule⟩
  cases h with
  | shift hv hr =>
    rcases (viable_choice hc wf).1 hv with h | ⟨a, ha, h⟩
    · exact absurd hr (reads h)
    · exact .inr ⟨a, ha, _, .shift h hr, rfl⟩
  | @reduce h i t hv hco hf =>
    rcases (viable_choice hc wf).1 hv with h1 | ⟨a, ha, h1⟩
    · have : h = g.start := h1.1
      subst this
      exact absurd (inFollow_iff.1 hf) (fol_top hc wf)
    · exact .inr ⟨a, ha, _, .reduce h1 hco (inFollow_iff.2 ((fol_choice hc wf ha (head h1)).1 (inFollow_iff.1 hf))), rfl⟩
  | @reduceEnd h i hv hco hf =>
    rcases (viable_choice hc wf).1 hv with ⟨h1, a, ha, h2, h3, h4⟩ | ⟨a, ha, h1⟩
    · obtain ⟨b, c⟩ := i
      simp only at h1 h2 h3 h4
      subst h1 h2
      have h5 : c = 1 := by
        simp only [Complete, List.length_singleton] at hco
        omega
      subst h5
      exact .inr ⟨a, ha, none, .accept h4, rfl⟩
    · exact .inr ⟨a, ha, _, .reduceEnd h1 hco ((canEnd_choice hc wf ha (head h1)).1 hf), rfl⟩
  | accept h => exact .inl ⟨h, rfl, rfl⟩

include hc wf in
theorem entry_to_choice (ha : a ∈ gs) {γ : List (Sym V T)} {q : Option (V × Item V T)} {k : Option T}
    (h : TableEntry a γ q k) : TableEntry g γ (topEntry g a q) k := by
  have up : ∀ {p : V × Item V T}, Viable a γ p → Viable g γ p := fun h => (viable_choice hc wf).2 (.inr ⟨a, ha, h⟩)
  have head : ∀ {h : V} {i : Item V T}, Viable a γ (h, i) → ∃ γ, (h, γ) ∈ a.rules :=
    fun h => ⟨_, (Viable_ok h).rule⟩
  cases h with
  | shift hv hr => exact .shift (up hv) hr
  | reduce hv hco hf =>
    exact .reduce (up hv) hco (inFollow_iff.2 ((fol_choice hc wf ha (head hv)).2 (inFollow_iff.1 hf)))
  | reduceEnd hv hco hf => exact .reduceEnd (up hv) hco ((canEnd_choice hc wf ha (head hv)).2 hf)
  | accept h =>
    subst h
    exact .reduceEnd ((viable_choice hc wf).2 (.inl ⟨rfl, a, ha, rfl, Nat.le_refl _, rfl⟩)) (by simp [Complete]) .start

theorem topEntry_inj (hc : Choice g gs) (ha : a ∈ gs) {γ : List (Sym V T)} {q q' : Option (V × Item V T)} {k k' : Option T}
    (h : TableEntry a γ q k) (h' : TableEntry a γ q' k') (heq : topEntry g a q = topEntry g a q') : q = q' := by
  have new : ∀ {p : V × Item V T} {k : Option T}, TableEntry a γ (some p) k → p.1 ≠ g.start := by
    intro p k h he
    have : ∃ β, (p.1, β) ∈ a.rules := by
      cases h with
      | shift hv _ => exact ⟨_, (Viable_ok hv).rule⟩
      | reduce hv _ _ => exact ⟨_, (Viable_ok hv).rule⟩
      | reduceEnd hv _ _ => exact ⟨_, (Viable_ok hv).rule⟩
    obtain ⟨β, h1⟩ := this
    rw [he] at h1
    exact hc.fresh a ha _ h1
  cases q with
  | none =>
    cases q' with
    | none => rfl
    | some p' =>
      simp only [topEntry, Option.some.injEq] at heq
      exact absurd (by rw [← heq]) (new h')
  | some p =>
    cases q' with
    | none =>
      simp only [topEntry, Option.some.injEq] at heq
      exact absurd (by rw [heq]) (new h)
    | some p' => simpa [topEntry] using heq

/-- The symbols before an item, and the item itself, are of the grammar. -/
theorem entry_first (wfa : WellFormed a) (hea : EpsFree a) {γ : List (Sym V T)} {q : Option (V × Item V T)} {k : Option T}
    (h : TableEntry a γ q k) : (γ = [] → ∃ t, k = some t ∧ Starts a t [.var a.start]) ∧
      ∀ x δ, γ = x :: δ → (∃ v, x = .var v ∧ ∃ β, (v, β) ∈ a.rules) ∨ ∃ t, x = .term t ∧ Starts a t [.var a.start] := by
  have hx : ∀ {γ : List (Sym V T)} {p : V × Item V T}, Viable a γ p → ∀ x ∈ γ, ∃ h β, (h, β) ∈ a.rules ∧ x ∈ β := by
    intro γ p h
    induction h with
    | start => simp
    | expand _ _ _ _ ih => exact ih
    | @read γ hd i j x hv ha ih =>
      intro y hy
      rcases List.mem_append.1 hy with hy | hy
      · exact ih y hy
      · obtain rfl := List.mem_singleton.1 hy
        obtain ⟨_, pre, k, post, h1, _⟩ := ha
        exact ⟨_, _, (Viable_ok hv).rule, by simp only; rw [h1]; simp⟩
  have second : ∀ {p : V × Item V T}, Viable a γ p → ∀ x δ, γ = x :: δ →
      (∃ v, x = .var v ∧ ∃ β, (v, β) ∈ a.rules) ∨ ∃ t, x = .term t ∧ Starts a t [.var a.start] := by
    rintro p hv x δ rfl
    obtain ⟨h, β, hr, hm⟩ := hx hv x (by simp)
    cases x with
    | var v => exact .inl ⟨v, rfl, wfa.closed _ _ _ hr hm⟩
    | term t => exact .inr ⟨t, rfl, viable_begins hea hv .term⟩
    | eps => exact absurd hm (hea _ _ hr)
  have complete : ∀ {p : V × Item V T}, Viable a γ p → Complete p.2 → γ ≠ [] := by
    rintro p hv hco rfl
    have := viable_nil_cursor hea hv
    simp only [Complete] at hco
    have hne := wfa.nonempty _ _ (Viable_ok hv).rule
    have := List.length_pos_iff.2 hne
    omega
  cases h with
  | @shift h i t hv hr =>
    refine ⟨?_, second hv⟩
    rintro rfl
    refine ⟨t, rfl, viable_begins hea hv ?_⟩
    obtain ⟨pre, post, h1, h2⟩ := hr
    simp only
    rw [h1, h2, List.drop_left]
    exact .term
  | reduce hv hco _ => exact ⟨fun h => absurd h (complete hv hco), second hv⟩
  | reduceEnd hv hco _ => exact ⟨fun h => absurd h (complete hv hco), second hv⟩
  | accept h =>
    subst h
    refine ⟨by simp, ?_⟩
    rintro x δ h
    simp only [List.cons.injEq] at h
    exact .inl ⟨_, h.1.symm, wfa.start⟩

variable [TerminalEq T] [LawfulTerminalEq T]

include hc wf he in
theorem choice_oneEntry : OneEntryEach g ↔ (∀ a ∈ gs, OneEntryEach a) ∧
    ∀ a ∈ gs, ∀ b ∈ gs, a ≠ b → ∀ t u, Starts a t [.var a.start] → Starts b u [.var b.start] → teq t u = false := by
  constructor
  · intro h
    refine ⟨fun a ha γ p p' k k' h1 h2 hk => ?_, fun a ha b hb hab t u ht hu => ?_⟩
    · obtain ⟨h3, h4⟩ := h γ _ _ k k' (entry_to_choice hc wf ha h1) (entry_to_choice hc wf ha h2) hk
      exact ⟨topEntry_inj hc ha h1 h2 h3, h4⟩
    · cases htu : teq t u with
      | false => rfl
      | true =>
        exfalso
        have key : ∀ {a : Grammar V T} {t : T}, a ∈ gs → Starts a t [.var a.start] →
            ∃ p, Viable a [] p ∧ Reads p.2 (.term t) := by
          intro a t ha ht
          cases ht with
          | inVar hr h1 =>
            exact starts_viable (wf a ha).nonempty (he a ha) h1 hr (.start hr (fresh_plain (he a ha _ _ hr))) ⟨[], by simp⟩
          | skip hr hn _ => exact absurd (nonEps_nullable (wf a ha).nonempty (he a ha) (he a ha _ _ hr) hn) ((wf a ha).nonempty _ _ hr)
        obtain ⟨p, h1, h2⟩ := key ha ht
        obtain ⟨q, h3, h4⟩ := key hb hu
        obtain ⟨h5, _⟩ := h [] _ _ (some t) (some u) (entry_to_choice hc wf ha (.shift h1 h2))
          (entry_to_choice hc wf hb (.shift h3 h4)) htu
        simp only [topEntry, Option.some.injEq] at h5
        cases (show p = q from h5)
        exact hab (hc.apart a ha b hb _ _ _ (Viable_ok h1).rule (Viable_ok h3).rule)
  · rintro ⟨h1, h2⟩ γ p p' k k' hp hp' hk
    have top : ∀ {a : Grammar V T} {q : Option (V × Item V T)} {k : Option T}, a ∈ gs → ¬ TableEntry a [.var g.start] q k := by
      intro a q k ha h
      rcases (entry_first (wf a ha) (he a ha) h).2 _ _ rfl with ⟨v, h3, β, h4⟩ | ⟨t, h3, _⟩
      · simp only [Sym.var.injEq] at h3
        subst h3
        exact hc.fresh a ha _ h4
      · simp at h3
    rcases entry_of_choice hc wf hp with ⟨rfl, rfl, rfl⟩ | ⟨a, ha, q, h3, rfl⟩
    · rcases entry_of_choice hc wf hp' with ⟨_, rfl, rfl⟩ | ⟨b, hb, q', h4, rfl⟩
      · exact ⟨rfl, rfl⟩
      · exact absurd h4 (top hb)
    · rcases entry_of_choice hc wf hp' with ⟨rfl, rfl, rfl⟩ | ⟨b, hb, q', h4, rfl⟩
      · exact absurd h3 (top ha)
      · by_cases hab : a = b
        · subst hab
          obtain ⟨rfl, rfl⟩ := h1 a ha γ q q' k k' h3 h4 hk
          exact ⟨rfl, rfl⟩
        · exfalso
          have h5 := entry_first (wf a ha) (he a ha) h3
          have h6 := entry_first (wf b hb) (he b hb) h4
          cases γ with
          | nil =>
            obtain ⟨t, rfl, ht⟩ := h5.1 rfl
            obtain ⟨u, rfl, hu⟩ := h6.1 rfl
            have := h2 a ha b hb hab t u ht hu
            simp only [keyEq] at hk
            rw [this] at hk
            cases hk
          | cons x γ =>
            rcases h5.2 x γ rfl with ⟨v, rfl, β, h7⟩ | ⟨t, rfl, h7⟩
            · rcases h6.2 _ γ rfl with ⟨w, h8, β', h9⟩ | ⟨u, h8, _⟩
              · simp only [Sym.var.injEq] at h8
                subst h8
                exact hab (hc.apart a ha b hb _ _ _ h7 h9)
              · simp at h8
            · rcases h6.2 _ γ rfl with ⟨w, h8, _⟩ | ⟨u, h8, h9⟩
              · simp at h8
              · simp only [Sym.term.injEq] at h8
                subst h8
                have := h2 a ha b hb hab t t h7 h9
                rw [show teq t t = true from LawfulTerminalEq.refl t] at this
                cases this

end

end Pango.Parse
