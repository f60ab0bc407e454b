import Verif.Spec.EndMarker
import Verif.Proofs.NoPanic
import Verif.Proofs.Complete
import Verif.Proofs.Handle
import Verif.Proofs.Reach

/-!
# Grammars with an end marker: rules, items, follow sets and trees
-/

namespace Pango.Parse

open Pango Pango.Spec

variable {V T : Type} {g : Grammar V T} {z : V} {e f : T}

theorem withEnd_mem {v : V} {β : Body V T} : (v, β) ∈ (withEnd g z e f).rules ↔
    (v, β) ∈ g.rules ∨ v = z ∧ (β = [.var g.start, .term e] ∨ β = [.var z, .term f]) := by
  simp [withEnd]
  constructor
  · rintro (h | h | h)
    · exact .inl h
    · exact .inr ⟨h.1, .inl h.2⟩
    · exact .inr ⟨h.1, .inr h.2⟩
  · rintro (h | ⟨h, h' | h'⟩)
    · exact .inl h
    · exact .inr (.inl ⟨h, h'⟩)
    · exact .inr (.inr ⟨h, h'⟩)

theorem withEnd_sub : ∀ r ∈ g.rules, r ∈ (withEnd g z e f).rules := fun ⟨_, _⟩ h => withEnd_mem.2 (.inl h)

theorem withEnd_epsFree (he : EpsFree g) : EpsFree (withEnd g z e f) := by
  intro h β hr
  rcases withEnd_mem.1 hr with hr | ⟨_, rfl | rfl⟩
  · exact he _ _ hr
  · simp
  · simp

section

variable [TerminalEq T] (wf : WellFormed g) (hn : NotIn g z e f)

include hn in
theorem _root_.Pango.Spec.NotIn.rule {v : V} {β : Body V T} (hv : v ≠ z) : (v, β) ∈ (withEnd g z e f).rules ↔ (v, β) ∈ g.rules := by
  rw [withEnd_mem]
  exact ⟨fun h => h.elim id fun h => absurd h.1 hv, .inl⟩

include hn in
theorem _root_.Pango.Spec.NotIn.ne {v : V} {β : Body V T} (h : (v, β) ∈ g.rules) : v ≠ z := by
  rintro rfl
  exact hn.head _ h

include wf hn in
theorem _root_.Pango.Spec.NotIn.start : g.start ≠ z := by
  obtain ⟨β, h⟩ := wf.start
  exact hn.ne h

include wf hn in
theorem _root_.Pango.Spec.NotIn.body {h v : V} {β : Body V T} (hr : (h, β) ∈ g.rules) (hv : .var v ∈ β) : v ≠ z := by
  obtain ⟨γ, h⟩ := wf.closed _ _ _ hr hv
  exact hn.ne h

/-! ## Items -/

/-- The items of the additional rules. -/
def EndItem (g : Grammar V T) (z : V) (e f : T) (γ : List (Sym V T)) (i : Item V T) : Prop :=
  (i.body = [.var g.start, .term e] ∨ i.body = [.var z, .term f]) ∧ i.cursor ≤ 2 ∧ γ = i.body.take i.cursor

include wf hn in
theorem viable_withEnd {γ : List (Sym V T)} {p : V × Item V T} :
    Viable (withEnd g z e f) γ p ↔ p.1 = z ∧ EndItem g z e f γ p.2 ∨ p.1 ≠ z ∧ Viable g γ p := by
  constructor
  · intro h
    induction h with
    | @start β i hr hf =>
      rw [fresh_iff] at hf
      subst hf
      rcases withEnd_mem.1 hr with h | ⟨_, rfl | rfl⟩
      · exact absurd h (hn.head _)
      · exact .inl ⟨rfl, .inl rfl, Nat.zero_le _, rfl⟩
      · exact .inl ⟨rfl, .inr rfl, Nat.zero_le _, rfl⟩
    | @expand γ h v i j β hv hrd hr hf ih =>
      rw [fresh_iff] at hf
      subst hf
      by_cases hz : v = z
      · subst hz
        have hb : β = [.var g.start, .term e] ∨ β = [.var v, .term f] := by
          rcases withEnd_mem.1 hr with h | ⟨_, h⟩
          · exact absurd h (hn.head _)
          · exact h
        have hγ : γ = [] := by
          rcases ih with ⟨_, h1, h2, h3⟩ | ⟨_, h1⟩
          · obtain ⟨pre, post, h4, h5⟩ := hrd
            simp only at h1 h2 h3
            cases pre with
            | nil => rw [h3, h5]; rfl
            | cons x pre =>
              exfalso
              rw [h4] at h1
              rcases h1 with h1 | h1 <;> cases pre with
              | nil => simp at h1
              | cons => simp at h1
          · obtain ⟨pre, post, h4, h5⟩ := hrd
            exact absurd rfl (hn.body wf (Viable_ok h1).rule (v := v) (by simp only; rw [h4]; simp))
        subst hγ
        rcases hb with rfl | rfl
        · exact .inl ⟨rfl, .inl rfl, Nat.zero_le _, rfl⟩
        · exact .inl ⟨rfl, .inr rfl, Nat.zero_le _, rfl⟩
      · refine .inr ⟨hz, ?_⟩
        have hr' := (hn.rule hz).1 hr
        rcases ih with ⟨_, h1, h2, h3⟩ | ⟨_, h1⟩
        · obtain ⟨pre, post, h4, h5⟩ := hrd
          simp only at h1 h2 h3
          have : v = g.start ∧ γ = [] := by
            cases pre with
            | nil =>
              rw [h4] at h1
              rcases h1 with h1 | h1
              · simp at h1
                exact ⟨h1.1, by rw [h3, h5]; rfl⟩
              · simp at h1
                exact absurd h1.1 hz
            | cons x pre =>
              exfalso
              rw [h4] at h1
              rcases h1 with h1 | h1 <;> cases pre with
              | nil => simp at h1
              | cons => simp at h1
          obtain ⟨rfl, rfl⟩ := this
          exact .start hr' (fresh_iff.2 rfl)
        · exact .expand h1 hrd hr' (fresh_iff.2 rfl)
    | @read γ h i j x hv ha ih =>
      rcases ih with ⟨hh, h1, h2, h3⟩ | ⟨hh, h1⟩
      · left
        simp only at hh h1 h2 h3 ⊢
        obtain ⟨h4, pre, k, rest, h5, _, h6, h7⟩ := ha
        refine ⟨hh, by rw [h4]; exact h1, ?_⟩
        rw [h4, h7, h3, h6]
        rw [h5] at h1 ⊢
        have hk : k = 0 := by
          cases k with
          | zero => rfl
          | succ k =>
            have h8 : (.eps : Sym V T) ∈ pre ++ x :: (List.replicate (k + 1) .eps ++ rest) := by
              simp [List.replicate_succ]
            rcases h1 with h1 | h1
            · rw [h1] at h8; simp at h8
            · rw [h1] at h8; simp at h8
        subst hk
        refine ⟨?_, ?_⟩
        · have : (pre ++ x :: (List.replicate 0 .eps ++ rest)).length = 2 := by
            rcases h1 with h1 | h1 <;> rw [h1] <;> rfl
          simp at this
          omega
        · have h8 : pre ++ x :: (List.replicate 0 .eps ++ rest) = (pre ++ [x]) ++ rest := by simp
          have h9 : (pre ++ [x]).length = pre.length + 1 + 0 := by simp
          rw [h8, ← h9, List.take_left, List.append_assoc, List.take_left]
      · exact .inr ⟨hh, .read h1 ha⟩
  · have hz : ∀ {β : Body V T}, β = [.var g.start, .term e] ∨ β = [.var z, .term f] →
        Viable (withEnd g z e f) [] (z, ⟨β, 0⟩) := by
      intro β hβ
      have hr : (z, β) ∈ (withEnd g z e f).rules := withEnd_mem.2 (.inr ⟨rfl, hβ⟩)
      refine .start hr (fresh_plain ?_)
      rcases hβ with rfl | rfl <;> simp
    rintro (⟨h1, h2, h3, h4⟩ | ⟨hne, h1⟩)
    · obtain ⟨v, b, c⟩ := p
      simp only at h1 h2 h3 h4
      subst h1
      have he : Sym.eps ∉ b := by rcases h2 with rfl | rfl <;> simp
      have hl : b.length = 2 := by rcases h2 with rfl | rfl <;> rfl
      have := viable_run (hz h2) he (pre := []) (α := b.take c) (post := b.drop c) (by simp) rfl
      have hc : (b.take c).length = c := by rw [List.length_take]; omega
      simpa [hc, h4] using this
    · clear hne
      induction h1 with
      | @start β i hr hf =>
        exact .expand (hz (.inl rfl)) ⟨[], _, rfl, rfl⟩ (withEnd_sub _ hr) hf
      | expand _ hrd hr hf ih => exact .expand ih hrd (withEnd_sub _ hr) hf
      | read _ ha ih => exact .read ih ha

/-! ## Follow sets -/

include wf hn in
theorem starts_withEnd {t : T} {α : List (Sym V T)} (h : Starts (withEnd g z e f) t α) (hz : .var z ∉ α) :
    Starts g t α := by
  induction h with
  | term => exact .term
  | eps _ ih => exact .eps (ih fun h => hz (by simp [h]))
  | @inVar v β α hr _ ih =>
    have hr' := (hn.rule (fun h => hz (by simp [h]))).1 hr
    exact .inVar hr' (ih fun h => hn.body wf hr' h rfl)
  | @skip v β α hr hnl _ ih =>
    have hr' := (hn.rule (fun h => hz (by simp [h]))).1 hr
    have : ∀ {β : List (Sym V T)}, Nullable (withEnd g z e f) β → .var z ∉ β → Nullable g β := by
      intro β h hz
      induction h with
      | nil => exact .nil
      | eps _ ih => exact .eps (ih fun h => hz (by simp [h]))
      | var hr _ _ ih1 ih2 =>
        have hr' := (hn.rule (fun h => hz (by simp [h]))).1 hr
        exact .var hr' (ih1 fun h => hn.body wf hr' h rfl) (ih2 fun h => hz (by simp [h]))
    exact .skip hr' (this hnl fun h => hn.body wf hr' h rfl) (ih fun h => hz (by simp [h]))

include wf hn in
theorem follow_withEnd (he : EpsFree g) {t : T} {v : V} (hv : v ≠ z) :
    Fol (withEnd g z e f) t v ↔ Fol g t v ∨ t = e ∧ CanEnd g v := by
  have hterm : ∀ {a b : T} {β : List (Sym V T)}, Starts (withEnd g z e f) a (.term b :: β) → a = b := by
    intro a b β h
    cases h
    rfl
  constructor
  · intro h
    induction h with
    | @here h v pre rest hr hs =>
      rcases withEnd_mem.1 hr with hr | ⟨rfl, hr | hr⟩
      · exact .inl (.here hr (starts_withEnd wf hn hs fun h => hn.body wf hr (v := z) (by simp [h]) rfl))
      · cases pre with
        | nil =>
          simp at hr
          obtain ⟨rfl, rfl⟩ := hr
          exact .inr ⟨hterm hs, .start⟩
        | cons x pre => cases pre <;> simp at hr
      · cases pre with
        | nil =>
          simp at hr
          exact absurd hr.1 hv
        | cons x pre => cases pre <;> simp at hr
    | @up h v pre rest hr hnl _ ih =>
      have hrest : rest = [] := by
        apply Classical.byContradiction
        intro hne
        have heps : Sym.eps ∉ rest := fun hm => withEnd_epsFree he _ _ hr (by simp [hm])
        have : ∀ {α : List (Sym V T)}, Nullable (withEnd g z e f) α → α ≠ [] → Sym.eps ∉ α → False := by
          intro α h
          induction h with
          | nil => exact fun h _ => h rfl
          | eps _ _ => exact fun _ h => h (by simp)
          | var hr _ _ ih1 _ =>
            refine fun _ _ => ih1 ?_ (withEnd_epsFree he _ _ hr)
            rcases withEnd_mem.1 hr with hr | ⟨_, rfl | rfl⟩
            · exact wf.nonempty _ _ hr
            · simp
            · simp
        exact this hnl hne heps
      subst hrest
      rcases withEnd_mem.1 hr with hr' | ⟨rfl, hr | hr⟩
      · rcases ih (hn.ne hr') with h | ⟨h', h⟩
        · exact .inl (.up hr' .nil h)
        · exact .inr ⟨h', .last hr' h⟩
      · have := congrArg List.getLast? hr
        simp at this
      · have := congrArg List.getLast? hr
        simp at this
  · rintro (h | ⟨rfl, h⟩)
    · exact h.mono withEnd_sub
    · clear hv
      induction h with
      | start => exact .here (pre := []) (withEnd_mem.2 (.inr ⟨rfl, .inl rfl⟩)) .term
      | last hr _ ih => exact .up (withEnd_sub _ hr) .nil ih

include wf hn in
/-- Only `f` follows the new start variable. -/
theorem follow_new {t : T} : Fol (withEnd g z e f) t z ↔ t = f := by
  constructor
  · intro h
    generalize hv : z = v at h
    cases h with
    | @here h _ pre rest hr hs =>
      subst hv
      rcases withEnd_mem.1 hr with hr | ⟨_, hr | hr⟩
      · exact absurd rfl (hn.body wf hr (v := z) (by simp))
      · cases pre with
        | nil =>
          simp at hr
          exact absurd hr.1.symm (hn.start wf)
        | cons x pre => cases pre <;> simp at hr
      · cases pre with
        | nil =>
          simp at hr
          subst hr
          cases hs
          rfl
        | cons x pre => cases pre <;> simp at hr
    | @up h _ pre rest hr hnl _ =>
      subst hv
      rcases withEnd_mem.1 hr with hr | ⟨_, hr | hr⟩
      · exact absurd rfl (hn.body wf hr (v := z) (by simp))
      · cases pre with
        | nil =>
          simp at hr
          exact absurd hr.1.symm (hn.start wf)
        | cons x pre => cases pre <;> simp at hr
      · cases pre with
        | nil =>
          simp at hr
          subst hr
          cases hnl
        | cons x pre => cases pre <;> simp at hr
  · rintro rfl
    exact .here (pre := []) (withEnd_mem.2 (.inr ⟨rfl, .inr rfl⟩)) .term

/-! ## Trees -/

include wf hn in
theorem forest_withEnd {α : List (Sym V T)} {ns : List (Node V T)} {w : List T} (hz : .var z ∉ α) :
    Forest (withEnd g z e f) α ns w ↔ Forest g α ns w := by
  refine ⟨fun h => ?_, forest_mono withEnd_sub⟩
  induction h with
  | nil => exact .nil
  | eps _ ih => exact .eps (ih fun h => hz (by simp [h]))
  | term ht _ ih => exact .term ht (ih fun h => hz (by simp [h]))
  | var hr _ _ ih1 ih2 =>
    have hr' := (hn.rule (fun h => hz (by simp [h]))).1 hr
    exact .var hr' (ih1 fun h => hn.body wf hr' h rfl) (ih2 fun h => hz (by simp [h]))

end

end Pango.Parse
