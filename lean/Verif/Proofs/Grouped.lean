import Verif.Proofs.Maps

/-!
# The iteration order of maps of sets
-/

namespace Pango

open Pango.Parse

variable {α κ : Type} [DecidableEq κ]

/-- The elements of a list, key by key. -/
theorem flatMap_filter_perm {key : α → κ} : ∀ {ks : List κ} {l : List α}, ks.Nodup → (∀ a ∈ l, key a ∈ ks) →
    (ks.flatMap fun k => l.filter fun a => key a = k).Perm l := by
  intro ks
  induction ks with
  | nil =>
    intro l _ h
    cases l with
    | nil => exact List.Perm.refl _
    | cons a l => cases h a (by simp)
  | cons k ks ih =>
    intro l hn h
    obtain ⟨h1, h2⟩ := List.nodup_cons.1 hn
    have h3 := ih (l := l.filter fun a => ¬ key a = k) h2 (fun a ha => by
      simp only [List.mem_filter, decide_not, Bool.not_eq_true', decide_eq_false_iff_not] at ha
      rcases List.mem_cons.1 (h a ha.1) with h4 | h4
      · exact absurd h4 ha.2
      · exact h4)
    have h4 : (ks.flatMap fun k' => (l.filter fun a => ¬ key a = k).filter fun a => key a = k') =
        ks.flatMap fun k' => l.filter fun a => key a = k' := by
      unfold List.flatMap
      congr 1
      refine List.map_congr_left fun k' hk' => ?_
      rw [List.filter_filter]
      refine List.filter_congr fun a _ => ?_
      by_cases he : key a = k'
      · have : ¬ key a = k := by rintro rfl; exact h1 (he ▸ hk')
        simp [he ▸ this, he]
      · simp [he]
    rw [h4] at h3
    rw [List.flatMap_cons]
    refine (h3.append_left _).trans ?_
    have := List.filter_append_perm (fun a => decide (key a = k)) l
    simpa using this

theorem HashOrder.grouped_perm (ord : HashOrder) (key : α → κ) (l : List α) : (ord.grouped key l).Perm l := by
  unfold HashOrder.grouped
  have h1 : ∀ (ks : List (κ × Nat)), (ks.flatMap fun k => ord.shuffle [1, k.2] _ (l.filter fun a => key a = k.1)).Perm
      (ks.flatMap fun k => l.filter fun a => key a = k.1) := by
    intro ks
    induction ks with
    | nil => exact List.Perm.refl _
    | cons k ks ih =>
      rw [List.flatMap_cons, List.flatMap_cons]
      exact (ord.perm _ _ _).append ih
  refine (h1 _).trans (((ord.perm _ _ _).flatMap_right _).trans ?_)
  have h2 : ((extendSet [] (l.map key)).zipIdx.flatMap fun k => l.filter fun a => key a = k.1) =
      (extendSet [] (l.map key)).flatMap fun k => l.filter fun a => key a = k := by
    conv => rhs; rw [← List.zipIdx_map_fst 0 (extendSet [] (l.map key))]
    rw [List.flatMap_map]
  rw [h2]
  refine flatMap_filter_perm (nodup_extendSet List.nodup_nil) fun a ha => ?_
  rw [mem_extendSet]
  exact .inr (List.mem_map_of_mem ha)

@[simp] theorem HashOrder.mem_grouped (ord : HashOrder) {key : α → κ} {l : List α} {a : α} :
    a ∈ ord.grouped key l ↔ a ∈ l := (ord.grouped_perm key l).mem_iff

@[simp] theorem HashOrder.length_grouped (ord : HashOrder) {key : α → κ} {l : List α} :
    (ord.grouped key l).length = l.length := (ord.grouped_perm key l).length_eq

end Pango
