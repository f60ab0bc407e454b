import Verif.Model.Grammar

/-!
# Sets and maps as lists
-/

namespace Pango.Parse

variable {α β : Type} [DecidableEq α]

theorem mem_insertNew {a x : α} {l : List α} : x ∈ insertNew a l ↔ x = a ∨ x ∈ l := by
  unfold insertNew
  split
  · constructor
    · exact .inr
    · rintro (rfl | h) <;> assumption
  · simp [or_comm]

theorem nodup_insertNew {a : α} {l : List α} (h : l.Nodup) : (insertNew a l).Nodup := by
  unfold insertNew
  split
  · exact h
  · rename_i hn
    refine List.nodup_append.2 ⟨h, by simp, ?_⟩
    intro x hx y hy hxy
    simp at hy
    subst hxy hy
    exact hn hx

/-- Insertion makes a set longer exactly if the element is new. -/
theorem insertNew_cases (a : α) (l : List α) :
    (a ∈ l ∧ insertNew a l = l) ∨ (a ∉ l ∧ insertNew a l = l ++ [a]) := by
  unfold insertNew
  split
  · exact .inl ⟨‹_›, rfl⟩
  · exact .inr ⟨‹_›, rfl⟩

theorem mem_extendSet {x : α} {new l : List α} : x ∈ extendSet l new ↔ x ∈ l ∨ x ∈ new := by
  unfold extendSet
  induction new generalizing l with
  | nil => simp
  | cons a new ih =>
    rw [List.foldl_cons, ih, mem_insertNew, List.mem_cons]
    constructor
    · rintro ((h | h) | h) <;> simp [h]
    · rintro (h | h | h) <;> simp [h]

theorem nodup_extendSet {l new : List α} (h : l.Nodup) : (extendSet l new).Nodup := by
  unfold extendSet
  induction new generalizing l with
  | nil => exact h
  | cons a new ih => exact ih (nodup_insertNew h)

theorem extendSet_prefix (l new : List α) : l <+: extendSet l new := by
  unfold extendSet
  induction new generalizing l with
  | nil => exact List.prefix_refl l
  | cons a new ih =>
    refine List.IsPrefix.trans ?_ (ih _)
    show l <+: insertNew a l
    rcases insertNew_cases a l with ⟨_, h⟩ | ⟨_, h⟩ <;> rw [h]
    · exact List.prefix_refl l
    · exact List.prefix_append l [a]

/-- A set that did not become longer did not change. -/
theorem extendSet_same {l new : List α} (h : l.length = (extendSet l new).length) : extendSet l new = l :=
  ((extendSet_prefix l new).eq_of_length h).symm

theorem mem_collect {x : α} {l : List α} : x ∈ extendSet [] l ↔ x ∈ l := by simp [mem_extendSet]

theorem mapGet_mapSet (m : List (α × β)) (k k' : α) (v : β) :
    mapGet (mapSet m k v) k' = if k = k' then some v else mapGet m k' := by
  induction m with
  | nil => simp only [mapSet, mapGet]
  | cons e m ih =>
    obtain ⟨a, b⟩ := e
    simp only [mapSet]
    split
    · rename_i h
      subst h
      simp only [mapGet]
      split <;> simp_all
    · rename_i h
      simp only [mapGet, ih]
      split
      · rename_i h'
        subst h'
        simp [Ne.symm h]
      · rfl

theorem mapGet_mapRemove (m : List (α × β)) (k k' : α) :
    mapGet (mapRemove m k) k' = if k = k' then none else mapGet m k' := by
  induction m with
  | nil => simp [mapRemove, mapGet]
  | cons e m ih =>
    obtain ⟨a, b⟩ := e
    simp only [mapRemove, List.filter_cons]
    simp only [mapRemove] at ih
    by_cases h : a = k
    · subst h
      simp only [decide_true, Bool.not_true, Bool.false_eq_true, if_false, ih, mapGet]
      split <;> simp_all
    · simp only [h, decide_false, Bool.not_false, if_true, mapGet, ih]
      split
      · rename_i h'
        subst h'
        simp [Ne.symm h]
      · rfl

theorem mapGet_mem {m : List (α × β)} {k : α} {v : β} (h : mapGet m k = some v) : (k, v) ∈ m := by
  induction m with
  | nil => cases h
  | cons e m ih =>
    obtain ⟨a, b⟩ := e
    simp only [mapGet] at h
    split at h
    · rename_i hk
      cases h
      subst hk
      exact List.mem_cons_self ..
    · exact List.mem_cons_of_mem _ (ih h)

theorem mapGet_none {m : List (α × β)} {k : α} : mapGet m k = none ↔ k ∉ m.map Prod.fst := by
  induction m with
  | nil => simp [mapGet]
  | cons e m ih =>
    obtain ⟨a, b⟩ := e
    simp only [mapGet, List.map_cons, List.mem_cons, not_or]
    split
    · rename_i h; subst h; simp
    · rename_i h; rw [ih]; exact ⟨fun h' => ⟨Ne.symm h, h'⟩, fun h' => h'.2⟩

theorem mapGet_of_mem {m : List (α × β)} (hn : (m.map Prod.fst).Nodup) {k : α} {v : β} (h : (k, v) ∈ m) :
    mapGet m k = some v := by
  induction m with
  | nil => cases h
  | cons e m ih =>
    obtain ⟨a, b⟩ := e
    simp only [List.map_cons, List.nodup_cons] at hn
    simp only [mapGet]
    rcases List.mem_cons.1 h with h | h
    · cases h; simp
    · have : a ≠ k := by
        rintro rfl
        exact hn.1 (List.mem_map.2 ⟨_, h, rfl⟩)
      rw [if_neg this]
      exact ih hn.2 h

/-- The keys of a map after an insertion. -/
theorem mapSet_keys (m : List (α × β)) (k : α) (v : β) :
    (mapSet m k v).map Prod.fst = insertNew k (m.map Prod.fst) := by
  induction m with
  | nil => simp [mapSet, insertNew]
  | cons e m ih =>
    obtain ⟨a, b⟩ := e
    simp only [mapSet]
    split
    · rename_i h
      subst h
      simp [insertNew]
    · rename_i h
      simp only [List.map_cons, ih]
      unfold insertNew
      split <;> simp_all [Ne.symm h]

theorem mapSet_keys_nodup {m : List (α × β)} (h : (m.map Prod.fst).Nodup) (k : α) (v : β) :
    ((mapSet m k v).map Prod.fst).Nodup := by
  rw [mapSet_keys]
  exact nodup_insertNew h

theorem mapRemove_keys_nodup {m : List (α × β)} (h : (m.map Prod.fst).Nodup) (k : α) :
    ((mapRemove m k).map Prod.fst).Nodup :=
  h.sublist (List.filter_sublist.map _)

/-- A set inside another is not longer. -/
theorem nodup_length_le {l u : List α} (hn : l.Nodup) (h : ∀ a ∈ l, a ∈ u) : l.length ≤ u.length := by
  induction l generalizing u with
  | nil => simp
  | cons a l ih =>
    have ⟨h1, h2⟩ := List.nodup_cons.1 hn
    have ha := h a (by simp)
    have : l.length ≤ (u.erase a).length := by
      refine ih h2 fun b hb => ?_
      rw [List.mem_erase_of_ne]
      · exact h b (by simp [hb])
      · rintro rfl; exact h1 hb
    have he := List.length_erase_of_mem ha
    have : 0 < u.length := List.length_pos_of_mem ha
    simp only [List.length_cons]
    omega

theorem mapSet_mem {m : List (α × β)} {k a : α} {v b : β} (h : (a, b) ∈ mapSet m k v) :
    (a = k ∧ b = v) ∨ (a, b) ∈ m := by
  induction m with
  | nil => simp [mapSet] at h; exact .inl h
  | cons e m ih =>
    obtain ⟨a', b'⟩ := e
    simp only [mapSet] at h
    split at h
    · rename_i hk
      rcases List.mem_cons.1 h with h | h
      · cases h; exact .inl ⟨hk, rfl⟩
      · exact .inr (List.mem_cons_of_mem _ h)
    · rcases List.mem_cons.1 h with h | h
      · cases h; exact .inr (List.mem_cons_self ..)
      · rcases ih h with h | h
        · exact .inl h
        · exact .inr (List.mem_cons_of_mem _ h)

end Pango.Parse
