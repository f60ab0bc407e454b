import Verif.Proofs.FragWays
import Verif.Proofs.FragFirst
import Verif.Spec.Unambiguous

/-!
# Every repeated group of a pattern without dead parts can be reached
-/

namespace Pango.Fsm

open Pango Pango.Regex Pango.Spec

variable [Unicode]

theorem Alive.lit_word {l : Lit} (h : ∃ c, LitSet l c) (n : Nat) : ∃ w : List Char, w.length = n ∧ ∀ c ∈ w, LitSet l c := by
  obtain ⟨c, hc⟩ := h
  exact ⟨List.replicate n c, by simp, fun c' hc' => by rw [List.eq_of_mem_replicate hc']; exact hc⟩

mutual

theorem Alive.some_word (e : Expr) (h : Alive e) : ∃ w, Matches e w := by
  match e with
  | .concat es =>
    simp only [Alive] at h
    exact Alive.some_words es h
  | .empty => exact ⟨[], .empty⟩
  | .alt l r =>
    simp only [Alive] at h
    obtain ⟨w, hw⟩ := Alive.some_word l h.1
    exact ⟨w, .altL hw⟩
  | .lit l q =>
    simp only [Alive] at h
    obtain ⟨h1, n, h2⟩ := h
    obtain ⟨w, hw, hs⟩ := Alive.lit_word h1 (n + 1)
    exact ⟨w, .lit (hw ▸ h2) hs⟩
  | .group e q =>
    simp only [Alive] at h
    obtain ⟨w, hw⟩ := Alive.some_word e h.1
    obtain ⟨n, hn⟩ := h.2
    refine ⟨_, .group (ws := List.replicate (n + 1) w) (by rwa [List.length_replicate]) fun u hu => ?_⟩
    rw [List.eq_of_mem_replicate hu]
    exact hw

theorem Alive.some_words (es : List Expr) (h : AllAlive es) : ∃ w, Matches (.concat es) w := by
  match es with
  | [] => exact ⟨[], .nil⟩
  | e :: es =>
    simp only [AllAlive] at h
    obtain ⟨u, hu⟩ := Alive.some_word e h.1
    obtain ⟨v, hv⟩ := Alive.some_words es h.2
    exact ⟨u ++ v, .cons hu hv⟩

end

mutual

theorem Alive.start (e : Expr) (h : Alive e) (he : ¬ HasEmptySeq e) (hr : RepeatsNonEmpty e) :
    (∃ f u, Begins e f u) ∨ Skips e := by
  match e with
  | .concat es =>
    simp only [Alive, HasEmptySeq, not_or, RepeatsNonEmpty, Skips] at h he hr ⊢
    exact Alive.starts es h he.2 hr
  | .empty => exact .inr (by simp only [Skips])
  | .alt l r =>
    simp only [Alive, HasEmptySeq, not_or, RepeatsNonEmpty, Skips] at h he hr ⊢
    rcases Alive.start l h.1 he.1 hr.1 with ⟨f, u, hu⟩ | hs
    · exact .inl ⟨f, u, .altL hu⟩
    · exact .inr (.inl hs)
  | .lit l none =>
    simp only [Alive] at h
    obtain ⟨⟨c, hc⟩, _⟩ := h
    exact .inl ⟨_, _, .lit hc⟩
  | .lit l (some q) =>
    simp only [Alive] at h
    obtain ⟨h1, n, h2⟩ := h
    obtain ⟨w, hw, hs⟩ := Alive.lit_word h1 (n + 1)
    refine .inl ⟨_, w, .rep ?_ (hw ▸ h2) hs⟩
    rintro rfl
    cases hw
  | .group e none =>
    simp only [Alive, HasEmptySeq, RepeatsNonEmpty, Skips] at h he hr ⊢
    rcases Alive.start e h.1 he hr with ⟨f, u, hu⟩ | hs
    · exact .inl ⟨f, u, .group hu⟩
    · exact .inr hs
  | .group e (some q) =>
    simp only [Alive, HasEmptySeq, RepeatsNonEmpty] at h he hr
    rcases Alive.start e h.1 he hr.2 with ⟨f, u, hu⟩ | hs
    · obtain ⟨w, hw⟩ := Alive.some_word e h.1
      obtain ⟨n, hn⟩ := h.2
      refine .inl ⟨_, _, .rounds (ws := List.replicate (if f then n else n + 1) w) hu (fun u hu => ?_) ?_⟩
      · rw [List.eq_of_mem_replicate hu]
        exact hw
      · cases f <;> simpa using hn
    · exact absurd (frag_nul_matches e he ((frag_nul e he 0 0 0).2 hs)) hr.1

theorem Alive.starts (es : List Expr) (h : AllAlive es) (he : ¬ AnyEmptySeq es) (hr : RepeatsNonEmptyAll es) :
    (∃ f u, Begins (.concat es) f u) ∨ SkipsAll es := by
  match es with
  | [] => exact .inr (by simp only [SkipsAll])
  | e :: es =>
    simp only [AllAlive, AnyEmptySeq, not_or, RepeatsNonEmptyAll, SkipsAll] at h he hr ⊢
    rcases Alive.start e h.1 he.1 hr.1 with ⟨f, u, hu⟩ | hs
    · obtain ⟨v, hv⟩ := Alive.some_words es h.2
      exact .inl ⟨_, _, .here hu hv⟩
    · rcases Alive.starts es h.2 he.2 hr.2 with ⟨f, u, hu⟩ | hs'
      · exact .inl ⟨_, _, .later hs hu⟩
      · exact .inr ⟨hs, hs'⟩

end

theorem Alive.all {es : List Expr} (h : AllAlive es) {e : Expr} (he : e ∈ es) : Alive e := by
  induction es with
  | nil => cases he
  | cons e' es ih =>
    simp only [AllAlive] at h
    rcases List.mem_cons.1 he with rfl | he
    · exact h.1
    · exact ih h.2 he

/-- A round of a repeated group can be begun. -/
theorem Alive.within {e b : Expr} (hb : Repeats e b) (h : Alive e) : ∃ z, Within e b z := by
  induction hb with
  | here => exact ⟨[], .here⟩
  | @group e b q _ ih =>
    simp only [Alive] at h
    obtain ⟨z, hz⟩ := ih h.1
    cases q with
    | none => exact ⟨z, .group hz⟩
    | some q => exact ⟨_, .rounds (ws := []) (by simp) hz⟩
  | altL _ ih => simp only [Alive] at h; obtain ⟨z, hz⟩ := ih h.1; exact ⟨z, .altL hz⟩
  | altR _ ih => simp only [Alive] at h; obtain ⟨z, hz⟩ := ih h.2; exact ⟨z, .altR hz⟩
  | @seq e b es hm _ ih =>
    simp only [Alive] at h
    obtain ⟨z, hz⟩ := ih (Alive.all h hm)
    clear ih
    induction es with
    | nil => cases hm
    | cons e' es ihs =>
      simp only [AllAlive] at h
      rcases List.mem_cons.1 hm with rfl | hm
      · exact ⟨z, .head hz⟩
      · obtain ⟨u, hu⟩ := Alive.some_word e' h.1
        obtain ⟨z, hz⟩ := ihs hm h.2
        exact ⟨_, .tail hu hz⟩

/-- The same at the front of the input. -/
theorem Alive.enters {e b : Expr} (hb : Repeats e b) (h : Alive e) (he : ¬ HasEmptySeq e) (hr : RepeatsNonEmpty e) :
    ∃ z, Enters e b z := by
  induction hb with
  | @here b q =>
    simp only [Alive, HasEmptySeq, RepeatsNonEmpty] at h he hr
    rcases Alive.start b h.1 he hr.2 with ⟨f, u, hu⟩ | hs
    · exact ⟨u, .here hu⟩
    · exact absurd (frag_nul_matches b he ((frag_nul b he 0 0 0).2 hs)) hr.1
  | @group e b q _ ih =>
    simp only [Alive, HasEmptySeq] at h he
    cases q with
    | none =>
      simp only [RepeatsNonEmpty] at hr
      obtain ⟨z, hz⟩ := ih h.1 he hr
      exact ⟨z, .group hz⟩
    | some q =>
      simp only [RepeatsNonEmpty] at hr
      obtain ⟨z, hz⟩ := ih h.1 he hr.2
      exact ⟨z, .first hz⟩
  | altL _ ih =>
    simp only [Alive, HasEmptySeq, not_or, RepeatsNonEmpty] at h he hr
    obtain ⟨z, hz⟩ := ih h.1 he.1 hr.1
    exact ⟨z, .altL hz⟩
  | altR _ ih =>
    simp only [Alive, HasEmptySeq, not_or, RepeatsNonEmpty] at h he hr
    obtain ⟨z, hz⟩ := ih h.2 he.2 hr.2
    exact ⟨z, .altR hz⟩
  | @seq e b es hm hb ih =>
    simp only [Alive, HasEmptySeq, not_or, RepeatsNonEmpty] at h he hr
    replace he := he.2
    induction es with
    | nil => cases hm
    | cons e' es ihs =>
      have hall := h
      simp only [AllAlive, AnyEmptySeq, not_or, RepeatsNonEmptyAll] at h he hr
      rcases List.mem_cons.1 hm with rfl | hm
      · obtain ⟨z, hz⟩ := ih h.1 he.1 hr.1
        exact ⟨z, .head hz⟩
      · rcases Alive.start e' h.1 he.1 hr.1 with ⟨f, u, hu⟩ | hs
        · obtain ⟨z, hz⟩ := Alive.within (.seq hm hb) (e := .concat es) (by simp only [Alive]; exact h.2)
          exact ⟨_, .tail hu hz⟩
        · obtain ⟨z, hz⟩ := ihs hm h.2 hr.2 he.2
          exact ⟨z, .skip hs hz⟩

end Pango.Fsm
