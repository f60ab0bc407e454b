import Verif.Proofs.PathFirst
import Verif.Proofs.FragClass

/-!
# The fragment of an expression, entered without counting
-/

namespace Pango.Fsm

open Pango Pango.Regex Pango.Spec Pango.Props

mutual

theorem frag_nul (e : Expr) (he : ¬ HasEmptySeq e) (s t n : Nat) : (frag e s t n).1.Nul ↔ Skips e := by
  match e with
  | .concat es =>
    simp only [HasEmptySeq, not_or] at he
    rw [frag, Skips]
    exact fragConcat_nul es he.1 he.2 s t n
  | .empty => rw [frag, Skips]; exact Iff.rfl
  | .alt l r =>
    simp only [HasEmptySeq, not_or] at he
    rw [frag, Skips]
    simp only [Fr.Nul]
    rw [frag_nul l he.1, frag_nul r he.2]
  | .lit l none => rw [frag, Skips]; exact Iff.rfl
  | .lit l (some q) => rw [frag, Skips]; exact isSatisfied_iff q 0
  | .group e none =>
    simp only [HasEmptySeq] at he
    rw [frag, Skips, frag_nul e he]
  | .group e (some q) => rw [frag, Skips]; exact isSatisfied_iff q 0

theorem fragConcat_nul (es : List Expr) (hne : es ≠ []) (he : ¬ AnyEmptySeq es) (s t n : Nat) :
    (fragConcat es s t n).1.Nul ↔ SkipsAll es := by
  match es with
  | [] => exact absurd rfl hne
  | [e] =>
    simp only [AnyEmptySeq, or_false] at he
    rw [fragConcat, frag_nul e he, SkipsAll, SkipsAll, and_true]
  | e :: e' :: es =>
    rw [AnyEmptySeq, not_or] at he
    rw [fragConcat.eq_3 _ _ _ _ _ (by simp), SkipsAll]
    simp only [Fr.Nul]
    rw [frag_nul e he.1, fragConcat_nul (e' :: es) (by simp) he.2]

end

variable [Unicode]

/-- A literal repeated: one character at a time. -/
theorem lit_words {l : Lit} {s t : Nat} {ws : List (List Char)} (h : ∀ u ∈ ws, (Fr.lit s t l).Lang u) :
    ws.flatten.length = ws.length ∧ ∀ c ∈ ws.flatten, LitSet l c := by
  induction ws with
  | nil => simp
  | cons u ws ih =>
    obtain ⟨c, rfl, hc⟩ := h u (by simp)
    obtain ⟨h1, h2⟩ := ih (fun u hu => h u (by simp [hu]))
    refine ⟨by simp [h1, Nat.add_comm], ?_⟩
    intro c' hc'
    simp only [List.flatten_cons, List.singleton_append, List.mem_cons] at hc'
    rcases hc' with rfl | hc'
    · exact (c08_literal_sets l c').1 hc
    · exact h2 c' hc'

theorem round_count (b : Bool) (k : Nat) : (if b then 1 else 0) + k = (if b then k + 1 else k) := by
  cases b <;> simp; omega

mutual

theorem frag_first (e : Expr) (he : ¬ HasEmptySeq e) (s t n : Nat) (b : Bool) (w : List Char) :
    (frag e s t n).1.First b w ↔ Begins e b w := by
  match e with
  | .concat es =>
    simp only [HasEmptySeq, not_or] at he
    rw [frag]
    exact fragConcat_first es he.1 he.2 s t n b w
  | .empty =>
    rw [frag]
    exact ⟨fun h => h.elim, fun h => by cases h⟩
  | .alt l r =>
    simp only [HasEmptySeq, not_or] at he
    rw [frag]
    simp only [Fr.First]
    rw [frag_first l he.1, frag_first r he.2]
    constructor
    · rintro (h | h)
      · exact .altL h
      · exact .altR h
    · intro h
      cases h with
      | altL h => exact .inl h
      | altR h => exact .inr h
  | .lit l none =>
    rw [frag]
    simp only [Fr.First]
    constructor
    · rintro ⟨rfl, c, rfl, hc⟩
      exact .lit ((c08_literal_sets l c).1 hc)
    · intro h
      cases h with
      | lit h => exact ⟨rfl, _, rfl, (c08_literal_sets l _).2 h⟩
  | .lit l (some q) =>
    rw [frag]
    simp only [Fr.First]
    constructor
    · rintro ⟨rfl, b', u, ws, rfl, ⟨rfl, c, rfl, hc⟩, hws, hq⟩
      obtain ⟨h1, h2⟩ := lit_words hws
      refine .rep (by simp) ?_ ?_
      · simp only [List.singleton_append, List.length_cons, h1]
        rw [isSatisfied_iff] at hq
        simpa [Nat.add_comm] using hq
      · intro c' hc'
        simp only [List.singleton_append, List.mem_cons] at hc'
        rcases hc' with rfl | hc'
        · exact (c08_literal_sets l c').1 hc
        · exact h2 c' hc'
    · intro h
      cases h with
      | rep hne h1 h2 =>
        cases w with
        | nil => exact absurd rfl hne
        | cons c w =>
          refine ⟨rfl, true, [c], w.map (fun c => [c]), ?_, ⟨rfl, c, rfl, ?_⟩, ?_, ?_⟩
          · clear h1 h2 hne
            induction w with
            | nil => rfl
            | cons c w ih => simpa using ih
          · exact (c08_literal_sets l c).2 (h2 c (by simp))
          · intro u hu
            obtain ⟨c', hc', rfl⟩ := List.mem_map.1 hu
            exact ⟨c', rfl, (c08_literal_sets l c').2 (h2 c' (by simp [hc']))⟩
          · rw [isSatisfied_iff]
            simpa [Nat.add_comm] using h1
  | .group e none =>
    simp only [HasEmptySeq] at he
    rw [frag, frag_first e he]
    constructor
    · exact .group
    · intro h
      cases h with
      | group h => exact h
  | .group e (some q) =>
    simp only [HasEmptySeq] at he
    rw [frag]
    simp only [Fr.First]
    constructor
    · rintro ⟨rfl, b', u, ws, rfl, hu, hws, hq⟩
      refine .rounds (b := b') ((frag_first e he _ _ _ b' u).1 hu)
        (fun u hu => (frag_lang e he _ _ _ u).1 (hws u hu)) ?_
      rw [← round_count]
      exact (isSatisfied_iff q _).1 hq
    · intro h
      cases h with
      | @rounds _ _ b' u ws hu hws hq =>
        refine ⟨rfl, b', u, ws, rfl, (frag_first e he _ _ _ b' u).2 hu,
          fun u hu => (frag_lang e he _ _ _ u).2 (hws u hu), ?_⟩
        rw [round_count]
        exact (isSatisfied_iff q _).2 hq

theorem fragConcat_first (es : List Expr) (hne : es ≠ []) (he : ¬ AnyEmptySeq es) (s t n : Nat)
    (b : Bool) (w : List Char) : (fragConcat es s t n).1.First b w ↔ Begins (.concat es) b w := by
  match es with
  | [] => exact absurd rfl hne
  | [e] =>
    simp only [AnyEmptySeq, or_false] at he
    rw [fragConcat, frag_first e he]
    constructor
    · intro h
      have := Begins.here h .nil
      simpa using this
    · intro h
      cases h with
      | here h1 h2 => cases h2; simpa using h1
      | later _ h => cases h
  | e :: e' :: es =>
    rw [AnyEmptySeq, not_or] at he
    rw [fragConcat.eq_3 _ _ _ _ _ (by simp)]
    simp only [Fr.First]
    rw [frag_nul e he.1]
    constructor
    · rintro (⟨u, v, rfl, h1, h2⟩ | ⟨rfl, h1, b', h2⟩)
      · exact .here ((frag_first e he.1 _ _ _ b u).1 h1)
          ((fragConcat_lang (e' :: es) (by simp) he.2 _ _ _ v).1 h2)
      · exact .later h1 ((fragConcat_first (e' :: es) (by simp) he.2 _ _ _ b' w).1 h2)
    · intro h
      cases h with
      | @here _ _ _ u v h1 h2 =>
        exact .inl ⟨u, v, rfl, (frag_first e he.1 _ _ _ b u).2 h1,
          (fragConcat_lang (e' :: es) (by simp) he.2 _ _ _ v).2 h2⟩
      | @later _ _ b' _ h1 h2 =>
        exact .inr ⟨rfl, h1, b', (fragConcat_first (e' :: es) (by simp) he.2 _ _ _ b' w).2 h2⟩

end

/-- What the fragment of a pattern takes. -/
theorem frag_taken (e : Expr) (he : ¬ HasEmptySeq e) (s t n : Nat) (w : List Char) :
    ((w = [] ∧ (frag e s t n).1.Nul) ∨ ∃ b, (frag e s t n).1.First b w) ↔ Taken e w := by
  rw [frag_nul e he, Taken]
  exact or_congr Iff.rfl (exists_congr fun b => frag_first e he s t n b w)

end Pango.Fsm
