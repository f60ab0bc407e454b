import Verif.Proofs.Spin

/-!
# The fragment of an expression: strings on which the closures do not end
-/

namespace Pango.Fsm

open Pango Pango.Regex Pango.Spec Pango.Props

variable [Unicode]

mutual

theorem frag_spins (e : Expr) (he : ¬ HasEmptySeq e) (s t n : Nat) (w : List Char) :
    (frag e s t n).1.Spins w ↔ Spins e w := by
  match e with
  | .concat es =>
    simp only [HasEmptySeq, not_or] at he
    rw [frag]
    exact fragConcat_spins es he.1 he.2 s t n w
  | .empty =>
    rw [frag]
    exact ⟨fun h => h.elim, fun h => by cases h⟩
  | .alt l r =>
    simp only [HasEmptySeq, not_or] at he
    rw [frag]
    simp only [Fr.Spins]
    rw [frag_spins l he.1, frag_spins r he.2]
    constructor
    · rintro (h | h)
      · exact .altL h
      · exact .altR h
    · intro h
      cases h with
      | altL h => exact .inl h
      | altR h => exact .inr h
  | .lit l none =>
    rw [frag]
    exact ⟨fun h => h.elim, fun h => by cases h⟩
  | .lit l (some q) =>
    rw [frag]
    simp only [Fr.Spins, Fr.Lang]
    constructor
    · rintro ⟨_, _, _, _, ⟨_, _, h, _⟩ | h⟩
      · cases h
      · exact h.elim
    · intro h; cases h
  | .group e none =>
    simp only [HasEmptySeq] at he
    rw [frag, frag_spins e he]
    constructor
    · exact .group
    · intro h
      cases h with
      | group h => exact h
  | .group e (some q) =>
    simp only [HasEmptySeq] at he
    rw [frag]
    simp only [Fr.Spins]
    constructor
    · rintro ⟨ws, v, rfl, hws, ⟨rfl, h⟩ | h⟩
      · rw [List.append_nil]
        exact .rounds (fun u hu => (frag_lang e he _ _ _ u).1 (hws u hu)) ((frag_lang e he _ _ _ _).1 h)
      · exact .inside (fun u hu => (frag_lang e he _ _ _ u).1 (hws u hu)) ((frag_spins e he _ _ _ _).1 h)
    · intro h
      cases h with
      | @rounds _ _ ws hws h =>
        exact ⟨ws, [], by simp, fun u hu => (frag_lang e he _ _ _ u).2 (hws u hu),
          .inl ⟨rfl, (frag_lang e he _ _ _ _).2 h⟩⟩
      | @inside _ _ ws v hws h =>
        exact ⟨ws, v, rfl, fun u hu => (frag_lang e he _ _ _ u).2 (hws u hu),
          .inr ((frag_spins e he _ _ _ _).2 h)⟩

theorem fragConcat_spins (es : List Expr) (hne : es ≠ []) (he : ¬ AnyEmptySeq es) (s t n : Nat)
    (w : List Char) : (fragConcat es s t n).1.Spins w ↔ Spins (.concat es) w := by
  match es with
  | [] => exact absurd rfl hne
  | [e] =>
    simp only [AnyEmptySeq, or_false] at he
    rw [fragConcat, frag_spins e he]
    constructor
    · exact .here
    · intro h
      cases h with
      | here h => exact h
      | later _ h => cases h
  | e :: e' :: es =>
    rw [AnyEmptySeq, not_or] at he
    rw [fragConcat.eq_3 _ _ _ _ _ (by simp)]
    simp only [Fr.Spins]
    constructor
    · rintro (h | ⟨u, v, rfl, h1, h2⟩)
      · exact .here ((frag_spins e he.1 _ _ _ w).1 h)
      · exact .later ((frag_lang e he.1 _ _ _ u).1 h1)
          ((fragConcat_spins (e' :: es) (by simp) he.2 _ _ _ v).1 h2)
    · intro h
      cases h with
      | here h => exact .inl ((frag_spins e he.1 _ _ _ w).2 h)
      | @later _ _ u v h1 h2 =>
        exact .inr ⟨u, v, rfl, (frag_lang e he.1 _ _ _ u).2 h1,
          (fragConcat_spins (e' :: es) (by simp) he.2 _ _ _ v).2 h2⟩

end

mutual

theorem frag_firstSpins (e : Expr) (he : ¬ HasEmptySeq e) (s t n : Nat) (w : List Char) :
    (frag e s t n).1.FirstSpins w ↔ SpinsFirst e w := by
  match e with
  | .concat es =>
    simp only [HasEmptySeq, not_or] at he
    rw [frag]
    exact fragConcat_firstSpins es he.1 he.2 s t n w
  | .empty =>
    rw [frag]
    exact ⟨fun h => h.elim, fun h => by cases h⟩
  | .alt l r =>
    simp only [HasEmptySeq, not_or] at he
    rw [frag]
    simp only [Fr.FirstSpins]
    rw [frag_firstSpins l he.1, frag_firstSpins r he.2]
    constructor
    · rintro (h | h)
      · exact .altL h
      · exact .altR h
    · intro h
      cases h with
      | altL h => exact .inl h
      | altR h => exact .inr h
  | .lit l none =>
    rw [frag]
    exact ⟨fun h => h.elim, fun h => by cases h⟩
  | .lit l (some q) =>
    rw [frag]
    simp only [Fr.FirstSpins, Fr.Spins, Fr.Lang]
    constructor
    · rintro (h | ⟨_, _, _, _, _, _, _, ⟨_, _, h, _⟩ | h⟩)
      · exact h.elim
      · cases h
      · exact h.elim
    · intro h; cases h
  | .group e none =>
    simp only [HasEmptySeq] at he
    rw [frag, frag_firstSpins e he]
    constructor
    · exact .group
    · intro h
      cases h with
      | group h => exact h
  | .group e (some q) =>
    simp only [HasEmptySeq] at he
    rw [frag]
    simp only [Fr.FirstSpins]
    constructor
    · rintro (h | ⟨fl, u, ws, v, rfl, hu, hws, ⟨rfl, h⟩ | h⟩)
      · exact .first ((frag_firstSpins e he _ _ _ w).1 h)
      · rw [List.append_nil]
        exact .rounds ((frag_first e he _ _ _ fl u).1 hu)
          (fun u hu => (frag_lang e he _ _ _ u).1 (hws u hu)) ((frag_lang e he _ _ _ _).1 h)
      · exact .inside ((frag_first e he _ _ _ fl u).1 hu)
          (fun u hu => (frag_lang e he _ _ _ u).1 (hws u hu)) ((frag_spins e he _ _ _ _).1 h)
    · intro h
      cases h with
      | first h => exact .inl ((frag_firstSpins e he _ _ _ w).2 h)
      | @rounds _ _ b u ws hu hws h =>
        exact .inr ⟨b, u, ws, [], by simp, (frag_first e he _ _ _ b u).2 hu,
          fun u hu => (frag_lang e he _ _ _ u).2 (hws u hu), .inl ⟨rfl, (frag_lang e he _ _ _ _).2 h⟩⟩
      | @inside _ _ b u ws v hu hws h =>
        exact .inr ⟨b, u, ws, v, rfl, (frag_first e he _ _ _ b u).2 hu,
          fun u hu => (frag_lang e he _ _ _ u).2 (hws u hu), .inr ((frag_spins e he _ _ _ _).2 h)⟩

theorem fragConcat_firstSpins (es : List Expr) (hne : es ≠ []) (he : ¬ AnyEmptySeq es) (s t n : Nat)
    (w : List Char) : (fragConcat es s t n).1.FirstSpins w ↔ SpinsFirst (.concat es) w := by
  match es with
  | [] => exact absurd rfl hne
  | [e] =>
    simp only [AnyEmptySeq, or_false] at he
    rw [fragConcat, frag_firstSpins e he]
    constructor
    · exact .here
    · intro h
      cases h with
      | here h => exact h
      | after _ h => cases h
      | later _ h => cases h
  | e :: e' :: es =>
    rw [AnyEmptySeq, not_or] at he
    rw [fragConcat.eq_3 _ _ _ _ _ (by simp)]
    simp only [Fr.FirstSpins]
    rw [frag_nul e he.1]
    constructor
    · rintro (h | ⟨fl, u, v, rfl, h1, h2⟩ | ⟨h1, h2⟩)
      · exact .here ((frag_firstSpins e he.1 _ _ _ w).1 h)
      · exact .after ((frag_first e he.1 _ _ _ fl u).1 h1)
          ((fragConcat_spins (e' :: es) (by simp) he.2 _ _ _ v).1 h2)
      · exact .later h1 ((fragConcat_firstSpins (e' :: es) (by simp) he.2 _ _ _ w).1 h2)
    · intro h
      cases h with
      | here h => exact .inl ((frag_firstSpins e he.1 _ _ _ w).2 h)
      | @after _ _ b u v h1 h2 =>
        exact .inr (.inl ⟨b, u, v, rfl, (frag_first e he.1 _ _ _ b u).2 h1,
          (fragConcat_spins (e' :: es) (by simp) he.2 _ _ _ v).2 h2⟩)
      | later h1 h2 =>
        exact .inr (.inr ⟨h1, (fragConcat_firstSpins (e' :: es) (by simp) he.2 _ _ _ w).2 h2⟩)

end

end Pango.Fsm
