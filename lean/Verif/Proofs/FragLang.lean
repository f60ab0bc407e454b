import Verif.Proofs.Frag
import Verif.Props.Charset

/-!
# The words of the fragment of an expression are the words of the expression
-/

namespace Pango.Fsm

open Pango Pango.Regex Pango.Spec Pango.Props

variable [Unicode]

omit [Unicode] in
theorem isSatisfied_iff (q : Quant) (n : Nat) : q.isSatisfied n = true ↔ QuantSet (some q) n := by
  cases q <;> simp [Quant.isSatisfied, QuantSet] <;> omega

theorem lit_lang {s t : Nat} {l : Lit} {w : List Char} :
    (Fr.lit s t l).Lang w ↔ Matches (.lit l none) w := by
  constructor
  · rintro ⟨c, rfl, hc⟩
    refine .lit rfl ?_
    intro c' hc'
    rw [List.mem_singleton.1 hc']
    exact (c08_literal_sets l c).1 hc
  · intro h
    cases h with
    | lit h1 h2 =>
      obtain ⟨c, rfl⟩ := List.length_eq_one_iff.1 h1
      exact ⟨c, rfl, (c08_literal_sets l c).2 (h2 c (by simp))⟩

mutual

theorem frag_lang (e : Expr) (he : ¬ HasEmptySeq e) (s t n : Nat) (w : List Char) :
    (frag e s t n).1.Lang w ↔ Matches e w := by
  match e with
  | .concat es =>
    simp only [HasEmptySeq, not_or] at he
    rw [frag]
    exact fragConcat_lang es he.1 he.2 s t n w
  | .empty =>
    rw [frag]
    constructor
    · rintro rfl; exact .empty
    · intro h; cases h; rfl
  | .alt l r =>
    simp only [HasEmptySeq, not_or] at he
    rw [frag]
    simp only [Fr.Lang]
    rw [frag_lang l he.1, frag_lang r he.2]
    constructor
    · rintro (h | h)
      · exact .altL h
      · exact .altR h
    · intro h
      cases h with
      | altL h => exact .inl h
      | altR h => exact .inr h
  | .lit l none => rw [frag]; exact lit_lang
  | .lit l (some q) =>
    rw [frag]
    simp only [Fr.Lang]
    constructor
    · rintro ⟨ws, rfl, hq, hws⟩
      have : ws.flatten.length = ws.length ∧ ∀ c ∈ ws.flatten, LitSet l c := by
        clear hq
        induction ws with
        | nil => simp
        | cons u ws ih =>
          obtain ⟨c, rfl, hc⟩ := hws u (by simp)
          obtain ⟨h1, h2⟩ := ih (fun u hu => hws u (by simp [hu]))
          refine ⟨by simp [h1, Nat.add_comm], ?_⟩
          intro c' hc'
          simp only [List.flatten_cons, List.singleton_append, List.mem_cons] at hc'
          rcases hc' with rfl | hc'
          · exact (c08_literal_sets l c').1 hc
          · exact h2 c' hc'
      exact .lit (by rw [this.1]; exact (isSatisfied_iff q _).1 hq) this.2
    · intro h
      cases h with
      | lit h1 h2 =>
        refine ⟨w.map (fun c => [c]), ?_, ?_, ?_⟩
        · clear h1 h2
          induction w with
          | nil => rfl
          | cons c w ih => simp [← ih]
        · rw [List.length_map]; exact (isSatisfied_iff q _).2 h1
        · intro u hu
          obtain ⟨c, hc, rfl⟩ := List.mem_map.1 hu
          exact ⟨c, rfl, (c08_literal_sets l c).2 (h2 c hc)⟩
  | .group e none =>
    simp only [HasEmptySeq] at he
    rw [frag, frag_lang e he]
    constructor
    · intro h
      have := Matches.group (e := e) (q := none) (ws := [w]) rfl (by simpa using h)
      simpa using this
    · intro h
      cases h with
      | @group _ _ ws h1 h2 =>
        obtain ⟨u, rfl⟩ := List.length_eq_one_iff.1 h1
        simpa using h2 u (by simp)
  | .group e (some q) =>
    simp only [HasEmptySeq] at he
    rw [frag]
    simp only [Fr.Lang]
    constructor
    · rintro ⟨ws, rfl, hq, hws⟩
      exact .group ((isSatisfied_iff q _).1 hq) (fun u hu => (frag_lang e he _ _ _ u).1 (hws u hu))
    · intro h
      cases h with
      | @group _ _ ws h1 h2 =>
        exact ⟨ws, rfl, (isSatisfied_iff q _).2 h1, fun u hu => (frag_lang e he _ _ _ u).2 (h2 u hu)⟩

theorem fragConcat_lang (es : List Expr) (hne : es ≠ []) (he : ¬ AnyEmptySeq es) (s t n : Nat)
    (w : List Char) : (fragConcat es s t n).1.Lang w ↔ Matches (.concat es) w := by
  match es with
  | [] => exact absurd rfl hne
  | [e] =>
    simp only [AnyEmptySeq, or_false] at he
    rw [fragConcat, frag_lang e he]
    constructor
    · intro h
      have := Matches.cons h .nil
      simpa using this
    · intro h
      cases h with
      | cons h1 h2 => cases h2; simpa using h1
  | e :: e' :: es =>
    rw [AnyEmptySeq, not_or] at he
    rw [fragConcat.eq_3 _ _ _ _ _ (by simp)]
    simp only [Fr.Lang]
    constructor
    · rintro ⟨u, v, rfl, h1, h2⟩
      exact .cons ((frag_lang e he.1 _ _ _ u).1 h1)
        ((fragConcat_lang (e' :: es) (by simp) he.2 _ _ _ v).1 h2)
    · intro h
      cases h with
      | @cons _ _ u v h1 h2 =>
        exact ⟨u, v, rfl, (frag_lang e he.1 _ _ _ u).2 h1,
          (fragConcat_lang (e' :: es) (by simp) he.2 _ _ _ v).2 h2⟩

end

end Pango.Fsm
