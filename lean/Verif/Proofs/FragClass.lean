import Verif.Proofs.FragLang
import Verif.Proofs.Halt
import Verif.Spec.RegexClass

/-!
# The fragments of restricted patterns
-/

namespace Pango.Fsm

open Pango Pango.Regex Pango.Spec

mutual

theorem frag_litStart (e : Expr) (h : BeginsWithLiteral e) (s t n : Nat) : (frag e s t n).1.LitStart := by
  match e with
  | .concat es =>
    rw [frag]
    exact fragConcat_litStart es (by simpa [BeginsWithLiteral] using h) s t n
  | .empty => simp [BeginsWithLiteral] at h
  | .alt l r =>
    simp only [BeginsWithLiteral] at h
    rw [frag]
    exact ⟨frag_litStart l h.1 _ _ _, frag_litStart r h.2 _ _ _⟩
  | .lit l none => rw [frag]; trivial
  | .lit l (some q) => simp [BeginsWithLiteral] at h
  | .group e none =>
    rw [frag]
    exact frag_litStart e (by simpa [BeginsWithLiteral] using h) s t n
  | .group e (some q) => simp [BeginsWithLiteral] at h

theorem fragConcat_litStart (es : List Expr) (h : FirstBeginsWithLiteral es) (s t n : Nat) :
    (fragConcat es s t n).1.LitStart := by
  match es with
  | [] => simp [FirstBeginsWithLiteral] at h
  | [e] =>
    simp only [FirstBeginsWithLiteral] at h
    rw [fragConcat]
    exact frag_litStart e h s t n
  | e :: e' :: es =>
    simp only [FirstBeginsWithLiteral] at h
    rw [fragConcat.eq_3 _ _ _ _ _ (by simp)]
    exact frag_litStart e h _ _ _

end

variable [Unicode]

/-- What the static closure takes for empty is empty. -/
theorem Fr.nul_lang {fr : Fr} (h : fr.Nul) : fr.Lang [] := by
  induction fr with
  | eps => rfl
  | lit => exact h.elim
  | alt a b iha ihb => exact h.imp iha ihb
  | seq a m b iha ihb => exact ⟨[], [], rfl, iha h.1, ihb h.2⟩
  | loop s x t q body ih => exact ⟨[], rfl, h, by simp⟩

mutual

theorem frag_nonNull (e : Expr) (he : ¬ HasEmptySeq e) (h : RepeatsNonEmpty e) (s t n : Nat) :
    (frag e s t n).1.NonNull := by
  match e with
  | .concat es =>
    simp only [HasEmptySeq, not_or] at he
    rw [frag]
    exact fragConcat_nonNull es he.2 (by simpa [RepeatsNonEmpty] using h) s t n
  | .empty => rw [frag]; trivial
  | .alt l r =>
    simp only [HasEmptySeq, not_or] at he
    simp only [RepeatsNonEmpty] at h
    rw [frag]
    exact ⟨frag_nonNull l he.1 h.1 _ _ _, frag_nonNull r he.2 h.2 _ _ _⟩
  | .lit l none => rw [frag]; trivial
  | .lit l (some q) =>
    rw [frag]
    refine ⟨?_, trivial⟩
    rintro ⟨c, h, _⟩
    cases h
  | .group e none =>
    rw [frag]
    exact frag_nonNull e (by simpa [HasEmptySeq] using he) (by simpa [RepeatsNonEmpty] using h) s t n
  | .group e (some q) =>
    simp only [HasEmptySeq] at he
    simp only [RepeatsNonEmpty] at h
    rw [frag]
    exact ⟨fun h' => h.1 ((frag_lang e he _ _ _ []).1 h'), frag_nonNull e he h.2 _ _ _⟩

theorem fragConcat_nonNull (es : List Expr) (he : ¬ AnyEmptySeq es) (h : RepeatsNonEmptyAll es)
    (s t n : Nat) : (fragConcat es s t n).1.NonNull := by
  match es with
  | [] => rw [fragConcat]; trivial
  | [e] =>
    simp only [AnyEmptySeq, or_false] at he
    simp only [RepeatsNonEmptyAll, and_true] at h
    rw [fragConcat]
    exact frag_nonNull e he h s t n
  | e :: e' :: es =>
    rw [AnyEmptySeq, not_or] at he
    rw [RepeatsNonEmptyAll] at h
    rw [fragConcat.eq_3 _ _ _ _ _ (by simp)]
    exact ⟨frag_nonNull e he.1 h.1 _ _ _, fragConcat_nonNull (e' :: es) he.2 h.2 _ _ _⟩

end

mutual

theorem frag_headOk (e : Expr) (he : ¬ HasEmptySeq e) (h : CountsAtStart e) (s t n : Nat) :
    (frag e s t n).1.HeadOk := by
  match e with
  | .concat es =>
    simp only [HasEmptySeq, not_or] at he
    rw [frag]
    exact fragConcat_headOk es he.2 (by simpa [CountsAtStart] using h) s t n
  | .empty => rw [frag]; trivial
  | .alt l r =>
    simp only [HasEmptySeq, not_or] at he
    simp only [CountsAtStart] at h
    rw [frag]
    exact ⟨frag_headOk l he.1 h.1 _ _ _, frag_headOk r he.2 h.2 _ _ _⟩
  | .lit l none => rw [frag]; trivial
  | .lit l (some q) => rw [frag]; exact ⟨trivial, .inr trivial⟩
  | .group e none =>
    rw [frag]
    exact frag_headOk e (by simpa [HasEmptySeq] using he) (by simpa [CountsAtStart] using h) s t n
  | .group e (some q) =>
    simp only [HasEmptySeq] at he
    simp only [CountsAtStart] at h
    rw [frag]
    exact ⟨frag_headOk e he h.1 _ _ _, h.2.imp_right (fun h => frag_litStart e h _ _ _)⟩

theorem fragConcat_headOk (es : List Expr) (he : ¬ AnyEmptySeq es) (h : CountsAtStartSeq es)
    (s t n : Nat) : (fragConcat es s t n).1.HeadOk := by
  match es with
  | [] => rw [fragConcat]; trivial
  | [e] =>
    simp only [AnyEmptySeq, or_false] at he
    simp only [CountsAtStartSeq] at h
    rw [fragConcat]
    exact frag_headOk e he h.1 s t n
  | e :: e' :: es =>
    rw [AnyEmptySeq, not_or] at he
    rw [CountsAtStartSeq] at h
    rw [fragConcat.eq_3 _ _ _ _ _ (by simp)]
    refine ⟨frag_headOk e he.1 h.1 _ _ _, fun hn => ?_⟩
    exact fragConcat_headOk (e' :: es) he.2 (h.2 ((frag_lang e he.1 _ _ _ []).1 (Fr.nul_lang hn))) _ _ _

end

end Pango.Fsm
