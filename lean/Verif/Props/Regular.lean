import Verif.Proofs.RegularOf
import Verif.Proofs.RegularTo
import Verif.Props.Ends
import Verif.Props.RegexParser

/-!
# C102: patterns describe the regular languages

Regular expressions and their languages are those of Mathlib.
-/

namespace Pango.Props

open Pango Pango.Fsm Pango.Regex Pango.Spec

variable [Unicode]

/-- The text is accepted as a pattern, and matching it against a string always ends, with the answer whether the string
is a word of the language. -/
def Decides (p : Profile) (pattern : List Char) (L : Language Char) : Prop :=
  ∃ e, parse p pattern = .ok (.ok e) ∧ ∀ (v : List Char) (b : Bool), Answers e v b ↔ (b = true ↔ v ∈ L)

/-- The same for patterns that do not always give an answer. -/
def AnswersFor (p : Profile) (pattern : List Char) (L : Language Char) : Prop :=
  ∃ e, parse p pattern = .ok (.ok e) ∧ ∀ (v : List Char) (b : Bool), Answers e v b → (b = true ↔ v ∈ L)

/-- C102, one half: for every regular expression there is a pattern for just its words, in both profiles. -/
theorem c102_every (r : RegularExpression Char) : ∃ pattern, ∀ p, Decides p pattern r.matches' := by
  obtain ⟨h, hm⟩ := treeOf_plain r
  obtain ⟨ks, hs⟩ := h.syn
  refine ⟨exprText (treeOf r), fun p => ⟨treeOf r, c04_round_trip p _ ks false (.inr hs) h.fits, fun v b => ?_⟩⟩
  obtain ⟨nfa, h1, fuel, h2⟩ := c10_matches_partial _ h.seq h.repeats h.counts
  obtain ⟨b', h3, h4⟩ := h2 fuel (Nat.le_refl _) v
  rw [hm] at h4
  have ha : Answers (treeOf r) v b' := ⟨nfa, fuel, h1, h3⟩
  constructor
  · intro h5
    have h6 := ((c11_answers_partial _ h.seq v b).1 h5).2
    have h7 := ((c11_answers_partial _ h.seq v b').1 ha).2
    rw [h6, ← h7, h4]
  · intro h5
    have : b = b' := by rw [Bool.eq_iff_iff, h5, h4]
    exact this ▸ ha

/-- C102, the other half: for every pattern that is compiled there is a regular expression whose words are those that
are matched, whenever there is an answer. -/
theorem c102_only (p : Profile) (pattern : List Char) (e : Expr) (hp : parse p pattern = .ok (.ok e))
    (hc : ¬ HasEmptySeq e) : ∃ r : RegularExpression Char, AnswersFor p pattern r.matches' := by
  obtain ⟨r, hr⟩ := taken_reg e
  refine ⟨r, e, hp, fun v b h => ?_⟩
  rw [hr]
  exact (c10_exact_partial e hc).1 v b h

open Classical in
/-- C102, in one: the languages that patterns decide are the regular ones. -/
theorem c102_regular (p : Profile) (L : Language Char) :
    (∃ pattern, Decides p pattern L) ↔ ∃ r : RegularExpression Char, r.matches' = L := by
  constructor
  · rintro ⟨pattern, e, hp, h⟩
    have hc : ¬ HasEmptySeq e := by
      intro hc
      obtain ⟨nfa, _, h1, _⟩ := (h [] (decide ([] ∈ L))).2 (by simp)
      rw [nfaOfAst, Compiler.addExpression, compileExpr_panics _ hc _ _ _ bundle_new.wf bundle_new.wf.start
        (by decide)] at h1
      cases h1
    obtain ⟨r, hr⟩ := taken_reg e
    refine ⟨r, Set.ext fun v => ?_⟩
    refine (hr v).trans ?_
    have h1 := (h v (decide (v ∈ L))).2 (by simp)
    have h2 := (c10_exact_partial e hc).1 v _ h1
    rw [← h2, decide_eq_true_iff]
    exact Iff.rfl
  · rintro ⟨r, rfl⟩
    obtain ⟨pattern, h⟩ := c102_every r
    exact ⟨pattern, h p⟩

/-! ## Cases -/

/-- `(a + 1)*`: written as `(a?)*` it is a pattern that matching does not end for. -/
def optStar : RegularExpression Char := .star (.plus (.char 'a') .epsilon)

/-- The pattern that is found for it. -/
example : exprText (treeOf optStar) = "((a)(a)*)|a{0}".toList := by decide +kernel

example (p : Profile) : (∃ pattern, Decides p pattern optStar.matches') ∧ ['a', 'a'] ∈ optStar.matches' ∧
    ['b'] ∉ optStar.matches' := by
  refine ⟨(c102_regular p _).2 ⟨_, rfl⟩, ?_, ?_⟩ <;> rw [← RegularExpression.rmatch_iff_matches'] <;> decide

/-- `(a?b)+` is a pattern whose language is not that which its text suggests, but it is still regular. -/
example (p : Profile) : ∃ r : RegularExpression Char, AnswersFor p "(a?b)+".toList r.matches' :=
  c102_only p _ (.group (.concat [.lit (.mtch 'a') (some .questionMark), .lit (.mtch 'b') none]) (some .plus))
    (by cases p <;> rfl) (by simp [HasEmptySeq, AnyEmptySeq])

end Pango.Props
