import Verif.Model.Several
import Verif.Props.Ends

/-!
# C89: automata of several patterns
-/

namespace Pango.Props

open Pango Pango.Fsm Pango.Regex Pango.Spec

/-! ## As alternatives of one pattern -/

/-- The trees as alternatives of one tree. -/
def alternatives : Expr → List Expr → Expr
  | e, [] => e
  | e, e' :: es => .alt e (alternatives e' es)

private theorem addExpressions_alternatives (e : Expr) (es : List Expr) :
    ∀ c : Compiler, Wf c.nfa → c.finalState < c.nfa.states.length →
      c.addExpressions (e :: es) = c.addExpression (alternatives e es) := by
  induction es generalizing e with
  | nil =>
    intro c _ _
    simp only [Compiler.addExpressions, alternatives]
    cases c.addExpression e <;> rfl
  | cons e' es ih =>
    intro c w hf
    rw [Compiler.addExpressions]
    simp only [alternatives, Compiler.addExpression, compileExpr]
    by_cases he : HasEmptySeq e
    · rw [compileExpr_panics e he _ _ _ w w.start hf]
      rfl
    · obtain ⟨n1, e1, w1, l1, s1, _, _, fr⟩ := compileExpr_spec e _ _ _ w he w.start hf
      have := fr.le
      rw [e1]
      simp only [Outcome.bind_ok, Outcome.pure_eq]
      rw [ih e' ⟨n1, c.finalState⟩ w1 (by show c.finalState < n1.states.length; omega)]
      simp only [Compiler.addExpression, s1]
      rfl

private theorem nfaOfAsts_alternatives (e : Expr) (es : List Expr) :
    nfaOfAsts (e :: es) = nfaOfAst (alternatives e es) := by
  rw [nfaOfAsts, nfaOfAst, addExpressions_alternatives e es _ bundle_new.wf (by decide)]

private theorem hasEmptySeq_alternatives (e : Expr) (es : List Expr) :
    HasEmptySeq (alternatives e es) ↔ ∃ d ∈ e :: es, HasEmptySeq d := by
  induction es generalizing e with
  | nil => simp [alternatives]
  | cons e' es ih => simp only [alternatives, HasEmptySeq, ih]; simp

/-- C89: the automaton is built, unless one of the patterns has a sequence without items, and then the program
panics. -/
theorem c89_builds (es : List Expr) :
    ((∀ e ∈ es, ¬ HasEmptySeq e) → ∃ nfa, nfaOfAsts es = .ok nfa) ∧
    ((∃ e ∈ es, HasEmptySeq e) → nfaOfAsts es = .panic) := by
  cases es with
  | nil => exact ⟨fun _ => ⟨_, rfl⟩, fun ⟨e, he, _⟩ => absurd he (by simp)⟩
  | cons e es =>
    rw [nfaOfAsts_alternatives]
    constructor
    · intro h
      have hc : ¬ HasEmptySeq (alternatives e es) := by
        rw [hasEmptySeq_alternatives]
        rintro ⟨d, h1, h2⟩
        exact h d h1 h2
      obtain ⟨nfa, h1, _⟩ := nfaOfAst_bundle hc
      exact ⟨nfa, h1⟩
    · intro h
      rw [nfaOfAst, Compiler.addExpression, compileExpr_panics _ ((hasEmptySeq_alternatives e es).2 h) _ _ _
        bundle_new.wf bundle_new.wf.start (by decide)]
      rfl

variable [Unicode]

/-- Compiling the trees into one automaton and matching the string ends with the answer `b`. -/
def AnswersAny (es : List Expr) (v : List Char) (b : Bool) : Prop :=
  ∃ nfa fuel, nfaOfAsts es = .ok nfa ∧ nfa.simulate fuel v = .ok b

/-- The automaton of no patterns. -/
private def noPatterns : Nfa := ⟨0, [⟨0, false, []⟩, ⟨1, true, []⟩]⟩

private theorem noPatterns_feed (fuel : Nat) (v : List Char) : ∀ (runs : List Run) (last : Option Bool),
    (runs = [⟨0, []⟩] ∨ runs = []) → (last = none ∨ last = some false) →
    ∃ runs' last', noPatterns.feedAll fuel runs last v = .ok (runs', last') ∧
      (runs' = [⟨0, []⟩] ∨ runs' = []) ∧ (last' = none ∨ last' = some false) := by
  induction v with
  | nil => exact fun runs last h1 h2 => ⟨runs, last, rfl, h1, h2⟩
  | cons c v ih =>
    intro runs last h1 h2
    have : noPatterns.feed fuel runs c = .ok ([], false) := by
      rcases h1 with rfl | rfl <;> rfl
    rw [Nfa.feedAll, this]
    exact ih [] (some false) (.inr rfl) (.inr rfl)

private theorem noPatterns_simulate (fuel : Nat) (v : List Char) : noPatterns.simulate (fuel + 1) v = .ok false := by
  obtain ⟨runs, last, h1, h2, h3⟩ := noPatterns_feed (fuel + 1) v [⟨0, []⟩] none (.inl rfl) (.inl rfl)
  rw [Nfa.simulate, show noPatterns.initRuns (fuel + 1) = .ok [⟨0, []⟩] from by cases fuel <;> rfl,
    Outcome.bind_ok, Nfa.feedStr, h1,
    Outcome.bind_ok]
  rcases h2 with rfl | rfl <;> rcases h3 with rfl | rfl <;> rfl

private theorem noPatterns_answers (fuel : Nat) (v : List Char) (b : Bool) (h : noPatterns.simulate fuel v = .ok b) :
    b = false := by
  cases fuel with
  | zero => cases h
  | succ fuel =>
    rw [noPatterns_simulate] at h
    cases h
    rfl

omit [Unicode] in
private theorem taken_alt [Unicode] {l r : Expr} {v : List Char} : Taken (.alt l r) v ↔ Taken l v ∨ Taken r v := by
  constructor
  · rintro (⟨h1, h2⟩ | ⟨b, h⟩)
    · rcases h2 with h2 | h2
      · exact .inl (.inl ⟨h1, h2⟩)
      · exact .inr (.inl ⟨h1, h2⟩)
    · cases h with
      | altL h => exact .inl (.inr ⟨b, h⟩)
      | altR h => exact .inr (.inr ⟨b, h⟩)
  · rintro ((⟨h1, h2⟩ | ⟨b, h⟩) | (⟨h1, h2⟩ | ⟨b, h⟩))
    · exact .inl ⟨h1, .inl h2⟩
    · exact .inr ⟨b, .altL h⟩
    · exact .inl ⟨h1, .inr h2⟩
    · exact .inr ⟨b, .altR h⟩

private theorem taken_alternatives {e : Expr} {es : List Expr} {v : List Char} :
    Taken (alternatives e es) v ↔ ∃ d ∈ e :: es, Taken d v := by
  induction es generalizing e with
  | nil => simp [alternatives]
  | cons e' es ih => rw [alternatives, taken_alt, ih]; simp

private theorem spins_alternatives {e : Expr} {es : List Expr} {v : List Char} :
    SpinsFirst (alternatives e es) v ↔ ∃ d ∈ e :: es, SpinsFirst d v := by
  induction es generalizing e with
  | nil => simp [alternatives]
  | cons e' es ih =>
    have : SpinsFirst (.alt e (alternatives e' es)) v ↔ SpinsFirst e v ∨ SpinsFirst (alternatives e' es) v := by
      constructor
      · intro h
        cases h with
        | altL h => exact .inl h
        | altR h => exact .inr h
      · rintro (h | h)
        · exact .altL h
        · exact .altR h
    rw [alternatives, this, ih]
    simp

/-- C89: matching a string with the automaton of several patterns ends if and only if matching it with each of them
by itself ends, and the string is accepted if and only if one of them accepts it. -/
theorem c89_answers (es : List Expr) (hc : ∀ e ∈ es, ¬ HasEmptySeq e) (v : List Char) (b : Bool) :
    AnswersAny es v b ↔ (∀ e ∈ es, ∃ b', Answers e v b') ∧ (b = true ↔ ∃ e ∈ es, Answers e v true) := by
  cases es with
  | nil =>
    constructor
    · rintro ⟨nfa, fuel, h1, h2⟩
      cases h1
      have := noPatterns_answers fuel v b h2
      subst this
      simp
    · rintro ⟨_, h⟩
      have : b = false := by simpa using h
      subst this
      exact ⟨noPatterns, 1, rfl, noPatterns_simulate 0 v⟩
  | cons e es =>
    have ha : ¬ HasEmptySeq (alternatives e es) := by
      rw [hasEmptySeq_alternatives]
      rintro ⟨d, h1, h2⟩
      exact hc d h1 h2
    have h1 : AnswersAny (e :: es) v b ↔ Answers (alternatives e es) v b := by
      rw [AnswersAny, Answers, nfaOfAsts_alternatives]
    rw [h1, c11_answers_partial _ ha]
    have h2 : (¬ ∃ w, w <+: v ∧ SpinsFirst (alternatives e es) w) ↔ ∀ d ∈ e :: es, ∃ b', Answers d v b' := by
      constructor
      · intro h d hd
        rw [c11_exact_partial d (hc d hd)]
        rintro ⟨w, h3, h4⟩
        exact h ⟨w, h3, spins_alternatives.2 ⟨d, hd, h4⟩⟩
      · rintro h ⟨w, h3, h4⟩
        obtain ⟨d, hd, h5⟩ := spins_alternatives.1 h4
        exact (c11_exact_partial d (hc d hd) v).1 (h d hd) ⟨w, h3, h5⟩
    rw [h2]
    refine and_congr_right fun h => ?_
    have h3 : Taken (alternatives e es) v ↔ ∃ d ∈ e :: es, Answers d v true := by
      rw [taken_alternatives]
      refine exists_congr fun d => and_congr_right fun hd => ?_
      rw [c11_answers_partial d (hc d hd), ← c11_exact_partial d (hc d hd)]
      simp [h d hd]
    rw [h3]

/-- C89: the automaton of no patterns is the default one, and it accepts nothing. -/
theorem c89_default : Nfa.default = nfaOfAsts [] ∧ ∀ v b, AnswersAny [] v b ↔ b = false :=
  ⟨rfl, fun v b => by rw [c89_answers [] (by simp)]; simp⟩

/-- The patterns `ab` and `a+` together accept `aa`, on which both answer, and not `b`. -/
example : (∀ e ∈ [Expr.concat [.lit (.mtch 'a') none, .lit (.mtch 'b') none], .lit (.mtch 'a') (some .plus)],
    ¬ HasEmptySeq e) ∧
    AnswersAny [.concat [.lit (.mtch 'a') none, .lit (.mtch 'b') none], .lit (.mtch 'a') (some .plus)] ['a', 'a'] true ∧
    AnswersAny [.concat [.lit (.mtch 'a') none, .lit (.mtch 'b') none], .lit (.mtch 'a') (some .plus)] ['b'] false :=
  ⟨by simp [HasEmptySeq, AnyEmptySeq], ⟨_, 10, rfl, rfl⟩, ⟨_, 10, rfl, rfl⟩⟩

/-- With `()` among the patterns the program panics. -/
example : nfaOfAsts [.lit (.mtch 'a') none, .group (.concat []) none] = .panic := rfl

end Pango.Props
