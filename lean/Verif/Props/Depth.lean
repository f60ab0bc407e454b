import Verif.Proofs.Depth
import Verif.Props.RegexParser
import Verif.Props.Language
import Verif.Props.StackSize

/-!
# C87: how deep the code recurses
-/

namespace Pango.Props

open Pango Pango.Regex Pango.Fsm Pango.Spec Pango.Parse

/-! ## Patterns -/

/-- The depths are those of the code: what they are counted for gives the results of the parser and the compiler. -/
theorem c87_same (p : Profile) (input : List Char) : (parseD p input).1 = parse p input := (parse_deep p input).1

/-- `a|b` and `(a)` need two calls of `expression` at the same time. -/
example : (parseD .debug "a|b".toList).2 = 2 ∧ (parseD .debug "(a)b".toList).2 = 2 ∧ (parseD .debug "ab".toList).2 = 1 ∧
    (parseD .debug "((a".toList).2 = 3 := by decide +kernel

/-- C87, full claim: how deep the parser recurses depends only on how deep the groups of the pattern are nested. -/
def ShallowParsing : Prop :=
  ∃ k, ∀ (p : Profile) (input : List Char) (e : Expr), parse p input = .ok (.ok e) →
    (parseD p input).2 ≤ k * (groupNesting e + 1)

/-- C87 for an accepted pattern, exactly: a group is nested in what is around it, and an alternative in all those to the
left of it. -/
theorem c87_parse_partial (p : Profile) (input : List Char) (e : Expr) (h : parse p input = .ok (.ok e))
    (he : e ≠ .empty) : (parseD p input).2 = nesting e + 1 :=
  ((parse_deep p input).2.2 e h).2 he

/-- `(a|b|c)` is nested three deep. -/
example : ∃ e, parse .debug "(a|b|c)".toList = .ok (.ok e) ∧ e ≠ .empty ∧ nesting e = 3 :=
  ⟨.group (.alt (.lit (.mtch 'a') none) (.alt (.lit (.mtch 'b') none) (.lit (.mtch 'c') none))) none, rfl, by simp,
    by decide⟩

/-- C87 up to the alternations. -/
theorem c87_bars_partial (p : Profile) (input : List Char) (e : Expr) (h : parse p input = .ok (.ok e)) :
    (parseD p input).2 ≤ groupNesting e + bars e + 1 := by
  have h1 := ((parse_deep p input).2.2 e h).1
  have h2 := nesting_bars e
  omega

/-- C87 for all patterns, also those that are not accepted: no deeper than there are left parentheses and bars. -/
theorem c87_text_partial (p : Profile) (input : List Char) :
    (parseD p input).2 ≤ (input.filter fun c => c = '(' ∨ c = '|').length + 1 :=
  Nat.le_trans (parse_deep p input).2.1 (Nat.add_le_add_right (openings_scan p input) 1)

/-- The pattern `a|a|…|a` with `n` bars. -/
def manyBars : Nat → Expr
  | 0 => .lit (.mtch 'a') none
  | n + 1 => .alt (.lit (.mtch 'a') none) (manyBars n)

theorem manyBars_pattern (n : Nat) : ∃ ks, Expression ⟨false, false⟩ (manyBars n) ks := by
  have h : SubExpression ⟨false, false⟩ [.lit (.mtch 'a') none] [.mtch 'a'] := .one (.mtch (.chr 'a') .none)
  induction n with
  | zero => exact ⟨_, .sub h⟩
  | succ n ih =>
    obtain ⟨ks, hk⟩ := ih
    exact ⟨_, .alt h hk⟩

theorem manyBars_spec (n : Nat) : ExprFits (manyBars n) ∧ manyBars n ≠ .empty ∧ nesting (manyBars n) = n ∧
    groupNesting (manyBars n) = 0 := by
  induction n with
  | zero => simp [manyBars, ExprFits, nesting, groupNesting, QuantFits]
  | succ n ih =>
    obtain ⟨h1, _, h2, h3⟩ := ih
    simp [manyBars, ExprFits, nesting, groupNesting, QuantFits, h1, h2, h3]

/-- The text of it: there are no groups. -/
example : exprText (manyBars 3) = "a|a|a|a".toList := by decide +kernel

/-- Every depth is reached without any group. -/
theorem c87_deep_partial (p : Profile) (n : Nat) :
    parse p (exprText (manyBars n)) = .ok (.ok (manyBars n)) ∧ groupNesting (manyBars n) = 0 ∧
      (parseD p (exprText (manyBars n))).2 = n + 1 := by
  obtain ⟨ks, hk⟩ := manyBars_pattern n
  obtain ⟨h1, h2, h3, h4⟩ := manyBars_spec n
  have h5 := c04_round_trip p (manyBars n) ks false (.inr hk) h1
  exact ⟨h5, h4, by rw [c87_parse_partial p _ _ h5 h2, h3]⟩

/-- No call of `expression` is made exactly if no first token is read: the pattern is empty, or the tokenizer panics at its
beginning. -/
theorem c87_none_partial (p : Profile) (input : List Char) : (parseD p input).2 = 0 ↔ (scan p input).toks = [] := by
  generalize hsc : scan p input = sc
  obtain ⟨toks, stop⟩ := sc
  cases toks with
  | nil => cases stop <;> simp [parseD, hsc, peekTok]
  | cons t toks =>
    have key : ∀ n s, 1 ≤ (expressionD n s).2 := by
      intro n s
      cases n <;> rw [expressionD] <;> exact Nat.succ_le_succ (Nat.zero_le _)
    have hk := key (parseFuel (t :: toks).length) ⟨t :: toks, stop, none⟩
    simp only [parseD, hsc, peekTok, List.cons_ne_nil, iff_false]
    split <;> rename_i h1 <;> rw [h1] at hk <;> simp only at hk ⊢ <;> omega

/-- At `{4294967296}` the tokenizer panics before any call, behind `a` after one. -/
example : parse .debug "{4294967296}".toList = .panic ∧ (parseD .debug "{4294967296}".toList).2 = 0 ∧
    parse .debug "a{4294967296}".toList = .panic ∧ (parseD .debug "a{4294967296}".toList).2 = 1 :=
  ⟨by with_unfolding_all rfl, by decide +kernel, by with_unfolding_all rfl, by decide +kernel⟩

/-- C87 from below, also for patterns that are not accepted: every group that is opened at the beginning is one more call,
whatever stands behind. -/
theorem c87_opened_partial (p : Profile) (n : Nat) (rest : List Char) :
    n + 2 ≤ (parseD p (List.replicate (n + 1) '(' ++ rest)).2 := by
  have h := scan_opened p (n + 1) rest
  generalize hsc : scan p (List.replicate (n + 1) '(' ++ rest) = sc at h
  obtain ⟨toks, stop⟩ := sc
  have hlen := h.length_le
  rw [List.length_replicate] at hlen
  have key := expression_opened (n + 1) (parseFuel toks.length) ⟨toks, stop, none⟩ h (by
    simp only [Scan.kinds, List.length_map] at hlen
    unfold parseFuel
    omega)
  cases toks with
  | nil => simp [Scan.kinds] at hlen
  | cons t toks =>
    simp only [parseD, hsc, peekTok]
    split <;> rename_i h1 <;> rw [h1] at key <;> simp only at key ⊢ <;> omega

/-- `((a` is not accepted, and needs three calls. -/
example : parse .debug "((a".toList = .ok (.error [⟨.rightParan, (0, 1)⟩]) ∧ (parseD .debug "((a".toList).2 = 3 :=
  ⟨rfl, rfl⟩

/-- C87 does not hold: the alternatives of a pattern are nested in each other. -/
theorem c87_false : ¬ ShallowParsing := by
  rintro ⟨k, h⟩
  obtain ⟨h1, h2, h3⟩ := c87_deep_partial .debug k
  have := h .debug _ _ h1
  rw [h2, h3] at this
  omega

/-- C87 for the compiler and for freeing the tree: `Compiler::expr` recurses exactly as deep as the tree is high, which
is, for the tree of a pattern, at least as deep as the parser did and at most three times as deep. -/
theorem c87_compile_partial (p : Profile) (input : List Char) (e : Expr) (h : parse p input = .ok (.ok e)) :
    (nesting e + 1 ≤ e.freeDepth ∧ e.freeDepth ≤ 3 * nesting e + 2) ∧
    ∀ (start dest : Nat) (nfa : Nfa), (compileExprD e start dest nfa).1 = compileExpr e start dest nfa ∧
      (compileExprD e start dest nfa).2 ≤ e.freeDepth ∧
      ∀ nfa', compileExpr e start dest nfa = .ok nfa' → (compileExprD e start dest nfa).2 = e.freeDepth := by
  refine ⟨⟨nesting_free e, ?_⟩, compileExprD_deep e⟩
  obtain ⟨_, _, _, _, h1 | h1, _⟩ := c06_accepts_partial p input e h
  · rw [h1.1]
    simp [Expr.freeDepth]
  · exact free_expression h1

/-- `(ab)c|d` is nested one deep, and its tree is five high. -/
example : ∃ e, parse .debug "(ab)c|d".toList = .ok (.ok e) ∧ nesting e = 1 ∧ e.freeDepth = 5 :=
  ⟨.alt (.concat [.group (.concat [.lit (.mtch 'a') none, .lit (.mtch 'b') none]) none, .lit (.mtch 'c') none])
    (.lit (.mtch 'd') none), rfl, by decide, by decide⟩

private theorem reached_inside {e : Expr} {q : Option Quant} {d : Nat} (ih : ∀ n, ReachedWay e n ↔ 1 ≤ n ∧ n ≤ d) (n : Nat) :
    ReachedWay (.group e q) n ↔ 1 ≤ n ∧ n ≤ d + 1 := by
  constructor
  · intro h
    cases h with
    | here => exact ⟨Nat.le_refl _, by omega⟩
    | inside h =>
      have := (ih _).1 h
      omega
  · rintro ⟨h1, h2⟩
    obtain ⟨n, rfl⟩ : ∃ m, n = m + 1 := ⟨n - 1, by omega⟩
    cases n with
    | zero => exact .here _
    | succ n => exact .inside ((ih _).2 ⟨by omega, by omega⟩)

mutual

private theorem reachedWay_iff : ∀ (e : Expr) (start dest : Nat) (nfa : Nfa), Wf nfa → start < nfa.states.length →
    dest < nfa.states.length → ∀ n, ReachedWay e n ↔ 1 ≤ n ∧ n ≤ (compileExprD e start dest nfa).2
  | .concat es, start, dest, nfa, w, hs, ht => by
    intro n
    have ih := reachedWays_iff es start dest nfa w hs ht
    simp only [compileExprD]
    constructor
    · intro h
      cases h with
      | here => exact ⟨Nat.le_refl _, by omega⟩
      | element hp h =>
        have := (ih _).1 ⟨_, _, _, rfl, hp, h⟩
        omega
    · rintro ⟨h1, h2⟩
      obtain ⟨n, rfl⟩ : ∃ m, n = m + 1 := ⟨n - 1, by omega⟩
      cases n with
      | zero => exact .here _
      | succ n =>
        obtain ⟨pre, e, post, rfl, hp, h⟩ := (ih (n + 1)).2 ⟨by omega, by omega⟩
        exact .element hp h
  | .empty, start, dest, nfa, w, hs, ht => by
    intro n
    simp only [compileExprD]
    constructor
    · intro h
      cases h
      omega
    · rintro ⟨h1, h2⟩
      obtain rfl : n = 1 := by omega
      exact .here _
  | .alt l r, start, dest, nfa, w, hs, ht => by
    intro n
    have ih := reachedWay_iff l start dest nfa w hs ht
    have hsame := (compileExprD_deep l start dest nfa).1
    have first : ∀ d, (∀ n, ReachedWay l n ↔ 1 ≤ n ∧ n ≤ d) → HasEmptySeq l →
        (ReachedWay (.alt l r) n ↔ 1 ≤ n ∧ n ≤ d + 1) := by
      intro d ih he
      constructor
      · intro h
        cases h with
        | here => exact ⟨Nat.le_refl _, by omega⟩
        | left h =>
          have := (ih _).1 h
          omega
        | right h' _ => exact absurd he h'
      · rintro ⟨h1, h2⟩
        obtain ⟨n, rfl⟩ : ∃ m, n = m + 1 := ⟨n - 1, by omega⟩
        cases n with
        | zero => exact .here _
        | succ n => exact .left ((ih _).2 ⟨by omega, by omega⟩)
    by_cases he : HasEmptySeq l
    · rw [compileExpr_panics l he start dest nfa w hs ht] at hsame
      simp only [compileExprD]
      revert ih hsame
      generalize compileExprD l start dest nfa = x
      obtain ⟨o, d⟩ := x
      rintro ih rfl
      exact first d ih he
    · obtain ⟨n1, e1, w1, l1, _, _, _, fr1⟩ := compileExpr_spec l start dest nfa w he hs ht
      have := fr1.le
      have ihr := reachedWay_iff r start dest n1 w1 (by omega) (by omega)
      rw [e1] at hsame
      simp only [compileExprD]
      revert ih hsame
      generalize compileExprD l start dest nfa = x
      obtain ⟨o, d⟩ := x
      rintro ih rfl
      simp only at ih ⊢
      constructor
      · intro h
        cases h with
        | here => exact ⟨Nat.le_refl _, by omega⟩
        | left h =>
          have := (ih _).1 h
          omega
        | right _ h =>
          have := (ihr _).1 h
          omega
      · rintro ⟨h1, h2⟩
        obtain ⟨n, rfl⟩ : ∃ m, n = m + 1 := ⟨n - 1, by omega⟩
        cases n with
        | zero => exact .here _
        | succ n =>
          by_cases h3 : n + 1 ≤ d
          · exact .left ((ih _).2 ⟨by omega, h3⟩)
          · exact .right he ((ihr _).2 ⟨by omega, by omega⟩)
  | .lit l none, start, dest, nfa, w, hs, ht => by
    intro n
    simp only [compileExprD]
    constructor
    · intro h
      cases h
      omega
    · rintro ⟨h1, h2⟩
      obtain rfl : n = 1 := by omega
      exact .here _
  | .lit l (some q), start, dest, nfa, w, hs, ht => by
    intro n
    simp only [compileExprD]
    constructor
    · intro h
      cases h
      omega
    · rintro ⟨h1, h2⟩
      obtain rfl : n = 1 := by omega
      exact .here _
  | .group e none, start, dest, nfa, w, hs, ht => by
    have ih := reachedWay_iff e start dest nfa w hs ht
    simp only [compileExprD]
    exact reached_inside ih
  | .group e (some q), start, dest, nfa, w, hs, ht => by
    obtain ⟨n1, e1, w1, l1, _⟩ := insertQuantifierState_spec w q hs ht
    have ih := reachedWay_iff e nfa.states.length nfa.states.length n1 w1 (by omega) (by omega)
    simp only [compileExprD, e1]
    exact reached_inside ih

private theorem reachedWays_iff : ∀ (es : List Expr) (start dest : Nat) (nfa : Nfa), Wf nfa → start < nfa.states.length →
    dest < nfa.states.length → ∀ n,
      (∃ pre e post, es = pre ++ e :: post ∧ (∀ f ∈ pre, ¬ HasEmptySeq f) ∧ ReachedWay e n) ↔
        1 ≤ n ∧ n ≤ (compileConcatD es start dest nfa).2
  | [], start, dest, nfa, w, hs, ht => by
    intro n
    simp only [compileConcatD]
    constructor
    · rintro ⟨pre, e, post, h, _⟩
      simp at h
    · intro h
      omega
  | [e], start, dest, nfa, w, hs, ht => by
    intro n
    have ih := reachedWay_iff e start dest nfa w hs ht
    simp only [compileConcatD]
    rw [← ih]
    constructor
    · rintro ⟨pre, e', post, h, _, h'⟩
      cases pre with
      | nil => simp at h; rw [h.1]; exact h'
      | cons _ _ => simp at h
    · intro h
      exact ⟨[], e, [], rfl, by simp, h⟩
  | e :: f :: es, start, dest, nfa, w, hs, ht => by
    intro n
    have w0 := wf_addState w false
    have l0 := length_addState nfa false
    have split : (∃ pre e' post, e :: f :: es = pre ++ e' :: post ∧ (∀ f ∈ pre, ¬ HasEmptySeq f) ∧ ReachedWay e' n) ↔
        ReachedWay e n ∨ ¬ HasEmptySeq e ∧
          ∃ pre e' post, f :: es = pre ++ e' :: post ∧ (∀ f ∈ pre, ¬ HasEmptySeq f) ∧ ReachedWay e' n := by
      constructor
      · rintro ⟨pre, e', post, h, hp, h'⟩
        cases pre with
        | nil => simp at h; rw [h.1]; exact .inl h'
        | cons x pre =>
          simp only [List.cons_append, List.cons.injEq] at h
          refine .inr ⟨h.1 ▸ hp x (List.mem_cons_self ..), pre, e', post, h.2, fun f hf => hp f (List.mem_cons_of_mem _ hf), h'⟩
      · rintro (h | ⟨he, pre, e', post, h, hp, h'⟩)
        · exact ⟨[], e, _, rfl, by simp, h⟩
        · refine ⟨e :: pre, e', post, by rw [h]; rfl, ?_, h'⟩
          intro f hf
          rcases List.mem_cons.1 hf with rfl | hf
          · exact he
          · exact hp f hf
    rw [split]
    have ih := reachedWay_iff e start nfa.states.length (nfa.addState false).2 w0 (by omega) (by omega)
    have hsame := (compileExprD_deep e start nfa.states.length (nfa.addState false).2).1
    have hstate : (nfa.addState false).1 = nfa.states.length := rfl
    simp only [compileConcatD, hstate]
    by_cases he : HasEmptySeq e
    · rw [compileExpr_panics e he start _ _ w0 (by omega) (by omega)] at hsame
      revert ih hsame
      generalize compileExprD e start nfa.states.length (nfa.addState false).2 = x
      obtain ⟨o, d⟩ := x
      rintro ih rfl
      simp only at ih ⊢
      rw [← ih]
      simp [he]
    · obtain ⟨n1, e1, w1, l1, _, _, _, fr1⟩ := compileExpr_spec e start nfa.states.length
        (nfa.addState false).2 w0 he (by omega) (by omega)
      have := fr1.le
      have ihr := reachedWays_iff (f :: es) nfa.states.length dest n1 w1 (by omega) (by omega)
      rw [e1] at hsame
      revert ih hsame
      generalize compileExprD e start nfa.states.length (nfa.addState false).2 = x
      obtain ⟨o, d⟩ := x
      rintro ih rfl
      simp only at ih ⊢
      rw [ih, ihr]
      have : (¬ HasEmptySeq e) = True := by simp [he]
      rw [this, true_and]
      omega

end

/-- C87 for the compiler, for all trees, also those on which it crashes because of an empty sequence: it recurses exactly
as deep as the longest way down in the part of the tree up to the first empty sequence. -/
theorem c87_reached (e : Expr) (n : Nat) :
    ReachedWay e n ↔ 1 ≤ n ∧ n ≤ (compileExprD e Compiler.new.nfa.start Compiler.new.finalState Compiler.new.nfa).2 :=
  reachedWay_iff e _ _ _ bundle_new.wf (by decide) (by decide) n

/-- In `()|(((a)))` the crash comes before the groups on the right: one call for the alternation, one for the empty
group and one for the sequence in it. -/
example : (compileExprD (.alt (.group (.concat []) none) (.group (.group (.group (.lit (.mtch 'a') none) none) none) none))
    Compiler.new.nfa.start Compiler.new.finalState Compiler.new.nfa) = (.panic, 3) := rfl

/-! ## Freeing -/

private theorem freeDepths_le {es : List Expr} {n : Nat} : freeDepths es ≤ n ↔ ∀ e ∈ es, e.freeDepth ≤ n := by
  induction es with
  | nil => simp [freeDepths]
  | cons e es ih => simp [freeDepths, Nat.max_le, ih]

private theorem freeDepths_mem : ∀ {es : List Expr}, es ≠ [] → ∃ e ∈ es, freeDepths es = e.freeDepth := by
  intro es
  induction es with
  | nil => simp
  | cons e es ih =>
    intro _
    rw [freeDepths]
    rcases Nat.le_total (freeDepths es) e.freeDepth with h | h
    · exact ⟨e, List.mem_cons_self .., Nat.max_eq_left h⟩
    · cases es with
      | nil => exact ⟨e, List.mem_cons_self .., Nat.max_eq_left (Nat.zero_le _)⟩
      | cons e' es =>
        obtain ⟨d, hd, h1⟩ := ih (by simp)
        exact ⟨d, List.mem_cons_of_mem _ hd, by rw [Nat.max_eq_right h, h1]⟩

private theorem wayDown_exists : ∀ (n : Nat) (e : Expr), e.freeDepth ≤ n → WayDown e e.freeDepth := by
  intro n
  induction n with
  | zero =>
    intro e h
    cases e <;> simp [Expr.freeDepth] at h
  | succ n ih =>
    intro e h
    cases e with
    | empty => exact .here _
    | lit c q => exact .here _
    | group e q =>
      rw [Expr.freeDepth] at h ⊢
      exact .inside (ih e (by omega))
    | alt l r =>
      rw [Expr.freeDepth] at h ⊢
      rcases Nat.le_total l.freeDepth r.freeDepth with h1 | h1
      · rw [Nat.max_eq_right h1] at h ⊢
        exact .right (ih r (by omega))
      · rw [Nat.max_eq_left h1] at h ⊢
        exact .left (ih l (by omega))
    | concat es =>
      rw [Expr.freeDepth] at h ⊢
      cases es with
      | nil => exact .here _
      | cons e es =>
        obtain ⟨d, hd, h1⟩ := freeDepths_mem (es := e :: es) (by simp)
        rw [h1] at h ⊢
        exact .element hd (ih d (by omega))

/-- C87 for freeing a syntax tree: it recurses exactly as deep as the longest way down in it. -/
theorem c87_free (e : Expr) : WayDown e e.freeDepth ∧ ∀ n, WayDown e n → n ≤ e.freeDepth := by
  refine ⟨wayDown_exists _ e (Nat.le_refl _), fun n h => ?_⟩
  induction h with
  | here e => cases e <;> simp [Expr.freeDepth]
  | element hm _ ih =>
    have := freeDepths_le.1 (Nat.le_refl _) _ hm
    rw [Expr.freeDepth]
    omega
  | left _ ih => rw [Expr.freeDepth]; omega
  | right _ ih => rw [Expr.freeDepth]; omega
  | inside _ ih => rw [Expr.freeDepth]; omega

/-- In `(ab|c)` the longest way goes over the group, the alternation, `ab` and one of its letters. -/
example : (Expr.group (.alt (.concat [.lit (.mtch 'a') none, .lit (.mtch 'b') none]) (.lit (.mtch 'c') none)) none).freeDepth
    = 4 := rfl

private theorem nodesFree_le {V T : Type} {ns : List (Node V T)} {k : Nat} :
    nodesFreeDepth ns ≤ k ↔ ∀ n ∈ ns, n.freeDepth ≤ k := by
  induction ns with
  | nil => simp [nodesFreeDepth]
  | cons n ns ih => simp [nodesFreeDepth, Nat.max_le, ih]

private theorem nodesFree_mem {V T : Type} : ∀ {ns : List (Node V T)}, ns ≠ [] →
    ∃ n ∈ ns, nodesFreeDepth ns = n.freeDepth := by
  intro ns
  induction ns with
  | nil => simp
  | cons n ns ih =>
    intro _
    rw [nodesFreeDepth]
    rcases Nat.le_total (nodesFreeDepth ns) n.freeDepth with h | h
    · exact ⟨n, List.mem_cons_self .., Nat.max_eq_left h⟩
    · cases ns with
      | nil => exact ⟨n, List.mem_cons_self .., Nat.max_eq_left (Nat.zero_le _)⟩
      | cons n' ns =>
        obtain ⟨d, hd, h1⟩ := ih (by simp)
        exact ⟨d, List.mem_cons_of_mem _ hd, by rw [Nat.max_eq_right h, h1]⟩

private theorem treeWay_exists {V T : Type} : ∀ (k : Nat) (n : Node V T), n.freeDepth ≤ k → TreeWay n n.freeDepth := by
  intro k
  induction k with
  | zero =>
    rintro ⟨s, ns⟩ h
    simp [Node.freeDepth] at h
  | succ k ih =>
    rintro ⟨s, ns⟩ h
    rw [Node.freeDepth] at h ⊢
    cases ns with
    | nil => exact .here _
    | cons n ns =>
      obtain ⟨d, hd, h1⟩ := nodesFree_mem (ns := n :: ns) (by simp)
      rw [h1] at h ⊢
      exact .child hd (ih d (by omega))

/-- C87 for freeing a parse tree: it recurses exactly as deep as the longest way down in it. -/
theorem c87_free_tree {V T : Type} (n : Node V T) : TreeWay n n.freeDepth ∧ ∀ k, TreeWay n k → k ≤ n.freeDepth := by
  refine ⟨treeWay_exists _ n (Nat.le_refl _), fun k h => ?_⟩
  induction h with
  | here n => cases n; simp [Node.freeDepth]
  | child hm _ ih =>
    have := nodesFree_le.1 (Nat.le_refl _) _ hm
    rw [Node.freeDepth]
    omega

/-- A node with two leaves is two deep. -/
example : (Node.mk (.var "S") [.mk (.term "a") [], .mk (.term "b") []] : Node String String).freeDepth = 2 := rfl

/-! ## Parse trees -/

section

variable {V T : Type} [DecidableEq V] [DecidableEq T] [TerminalEq T] [LawfulTerminalEq T] {g : Grammar V T}
  {tbl : Table V T}

/-- Freeing a parse tree recurses no deeper than linear in the number of tokens. -/
theorem c87_tree_partial (hg : Built g) (hp : IsParser g tbl) {input : List T} {n : Node V T}
    (h : ∃ fuel, parseTokens tbl fuel input = .ok (some n)) :
    n.freeDepth ≤ (2 * input.length + 1) * (g.rules.length + 1) + 2 := by
  obtain ⟨fuel, h⟩ := h
  have h1 := (c40_decided_partial hg hp input).1 ⟨fuel, by rw [h]; simp⟩
  have h2 : parseTokens tbl ((2 * input.length + 1) * (g.rules.length + 1) + 1) input = .ok (some n) := by
    rcases Nat.le_total fuel ((2 * input.length + 1) * (g.rules.length + 1) + 1) with hle | hle
    · have := parseTokens_mono (tbl := tbl) (fin := .ok ()) hle (w := input)
      rw [h] at this
      exact Outcome.Le.ok this rfl
    · have := parseTokens_mono (tbl := tbl) (fin := .ok ()) hle (w := input)
      rw [h] at this
      exact this.resolve_left h1
  have h3 := parseLoop_nodes h2
  have h4 := free_le_count n
  simp only [stackNodes, List.map_cons, List.map_nil, nodesCount, nodeCount] at h3
  omega

end

/-- The tree of `x ; x ; … x ;` with `n + 1` elements. -/
def manyElements : Nat → Node String String
  | 0 => .mk (.var "P") [.mk (.term ";") [], .mk (.var "Q") [.mk (.term "x") []]]
  | n + 1 => .mk (.var "P") [.mk (.term ";") [], .mk (.var "Q") [.mk (.term "x") []], manyElements n]

/-- The tokens of it. -/
def elementTokens : Nat → List String
  | 0 => ["x", ";"]
  | n + 1 => elementTokens n ++ ["x", ";"]

theorem manyElements_forest (n : Nat) : Forest goodGrammar [.var "P"] [manyElements n] (elementTokens n) := by
  have hq : Forest goodGrammar [.var "Q", .term ";"] [.mk (.var "Q") [.mk (.term "x") []], .mk (.term ";") []]
      ["x", ";"] :=
    .var (β := [.term "x"]) (cs := [_]) (x := ["x"]) (by decide) (.term rfl .nil) (.term rfl .nil)
  induction n with
  | zero => exact .var (β := [.var "Q", .term ";"]) (cs := [_, _]) (x := ["x", ";"]) (w := []) (by decide) hq .nil
  | succ n ih =>
    have h := Forest.var (v := "P") (by decide) (forest_append ih hq) (.nil (g := goodGrammar))
    rw [List.append_nil] at h
    exact h

theorem manyElements_high (n : Nat) : n < (manyElements n).freeDepth := by
  induction n with
  | zero => decide
  | succ n ih =>
    simp only [manyElements, Node.freeDepth, nodesFreeDepth]
    omega

theorem elementTokens_length (n : Nat) : (elementTokens n).length = 2 * n + 2 := by
  induction n with
  | zero => rfl
  | succ n ih =>
    simp only [elementTokens, List.length_append, ih, List.length_cons, List.length_nil]
    omega

/-- The bound is sharp up to a factor: the elements of a list `P → P Q ; | Q ;` are nested in each other, so the tree of
`2 n + 2` tokens can be more than `n` deep. -/
theorem c87_list_partial (n : Nat) :
    (elementTokens n).length = 2 * n + 2 ∧
      ∃ tree, (∃ fuel, parseTokens (tableOf goodGrammar) fuel (elementTokens n) = .ok (some tree)) ∧ n < tree.freeDepth := by
  refine ⟨elementTokens_length n, manyElements n, ?_, manyElements_high n⟩
  refine (c37_exact_partial goodGrammar_built goodGrammar_parser goodGrammar_epsFree goodGrammar_followed.surely
    goodGrammar_not_inside).2 ⟨manyElements_forest n, ?_⟩
  cases n with
  | zero => exact ⟨_, _, _, rfl⟩
  | succ n => exact ⟨_, _, _, rfl⟩

/-- The bound for `x ; x ;`. -/
example {tree : Node String String} (h : ∃ fuel, parseTokens (tableOf goodGrammar) fuel ["x", ";", "x", ";"] = .ok (some tree)) :
    tree.freeDepth ≤ 47 := c87_tree_partial goodGrammar_built goodGrammar_parser h

end Pango.Props
