import Verif.Proofs.SameRules
import Verif.Props.Lexing
import Verif.Props.Builder

/-!
# The order of the rules of a lexer (C60, C61)
-/

namespace Pango.Props

open Pango Pango.Regex Pango.Fsm Pango.Lex Pango.Spec

variable [Unicode] {K : Type}

/-- The pattern by itself accepts the word. -/
def Accepts (p : Profile) (pattern w : List Char) : Prop :=
  ∃ e, parse p pattern = .ok (.ok e) ∧ Answers e w true

/-- Two lexers answer every number of calls in the same way on every input, and their loops end for the same
calls. -/
def SameAnswers (l l' : Lexer K) : Prop :=
  ∀ (input : List Char) (n : Nat) (as : List (Option (Tok K))),
    (∃ fuel it, lexCalls (nfaMachine l.nfa fuel) l.tokens n (InputIter.new input) = .ok (as, it)) ↔
    (∃ fuel it, lexCalls (nfaMachine l'.nfa fuel) l'.tokens n (InputIter.new input) = .ok (as, it))

theorem SameRules.sameAnswers {p : Profile} {rules rules' : List (List Char × (List Char → K))}
    {es es' : List Expr} {l l' : Lexer K} (h : SameRules rules rules' es es') (b : Built p rules l es)
    (b' : Built p rules' l' es') : SameAnswers l l' := by
  intro input n as
  constructor
  · rintro ⟨fuel, it, hc⟩
    exact ⟨_, it, h.lexCalls b b' hc⟩
  · rintro ⟨fuel, it, hc⟩
    exact ⟨_, it, h.symm.lexCalls b' b hc⟩

theorem _root_.Pango.Lex.Built.tree_at {p : Profile} {rules : List (List Char × (List Char → K))} {es : List Expr}
    {l : Lexer K} (b : Built p rules l es) (i : Nat) :
    (rules[i]?).map (fun r => parse p r.1) = (es[i]?).map (fun e => .ok (.ok e)) := by
  have := congrArg (fun l => l[i]?) b.parsed
  simpa using this

theorem _root_.Pango.Lex.Built.mem_tree {p : Profile} {rules : List (List Char × (List Char → K))} {es : List Expr}
    {l : Lexer K} (b : Built p rules l es) {e : Expr} :
    e ∈ es ↔ ∃ r ∈ rules, parse p r.1 = .ok (.ok e) := by
  constructor
  · intro he
    obtain ⟨i, hi⟩ := List.mem_iff_getElem?.1 he
    have := b.tree_at i
    rw [hi, Option.map_some, Option.map_eq_some_iff] at this
    obtain ⟨r, h1, h2⟩ := this
    exact ⟨r, List.mem_of_getElem? h1, h2⟩
  · rintro ⟨r, hr, he⟩
    obtain ⟨i, hi⟩ := List.mem_iff_getElem?.1 hr
    have := b.tree_at i
    rw [hi, Option.map_some, he, eq_comm, Option.map_eq_some_iff] at this
    obtain ⟨e', h1, h2⟩ := this
    cases h2
    exact List.mem_of_getElem? h1

/-- The first rule that matches is the first one whose pattern accepts. -/
theorem _root_.Pango.Lex.Built.first_rule {p : Profile} {rules : List (List Char × (List Char → K))}
    {es : List Expr} {l : Lexer K} (b : Built p rules l es) {w : List Char} {i : Nat} (h : FirstMatch (alone es) w i) :
    ∃ r, rules[i]? = some r ∧ Accepts p r.1 w ∧
      ∀ j r', j < i → rules[j]? = some r' → ¬ Accepts p r'.1 w := by
  obtain ⟨M, hM, hw⟩ := h.isMatch
  simp only [alone, List.getElem?_map, Option.map_eq_some_iff] at hM
  obtain ⟨e, he, rfl⟩ := hM
  have := b.tree_at i
  rw [he, Option.map_some, Option.map_eq_some_iff] at this
  obtain ⟨r, h1, h2⟩ := this
  refine ⟨r, h1, ⟨e, h2, hw⟩, ?_⟩
  rintro j r' hj hr' ⟨e', h3, h4⟩
  have := b.tree_at j
  rw [hr', Option.map_some, h3, eq_comm, Option.map_eq_some_iff] at this
  obtain ⟨e2, h5, h6⟩ := this
  cases h6
  exact h.first j (fun w => Answers e' w true) hj (by simp [alone, h5]) h4

theorem _root_.Pango.Lex.Built.usable {p : Profile} {rules : List (List Char × (List Char → K))} {es : List Expr}
    {l : Lexer K} (b : Built p rules l es) : ∀ r ∈ rules, Usable p r.1 := by
  intro r hr
  obtain ⟨i, hi⟩ := List.mem_iff_getElem?.1 hr
  have := b.tree_at i
  rw [hi, Option.map_some, eq_comm, Option.map_eq_some_iff] at this
  obtain ⟨e, h1, h2⟩ := this
  exact ⟨e, h2.symm, b.compiles e (List.mem_of_getElem? h1)⟩

/-- The rules of `words`. -/
def wordsRules : List (List Char × (List Char → Nat)) :=
  [("a+".toList, List.length), ("=".toList, fun _ => 100), ("==".toList, fun _ => 200)]

/-! ## C60 -/

/-- C60: if rules that accept the same word make the same kinds then a lexer with the rules in another order, or
with some of them given several times, is built as well and answers in the same way. -/
theorem c60_order (p : Profile) (rules rules' : List (List Char × (List Char → K))) (l : Lexer K)
    (hl : buildLexer p rules = .ok (.ok l)) (same : ∀ r, r ∈ rules ↔ r ∈ rules')
    (agree : ∀ w, ∀ r ∈ rules, ∀ r' ∈ rules, Accepts p r.1 w → Accepts p r'.1 w → r.2 = r'.2) :
    ∃ l', buildLexer p rules' = .ok (.ok l') ∧ SameAnswers l l' := by
  obtain ⟨es, b⟩ := buildLexer_built hl
  obtain ⟨l', hl'⟩ := (c55_partial p rules').2.1 fun r hr => b.usable r ((same r).2 hr)
  obtain ⟨es', b'⟩ := buildLexer_built hl'
  refine ⟨l', hl', SameRules.sameAnswers ⟨fun e => ?_, fun w i i' h1 h2 source => ?_⟩ b b'⟩
  · rw [b.mem_tree, b'.mem_tree]
    constructor
    · rintro ⟨r, hr, h⟩; exact ⟨r, (same r).1 hr, h⟩
    · rintro ⟨r, hr, h⟩; exact ⟨r, (same r).2 hr, h⟩
  · obtain ⟨r, h3, h4, _⟩ := b.first_rule h1
    obtain ⟨r', h5, h6, _⟩ := b'.first_rule h2
    have := agree w r (List.mem_of_getElem? h3) r' ((same r').2 (List.mem_of_getElem? h5)) h4 h6
    simp [kindAt, h3, h5, this]

/-- The trees of `a+`, `=` and `==` match different words. -/
theorem words_disjoint : ∀ w, ∀ r ∈ wordsRules, ∀ r' ∈ wordsRules, Accepts .debug r.1 w →
    Accepts .debug r'.1 w → r.2 = r'.2 := by
  have key : ∀ r ∈ wordsRules, ∀ w, Accepts .debug r.1 w →
      (∃ v, w = 'a' :: v ∧ r.2 = List.length) ∨ (w = ['='] ∧ r.2 = fun _ => 100) ∨
      (w = ['=', '='] ∧ r.2 = fun _ => 200) := by
    rintro r hr w ⟨e, he, ha⟩
    have he' : e ∈ wordsTrees := (words_for.toBuilt.mem_tree).2 ⟨r, hr, he⟩
    have hm := (answers_iff (words_for.toBuilt.compiles e he') (words_regular e he').1
      (words_regular e he').2 w).1 ha
    simp only [wordsRules, List.mem_cons, List.not_mem_nil, or_false] at hr
    rcases hr with rfl | rfl | rfl
    · have he2 : (.ok (.ok (Expr.lit (.mtch 'a') (some .plus))) : Outcome (Except (List ParseError) Expr)) =
          .ok (.ok e) := he
      cases he2
      cases hm with
      | lit h1 h2 =>
        cases w with
        | nil => simp [QuantSet] at h1
        | cons c w =>
          have := h2 c (by simp)
          simp only [LitSet] at this
          exact .inl ⟨w, by rw [this], rfl⟩
    · have he2 : (.ok (.ok (Expr.lit (.mtch '=') none)) : Outcome (Except (List ParseError) Expr)) =
          .ok (.ok e) := he
      cases he2
      cases hm with
      | lit h1 h2 =>
        obtain ⟨c, rfl⟩ := List.length_eq_one_iff.1 h1
        have := h2 c (by simp)
        simp only [LitSet] at this
        exact .inr (.inl ⟨by rw [this], rfl⟩)
    · have he2 : (.ok (.ok (Expr.concat [.lit (.mtch '=') none, .lit (.mtch '=') none])) :
          Outcome (Except (List ParseError) Expr)) =
          .ok (.ok e) := he
      cases he2
      cases hm with
      | cons h1 h2 =>
        cases h2 with
        | cons h2 h3 =>
          cases h3
          cases h1 with
          | lit h4 h5 =>
            cases h2 with
            | lit h6 h7 =>
              obtain ⟨c, rfl⟩ := List.length_eq_one_iff.1 h4
              obtain ⟨d, rfl⟩ := List.length_eq_one_iff.1 h6
              have e1 := h5 c (by simp)
              have e2 := h7 d (by simp)
              simp only [LitSet] at e1 e2
              exact .inr (.inr ⟨by rw [e1, e2]; rfl, rfl⟩)
  intro w r hr r' hr' h h'
  rcases key r hr w h with ⟨v, rfl, h1⟩ | ⟨rfl, h1⟩ | ⟨rfl, h1⟩ <;>
    rcases key r' hr' _ h' with ⟨v', h2, h3⟩ | ⟨h2, h3⟩ | ⟨h2, h3⟩ <;>
      first | exact h1.trans h3.symm | simp at h2

/-- The rules `a+`, `=` and `==` may be given in another order. -/
example : ∃ l', buildLexer .debug [("==".toList, fun _ => 200), ("a+".toList, List.length),
    ("=".toList, fun _ => 100)] = .ok (.ok l') ∧ SameAnswers words l' :=
  c60_order .debug wordsRules _ words words_for.built (by
    intro r
    simp only [wordsRules, List.mem_cons, List.not_mem_nil, or_false]
    constructor <;> (rintro (h | h | h) <;> simp [h])) words_disjoint

/-- The order matters for two rules that match the same word. -/
example : ∃ l l' : Lexer Nat, buildLexer .debug [(['a'], fun _ => 1), (['.'], fun _ => 2)] = .ok (.ok l) ∧
    buildLexer .debug [(['.'], fun _ => 2), (['a'], fun _ => 1)] = .ok (.ok l') ∧
    Tokens l ['a'] [⟨1, ['a'], (0, 1)⟩] ∧ Tokens l' ['a'] [⟨2, ['a'], (0, 1)⟩] :=
  ⟨_, _, rfl, rfl, ⟨10, 3, _, by with_unfolding_all rfl⟩, ⟨10, 3, _, by with_unfolding_all rfl⟩⟩

/-! ## C61 -/

/-- C61: a rule whose pattern is read as the same tree as the pattern of an earlier rule has no effect. -/
theorem c61_repeated (p : Profile) (pre mid post : List (List Char × (List Char → K)))
    (r r' : List Char × (List Char → K)) (l : Lexer K) (h : parse p r'.1 = parse p r.1)
    (hl : buildLexer p (pre ++ r :: mid ++ post) = .ok (.ok l)) :
    ∃ l', buildLexer p (pre ++ r :: mid ++ r' :: post) = .ok (.ok l') ∧ SameAnswers l l' := by
  obtain ⟨es, b⟩ := buildLexer_built hl
  have hacc : ∀ w, Accepts p r'.1 w ↔ Accepts p r.1 w := by
    intro w; unfold Accepts; rw [h]
  obtain ⟨l', hl'⟩ := (c55_partial p (pre ++ r :: mid ++ r' :: post)).2.1 fun r2 hr2 => by
    by_cases he : r2 = r'
    · subst he
      obtain ⟨e, h1, h2⟩ := b.usable r (by simp)
      exact ⟨e, h.trans h1, h2⟩
    · refine b.usable r2 ?_
      simp only [List.mem_append, List.mem_cons] at hr2 ⊢
      rcases hr2 with (h1 | h1 | h1) | h1 | h1 <;> simp_all
  obtain ⟨es', b'⟩ := buildLexer_built hl'
  refine ⟨l', hl', SameRules.sameAnswers ⟨fun e => ?_, fun w i i' h1 h2 source => ?_⟩ b b'⟩
  · rw [b.mem_tree, b'.mem_tree]
    constructor
    · rintro ⟨r2, hr2, h2⟩
      refine ⟨r2, ?_, h2⟩
      simp only [List.mem_append, List.mem_cons] at hr2 ⊢
      rcases hr2 with (h1 | h1 | h1) | h1 <;> simp [h1]
    · rintro ⟨r2, hr2, h2⟩
      by_cases he : r2 = r'
      · subst he
        exact ⟨r, by simp, h.symm.trans h2⟩
      · refine ⟨r2, ?_, h2⟩
        simp only [List.mem_append, List.mem_cons] at hr2 ⊢
        rcases hr2 with (h1 | h1 | h1) | h1 | h1 <;> simp_all
  · obtain ⟨s, h3, h4, h5⟩ := b.first_rule h1
    obtain ⟨s', h6, h7, h8⟩ := b'.first_rule h2
    have first : ∀ {rules : List (List Char × (List Char → K))} {i : Nat} {s},
        rules[i]? = some s → Accepts p s.1 w →
        (∀ j r', j < i → rules[j]? = some r' → ¬ Accepts p r'.1 w) →
        open Classical in rules.find? (fun r => decide (Accepts p r.1 w)) = some s := by
      intro rules
      induction rules with
      | nil => intro i s hi; simp at hi
      | cons a rules ih =>
        intro i s hi hs hj
        cases i with
        | zero =>
          simp only [List.getElem?_cons_zero, Option.some.injEq] at hi
          subst hi
          rw [List.find?_cons_of_pos (by simpa using hs)]
        | succ i =>
          have := hj 0 a (by omega) rfl
          rw [List.find?_cons_of_neg (by simpa using this)]
          exact ih (i := i) (by simpa using hi) hs fun j r' hj' hr' => hj (j + 1) r' (by omega) (by simpa using hr')
    have f1 := first h3 h4 h5
    have f2 := first h6 h7 h8
    have : s = s' := by
      rw [List.find?_append] at f1 f2
      cases hx : List.find? (fun r => @decide (Accepts p r.1 w) (Classical.propDecidable _)) (pre ++ r :: mid) with
      | some x =>
        rw [hx] at f1 f2
        exact (Option.some.inj f1).symm.trans (Option.some.inj f2)
      | none =>
        rw [hx] at f1 f2
        have hr : ¬ Accepts p r'.1 w := by
          rw [hacc]
          simpa using List.find?_eq_none.1 hx r (by simp)
        rw [List.find?_cons_of_neg (by simpa using hr)] at f2
        rw [f1] at f2
        simpa using f2
    rw [kindAt, kindAt, h3, h6, this]

/-- `[a]` and `a` are read as different trees, `a{1}` and `a{01}` as the same one. -/
example : parse .debug "a{01}".toList = parse .debug "a{1}".toList ∧
    ∃ l : Lexer Nat, buildLexer .debug ([] ++ ("a{1}".toList, fun _ => 0) :: [("b".toList, fun _ => 1)] ++ []) =
      .ok (.ok l) :=
  ⟨rfl, _, rfl⟩

end Pango.Props
