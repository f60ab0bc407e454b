import Verif.Spec.FirstChar
import Verif.Proofs.Agree
import Verif.Proofs.Scanned
import Verif.Props.RuleOrder
import Verif.Props.StaysEnded
import Verif.Proofs.Words
import Verif.Props.Scanning

/-!
# C113: only the patterns that can begin with the next character matter
-/

namespace Pango.Props

open Pango Pango.Regex Pango.Fsm Pango.Lex Pango.Spec

variable [Unicode] {K : Type} {p : Profile} {rules : List (List Char × (List Char → K))} {es es' : List Expr}
  {l l' : Lexer K} {own : List Char × (List Char → K) → Bool} {c : Char}

/-- The rules that are left out have patterns that cannot begin with this character. -/
def Elsewhere (p : Profile) (rules : List (List Char × (List Char → K))) (own : List Char × (List Char → K) → Bool)
    (c : Char) : Prop :=
  ∀ r ∈ rules, own r = false → ∀ e, parse p r.1 = .ok (.ok e) → ¬ CanBegin e c

private theorem mem_own (b : Built p rules l es) (b' : Built p (rules.filter own) l' es') (hf : Elsewhere p rules own c)
    {e : Expr} (hc : CanBegin e c) : e ∈ es ↔ e ∈ es' := by
  rw [b.mem_tree, b'.mem_tree]
  constructor
  · rintro ⟨r, hr, he⟩
    refine ⟨r, List.mem_filter.2 ⟨hr, ?_⟩, he⟩
    cases h : own r with
    | true => rfl
    | false => exact absurd hc (hf r hr h e he)
  · rintro ⟨r, hr, he⟩
    exact ⟨r, (List.mem_filter.1 hr).1, he⟩

private theorem taken_can (b : Built p rules l es) {e : Expr} (he : e ∈ es) {w : List Char} (h : Taken e (c :: w)) :
    CanBegin e c := by
  obtain ⟨f, hf⟩ := exists_finalsFrom he
  have hc := b.compiles e he
  rcases (frag_taken e hc 0 f (f + 1) (c :: w)).2 h with ⟨h, _⟩ | ⟨b', h⟩
  · cases h
  · exact ⟨w, (frag_firstPre e hc 0 f (f + 1) (c :: w)).1 (Fr.firstPre_of_first h)⟩

/-- The rule that makes the token. -/
private theorem first_found (b : Built p rules l es) {w : List Char} {i : Nat} (h : FirstMatch (taken es) w i) :
    ∃ r, rules[i]? = some r ∧ (∃ e ∈ es, parse p r.1 = .ok (.ok e) ∧ Taken e w) ∧
      ∀ j r', j < i → rules[j]? = some r' → ¬ ∃ e, parse p r'.1 = .ok (.ok e) ∧ Taken e w := by
  obtain ⟨M, hM, hw⟩ := h.isMatch
  simp only [taken, List.getElem?_map, Option.map_eq_some_iff] at hM
  obtain ⟨e, he, rfl⟩ := hM
  have := b.tree_at i
  rw [he, Option.map_some, Option.map_eq_some_iff] at this
  obtain ⟨r, h1, h2⟩ := this
  refine ⟨r, h1, ⟨e, List.mem_of_getElem? he, h2, hw⟩, ?_⟩
  rintro j r' hj hr' ⟨e', h3, h4⟩
  have := b.tree_at j
  rw [hr', Option.map_some, h3, eq_comm, Option.map_eq_some_iff] at this
  obtain ⟨e2, h5, h6⟩ := this
  cases h6
  exact h.first j (fun w => Taken e' w) hj (by simp [taken, h5]) h4

open Classical in
private theorem first_find (b : Built p rules l es) {w : List Char} {i : Nat} (h : FirstMatch (taken es) w i) :
    rules.find? (fun r => decide (∃ e, parse p r.1 = .ok (.ok e) ∧ Taken e w)) = rules[i]? := by
  obtain ⟨r, h1, ⟨e, _, h2, h3⟩, h4⟩ := first_found b h
  rw [h1, List.find?_eq_some_iff_getElem]
  obtain ⟨hi, hr⟩ := List.getElem?_eq_some_iff.1 h1
  exact ⟨by simpa using ⟨e, h2, h3⟩, i, hi, hr, fun j hj => by
    have := h4 j rules[j] hj (List.getElem?_eq_getElem _)
    simpa using this⟩

private theorem agree_own (b : Built p rules l es) (b' : Built p (rules.filter own) l' es')
    (hf : Elsewhere p rules own c) : Agree l.tokens (taken es) (Readable es) l'.tokens (taken es') (Readable es')
      (fun w => w.head? = some c) := by
  have cons : ∀ {w : List Char}, w.head? = some c → ∃ v, w = c :: v := by
    intro w h
    cases w with
    | nil => cases h
    | cons d v => cases h; exact ⟨v, rfl⟩
  refine ⟨?_, ?_, ?_, ?_⟩
  · intro w d h
    obtain ⟨v, rfl⟩ := cons h
    rfl
  · intro w h
    obtain ⟨v, rfl⟩ := cons h
    simp only [Readable, reduceCtorEq, false_or]
    constructor
    · rintro ⟨e, he, hm⟩
      exact ⟨e, (mem_own b b' hf ⟨v, hm⟩).1 he, hm⟩
    · rintro ⟨e, he, hm⟩
      exact ⟨e, (mem_own b b' hf ⟨v, hm⟩).2 he, hm⟩
  · intro w h
    obtain ⟨v, rfl⟩ := cons h
    simp only [AnyMatch, taken, List.mem_map]
    constructor
    · rintro ⟨_, ⟨e, he, rfl⟩, hm⟩
      exact ⟨_, ⟨e, (mem_own b b' hf (taken_can b he hm)).1 he, rfl⟩, hm⟩
    · rintro ⟨_, ⟨e, he, rfl⟩, hm⟩
      exact ⟨_, ⟨e, (mem_own b b' hf (taken_can b' he hm)).2 he, rfl⟩, hm⟩
  · intro w i i' src k k' h h1 h2 h3 h4
    obtain ⟨v, rfl⟩ := cons h
    have e1 := b.kindAt h3
    have e2 := b'.kindAt h4
    have e5 : rules[i]? = (rules.filter own)[i']? := by
      obtain ⟨r, g1, ⟨e, g2, g3, g4⟩, g5⟩ := first_found b h1
      have hown : own r = true := by
        cases h : own r with
        | true => rfl
        | false => exact absurd (taken_can b g2 g4) (hf r (List.mem_of_getElem? g1) h e g3)
      obtain ⟨hi, hr⟩ := List.getElem?_eq_some_iff.1 g1
      rw [← first_find b' h2, List.find?_filter, g1, eq_comm, List.find?_eq_some_iff_getElem]
      refine ⟨by simpa [hown] using ⟨e, g3, g4⟩, i, hi, hr, fun j hj => ?_⟩
      have := g5 j rules[j] hj (List.getElem?_eq_getElem _)
      simp [this]
    simp only [kindAt, e5] at e1 e2
    rw [e1] at e2
    exact Option.some.inj e2

private theorem passes_own (b : Built p rules l es) (b' : Built p (rules.filter own) l' es')
    (hf : Elsewhere p rules own c) {v : List Char} : Passes es (c :: v) ↔ Passes es' (c :: v) := by
  have can : ∀ {e : Expr} {x : List Char}, x <+: c :: v → SpinsFirst e x → x ≠ [] → CanBegin e c := by
    intro e x hx hs hne
    cases x with
    | nil => exact absurd rfl hne
    | cons d x =>
      obtain ⟨rfl, _⟩ := List.cons_prefix_cons.1 hx
      exact ⟨x, hs.mayBegin⟩
  constructor
  · intro h e he x hx hs
    exact h e ((mem_own b b' hf (can hx hs ((b'.spinning x).2 ⟨e, he, hs⟩).1)).2 he) x hx hs
  · intro h e he x hx hs
    exact h e ((mem_own b b' hf (can hx hs ((b.spinning x).2 ⟨e, he, hs⟩).1)).1 he) x hx hs

private theorem next_own (b : Built p rules l es) (b' : Built p (rules.filter own) l' es') (hf : Elsewhere p rules own c)
    {it : InputIter} (hc : it.next.1 = some c) {x : Option (Tok K) × InputIter} :
    (∃ fuel, lexNext (nfaMachine l.nfa fuel) l.tokens it = .ok x) ↔
    (∃ fuel, lexNext (nfaMachine l'.nfa fuel) l'.tokens it = .ok x) := by
  have hr : Rep ⟨(it.source ++ word it.suffix).map fun c => (0, c), it.prev, it.iter, it.pos.1⟩ it :=
    .inr ⟨by simp [word, Function.comp_def], rfl, rfl, rfl⟩
  have hleft : ∃ v, word (it.prev ++ it.iter) = c :: v := by
    cases h : it.next with
    | mk a it1 =>
      rw [h] at hc
      obtain rfl : a = some c := hc
      obtain ⟨q, e1, _⟩ := next_some h
      exact ⟨word (it1.prev ++ it1.iter), by rw [e1]; rfl⟩
  obtain ⟨v, hv⟩ := hleft
  have big : ∀ {l : Lexer K} {n m : Nat} {x}, lexNext (nfaMachine l.nfa n) l.tokens it = .ok x →
      lexNext (nfaMachine l.nfa (n + m)) l.tokens it = .ok x := fun h => (lexNext_le (nfaMachine_le (Nat.le_add_right _ _))).ok h
  have ends : (∃ fuel x, lexNext (nfaMachine l.nfa fuel) l.tokens it = .ok x) ↔
      (∃ fuel x, lexNext (nfaMachine l'.nfa fuel) l'.tokens it = .ok x) := by
    have pass := passes_own b b' hf (v := v)
    rw [← hv] at pass
    constructor
    · rintro ⟨fuel, x, h⟩
      exact ⟨_, (b'.next_iff (Nat.le_refl _) hr).2 (pass.1 ((b.next_iff (Nat.le_add_left _ fuel) hr).1 ⟨x, big h⟩))⟩
    · rintro ⟨fuel, x, h⟩
      exact ⟨_, (b.next_iff (Nat.le_refl _) hr).2 (pass.2 ((b'.next_iff (Nat.le_add_left _ fuel) hr).1 ⟨x, big h⟩))⟩
  have same : ∀ {n m : Nat} {x y}, lexNext (nfaMachine l.nfa n) l.tokens it = .ok x →
      lexNext (nfaMachine l'.nfa m) l'.tokens it = .ok y → y = x := by
    rintro n m ⟨r, it1⟩ ⟨r', it2⟩ h h'
    obtain ⟨s, h1, h2⟩ := lexNext_ok h
    obtain ⟨s', h3, h4⟩ := lexNext_ok h'
    obtain ⟨rfl, rfl⟩ := h2.agree (b.readsTaken n) (b'.readsTaken m) (agree_own b b' hf) (w := [])
      ((b.readsTaken n).start h1) ((b'.readsTaken m).start h3) (.inr ⟨rfl, fun ch it3 hn => by
        rw [hn] at hc
        simpa using hc⟩) h4
    rfl
  constructor
  · rintro ⟨fuel, h⟩
    obtain ⟨fuel', y, h'⟩ := ends.1 ⟨fuel, x, h⟩
    exact ⟨fuel', by rw [h', same h h']⟩
  · rintro ⟨fuel, h⟩
    obtain ⟨fuel', y, h'⟩ := ends.2 ⟨fuel, x, h⟩
    exact ⟨fuel', by rw [h', same h' h]⟩

/-- C113.  A call of `next`, in whatever state the lexer is, returns the same as with the other rules left out, and
leaves the same state, if these cannot begin with the next character; and it ends if and only if it ends without them. -/
theorem c113_call (hl : buildLexer p rules = .ok (.ok l)) (hl' : buildLexer p (rules.filter own) = .ok (.ok l'))
    {it : InputIter} (hc : it.next.1 = some c) (hf : Elsewhere p rules own c) (x : Option (Tok K) × InputIter) :
    (∃ fuel, lexNext (nfaMachine l.nfa fuel) l.tokens it = .ok x) ↔
    (∃ fuel, lexNext (nfaMachine l'.nfa fuel) l'.tokens it = .ok x) := by
  obtain ⟨es, b⟩ := buildLexer_built hl
  obtain ⟨es', b'⟩ := buildLexer_built hl'
  exact next_own b b' hf hc

/-- C113, the smaller lexer can be built. -/
theorem c113_builds (hl : buildLexer p rules = .ok (.ok l)) (own : List Char × (List Char → K) → Bool) :
    ∃ l', buildLexer p (rules.filter own) = .ok (.ok l') := by
  obtain ⟨es, b⟩ := buildLexer_built hl
  exact (c55_partial p (rules.filter own)).2.1 fun r hr => b.usable r (List.mem_filter.1 hr).1

/-- One part of the patterns begins with characters of the set, and the other part with other characters. -/
def BeginApart (p : Profile) (rules : List (List Char × (List Char → K))) (own : List Char × (List Char → K) → Bool)
    (F : Char → Prop) : Prop :=
  ∀ r ∈ rules, ∀ e, parse p r.1 = .ok (.ok e) → ∀ c, CanBegin e c → (own r = true ↔ F c)

private theorem lookahead_part {F : Char → Prop} (b : Built p rules l es) (b' : Built p (rules.filter own) l' es')
    (hF : BeginApart p rules own F) : LooksOneAhead es' ↔ ∀ w c, w ≠ [] → (∃ d, w.head? = some d ∧ F d) →
      AnyMatch (taken es) w → Readable es (w ++ [c]) → Passes es (w ++ [c]) → AnyMatch (taken es) (w ++ [c]) := by
  have foreign : ∀ {d : Char}, F d → Elsewhere p rules own d := by
    intro d hd r hr ho e he hc
    have := (hF r hr e he d hc).2 hd
    rw [ho] at this
    cases this
  constructor
  · rintro h w c hw ⟨d, hd, hFd⟩ h1 h2 h3
    have A := agree_own b b' (foreign hFd)
    have hd' : (w ++ [c]).head? = some d := A.more hd
    refine (A.any hd').2 (h w c hw ((A.any hd).1 h1) ((A.live hd').1 h2) ?_)
    cases w with
    | nil => cases hd
    | cons a w =>
      cases hd
      exact (passes_own b b' (foreign hFd)).1 h3
  · intro h w c hw h1 h2 h3
    cases w with
    | nil => exact absurd rfl hw
    | cons a w =>
      have hFa : F a := by
        obtain ⟨M, hM, hm⟩ := h1
        obtain ⟨e, he, rfl⟩ := List.mem_map.1 hM
        have hc := taken_can b' he hm
        obtain ⟨r, hr, he⟩ := b'.mem_tree.1 he
        obtain ⟨hr, ho⟩ := List.mem_filter.1 hr
        exact (hF r hr e he a hc).1 ho
      have A := agree_own b b' (foreign hFa)
      exact (A.any rfl).1 (h (a :: w) c hw ⟨a, rfl, hFa⟩ ((A.any rfl).2 h1) ((A.live rfl).2 h2)
        ((passes_own b b' (foreign hFa)).2 h3))

/-- C113 for whole texts: a lexer of two kinds of patterns that begin with different characters takes the longest match
on all texts if and only if the lexers of either kind do. -/
theorem c113_munch {rules₁ rules₂ : List (List Char × (List Char → K))} {es₁ es₂ : List Expr} {l₁ l₂ : Lexer K}
    {F : Char → Prop} (hl : LexerFor p rules es l) (h₁ : rules₁ = rules.filter own)
    (h₂ : rules₂ = rules.filter fun r => !own r) (hl₁ : LexerFor p rules₁ es₁ l₁) (hl₂ : LexerFor p rules₂ es₂ l₂)
    (hF : BeginApart p rules own F) :
    (∀ input ts, Tokens l input ts → IsTokenization (taken es) rules input ts) ↔
      (∀ input ts, Tokens l₁ input ts → IsTokenization (taken es₁) rules₁ input ts) ∧
      (∀ input ts, Tokens l₂ input ts → IsTokenization (taken es₂) rules₂ input ts) := by
  subst h₁ h₂
  rw [c23_exact_partial p _ _ l hl, c23_exact_partial p _ _ l₁ hl₁, c23_exact_partial p _ _ l₂ hl₂,
    lookahead_part hl.toBuilt hl₁.toBuilt hF, lookahead_part (F := fun c => ¬ F c) hl.toBuilt hl₂.toBuilt (by
      intro r hr e he c hc
      show (!own r) = true ↔ ¬ F c
      rw [← hF r hr e he c hc]
      simp)]
  constructor
  · intro h
    exact ⟨fun w c hw _ => h w c hw, fun w c hw _ => h w c hw⟩
  · rintro ⟨h1, h2⟩ w c hw
    cases w with
    | nil => exact absurd rfl hw
    | cons a w =>
      by_cases ha : F a
      · exact h1 _ c hw ⟨a, rfl, ha⟩
      · exact h2 _ c hw ⟨a, rfl, ha⟩

/-! ## The rules `a+`, `=` and `==` -/

/-- The rules `=` and `==`. -/
def withEquals (r : List Char × (List Char → Nat)) : Bool := r.1.head? == some '='

theorem words_apart : BeginApart .debug wordsRules withEquals (· = '=') := by
  rintro r hr e he c ⟨w, hc⟩
  simp only [wordsRules, List.mem_cons, List.not_mem_nil, or_false] at hr
  rcases hr with rfl | rfl | rfl
  · have he2 : (.ok (.ok (Expr.lit (.mtch 'a') (some .plus))) : Outcome (Except (List ParseError) Expr)) =
        .ok (.ok e) := he
    cases he2
    cases hc with
    | chars _ h =>
      have h := h c (by simp)
      simp only [LitSet] at h
      rw [h]
      decide
  · have he2 : (.ok (.ok (wordTree ['='])) : Outcome (Except (List ParseError) Expr)) = .ok (.ok e) := he
    cases he2
    obtain ⟨rfl, _⟩ := List.cons_prefix_cons.1 ((mayBegin_word (by simp)).1 hc)
    decide
  · have he2 : (.ok (.ok (wordTree ['=', '='])) : Outcome (Except (List ParseError) Expr)) = .ok (.ok e) := he
    cases he2
    obtain ⟨rfl, _⟩ := List.cons_prefix_cons.1 ((mayBegin_word (by simp)).1 hc)
    decide

/-- In front of `=` the rule `a+` may be left out, and there are states in which `=` is next. -/
example : ∃ l', buildLexer .debug [("=".toList, fun _ => 100), ("==".toList, fun _ => 200)] = .ok (.ok l') ∧
    ∀ it, it.next.1 = some '=' → ∀ x, (∃ fuel, lexNext (nfaMachine words.nfa fuel) words.tokens it = .ok x) ↔
      (∃ fuel, lexNext (nfaMachine l'.nfa fuel) l'.tokens it = .ok x) := by
  obtain ⟨l', hl'⟩ := c113_builds words_for.built withEquals
  refine ⟨l', hl', fun it hc => c113_call words_for.built hl' hc ?_⟩
  intro r hr ho e he hb
  have := (words_apart r hr e he _ hb).2 rfl
  rw [ho] at this
  cases this

example : (InputIter.new "==a".toList).next.1 = some '=' := rfl

/-- That the longest match is taken can be looked at for `a+` alone and for `=` and `==` alone. -/
example : ∃ l₁ l₂, LexerFor .debug (wordsRules.filter withEquals) [wordTree ['='], wordTree ['=', '=']] l₁ ∧
    LexerFor .debug (wordsRules.filter fun r => !withEquals r) [.lit (.mtch 'a') (some .plus)] l₂ ∧
    (∀ input ts, Tokens l₁ input ts →
      IsTokenization (taken [wordTree ['='], wordTree ['=', '=']]) (wordsRules.filter withEquals) input ts) := by
  obtain ⟨l₁, h1⟩ := c113_builds words_for.built withEquals
  obtain ⟨l₂, h2⟩ := c113_builds words_for.built fun r => !withEquals r
  have h3 : LexerFor .debug (wordsRules.filter withEquals) [wordTree ['='], wordTree ['=', '=']] l₁ := ⟨h1, rfl⟩
  have h4 : LexerFor .debug (wordsRules.filter fun r => !withEquals r) [.lit (.mtch 'a') (some .plus)] l₂ := ⟨h2, rfl⟩
  exact ⟨l₁, l₂, h3, h4, ((c113_munch words_for rfl rfl h3 h4 words_apart).1
    ((c23_exact_partial .debug _ _ words words_for).2
      (looksOneAhead_of words_for words_regular words_oneLookahead))).1⟩

/-- The condition matters: in front of `=` the rule `=` may not be left out. -/
example : ∃ r ∈ wordsRules, ∃ e, parse .debug r.1 = .ok (.ok e) ∧ CanBegin e '=' :=
  ⟨("=".toList, fun _ => 100), by simp [wordsRules], .lit (.mtch '=') none, rfl, [], .char rfl⟩

end Pango.Props
