import Verif.Props.Builder
import Verif.Props.Closed
import Verif.Props.StaysEnded
import Verif.Props.TextMachine
import Verif.Spec.Comments

/-!
# C128: comments inside of comments
-/

namespace Pango.Props

open Pango Pango.Fsm Pango.Lex Pango.Regex Pango.Spec Pango.Regular

section spec

variable {o c : Char}

private theorem inside_count (hoc : o ≠ c) {d : Nat} {w : List Char} (h : Brackets o c d w) : w.count o = w.count c := by
  induction h with
  | nil => rfl
  | other h1 h2 _ ih => simp [List.count_cons, h1, h2, ih]
  | nest _ _ ih1 ih2 =>
    simp only [List.cons_append, List.count_cons, List.count_append, ih1, ih2]
    simp [hoc, hoc.symm]
    omega

private theorem inside_deep (n : Nat) : Brackets o c n (List.replicate n o ++ List.replicate n c) := by
  induction n with
  | zero => exact .nil
  | succ n ih =>
    have : List.replicate (n + 1) o ++ List.replicate (n + 1) c =
        o :: (List.replicate n o ++ List.replicate n c) ++ c :: [] := by
      rw [List.replicate_succ, List.replicate_succ' (a := c)]
      simp
    rw [this]
    exact .nest ih .nil

private theorem comment_deep (n : Nat) : Comment o c (List.replicate (n + 1) o ++ List.replicate (n + 1) c) :=
  ⟨n, _, inside_deep n, by rw [List.replicate_succ, List.replicate_succ' (a := c)]; simp⟩

private theorem comment_count (hoc : o ≠ c) {w : List Char} (h : Comment o c w) : w.count o = w.count c := by
  obtain ⟨d, u, hu, rfl⟩ := h
  simp [List.count_cons, List.count_append, inside_count hoc hu, hoc, hoc.symm]

private theorem comment_equal (hoc : o ≠ c) {m n : Nat} (h : Comment o c (List.replicate m o ++ List.replicate n c)) :
    m = n := by
  have := comment_count hoc h
  simpa [List.count_append, List.count_replicate, hoc, hoc.symm] using this

end spec

variable [Unicode] {K : Type} {p : Profile} {rules : List (List Char × (List Char → K))} {es : List Expr} {l : Lexer K}

/-- The lexer makes one token of the text. -/
def OneToken (l : Lexer K) (w : List Char) : Prop := ∃ t, Tokens l w [t] ∧ t.source = w

private theorem passes_always (hl : LexerFor p rules es l) (hr : ∀ input, ∃ ts, Tokens l input ts) (w : List Char) :
    Passes es w := by
  obtain ⟨ts, ht⟩ := hr w
  rw [c23_tokens_partial p rules es l hl] at ht
  unfold Scans at ht
  generalize has : ts.map some ++ [none] = as at ht
  cases ht with
  | done => simp at has
  | next h _ _ => simpa [Scanner.left, Scanner.new] using h

private theorem oneToken_iff (hl : LexerFor p rules es l) (hpass : ∀ w, Passes es w) {w : List Char} (hw : w ≠ []) :
    OneToken l w ↔ AnyMatch (taken es) w := by
  have hleft : word (Scanner.new w).left = w := by simp [Scanner.left, Scanner.new]
  constructor
  · rintro ⟨t, ht, hs⟩
    rw [c23_tokens_partial p rules es l hl] at ht
    cases ht with
    | next _ h _ =>
      rw [← hs]
      cases h with
      | token _ _ _ _ h _ => simpa [Scanner.new] using h.anyMatch
      | last _ _ h _ => simpa [Scanner.new] using h.anyMatch
  · intro h
    obtain ⟨i, hi⟩ := h.first
    have hlt : i < es.length := by
      obtain ⟨M, h1, _⟩ := hi.isMatch
      have := (List.getElem?_eq_some_iff.1 h1).1
      simpa [taken] using this
    obtain ⟨k, hk⟩ := kindAt_some hl hlt w
    have hk' : kindAt rules i (word ((Scanner.new w).skipped ++ (Scanner.new w).left)) = some k := by
      rw [show (Scanner.new w).skipped ++ (Scanner.new w).left = (Scanner.new w).left from rfl, hleft]
      exact hk
    refine ⟨⟨k, w, (0, stop (Scanner.new w).left)⟩, ?_, rfl⟩
    rw [c23_tokens_partial p rules es l hl]
    have hc := Call.last (rules := taken es) (Live := Readable es) (kind := kindAt rules) (sc := Scanner.new w) (i := i) (k := k)
      (fun h => hw (by rw [← hleft, h]; rfl)) (by rw [hleft]; exact hl.toBuilt.readable_taken h) (by rw [hleft]; exact hi) hk'
    rw [show word ((Scanner.new w).skipped ++ (Scanner.new w).left) = w from hleft] at hc
    exact .next (hpass _) hc (.next (hpass _) (.over (.inl rfl) (.inl rfl)) .done)

/-- The words that some pattern takes. -/
private def takenWords (es : List Expr) : Language Char := {w | AnyMatch (taken es) w}

private theorem taken_regular (es : List Expr) : (takenWords es).IsRegular := by
  have h : takenWords es = (anyOf (fun e => (taken_reg e).choose) es).matches' := by
    refine Language.ext fun w => ?_
    rw [mem_anyOf]
    simp only [(taken_reg _).choose_spec]
    constructor
    · rintro ⟨M, h1, h2⟩
      obtain ⟨e, h3, rfl⟩ := List.mem_map.1 h1
      exact ⟨e, h3, h2⟩
    · rintro ⟨e, h1, h2⟩
      exact ⟨_, List.mem_map.2 ⟨e, h1, rfl⟩, h2⟩
  rw [h]
  exact regex_isRegular _

/-- C128.  If a lexer makes one token of each text `((…))`, then it does so of texts with too many brackets, open ones as
well as closing ones. -/
theorem c128_confused (hl : LexerFor p rules es l) (hr : ∀ input, ∃ ts, Tokens l input ts) {o c : Char}
    (h : ∀ n, OneToken l (List.replicate (n + 1) o ++ List.replicate (n + 1) c)) (bound : Nat) :
    ∃ m n, bound ≤ m ∧ m < n ∧ OneToken l (List.replicate m o ++ List.replicate n c) ∧
      OneToken l (List.replicate n o ++ List.replicate m c) := by
  have hpass := passes_always hl hr
  have hne : ∀ (m n : Nat), List.replicate (m + 1) o ++ List.replicate (n + 1) c ≠ [] := by simp [List.replicate_succ]
  have hfin := (taken_regular es).finite_range_leftQuotient
  have : ∃ m n, m < n ∧ (takenWords es).leftQuotient (List.replicate (bound + m + 1) o) =
      (takenWords es).leftQuotient (List.replicate (bound + n + 1) o) := by
    by_contra hno
    refine Set.infinite_of_injective_forall_mem (f := fun n : Nat =>
      (takenWords es).leftQuotient (List.replicate (bound + n + 1) o)) (fun m n hmn => ?_)
      (fun n => Set.mem_range_self _) hfin
    rcases Nat.lt_trichotomy m n with h | h | h
    · exact absurd ⟨m, n, h, hmn⟩ hno
    · exact h
    · exact absurd ⟨n, m, h, hmn.symm⟩ hno
  obtain ⟨m, n, hmn, heq⟩ := this
  have hq : ∀ u, AnyMatch (taken es) (List.replicate (bound + m + 1) o ++ u) ↔
      AnyMatch (taken es) (List.replicate (bound + n + 1) o ++ u) := by
    intro u
    have := congrArg (fun L : Language Char => u ∈ L) heq
    exact Iff.of_eq this
  refine ⟨bound + m + 1, bound + n + 1, by omega, by omega, ?_, ?_⟩
  · rw [oneToken_iff hl hpass (hne _ _), hq, ← oneToken_iff hl hpass (hne _ _)]
    exact h _
  · rw [oneToken_iff hl hpass (hne _ _), ← hq, ← oneToken_iff hl hpass (hne _ _)]
    exact h _

/-- C128.  No lexer makes one token of exactly the comments with comments inside. -/
theorem c128_nested {o c : Char} (hoc : o ≠ c) (hl : LexerFor p rules es l) (hr : ∀ input, ∃ ts, Tokens l input ts) :
    ¬ ∀ w, OneToken l w ↔ Comment o c w := by
  intro h
  obtain ⟨m, n, _, hmn, h1, _⟩ := c128_confused hl hr (fun n => (h _).2 (comment_deep n)) 0
  have := comment_equal hoc ((h _).1 h1)
  omega

/-- C128.  With one rule a lexer makes one token of exactly the words of the language of its pattern, except for the empty
one. -/
theorem c128_lexer {pattern : List Char} {L : Language Char} (h : Decides p pattern L) (kind : List Char → K) :
    ∃ e l, LexerFor p [(pattern, kind)] [e] l ∧ (∀ input, ∃ ts, Tokens l input ts) ∧
      ∀ w, OneToken l w ↔ w ≠ [] ∧ w ∈ L := by
  classical
  obtain ⟨e, hparse, hans⟩ := h
  have hc : ¬ HasEmptySeq e := by
    intro hc
    obtain ⟨nfa, _, h1, _⟩ := (hans [] (decide _)).2 (decide_eq_true_iff)
    rw [nfaOfAst, Compiler.addExpression, compileExpr_panics _ hc _ _ _ bundle_new.wf bundle_new.wf.start
      (by decide)] at h1
    cases h1
  obtain ⟨l, hbuilt⟩ := (c55_partial p [(pattern, kind)]).2.1 fun r hr => by
    rw [List.mem_singleton.1 hr]
    exact ⟨e, hparse, hc⟩
  have hl : LexerFor p [(pattern, kind)] [e] l := ⟨hbuilt, by simp [hparse]⟩
  have hpass : ∀ w, Passes [e] w := by
    intro w e' he' v hv hs
    rw [List.mem_singleton.1 he'] at hs
    exact (c11_exact_partial e hc v).1 ⟨_, (hans v (decide _)).2 decide_eq_true_iff⟩ ⟨v, List.prefix_refl _, hs⟩
  refine ⟨e, l, hl, fun input => ?_, fun w => ?_⟩
  · have hcalls : ∀ n, ∃ as, as.length = n ∧ Scans [e] [(pattern, kind)] input as := by
      intro n
      induction n with
      | zero => exact ⟨[], rfl, .done⟩
      | succ n ih =>
        obtain ⟨as, h1, h2⟩ := ih
        obtain ⟨a, h3⟩ := scans_more hl hpass h2
        exact ⟨as ++ [a], by simp [h1], h3⟩
    obtain ⟨as, h1, h2⟩ := hcalls (input.length + 1)
    obtain ⟨fuel, it, h⟩ := (c23_calls_partial p _ _ l hl input (input.length + 1) as).2 ⟨h1, h2⟩
    obtain ⟨⟨ts, it'⟩, h'⟩ := lexAll_of_calls h ((c16_finite _ _ _ _ _ _ h).2.2 (Nat.lt_succ_self _))
    exact ⟨ts, _, _, it', h'⟩
  · by_cases hw : w = []
    · subst hw
      constructor
      · rintro ⟨t, ht, hs⟩
        rw [c23_tokens_partial p _ _ l hl] at ht
        cases ht with
        | next _ h _ =>
          cases h with
          | token h _ _ _ _ _ => simp [Scanner.left, Scanner.new, numbered] at h
          | last h _ _ _ => simp [Scanner.left, Scanner.new, numbered] at h
      · exact fun h => absurd rfl h.1
    · rw [oneToken_iff hl hpass hw]
      have h1 := (c10_exact_partial e hc).1 w _ ((hans w (decide _)).2 decide_eq_true_iff)
      rw [decide_eq_true_iff] at h1
      simp only [AnyMatch, taken, List.map_cons, List.map_nil, List.mem_singleton, exists_eq_left]
      exact ⟨fun h => ⟨hw, h1.2 h⟩, fun h => h1.1 h.2⟩

/-! ## Comments of some depth -/

/-- The texts of some depth, with these other characters. -/
private def insideOf (o c : Char) (others : List Char) : Nat → RegularExpression Char
  | 0 => (anyOf .char others).star
  | d + 1 => (anyOf .char others + .char o * (insideOf o c others d * .char c)).star

omit [Unicode] in
private theorem mem_insideOf {o c : Char} {others : List Char} (ho : ∀ x, x ∈ others ↔ x ≠ o ∧ x ≠ c) {d : Nat}
    {w : List Char} : w ∈ (insideOf o c others d).matches' ↔ Brackets o c d w := by
  have hchar : ∀ (a : Char) (w : List Char), w ∈ (RegularExpression.char a).matches' ↔ w = [a] := fun _ _ => Iff.rfl
  induction d generalizing w with
  | zero =>
    rw [insideOf, RegularExpression.matches'_star]
    constructor
    · intro h
      obtain ⟨ws, rfl, hws⟩ := Language.mem_kstar.1 h
      clear h
      induction ws with
      | nil => exact .nil
      | cons u us ih =>
        obtain ⟨x, hx, hu⟩ := mem_anyOf.1 (hws u (by simp))
        rw [hchar] at hu
        subst hu
        exact .other ((ho x).1 hx).1 ((ho x).1 hx).2 (ih fun y hy => hws y (by simp [hy]))
    · intro h
      generalize hd : 0 = d at h
      induction h with
      | nil => exact Language.nil_mem_kstar _
      | @other d x w h1 h2 _ ih =>
        obtain ⟨ws, rfl, hws⟩ := Language.mem_kstar.1 (ih hd)
        refine Language.mem_kstar.2 ⟨[x] :: ws, rfl, fun y hy => ?_⟩
        rcases List.mem_cons.1 hy with rfl | hy
        · exact mem_anyOf.2 ⟨x, (ho x).2 ⟨h1, h2⟩, rfl⟩
        · exact hws y hy
      | nest _ _ _ _ => cases hd
  | succ d ih =>
    have hpiece : ∀ u : List Char, u ∈ (anyOf .char others + .char o * (insideOf o c others d * .char c)).matches' ↔
        (∃ x, x ≠ o ∧ x ≠ c ∧ u = [x]) ∨ ∃ v, Brackets o c d v ∧ u = o :: v ++ [c] := by
      intro u
      rw [RegularExpression.matches'_add, Language.mem_add, mem_anyOf, RegularExpression.matches'_mul, Language.mem_mul,
        RegularExpression.matches'_mul]
      refine or_congr ⟨?_, ?_⟩ ⟨?_, ?_⟩
      · rintro ⟨x, hx, hu⟩
        exact ⟨x, ((ho x).1 hx).1, ((ho x).1 hx).2, hu⟩
      · rintro ⟨x, h1, h2, hu⟩
        exact ⟨x, (ho x).2 ⟨h1, h2⟩, hu⟩
      · rintro ⟨a, ha, b, hb, rfl⟩
        obtain ⟨v, hv, e, he, rfl⟩ := Language.mem_mul.1 hb
        rw [hchar] at ha he
        subst ha he
        exact ⟨v, ih.1 hv, rfl⟩
      · rintro ⟨v, hv, rfl⟩
        exact ⟨[o], rfl, v ++ [c], Language.mem_mul.2 ⟨v, ih.2 hv, [c], rfl, rfl⟩, rfl⟩
    rw [insideOf, RegularExpression.matches'_star]
    constructor
    · intro h
      obtain ⟨ws, rfl, hws⟩ := Language.mem_kstar.1 h
      clear h
      induction ws with
      | nil => exact .nil
      | cons u us ih' =>
        have ih' := ih' fun y hy => hws y (by simp [hy])
        rw [List.flatten_cons]
        rcases (hpiece u).1 (hws u (by simp)) with ⟨x, h1, h2, rfl⟩ | ⟨v, hv, rfl⟩
        · exact .other h1 h2 ih'
        · have := Brackets.nest hv ih'
          simpa using this
    · intro h
      generalize hd : d + 1 = d' at h
      induction h with
      | nil => exact Language.nil_mem_kstar _
      | @other d' x w h1 h2 _ ih' =>
        obtain ⟨ws, rfl, hws⟩ := Language.mem_kstar.1 (ih' hd)
        refine Language.mem_kstar.2 ⟨[x] :: ws, rfl, fun y hy => ?_⟩
        rcases List.mem_cons.1 hy with rfl | hy
        · exact (hpiece _).2 (.inl ⟨x, h1, h2, rfl⟩)
        · exact hws y hy
      | @nest d' u w h1 _ _ ih' =>
        cases hd
        obtain ⟨ws, rfl, hws⟩ := Language.mem_kstar.1 (ih' rfl)
        refine Language.mem_kstar.2 ⟨(o :: u ++ [c]) :: ws, by simp, fun y hy => ?_⟩
        rcases List.mem_cons.1 hy with rfl | hy
        · exact (hpiece _).2 (.inr ⟨u, h1, rfl⟩)
        · exact hws y hy

/-- C128.  For every depth there is a pattern for the comments in which brackets are nested at most this deep, and a lexer
that makes one token of exactly these. -/
theorem c128_depth {o c : Char} (d : Nat) (kind : List Char → K) : ∃ pattern, ∀ p,
    Decides p pattern {w | ∃ u, Brackets o c d u ∧ w = o :: u ++ [c]} ∧
    ∃ e l, LexerFor p [(pattern, kind)] [e] l ∧ (∀ input, ∃ ts, Tokens l input ts) ∧
      ∀ w, OneToken l w ↔ ∃ u, Brackets o c d u ∧ w = o :: u ++ [c] := by
  obtain ⟨letters, hl⟩ := all_chars
  let others := letters.filter fun x => decide (x ≠ o ∧ x ≠ c)
  have ho : ∀ x, x ∈ others ↔ x ≠ o ∧ x ≠ c := by
    intro x
    simp [others, hl]
  obtain ⟨pattern, hp⟩ := c102_every (.char o * (insideOf o c others d * .char c))
  have hL : (RegularExpression.char o * (insideOf o c others d * .char c)).matches' =
      {w | ∃ u, Brackets o c d u ∧ w = o :: u ++ [c]} := by
    refine Language.ext fun w => ?_
    rw [RegularExpression.matches'_mul, Language.mem_mul, RegularExpression.matches'_mul]
    constructor
    · rintro ⟨a, rfl, b, hb, rfl⟩
      obtain ⟨v, hv, e, rfl, rfl⟩ := Language.mem_mul.1 hb
      exact ⟨v, (mem_insideOf ho).1 hv, rfl⟩
    · rintro ⟨v, hv, rfl⟩
      exact ⟨[o], rfl, v ++ [c], Language.mem_mul.2 ⟨v, (mem_insideOf ho).2 hv, [c], rfl, rfl⟩, rfl⟩
  rw [hL] at hp
  refine ⟨pattern, fun p => ⟨hp p, ?_⟩⟩
  obtain ⟨e, l, h1, h2, h3⟩ := c128_lexer (hp p) kind
  refine ⟨e, l, h1, h2, fun w => (h3 w).trans ⟨fun h => h.2, fun h => ⟨?_, h⟩⟩⟩
  obtain ⟨u, _, rfl⟩ := h
  simp

/-! ## Lexers for which the claims say something -/

/-- A lexer that makes one token of each text `((…))`: it does so of all texts that are not empty. -/
example : ∃ (pattern : List Char) (e : Expr) (l : Lexer Nat), LexerFor .debug [(pattern, fun _ => 0)] [e] l ∧
    (∀ input, ∃ ts, Tokens l input ts) ∧ ∀ n, OneToken l (List.replicate (n + 1) '(' ++ List.replicate (n + 1) ')') := by
  obtain ⟨pattern, hp⟩ := c102_every (.star (.char '(' + .char ')'))
  obtain ⟨e, l, h1, h2, h3⟩ := c128_lexer (hp .debug) fun _ => 0
  refine ⟨pattern, e, l, h1, h2, fun n => (h3 _).2 ⟨by simp [List.replicate_succ], ?_⟩⟩
  refine Language.mem_kstar.2 ⟨List.replicate (n + 1) ['('] ++ List.replicate (n + 1) [')'], by simp, fun y hy => ?_⟩
  rcases List.mem_append.1 hy with h | h <;> rw [List.eq_of_mem_replicate h]
  · exact .inl rfl
  · exact .inr rfl

/-- `(a(b)(c)d)` is a comment, and has depth one inside. -/
example : Brackets '(' ')' 1 "a(b)(c)d".toList ∧ Comment '(' ')' "(a(b)(c)d)".toList := by
  have h : Brackets '(' ')' 1 "a(b)(c)d".toList :=
    .other (by decide) (by decide) (.nest (.other (by decide) (by decide) .nil)
      (.nest (.other (by decide) (by decide) .nil) (.other (by decide) (by decide) .nil)))
  exact ⟨h, 1, _, h, rfl⟩

end Pango.Props
