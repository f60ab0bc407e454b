import Verif.Model.ExampleAb
import Verif.Props.Local
import Verif.Props.Builder

/-!
# C68: the example program of the lexer

`abMain p fuel text` is the program of `examples/ab.rs` on a text.
-/

namespace Pango.Props

open Pango Pango.Lex Pango.Regex Pango.Spec Pango.Example Pango.Fsm

/-! ## What the program should print -/

/-- The tokens of the rest of a text that begins at position `n`.  No token is of the kind `c` or `e`, since other rules
match the same words and come first, and a comment goes on to the end of the text. -/
inductive AbTokens : Nat → List Char → List (Tok Foo) → Prop
  | a {n : Nat} {rest : List Char} {ts : List (Tok Foo)} : AbTokens (n + 4) rest ts →
      AbTokens n (['a', 'a', 'a', 'a'] ++ rest) (⟨.a, ['a', 'a', 'a', 'a'], (n, n + 4)⟩ :: ts)
  | b {n k : Nat} {rest : List Char} {ts : List (Tok Foo)} : 4 ≤ k → rest.head? ≠ some 'b' → AbTokens (n + k) rest ts →
      AbTokens n (List.replicate k 'b' ++ rest) (⟨.b, List.replicate k 'b', (n, n + k)⟩ :: ts)
  | d {n k : Nat} {rest : List Char} {ts : List (Tok Foo)} : 1 ≤ k → rest.head? ≠ some 'd' → AbTokens (n + k) rest ts →
      AbTokens n (List.replicate k 'd' ++ rest) (⟨.d k, List.replicate k 'd', (n, n + k)⟩ :: ts)
  | comment {n : Nat} {rest : List Char} :
      AbTokens n (['/', '*', ' '] ++ rest) [⟨.a, ['/', '*', ' '] ++ rest, (n, n + (3 + rest.length))⟩]
  | stop {n : Nat} {text : List Char} : ¬ ['a', 'a', 'a', 'a'] <+: text → ¬ ['b', 'b', 'b', 'b'] <+: text →
      ¬ ['d'] <+: text → ¬ ['/', '*', ' '] <+: text → AbTokens n text []

/-! ## The lexer -/

/-- The trees of the patterns. -/
def abTrees : List Regex.Expr :=
  [.concat [.lit (.mtch 'a') none, .lit (.mtch 'a') none, .lit (.mtch 'a') none, .lit (.mtch 'a') none],
    .lit (.mtch 'b') (some (.min 4)), .lit (.mtch 'b') (some (.max 4)), .lit (.mtch 'd') (some .asterisk),
    .concat [.lit (.mtch '/') none, .lit (.mtch '*') none, .lit (.mtch ' ') none, .lit (.cls .wildcard) (some .asterisk)],
    .concat [.lit (.mtch '/') none, .lit (.mtch '*') none, .lit (.mtch ' ') none, .lit (.cls .wildcard) (some .asterisk),
      .lit (.mtch ' ') none, .lit (.mtch '*') none, .lit (.mtch '/') none]]

theorem abTrees_parsed (p : Profile) :
    abRules.map (fun r => Regex.parse p r.1) = abTrees.map (fun e => .ok (.ok e)) := by
  have chr : ∀ a, SubExpressionItem ⟨false, false⟩ (.lit (.mtch a) none) ([.mtch a] ++ []) := fun a => .mtch (.chr a) .none
  have rep : ∀ a q, SubExpressionItem ⟨false, false⟩ (.lit (.mtch a) (some q)) ([.mtch a] ++ [.quantifier q]) :=
    fun a q => .mtch (.chr a) (.some q)
  have all : SubExpressionItem ⟨false, false⟩ (.lit (.cls .wildcard) (some .asterisk))
      ([.cls .wildcard] ++ [.quantifier .asterisk]) := .mtch (.cls _) (.some _)
  have one : ∀ {e ks}, SubExpressionItem ⟨false, false⟩ e ks → ExprFits e →
      Regex.parse p (exprText e) = .ok (.ok e) :=
    fun {e ks} h hf => c04_round_trip p e ks false (.inr (.sub (.one h))) hf
  have seq : ∀ {e e' es ks}, SubExpression ⟨false, false⟩ (e :: e' :: es) ks → ExprFits (.concat (e :: e' :: es)) →
      Regex.parse p (exprText (.concat (e :: e' :: es))) = .ok (.ok (.concat (e :: e' :: es))) :=
    fun {e e' es ks} h hf => c04_round_trip p _ ks false (.inr (.sub h)) hf
  have h1 := seq (.more (chr 'a') (.more (chr 'a') (.more (chr 'a') (.one (chr 'a'))))) (by simp [ExprFits, ExprsFit, QuantFits])
  have h2 : Regex.parse p "b{4,}".toList = .ok (.ok (.lit (.mtch 'b') (some (.min 4)))) := by cases p <;> rfl
  have h3 : Regex.parse p "b{4}".toList = .ok (.ok (.lit (.mtch 'b') (some (.max 4)))) := by cases p <;> rfl
  have h4 := one (rep 'd' .asterisk) (by simp [ExprFits, QuantFits])
  have h5 := seq (.more (chr '/') (.more (chr '*') (.more (chr ' ') (.one all)))) (by simp [ExprFits, ExprsFit, QuantFits])
  have h6 := seq (.more (chr '/') (.more (chr '*') (.more (chr ' ') (.more all (.more (chr ' ') (.more (chr '*')
    (.one (chr '/')))))))) (by simp [ExprFits, ExprsFit, QuantFits])
  rw [show exprText _ = "aaaa".toList from by decide] at h1
  rw [show exprText _ = "d*".toList from by decide] at h4
  rw [show exprText _ = "/\\* .*".toList from by decide] at h5
  rw [show exprText _ = "/\\* .* \\*/".toList from by decide] at h6
  simp only [abRules, abTrees, List.map_cons, List.map_nil, h1, h2, h3, h4, h5, h6]

/-- The lexer can be built. -/
theorem abLexer_for (p : Profile) : ∃ l, LexerFor p abRules abTrees l := by
  have hu : ∀ r ∈ abRules, Usable p r.1 := by
    intro r hr
    have hm : Regex.parse p r.1 ∈ abRules.map (fun r => Regex.parse p r.1) := List.mem_map.2 ⟨r, hr, rfl⟩
    rw [abTrees_parsed p] at hm
    obtain ⟨e, he, hp⟩ := List.mem_map.1 hm
    refine ⟨e, hp.symm, ?_⟩
    rw [← hasEmptySeqB_iff]
    simp only [abTrees, List.mem_cons, List.not_mem_nil, or_false] at he
    rcases he with rfl | rfl | rfl | rfl | rfl | rfl <;> decide
  obtain ⟨l, hl⟩ := (c55_partial p abRules).2.1 hu
  exact ⟨l, hl, abTrees_parsed p⟩

variable [Unicode]

theorem abTrees_regular : Regular abTrees := by
  intro e he
  rw [← repeatsNonEmptyB_iff, ← countsAtStartB_iff]
  simp only [abTrees, List.mem_cons, List.not_mem_nil, or_false] at he
  rcases he with rfl | rfl | rfl | rfl | rfl | rfl <;> decide

/-! ## What it reads and matches -/

theorem mayRead_chr {a : Char} {es : List Regex.Expr} {w : List Char}
    (h : MayRead (.concat (.lit (.mtch a) none :: es)) w) : w = [] ∨ ∃ v, w = a :: v ∧ MayRead (.concat es) v := by
  cases h with
  | nothing => exact .inl rfl
  | here h =>
    rcases mayRead_lit h with h | ⟨c, rfl, rfl⟩
    · exact .inl h
    · exact .inr ⟨[], rfl, .nothing⟩
  | later h h' =>
    obtain ⟨c, rfl, rfl⟩ := matches_lit h
    exact .inr ⟨_, rfl, h'⟩

theorem matches_chr {a : Char} {es : List Regex.Expr} {w : List Char} :
    Matches (.concat (.lit (.mtch a) none :: es)) w ↔ ∃ v, w = a :: v ∧ Matches (.concat es) v := by
  constructor
  · intro h
    cases h with
    | cons h h' =>
      obtain ⟨c, rfl, rfl⟩ := matches_lit h
      exact ⟨_, rfl, h'⟩
  · rintro ⟨v, rfl, h⟩
    exact Matches.cons (u := [a]) (.lit rfl (by simp [LitSet])) h

theorem mayRead_rep {a : Char} {q : Quant} {w : List Char} (h : MayRead (.lit (.mtch a) (some q)) w) : ∀ c ∈ w, c = a := by
  cases h with
  | nothing => simp
  | chars h => exact h

theorem matches_rep {a : Char} {q : Quant} {w : List Char} :
    Matches (.lit (.mtch a) (some q)) w ↔ QuantSet (some q) w.length ∧ ∀ c ∈ w, c = a := by
  constructor
  · intro h
    cases h with
    | lit h1 h2 => exact ⟨h1, h2⟩
  · exact fun h => .lit h.1 h.2

theorem matches_nil {w : List Char} : Matches (.concat []) w ↔ w = [] := by
  constructor
  · intro h
    cases h with
    | nil => rfl
  · rintro rfl; exact .nil

/-- What can be read. -/
theorem ab_read {w : List Char} (h : ∃ e ∈ abTrees, MayRead e w) : w <+: ['a', 'a', 'a', 'a'] ∨ (∀ c ∈ w, c = 'b') ∨
    (∀ c ∈ w, c = 'd') ∨ w <+: ['/', '*', ' '] ∨ ['/', '*', ' '] <+: w := by
  have comment : ∀ {es w}, MayRead (.concat (.lit (.mtch '/') none :: .lit (.mtch '*') none :: .lit (.mtch ' ') none :: es)) w →
      w <+: ['/', '*', ' '] ∨ ['/', '*', ' '] <+: w := by
    intro es w h
    rcases mayRead_chr h with rfl | ⟨v, rfl, h1⟩
    · simp
    rcases mayRead_chr h1 with rfl | ⟨v, rfl, h2⟩
    · simp
    rcases mayRead_chr h2 with rfl | ⟨v, rfl, h3⟩
    · simp
    · simp
  obtain ⟨e, he, h⟩ := h
  simp only [abTrees, List.mem_cons, List.not_mem_nil, or_false] at he
  rcases he with rfl | rfl | rfl | rfl | rfl | rfl
  · refine .inl ?_
    rcases mayRead_chr h with rfl | ⟨v, rfl, h1⟩
    · simp
    rcases mayRead_chr h1 with rfl | ⟨v, rfl, h2⟩
    · simp
    rcases mayRead_chr h2 with rfl | ⟨v, rfl, h3⟩
    · simp
    rcases mayRead_chr h3 with rfl | ⟨v, rfl, h4⟩
    · simp
    · cases h4 with
      | nothing => simp
  · exact .inr (.inl (mayRead_rep h))
  · exact .inr (.inl (mayRead_rep h))
  · exact .inr (.inr (.inl (mayRead_rep h)))
  · exact .inr (.inr (.inr (comment h)))
  · exact .inr (.inr (.inr (comment h)))

theorem ab_comment {es : List Regex.Expr} {w : List Char}
    (h : Matches (.concat (.lit (.mtch '/') none :: .lit (.mtch '*') none :: .lit (.mtch ' ') none :: es)) w) :
    ['/', '*', ' '] <+: w := by
  obtain ⟨v, rfl, h1⟩ := matches_chr.1 h
  obtain ⟨v, rfl, h2⟩ := matches_chr.1 h1
  obtain ⟨v, rfl, h3⟩ := matches_chr.1 h2
  simp

theorem ab_comment_to_end (v : List Char) : Matches (.concat [.lit (.mtch '/') none, .lit (.mtch '*') none,
    .lit (.mtch ' ') none, .lit (.cls .wildcard) (some .asterisk)]) (['/', '*', ' '] ++ v) := by
  refine matches_chr.2 ⟨_, rfl, matches_chr.2 ⟨_, rfl, matches_chr.2 ⟨_, rfl, ?_⟩⟩⟩
  have := Matches.cons (u := v) (v := []) (.lit (l := .cls .wildcard) (q := some .asterisk) trivial (fun _ _ => trivial)) .nil
  simpa using this

theorem ab_aaaa {w : List Char} : Matches (.concat [.lit (.mtch 'a') none, .lit (.mtch 'a') none, .lit (.mtch 'a') none,
    .lit (.mtch 'a') none]) w ↔ w = ['a', 'a', 'a', 'a'] := by
  simp [matches_chr, matches_nil]

/-- What is matched. -/
theorem ab_match {w : List Char} : AnyMatch (languages abTrees) w ↔ w = ['a', 'a', 'a', 'a'] ∨
    (4 ≤ w.length ∧ ∀ c ∈ w, c = 'b') ∨ (∀ c ∈ w, c = 'd') ∨ ['/', '*', ' '] <+: w := by
  constructor
  · rintro ⟨M, hM, h⟩
    obtain ⟨e, he, rfl⟩ := List.mem_map.1 hM
    simp only [abTrees, List.mem_cons, List.not_mem_nil, or_false] at he
    rcases he with rfl | rfl | rfl | rfl | rfl | rfl
    · exact .inl (ab_aaaa.1 h)
    · exact .inr (.inl (matches_rep.1 h))
    · obtain ⟨h1, h2⟩ := matches_rep.1 h
      exact .inr (.inl ⟨by simp only [QuantSet] at h1; omega, h2⟩)
    · exact .inr (.inr (.inl (matches_rep.1 h).2))
    · exact .inr (.inr (.inr (ab_comment h)))
    · exact .inr (.inr (.inr (ab_comment h)))
  · have mem : ∀ {e}, e ∈ abTrees → Matches e w → AnyMatch (languages abTrees) w :=
      fun he h => ⟨_, List.mem_map.2 ⟨_, he, rfl⟩, h⟩
    rintro (rfl | ⟨h1, h2⟩ | h | ⟨v, rfl⟩)
    · exact mem (List.mem_cons_self ..) (ab_aaaa.2 rfl)
    · exact mem (List.mem_cons_of_mem _ (List.mem_cons_self ..)) (matches_rep.2 ⟨h1, h2⟩)
    · exact mem (List.mem_cons_of_mem _ (List.mem_cons_of_mem _ (List.mem_cons_of_mem _ (List.mem_cons_self ..))))
        (matches_rep.2 ⟨trivial, h⟩)
    · exact mem (List.mem_cons_of_mem _ (List.mem_cons_of_mem _ (List.mem_cons_of_mem _ (List.mem_cons_of_mem _
        (List.mem_cons_self ..))))) (ab_comment_to_end v)

theorem ab_oneLookahead : OneLookahead abTrees := by
  intro w c hw hm hr
  rw [ab_match] at hm ⊢
  obtain ⟨x, w, rfl⟩ := List.exists_cons_of_ne_nil hw
  rcases ab_read hr with h | h | h | h | h
  · exfalso
    have h0 : x = 'a' := by
      rw [List.cons_append, List.cons_prefix_cons] at h
      exact h.1
    subst h0
    have hlen := h.length_le
    rcases hm with hm | hm | hm | hm
    · rw [hm] at hlen; simp at hlen
    · exact absurd (hm.2 'a' (by simp)) (by decide)
    · exact absurd (hm 'a' (by simp)) (by decide)
    · rw [List.cons_prefix_cons] at hm; exact absurd hm.1 (by decide)
  · have h0 : x = 'b' := h x (by simp)
    subst h0
    refine .inr (.inl ⟨?_, h⟩)
    rcases hm with hm | hm | hm | hm
    · cases hm
    · simp only [List.length_append]; omega
    · exact absurd (hm 'b' (by simp)) (by decide)
    · rw [List.cons_prefix_cons] at hm; exact absurd hm.1 (by decide)
  · exact .inr (.inr (.inl h))
  · exfalso
    have h0 : x = '/' := by
      rw [List.cons_append, List.cons_prefix_cons] at h
      exact h.1
    subst h0
    have hlen := h.length_le
    rcases hm with hm | hm | hm | hm
    · cases hm
    · exact absurd (hm.2 '/' (by simp)) (by decide)
    · exact absurd (hm '/' (by simp)) (by decide)
    · have := hm.length_le
      simp only [List.length_append, List.length_cons, List.length_nil] at hlen this
      omega
  · exact .inr (.inr (.inr h))

/-! ## Its tokens -/

variable {l : Lexer Foo} {p : Profile}

theorem ab_ahead (hl : LexerFor p abRules abTrees l) : LooksOneAhead abTrees :=
  looksOneAhead_of hl abTrees_regular ab_oneLookahead

theorem ab_readable (hl : LexerFor p abRules abTrees l) {w : List Char} (hw : w ≠ []) (h : Readable abTrees w) :
    w <+: ['a', 'a', 'a', 'a'] ∨ (∀ c ∈ w, c = 'b') ∨ (∀ c ∈ w, c = 'd') ∨ w <+: ['/', '*', ' '] ∨ ['/', '*', ' '] <+: w :=
  ab_read (hl.toBuilt.mayRead abTrees_regular hw ((hl.toBuilt.live _).2 h))

theorem ab_cut (hl : LexerFor p abRules abTrees l) {n : Nat} {text : List Char} {ts : List (Tok Foo)}
    (h : AbTokens n text ts) : Cut (languages abTrees) (Readable abTrees) (Passes abTrees) (kindAt abRules) n text
      (ts.map some ++ [none]) := by
  have passes : ∀ w, Passes abTrees w := by
    intro w e he v hv hs
    have hc := hl.toBuilt.compiles e he
    exact (c11_exact_partial e hc v).1 ((c10_exact_partial e hc).2 (abTrees_regular e he).1 v) ⟨v, List.prefix_refl _, hs⟩
  have live : ∀ w, AnyMatch (languages abTrees) w → Readable abTrees w := by
    intro w h
    rw [← taken_languages hl abTrees_regular] at h
    exact hl.toBuilt.readable_taken h
  induction h with
  | @a n rest ts _ ih =>
    refine .token (i := 0) (passes _) (by simp) ⟨live _ (ab_match.2 (.inl rfl)), fun c r _ h => ?_⟩
      ⟨⟨_, rfl, ab_aaaa.2 rfl⟩, fun j _ hj => by omega⟩ rfl ih
    rcases ab_readable hl (by simp) h with h | h | h | h | h
    · have := h.length_le; simp at this
    · exact absurd (h 'a' (by simp)) (by decide)
    · exact absurd (h 'a' (by simp)) (by decide)
    · rw [List.cons_append, List.cons_prefix_cons] at h; exact absurd h.1 (by decide)
    · rw [List.cons_append, List.cons_prefix_cons] at h; exact absurd h.1 (by decide)
  | @b n k rest ts hk hr _ ih =>
    obtain ⟨k, rfl⟩ : ∃ j, k = j + 1 := ⟨k - 1, by omega⟩
    have hb : ∀ c ∈ List.replicate (k + 1) 'b', c = 'b' := fun c hc => (List.mem_replicate.1 hc).2
    have := Cut.token (rules := languages abTrees) (Live := Readable abTrees) (Ends := Passes abTrees)
      (kind := kindAt abRules) (a := n) (i := 1) (w := List.replicate (k + 1) 'b') (rest := rest) (k := Foo.b)
      (as := ts.map some ++ [none]) (passes _) (by simp)
      ⟨live _ (ab_match.2 (.inr (.inl ⟨by simpa using hk, hb⟩))), fun c r hc h => ?_⟩
      ⟨⟨_, rfl, matches_rep.2 ⟨by simpa [QuantSet] using hk, hb⟩⟩, fun j M hj hM h => ?_⟩ rfl (by simpa using ih)
    · simpa using this
    · subst hc
      rw [List.replicate_succ, List.cons_append] at h
      rcases ab_readable hl (by simp) h with h | h | h | h | h
      · rw [List.cons_prefix_cons] at h; exact absurd h.1 (by decide)
      · exact hr (congrArg some (h c (by simp)))
      · exact absurd (h 'b' (by simp)) (by decide)
      · rw [List.cons_prefix_cons] at h; exact absurd h.1 (by decide)
      · rw [List.cons_prefix_cons] at h; exact absurd h.1 (by decide)
    · obtain rfl : j = 0 := by omega
      cases hM
      have := ab_aaaa.1 h
      rw [List.replicate_succ] at this
      simp at this
  | @d n k rest ts hk hr _ ih =>
    obtain ⟨k, rfl⟩ : ∃ j, k = j + 1 := ⟨k - 1, by omega⟩
    have hb : ∀ c ∈ List.replicate (k + 1) 'd', c = 'd' := fun c hc => (List.mem_replicate.1 hc).2
    have hlen : ((List.replicate (k + 1) 'd').map Char.utf8Size).sum = k + 1 := by
      rw [List.map_replicate, List.sum_replicate_nat]
      simp [show Char.utf8Size 'd' = 1 from rfl]
    have := Cut.token (rules := languages abTrees) (Live := Readable abTrees) (Ends := Passes abTrees)
      (kind := kindAt abRules) (a := n) (i := 3) (w := List.replicate (k + 1) 'd') (rest := rest) (k := Foo.d (k + 1))
      (as := ts.map some ++ [none]) (passes _) (by simp)
      ⟨live _ (ab_match.2 (.inr (.inr (.inl hb)))), fun c r hc h => ?_⟩
      ⟨⟨_, rfl, matches_rep.2 ⟨trivial, hb⟩⟩, fun j M hj hM h => ?_⟩ (congrArg (fun n => some (Foo.d n)) hlen)
      (by simpa using ih)
    · simpa using this
    · subst hc
      rw [List.replicate_succ, List.cons_append] at h
      rcases ab_readable hl (by simp) h with h | h | h | h | h
      · rw [List.cons_prefix_cons] at h; exact absurd h.1 (by decide)
      · exact absurd (h 'd' (by simp)) (by decide)
      · exact hr (congrArg some (h c (by simp)))
      · rw [List.cons_prefix_cons] at h; exact absurd h.1 (by decide)
      · rw [List.cons_prefix_cons] at h; exact absurd h.1 (by decide)
    · rw [List.replicate_succ] at h
      obtain rfl | rfl | rfl : j = 0 ∨ j = 1 ∨ j = 2 := by omega
      · cases hM
        exact absurd (ab_aaaa.1 h) (by simp)
      · cases hM
        exact absurd ((matches_rep.1 h).2 'd' (by simp)) (by decide)
      · cases hM
        exact absurd ((matches_rep.1 h).2 'd' (by simp)) (by decide)
  | @comment n rest =>
    have := Cut.token (rules := languages abTrees) (Live := Readable abTrees) (Ends := Passes abTrees)
      (kind := kindAt abRules) (a := n) (i := 4) (w := ['/', '*', ' '] ++ rest) (rest := []) (k := Foo.a)
      (as := [none]) (passes _) (by simp)
      ⟨live _ (ab_match.2 (.inr (.inr (.inr (List.prefix_append _ _))))), fun c r hc => by simp at hc⟩
      ⟨⟨_, rfl, ab_comment_to_end rest⟩, fun j M hj hM h => ?_⟩ rfl
      (.stop (passes _) (.inl fun w hw hp => absurd (List.prefix_nil.1 hp) hw))
    · rw [List.append_nil, show (['/', '*', ' '] ++ rest).length = 3 + rest.length by simp; omega] at this
      exact this
    · obtain rfl | rfl | rfl | rfl : j = 0 ∨ j = 1 ∨ j = 2 ∨ j = 3 := by omega
      · cases hM
        exact absurd (ab_aaaa.1 h) (by simp)
      all_goals
        cases hM
        exact absurd ((matches_rep.1 h).2 '/' (by simp)) (by decide)
  | stop h1 h2 h3 h4 =>
    refine .stop (passes _) (.inl fun w hw hp hm => ?_)
    rcases ab_match.1 hm with rfl | ⟨hm, hb⟩ | hm | hm
    · exact h1 hp
    · refine h2 (List.IsPrefix.trans ?_ hp)
      rw [List.eq_replicate_of_mem hb]
      exact ⟨List.replicate (w.length - 4) 'b', by
        rw [show ['b', 'b', 'b', 'b'] = List.replicate 4 'b' from rfl, List.replicate_append_replicate]
        congr 1; omega⟩
    · obtain ⟨x, w, rfl⟩ := List.exists_cons_of_ne_nil hw
      rw [hm x (by simp)] at hp
      exact h3 (List.IsPrefix.trans (by simp) hp)
    · exact h4 (hm.trans hp)

omit [Unicode] in
theorem exists_run (c : Char) (s : List Char) : ∃ k rest, s = List.replicate k c ++ rest ∧ rest.head? ≠ some c := by
  induction s with
  | nil => exact ⟨0, [], rfl, by simp⟩
  | cons x s ih =>
    by_cases hx : x = c
    · subst hx
      obtain ⟨k, rest, rfl, h⟩ := ih
      exact ⟨k + 1, rest, rfl, h⟩
    · exact ⟨0, x :: s, rfl, by simpa using hx⟩

omit [Unicode] in
theorem exists_run_of {c : Char} {m : Nat} {s : List Char} (h : List.replicate m c <+: s) :
    ∃ k rest, s = List.replicate k c ++ rest ∧ m ≤ k ∧ rest.head? ≠ some c := by
  obtain ⟨t, rfl⟩ := h
  obtain ⟨k, rest, rfl, hr⟩ := exists_run c t
  exact ⟨m + k, rest, by rw [← List.append_assoc, List.replicate_append_replicate], by omega, hr⟩

omit [Unicode] in
theorem abTokens_total (text : List Char) : ∀ n, ∃ ts, AbTokens n text ts := by
  induction hk : text.length using Nat.strongRecOn generalizing text with
  | ind k ih =>
    subst hk
    intro n
    by_cases h1 : ['a', 'a', 'a', 'a'] <+: text
    · obtain ⟨rest, rfl⟩ := h1
      obtain ⟨ts, h⟩ := ih rest.length (by simp; omega) rest rfl (n + 4)
      exact ⟨_, .a h⟩
    by_cases h2 : ['b', 'b', 'b', 'b'] <+: text
    · obtain ⟨k, rest, rfl, hk, hr⟩ := exists_run_of (m := 4) h2
      obtain ⟨ts, h⟩ := ih rest.length (by simp; omega) rest rfl (n + k)
      exact ⟨_, .b hk hr h⟩
    by_cases h3 : ['d'] <+: text
    · obtain ⟨k, rest, rfl, hk, hr⟩ := exists_run_of (m := 1) h3
      obtain ⟨ts, h⟩ := ih rest.length (by simp; omega) rest rfl (n + k)
      exact ⟨_, .d hk hr h⟩
    by_cases h4 : ['/', '*', ' '] <+: text
    · obtain ⟨rest, rfl⟩ := h4
      exact ⟨_, .comment⟩
    exact ⟨[], .stop h1 h2 h3 h4⟩

/-- C68: for every text the program ends without a panic, and prints these tokens and no others.  This does not depend on
the build profile. -/
theorem c68_program (text : List Char) :
    ∃ ts, AbTokens 0 text ts ∧ (∀ ts', AbTokens 0 text ts' → ts' = ts) ∧
      ∀ p, (∃ bound, ∀ fuel ≥ bound, abMain p fuel text = .ok (.ok ts)) ∧ ∀ fuel, abMain p fuel text ≠ .panic := by
  have tok : ∀ {p l}, LexerFor p abRules abTrees l → ∀ {ts}, AbTokens 0 text ts → Tokens l text ts := by
    intro p l hl ts h
    rw [c23_tokens_partial p _ _ l hl, scans_cut hl ((ab_ahead hl).putsNothingBack hl) (plain_none _), taken_languages hl abTrees_regular]
    exact ab_cut hl h
  obtain ⟨ts, hts⟩ := abTokens_total text 0
  obtain ⟨l, hl⟩ := abLexer_for .debug
  refine ⟨ts, hts, fun ts' h => tokens_unique (tok hl h) (tok hl hts), fun p => ?_⟩
  obtain ⟨l, hl⟩ := abLexer_for p
  obtain ⟨fuel, n, it, h⟩ := tok hl hts
  have main : ∀ k, abMain p k text = (do
      let (ts, _) ← lexAll (nfaMachine l.nfa k) l.tokens k (InputIter.new text)
      pure (.ok ts)) := by
    intro k
    simp only [abMain, hl.built, Outcome.bind_ok]
  have done : ∀ k ≥ max fuel n, abMain p k text = .ok (.ok ts) := by
    intro k hk
    rw [main, (lexAll_le (nfaMachine_le (by omega)) (by omega)).ok h]
    rfl
  refine ⟨⟨_, done⟩, fun k hk => ?_⟩
  rw [main] at hk
  cases h1 : lexAll (nfaMachine l.nfa k) l.tokens k (InputIter.new text) with
  | panic =>
    have h2 := lexAll_le (gs := l.tokens) (nfaMachine_le (nfa := l.nfa) (Nat.le_max_left k (max fuel n)))
      (Nat.le_max_left k (max fuel n)) (it := InputIter.new text)
    rw [h1, (lexAll_le (nfaMachine_le (by omega)) (by omega)).ok h] at h2
    rcases h2 with h2 | h2 <;> cases h2
  | diverge => rw [h1] at hk; cases hk
  | ok x => rw [h1] at hk; cases hk

/-- The text of the program itself. -/
example : AbTokens 0 "bbbbbbbaaaabbbbddddddddddddddddd/* foo bar baz **** *".toList
    [⟨.b, "bbbbbbb".toList, (0, 7)⟩, ⟨.a, "aaaa".toList, (7, 11)⟩, ⟨.b, "bbbb".toList, (11, 15)⟩,
      ⟨.d 17, "ddddddddddddddddd".toList, (15, 32)⟩, ⟨.a, "/* foo bar baz **** *".toList, (32, 53)⟩] :=
  .b (k := 7) (by decide) (by decide) (.a (.b (k := 4) (by decide) (by decide) (.d (k := 17) (by decide) (by decide)
    .comment)))

omit [Unicode] in
theorem abTokens_kinds {n : Nat} {text : List Char} {ts : List (Tok Foo)} (h : AbTokens n text ts) :
    ∀ t ∈ ts, t.kind ≠ .c ∧ t.kind ≠ .e := by
  induction h with
  | stop => simp
  | comment => simp
  | a _ ih | b _ _ _ ih | d _ _ _ ih =>
    intro t ht
    rcases List.mem_cons.1 ht with rfl | ht
    · simp
    · exact ih t ht

/-- The rules for `b{4}` and for comments with an end are never used, whatever the text. -/
theorem c68_unused (p : Profile) (fuel : Nat) (text : List Char) (ts : List (Tok Foo))
    (h : abMain p fuel text = .ok (.ok ts)) : ∀ t ∈ ts, t.kind ≠ .c ∧ t.kind ≠ .e := by
  obtain ⟨ts', h1, _, h2⟩ := c68_program text
  obtain ⟨⟨bound, hb⟩, _⟩ := h2 p
  obtain ⟨l, hl⟩ := abLexer_for p
  have le : (abMain p fuel text).Le (abMain p (max fuel bound) text) := by
    simp only [abMain, hl.built, Outcome.bind_ok]
    exact (lexAll_le (nfaMachine_le (Nat.le_max_left ..)) (Nat.le_max_left ..)).bind fun _ => .refl
  have := le.ok h
  rw [hb _ (Nat.le_max_right ..)] at this
  cases this
  exact abTokens_kinds h1

/-- A text in which both would match. -/
example : ∃ bound, ∀ fuel ≥ bound, abMain .debug fuel "bbbb/*  */".toList =
    .ok (.ok [⟨.b, "bbbb".toList, (0, 4)⟩, ⟨.a, "/*  */".toList, (4, 10)⟩]) := by
  obtain ⟨ts, h1, h2, h3⟩ := c68_program "bbbb/*  */".toList
  have : AbTokens 0 "bbbb/*  */".toList [⟨.b, "bbbb".toList, (0, 4)⟩, ⟨.a, "/*  */".toList, (4, 10)⟩] :=
    .b (k := 4) (by decide) (by decide) .comment
  rw [h2 _ this]
  exact (h3 .debug).1

end Pango.Props
