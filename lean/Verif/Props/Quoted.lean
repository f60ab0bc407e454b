import Verif.Spec.Quoted
import Verif.Props.Lexing
import Verif.Props.Builder
import Verif.Props.Names
import Verif.Proofs.Rewrite
import Verif.Proofs.ClassDec

/-!
# C114: texts in quotes
-/

namespace Pango.Props

open Pango Pango.Regex Pango.Fsm Pango.Lex Pango.Spec

variable [Unicode] {K : Type} {p : Profile} {e : Expr}

/-! ## Patterns that say themselves where their matches end -/

/-- What the other patterns have to be like: known, with one character of lookahead, and not readable where this one
can begin. -/
structure OtherThan (e : Expr) (es : List Expr) : Prop where
  regular : Regular es
  lookahead : OneLookahead es
  apart : ∀ x ∈ es, ∀ c w v, MayRead e (c :: w) → ¬ MayRead x (c :: v)

variable {before after : List (List Char × (List Char → K))} {pattern : List Char} {f : List Char → K}
  {es₁ es₂ : List Expr} {l : Lexer K}

private theorem any_lang {es : List Expr} {w : List Char} : AnyMatch (languages es) w ↔ ∃ x ∈ es, Matches x w := by
  constructor
  · rintro ⟨M, hM, h⟩
    obtain ⟨x, hx, rfl⟩ := List.mem_map.1 hM
    exact ⟨x, hx, h⟩
  · rintro ⟨x, hx, h⟩
    exact ⟨_, List.mem_map.2 ⟨x, hx, rfl⟩, h⟩

omit [Unicode] in
private theorem mem_mid {x : Expr} : x ∈ es₁ ++ e :: es₂ ↔ x = e ∨ x ∈ es₁ ++ es₂ := by
  simp only [List.mem_append, List.mem_cons, or_left_comm]

private theorem mid_regular (hr : RepeatsNonEmpty e ∧ CountsAtStart e) (ho : OtherThan e (es₁ ++ es₂)) :
    Regular (es₁ ++ e :: es₂) := by
  intro x hx
  rcases mem_mid.1 hx with rfl | h
  · exact hr
  · exact ho.regular x h

private theorem mid_lookahead (hd : SelfDelimiting e) (ho : OtherThan e (es₁ ++ es₂)) :
    OneLookahead (es₁ ++ e :: es₂) := by
  rintro w c hw ha ⟨x, hx, hr⟩
  obtain ⟨y, hy, hm⟩ := any_lang.1 ha
  cases w with
  | nil => exact absurd rfl hw
  | cons a w =>
    rcases mem_mid.1 hx with h | hx'
    · subst h
      rcases mem_mid.1 hy with h | hy'
      · subst h
        exact absurd (hd _ _ hm hr) (by simp)
      · exact absurd hm.mayRead (ho.apart y hy' a _ _ hr)
    · rcases mem_mid.1 hy with h | hy'
      · subst h
        exact absurd hr (ho.apart x hx' a _ _ hm.mayRead)
      · obtain ⟨z, hz, h⟩ := any_lang.1 (ho.lookahead (a :: w) c hw (any_lang.2 ⟨y, hy', hm⟩) ⟨x, hx', hr⟩)
        exact any_lang.2 ⟨z, mem_mid.2 (.inr hz), h⟩

/-- The only pattern that matches where this one can begin is this one. -/
private theorem only (ho : OtherThan e (es₁ ++ es₂)) {c : Char} {w v : List Char} (hc : MayRead e (c :: v))
    {i : Nat} (h : FirstMatch (languages (es₁ ++ e :: es₂)) (c :: w) i) : Matches e (c :: w) ∧ i = es₁.length := by
  obtain ⟨M, h1, h2⟩ := h.isMatch
  obtain ⟨x, h3, rfl⟩ : ∃ x, (es₁ ++ e :: es₂)[i]? = some x ∧ (fun w => Matches x w) = M := by
    rw [languages, List.getElem?_map] at h1
    exact Option.map_eq_some_iff.1 h1
  have other : ∀ j, (es₁ ++ es₂)[j]? ≠ some x := fun j hj =>
    ho.apart x (List.mem_of_getElem? hj) c v w hc h2.mayRead
  rcases Nat.lt_trichotomy i es₁.length with hi | rfl | hi
  · rw [List.getElem?_append_left hi] at h3
    exact absurd (by rw [List.getElem?_append_left hi]; exact h3) (other i)
  · simp at h3
    exact ⟨h3 ▸ h2, rfl⟩
  · obtain ⟨j, rfl⟩ := Nat.exists_eq_add_of_lt hi
    rw [List.getElem?_append_right (by omega), show es₁.length + j + 1 - es₁.length = j + 1 by omega,
      List.getElem?_cons_succ] at h3
    exact absurd (by rw [List.getElem?_append_right (by omega)]; simpa using h3) (other (es₁.length + j))

omit [Unicode] in
private theorem kind_mid (hlen : before.length = es₁.length) {w : List Char} {k : K}
    (h : kindAt (before ++ (pattern, f) :: after) es₁.length w = some k) : k = f w := by
  simpa [kindAt, ← hlen] using h.symm

omit [Unicode] in
private theorem first_in {rules : List (List Char → Prop)} {input : List Char} {ws : List (List Char × Nat)}
    {tail : List Char} (h : Munch rules input ws tail) : ∀ x ∈ ws, FirstMatch rules x.1 x.2 := by
  induction h with
  | stop _ => simp
  | token _ h _ ih =>
    intro x hx
    rcases List.mem_cons.1 hx with rfl | hx
    · exact h
    · exact ih x hx

/-- C114.  A lexer with a pattern that says itself where its matches end, and other patterns that cannot begin with the
same characters: on every text the tokens are a beginning of the text, what is left does not begin with a match of this
pattern, and the tokens that begin like this pattern are matches of it, with its kind. -/
theorem c114_delimited (hl : LexerFor p (before ++ (pattern, f) :: after) (es₁ ++ e :: es₂) l)
    (hlen : before.length = es₁.length) (hr : RepeatsNonEmpty e ∧ CountsAtStart e) (hd : SelfDelimiting e)
    (ho : OtherThan e (es₁ ++ es₂)) (input : List Char) :
    (∃ ts, Tokens l input ts) ∧ ∀ ts, Tokens l input ts → ∃ tail, input = (ts.map Tok.source).flatten ++ tail ∧
      (∀ w, w ≠ [] → w <+: tail → ¬ Matches e w) ∧
      ∀ t ∈ ts, ∀ c w v, t.source = c :: w → MayRead e (c :: v) → Matches e t.source ∧ t.kind = f t.source := by
  obtain ⟨h1, h2, _⟩ := c23_tokenizes_partial p _ _ l hl (mid_regular hr ho) (mid_lookahead hd ho)
  refine ⟨h1 input, fun ts hts => ?_⟩
  obtain ⟨ws, tail, h3, h4⟩ := h2 input ts hts
  have h5 : ts.map Tok.source = ws.map Prod.fst := by
    have := congrArg (List.map Prod.fst) h4
    simpa [Function.comp_def] using this
  refine ⟨tail, by rw [h5, h3.flatten], ?_, ?_⟩
  · intro w hw hp hm
    exact h3.noMatch w hw hp (any_lang.2 ⟨e, mem_mid.2 (.inl rfl), hm⟩)
  · intro t ht c w v hs hc
    have : (t.source, some t.kind) ∈ ts.map fun t => (t.source, some t.kind) := List.mem_map.2 ⟨t, ht, rfl⟩
    rw [h4] at this
    obtain ⟨⟨u, i⟩, hu, he⟩ := List.mem_map.1 this
    simp only [Prod.mk.injEq] at he
    obtain ⟨rfl, hk⟩ := he
    have hf : FirstMatch (languages (es₁ ++ e :: es₂)) t.source i := first_in h3 _ hu
    rw [hs] at hf
    obtain ⟨h6, rfl⟩ := only ho hc hf
    rw [hs] at hk ⊢
    exact ⟨h6, kind_mid hlen hk⟩

/-- C114, a match of such a pattern is one token, and what follows it is read as if it were alone. -/
theorem c114_next (hl : LexerFor p (before ++ (pattern, f) :: after) (es₁ ++ e :: es₂) l)
    (hlen : before.length = es₁.length) (hr : RepeatsNonEmpty e ∧ CountsAtStart e) (hd : SelfDelimiting e)
    (ho : OtherThan e (es₁ ++ es₂)) {w rest : List Char} (hw : w ≠ []) (hm : Matches e w) {ts ts' : List (Tok K)}
    (hts : Tokens l (w ++ rest) ts) (hts' : Tokens l rest ts') :
    ts.map (fun t => (t.source, t.kind)) = (w, f w) :: ts'.map fun t => (t.source, t.kind) := by
  obtain ⟨_, h2, _⟩ := c23_tokenizes_partial p _ _ l hl (mid_regular hr ho) (mid_lookahead hd ho)
  obtain ⟨ws, tail, h3, h4⟩ := h2 _ _ hts
  obtain ⟨ws', tail', h5, h6⟩ := h2 _ _ hts'
  have inj : ∀ {a b : List (List Char × K)}, a.map (fun x => (x.1, some x.2)) = b.map (fun x => (x.1, some x.2)) →
      a = b := by
    intro a b h
    refine (List.map_inj_right ?_).1 h
    rintro ⟨_, _⟩ ⟨_, _⟩ h
    simpa using h
  cases w with
  | nil => exact absurd rfl hw
  | cons c w =>
    have key : ∀ {x : Expr} {v : List Char}, x ∈ es₁ ++ e :: es₂ → Matches x (c :: v) → x = e := by
      intro x v hx hm'
      rcases mem_mid.1 hx with h | hx
      · exact h
      · exact absurd hm'.mayRead (ho.apart x hx c _ _ hm.mayRead)
    have long : Longest (languages (es₁ ++ e :: es₂)) (c :: w ++ rest) (c :: w) := by
      refine ⟨hw, ⟨rest, rfl⟩, any_lang.2 ⟨e, mem_mid.2 (.inl rfl), hm⟩, fun v hv hm' => ?_⟩
      obtain ⟨x, hx, hm'⟩ := any_lang.1 hm'
      rcases List.prefix_or_prefix_of_prefix hv (List.prefix_append (c :: w) rest) with h | ⟨u, rfl⟩
      · exact h.length_le
      · cases key hx hm'
        rw [hd _ _ hm hm'.mayRead]
        simp
    have first : FirstMatch (languages (es₁ ++ e :: es₂)) (c :: w) es₁.length := by
      refine ⟨⟨fun w => Matches e w, by simp [languages], hm⟩, fun j M hj hM hm' => ?_⟩
      rw [languages, List.getElem?_map, List.getElem?_append_left hj] at hM
      obtain ⟨x, hx, rfl⟩ := Option.map_eq_some_iff.1 hM
      exact ho.apart x (List.mem_append_left _ (List.mem_of_getElem? hx)) c _ _ hm.mayRead (Matches.mayRead hm')
    obtain ⟨rfl, rfl⟩ := h3.unique (.token long first h5)
    apply inj
    have hk : kindAt (before ++ (pattern, f) :: after) es₁.length (c :: w) = some (f (c :: w)) := by
      simp [kindAt, ← hlen]
    simp only [List.map_cons] at h4
    rw [hk, ← h6] at h4
    simpa [Function.comp_def] using h4

/-! ## Texts in quotes -/

variable {o q b : Char} {S X : Lit}

private theorem matches_three {x y z : Expr} {w : List Char} :
    Matches (.concat [x, y, z]) w ↔ ∃ u v t, w = u ++ (v ++ t) ∧ Matches x u ∧ Matches y v ∧ Matches z t := by
  constructor
  · intro h
    cases h with
    | cons h1 h =>
      cases h with
      | cons h2 h =>
        cases h with
        | cons h3 h =>
          cases h
          exact ⟨_, _, _, by simp, h1, h2, h3⟩
  · rintro ⟨u, v, t, rfl, h1, h2, h3⟩
    simpa using Matches.cons h1 (Matches.cons h2 (Matches.cons h3 .nil))

private theorem read_three {x y z : Expr} {w : List Char} (h : MayRead (.concat [x, y, z]) w) :
    MayRead x w ∨ (∃ u v, w = u ++ v ∧ Matches x u ∧ MayRead y v) ∨
      ∃ u v t, w = u ++ (v ++ t) ∧ Matches x u ∧ Matches y v ∧ MayRead z t := by
  cases h with
  | nothing => exact .inl .nothing
  | here h => exact .inl h
  | later h1 h =>
    cases h with
    | nothing => exact .inr (.inl ⟨_, _, rfl, h1, .nothing⟩)
    | here h => exact .inr (.inl ⟨_, _, rfl, h1, h⟩)
    | later h2 h =>
      cases h with
      | nothing => exact .inr (.inr ⟨_, _, _, rfl, h1, h2, .nothing⟩)
      | here h => exact .inr (.inr ⟨_, _, _, rfl, h1, h2, h⟩)
      | later h3 h =>
        cases h
        exact .inr (.inr ⟨_, _, _, by simp, h1, h2, h3.mayRead⟩)

private theorem char_iff {c : Char} {w : List Char} : Matches (.lit (.mtch c) none) w ↔ w = [c] := by
  constructor
  · intro h
    obtain ⟨d, rfl, hd⟩ := matches_lit h
    rw [show d = c from hd]
  · rintro rfl
    exact .lit rfl (by simp [LitSet])

private theorem char_read {c : Char} {w : List Char} (h : MayRead (.lit (.mtch c) none) w) : w = [] ∨ w = [c] := by
  rcases mayRead_lit h with rfl | ⟨d, rfl, hd⟩
  · exact .inl rfl
  · exact .inr (by rw [show d = c from hd])

private theorem star_iff {w : List Char} : Matches (.lit S (some .asterisk)) w ↔ ∀ c ∈ w, LitSet S c := by
  constructor
  · intro h
    cases h with
    | lit _ h => exact h
  · exact fun h => .lit trivial h

private theorem star_read {w : List Char} (h : MayRead (.lit S (some .asterisk)) w) : ∀ c ∈ w, LitSet S c := by
  cases h with
  | nothing => simp
  | chars h => exact h

/-- The pattern matches the texts in quotes. -/
theorem quoted_matches {w : List Char} : Matches (quotedTree o S q) w ↔ Quoted o S q w := by
  rw [quotedTree, matches_three]
  constructor
  · rintro ⟨u, v, t, rfl, h1, h2, h3⟩
    rw [char_iff.1 h1, char_iff.1 h3]
    exact ⟨v, rfl, star_iff.1 h2⟩
  · rintro ⟨u, rfl, hu⟩
    exact ⟨[o], u, [q], rfl, char_iff.2 rfl, star_iff.2 hu, char_iff.2 rfl⟩

private theorem quoted_read {w : List Char} (h : MayRead (quotedTree o S q) w) :
    w = [] ∨ ∃ u t, w = o :: (u ++ t) ∧ (∀ c ∈ u, LitSet S c) ∧ (t = [] ∨ t = [q]) := by
  rcases read_three h with h | ⟨u, v, rfl, h1, h2⟩ | ⟨u, v, t, rfl, h1, h2, h3⟩
  · rcases char_read h with rfl | rfl
    · exact .inl rfl
    · exact .inr ⟨[], [], rfl, by simp, .inl rfl⟩
  · rw [char_iff.1 h1]
    exact .inr ⟨v, [], by simp, star_read h2, .inl rfl⟩
  · rw [char_iff.1 h1]
    exact .inr ⟨v, t, rfl, star_iff.1 h2, char_read h3⟩

/-- The pattern for texts in quotes begins with the opening character. -/
theorem quoted_begin {c : Char} {w : List Char} (h : MayRead (quotedTree o S q) (c :: w)) : c = o := by
  rcases quoted_read h with h | ⟨u, t, h, _⟩
  · cases h
  · cases h
    rfl

theorem quoted_regular : RepeatsNonEmpty (quotedTree o S q) ∧ CountsAtStart (quotedTree o S q) := by
  refine ⟨by simp [quotedTree, RepeatsNonEmpty, RepeatsNonEmptyAll], ?_⟩
  simp [quotedTree, CountsAtStart, CountsAtStartSeq]

private theorem closing_last : ∀ {u u' v t : List Char}, (∀ c ∈ u, LitSet S c) → (∀ c ∈ u', LitSet S c) →
    ¬ LitSet S q → (t = [] ∨ t = [q]) → u ++ q :: v = u' ++ t → v = [] := by
  intro u
  induction u with
  | nil =>
    intro u' v t _ hu' hq ht h
    cases u' with
    | nil =>
      rcases ht with rfl | rfl
      · cases h
      · cases h; rfl
    | cons c u' =>
      cases h
      exact absurd (hu' q (by simp)) hq
  | cons c u ih =>
    intro u' v t hu hu' hq ht h
    cases u' with
    | nil =>
      have := congrArg List.length h
      rcases ht with rfl | rfl <;> simp at this
    | cons d u' =>
      simp only [List.cons_append, List.cons.injEq] at h
      exact ih (fun c hc => hu c (by simp [hc])) (fun c hc => hu' c (by simp [hc])) hq ht h.2

/-- A text in quotes ends with the first closing character. -/
theorem quoted_delimits (hq : ¬ LitSet S q) : SelfDelimiting (quotedTree o S q) := by
  intro w v hm hr
  obtain ⟨u, rfl, hu⟩ := quoted_matches.1 hm
  rcases quoted_read hr with h | ⟨u', t, h, hu', ht⟩
  · cases h
  · simp only [List.cons_append, List.append_assoc, List.nil_append, List.cons.injEq, true_and] at h
    exact closing_last hu hu' hq ht h

/-! ## Texts in quotes with escapes -/

private theorem inside_append {u v : List Char} (hu : InQuotes S b X u) (hv : InQuotes S b X v) : InQuotes S b X (u ++ v) := by
  induction hu with
  | nil => exact hv
  | plain h _ ih => exact .plain h ih
  | escape h _ ih => exact .escape h ih

private theorem unit_iff {w : List Char} :
    Matches (.alt (.lit S none) (.concat [.lit (.mtch b) none, .lit X none])) w ↔
      (∃ c, w = [c] ∧ LitSet S c) ∨ ∃ c, w = [b, c] ∧ LitSet X c := by
  constructor
  · intro h
    cases h with
    | altL h => exact .inl (matches_lit h)
    | altR h =>
      cases h with
      | cons h1 h =>
        cases h with
        | cons h2 h =>
          cases h
          obtain ⟨c, rfl, hc⟩ := matches_lit h2
          rw [char_iff.1 h1]
          exact .inr ⟨c, rfl, hc⟩
  · rintro (⟨c, rfl, hc⟩ | ⟨c, rfl, hc⟩)
    · exact .altL (.lit rfl (by simpa using hc))
    · have h1 : Matches (.lit X none) [c] := .lit rfl (by simpa using hc)
      exact .altR (by simpa using Matches.cons (char_iff.2 rfl : Matches (.lit (.mtch b) none) [b]) (.cons h1 .nil))

private theorem unit_read {w : List Char}
    (h : MayRead (.alt (.lit S none) (.concat [.lit (.mtch b) none, .lit X none])) w) :
    w = [] ∨ w = [b] ∨ InQuotes S b X w := by
  cases h with
  | nothing => exact .inl rfl
  | altL h =>
    rcases mayRead_lit h with rfl | ⟨c, rfl, hc⟩
    · exact .inl rfl
    · exact .inr (.inr (.plain hc .nil))
  | altR h =>
    cases h with
    | nothing => exact .inl rfl
    | here h =>
      rcases char_read h with rfl | rfl
      · exact .inl rfl
      · exact .inr (.inl rfl)
    | later h1 h =>
      rw [char_iff.1 h1]
      cases h with
      | nothing => exact .inr (.inl rfl)
      | here h =>
        rcases mayRead_lit h with rfl | ⟨c, rfl, hc⟩
        · exact .inr (.inl rfl)
        · exact .inr (.inr (.escape hc .nil))
      | later h2 h =>
        cases h
        obtain ⟨c, rfl, hc⟩ := matches_lit h2
        exact .inr (.inr (.escape hc .nil))

private theorem units_inside : ∀ {ws : List (List Char)},
    (∀ w ∈ ws, Matches (.alt (.lit S none) (.concat [.lit (.mtch b) none, .lit X none])) w) → InQuotes S b X ws.flatten := by
  intro ws
  induction ws with
  | nil => exact fun _ => .nil
  | cons w ws ih =>
    intro h
    refine inside_append ?_ (ih fun w hw => h w (by simp [hw]))
    rcases unit_iff.1 (h w (by simp)) with ⟨c, rfl, hc⟩ | ⟨c, rfl, hc⟩
    · exact .plain hc .nil
    · exact .escape hc .nil

private theorem inside_iff {w : List Char} :
    Matches (.group (.alt (.lit S none) (.concat [.lit (.mtch b) none, .lit X none])) (some .asterisk)) w ↔
      InQuotes S b X w := by
  constructor
  · intro h
    cases h with
    | group _ h => exact units_inside h
  · intro h
    suffices h' : ∃ ws : List (List Char), w = ws.flatten ∧
        ∀ w ∈ ws, Matches (.alt (.lit S none) (.concat [.lit (.mtch b) none, .lit X none])) w by
      obtain ⟨ws, rfl, h''⟩ := h'
      exact .group trivial h''
    induction h with
    | nil => exact ⟨[], rfl, by simp⟩
    | @plain c u hc _ ih =>
      obtain ⟨ws, rfl, h⟩ := ih
      exact ⟨[c] :: ws, rfl, by simpa using ⟨unit_iff.2 (.inl ⟨c, rfl, hc⟩), h⟩⟩
    | @escape c u hc _ ih =>
      obtain ⟨ws, rfl, h⟩ := ih
      exact ⟨[b, c] :: ws, rfl, by simpa using ⟨unit_iff.2 (.inr ⟨c, rfl, hc⟩), h⟩⟩

private theorem inside_read {w : List Char}
    (h : MayRead (.group (.alt (.lit S none) (.concat [.lit (.mtch b) none, .lit X none])) (some .asterisk)) w) :
    ∃ u t, w = u ++ t ∧ InQuotes S b X u ∧ (t = [] ∨ t = [b]) := by
  cases h with
  | nothing => exact ⟨[], [], rfl, .nil, .inl rfl⟩
  | times h1 h2 =>
    rcases unit_read h2 with rfl | rfl | h
    · exact ⟨_, [], rfl, units_inside h1, .inl rfl⟩
    · exact ⟨_, _, rfl, units_inside h1, .inr rfl⟩
    · exact ⟨_, [], by simp, inside_append (units_inside h1) h, .inl rfl⟩

/-- The pattern matches the texts in quotes with escapes. -/
theorem escapes_matches {w : List Char} :
    Matches (escapesTree o S b X q) w ↔ QuotedWithEscapes o S b X q w := by
  rw [escapesTree, matches_three]
  constructor
  · rintro ⟨u, v, t, rfl, h1, h2, h3⟩
    rw [char_iff.1 h1, char_iff.1 h3]
    exact ⟨v, rfl, inside_iff.1 h2⟩
  · rintro ⟨u, rfl, hu⟩
    exact ⟨[o], u, [q], rfl, char_iff.2 rfl, inside_iff.2 hu, char_iff.2 rfl⟩

private theorem escapes_read {w : List Char} (h : MayRead (escapesTree o S b X q) w) :
    w = [] ∨ ∃ u t, w = o :: (u ++ t) ∧ InQuotes S b X u ∧ (t = [] ∨ t = [b] ∨ t = [q]) := by
  rcases read_three h with h | ⟨u, v, rfl, h1, h2⟩ | ⟨u, v, t, rfl, h1, h2, h3⟩
  · rcases char_read h with rfl | rfl
    · exact .inl rfl
    · exact .inr ⟨[], [], rfl, .nil, .inl rfl⟩
  · rw [char_iff.1 h1]
    obtain ⟨u', t, rfl, hu, rfl | rfl⟩ := inside_read h2
    · exact .inr ⟨u', [], rfl, hu, .inl rfl⟩
    · exact .inr ⟨u', [b], rfl, hu, .inr (.inl rfl)⟩
  · rw [char_iff.1 h1]
    exact .inr ⟨v, t, rfl, inside_iff.1 h2, (char_read h3).imp_right .inr⟩

/-- The pattern for texts in quotes with escapes begins with the opening character. -/
theorem escapes_begin {c : Char} {w : List Char} (h : MayRead (escapesTree o S b X q) (c :: w)) : c = o := by
  rcases escapes_read h with h | ⟨u, t, h, _⟩
  · cases h
  · cases h
    rfl

theorem escapes_regular : RepeatsNonEmpty (escapesTree o S b X q) ∧ CountsAtStart (escapesTree o S b X q) := by
  have h1 : ¬ Matches (.alt (.lit S none) (.concat [.lit (.mtch b) none, .lit X none])) [] := by
    intro h
    rcases unit_iff.1 h with ⟨c, h, _⟩ | ⟨c, h, _⟩ <;> cases h
  have h2 : ¬ Matches (.lit (.mtch o) none) [] := fun h => by cases char_iff.1 h
  refine ⟨by simp [escapesTree, RepeatsNonEmpty, RepeatsNonEmptyAll, h1], ?_⟩
  simp [escapesTree, CountsAtStart, CountsAtStartSeq, h2]

private theorem closing_first {u : List Char} (hu : InQuotes S b X u) : ∀ {u' v t : List Char}, InQuotes S b X u' →
    ¬ LitSet S q → ¬ LitSet S b → q ≠ b → (t = [] ∨ t = [b] ∨ t = [q]) → u ++ q :: v = u' ++ t → v = [] := by
  have short : ∀ {c d : Char} {w t : List Char}, (t = [] ∨ t = [b] ∨ t = [q]) → ¬ c :: d :: w = t := by
    rintro c d w t (rfl | rfl | rfl) h <;> cases h
  induction hu with
  | nil =>
    intro u' v t hu' hq hb hne ht h
    cases hu' with
    | nil =>
      rcases ht with rfl | rfl | rfl
      · cases h
      · cases h; exact absurd rfl hne
      · cases h; rfl
    | plain hc _ =>
      cases h
      exact absurd hc hq
    | escape hc _ =>
      cases h
      exact absurd rfl hne
  | @plain c u hc _ ih =>
    intro u' v t hu' hq hb hne ht h
    cases hu' with
    | nil =>
      cases u with
      | nil => exact absurd h (short ht)
      | cons d u => exact absurd h (short ht)
    | plain _ h' =>
      simp only [List.cons_append, List.cons.injEq] at h
      exact ih h' hq hb hne ht h.2
    | escape _ _ =>
      simp only [List.cons_append, List.cons.injEq] at h
      rw [h.1] at hc
      exact absurd hc hb
  | @escape c u hc _ ih =>
    intro u' v t hu' hq hb hne ht h
    cases hu' with
    | nil => exact absurd h (short ht)
    | plain hd _ =>
      simp only [List.cons_append, List.cons.injEq] at h
      rw [← h.1] at hd
      exact absurd hd hb
    | escape _ h' =>
      simp only [List.cons_append, List.cons.injEq] at h
      exact ih h' hq hb hne ht h.2.2

/-- A text in quotes with escapes ends with the first closing character that is not escaped. -/
theorem escapes_delimits (hq : ¬ LitSet S q) (hb : ¬ LitSet S b) (hne : q ≠ b) :
    SelfDelimiting (escapesTree o S b X q) := by
  intro w v hm hr
  obtain ⟨u, rfl, hu⟩ := escapes_matches.1 hm
  rcases escapes_read hr with h | ⟨u', t, h, hu', ht⟩
  · cases h
  · simp only [List.cons_append, List.append_assoc, List.nil_append, List.cons.injEq, true_and] at h
    exact closing_first hu hu' hq hb hne ht h

/-! ## C114 for texts in quotes -/

/-- What the other patterns of a lexer for texts in quotes have to be like: known, with one character of lookahead, and
not readable from the opening character. -/
structure OtherThanQuotes (o : Char) (es : List Expr) : Prop where
  regular : Regular es
  lookahead : OneLookahead es
  apart : ∀ x ∈ es, ∀ v, ¬ MayRead x (o :: v)

private theorem OtherThanQuotes.other {es : List Expr} (h : OtherThanQuotes o es)
    (he : ∀ {c w}, MayRead e (c :: w) → c = o) : OtherThan e es :=
  ⟨h.regular, h.lookahead, fun x hx c w v hc hr => h.apart x hx v (he hc ▸ hr)⟩

/-- The texts in quotes in a text, for a lexer with tokens for these: the tokens are a beginning of the text, what is
left does not begin with a text in quotes, and every token that begins with the opening character is a text in quotes
and has the kind for these. -/
def QuotesFound (o : Char) (isQuoted : List Char → Prop) (f : List Char → K) (input : List Char) (ts : List (Tok K)) :
    Prop :=
  ∃ tail, input = (ts.map Tok.source).flatten ++ tail ∧ (∀ w, w <+: tail → ¬ isQuoted w) ∧
    ∀ t ∈ ts, t.source.head? = some o → isQuoted t.source ∧ t.kind = f t.source

private theorem found {isQuoted : List Char → Prop} (hl : LexerFor p (before ++ (pattern, f) :: after) (es₁ ++ e :: es₂) l)
    (hlen : before.length = es₁.length) (hr : RepeatsNonEmpty e ∧ CountsAtStart e) (hd : SelfDelimiting e)
    (ho : OtherThan e (es₁ ++ es₂)) (hm : ∀ {w}, Matches e w ↔ isQuoted w) (hs : MayRead e [o]) (hn : ¬ isQuoted [])
    (input : List Char) : (∃ ts, Tokens l input ts) ∧ ∀ ts, Tokens l input ts → QuotesFound o isQuoted f input ts := by
  obtain ⟨h1, h2⟩ := c114_delimited hl hlen hr hd ho input
  refine ⟨h1, fun ts hts => ?_⟩
  obtain ⟨tail, h3, h4, h5⟩ := h2 ts hts
  refine ⟨tail, h3, fun w hw hq => ?_, fun t ht hc => ?_⟩
  · cases w with
    | nil => exact hn hq
    | cons c w => exact h4 _ (by simp) hw (hm.2 hq)
  · cases hsrc : t.source with
    | nil => rw [hsrc] at hc; cases hc
    | cons c w =>
      rw [hsrc] at hc
      cases hc
      have := h5 t ht o w [] hsrc hs
      rw [hm, hsrc] at this
      exact this

/-- C114 for texts in quotes, like those of `"[^"]*"`: on all texts they are found. -/
theorem c114_quotes (hl : LexerFor p (before ++ (pattern, f) :: after) (es₁ ++ quotedTree o S q :: es₂) l)
    (hlen : before.length = es₁.length) (hq : ¬ LitSet S q) (ho : OtherThanQuotes o (es₁ ++ es₂)) (input : List Char) :
    (∃ ts, Tokens l input ts) ∧ ∀ ts, Tokens l input ts → QuotesFound o (Quoted o S q) f input ts :=
  found hl hlen quoted_regular (quoted_delimits hq) (ho.other quoted_begin) quoted_matches (.here (.char rfl))
    (by rintro ⟨u, h, _⟩; cases h) input

/-- C114 for texts in quotes with escapes, like those of `"([^"\\]|\\.)*"`: on all texts they are found. -/
theorem c114_escapes (hl : LexerFor p (before ++ (pattern, f) :: after) (es₁ ++ escapesTree o S b X q :: es₂) l)
    (hlen : before.length = es₁.length) (hq : ¬ LitSet S q) (hb : ¬ LitSet S b) (hne : q ≠ b)
    (ho : OtherThanQuotes o (es₁ ++ es₂)) (input : List Char) :
    (∃ ts, Tokens l input ts) ∧ ∀ ts, Tokens l input ts → QuotesFound o (QuotedWithEscapes o S b X q) f input ts :=
  found hl hlen escapes_regular (escapes_delimits hq hb hne) (ho.other escapes_begin) escapes_matches (.here (.char rfl))
    (by rintro ⟨u, h, _⟩; cases h) input

/-- C114, what is inside of a text in quotes does not matter for what follows it: the text in quotes is one token, and
then come those of the text behind it. -/
theorem c114_behind_quotes (hl : LexerFor p (before ++ (pattern, f) :: after) (es₁ ++ quotedTree o S q :: es₂) l)
    (hlen : before.length = es₁.length) (hq : ¬ LitSet S q) (ho : OtherThanQuotes o (es₁ ++ es₂)) {w rest : List Char}
    (hw : Quoted o S q w) {ts ts' : List (Tok K)} (hts : Tokens l (w ++ rest) ts) (hts' : Tokens l rest ts') :
    ts.map (fun t => (t.source, t.kind)) = (w, f w) :: ts'.map fun t => (t.source, t.kind) :=
  c114_next hl hlen quoted_regular (quoted_delimits hq) (ho.other quoted_begin)
    (by obtain ⟨u, rfl, _⟩ := hw; simp) (quoted_matches.2 hw) hts hts'

/-- The same for texts in quotes with escapes. -/
theorem c114_behind_escapes (hl : LexerFor p (before ++ (pattern, f) :: after) (es₁ ++ escapesTree o S b X q :: es₂) l)
    (hlen : before.length = es₁.length) (hq : ¬ LitSet S q) (hb : ¬ LitSet S b) (hne : q ≠ b)
    (ho : OtherThanQuotes o (es₁ ++ es₂)) {w rest : List Char} (hw : QuotedWithEscapes o S b X q w)
    {ts ts' : List (Tok K)} (hts : Tokens l (w ++ rest) ts) (hts' : Tokens l rest ts') :
    ts.map (fun t => (t.source, t.kind)) = (w, f w) :: ts'.map fun t => (t.source, t.kind) :=
  c114_next hl hlen escapes_regular (escapes_delimits hq hb hne) (ho.other escapes_begin)
    (by obtain ⟨u, rfl, _⟩ := hw; simp) (escapes_matches.2 hw) hts hts'

/-! ### An example -/

/-- All characters but the quote and the backslash. -/
def plainChars : Lit := .group true [.mtch '"', .mtch '\\']

/-- The tree of `"([^"\\]|\\.)*"`. -/
def stringTree : Expr := escapesTree '"' plainChars '\\' (.cls .wildcard) '"'

omit [Unicode] in
theorem stringTree_parse : parse .debug "\"([^\"\\\\]|\\\\.)*\"".toList = .ok (.ok stringTree) := by
  unfold parse
  rw [show scan .debug "\"([^\"\\\\]|\\\\.)*\"".toList = ⟨[⟨.mtch '"', (0, 1)⟩, ⟨.operator .leftParen, (1, 2)⟩,
    ⟨.operator .leftBracket, (2, 3)⟩, ⟨.operator .carret, (3, 4)⟩, ⟨.mtch '"', (4, 5)⟩, ⟨.mtch '\\', (5, 7)⟩,
    ⟨.operator .rightBracket, (7, 8)⟩, ⟨.operator .vertical, (8, 9)⟩, ⟨.mtch '\\', (9, 11)⟩, ⟨.cls .wildcard, (11, 12)⟩,
    ⟨.operator .rightParen, (12, 13)⟩, ⟨.quantifier .asterisk, (13, 14)⟩, ⟨.mtch '"', (14, 15)⟩], .eof⟩ by decide +kernel]
  rfl

theorem blanks_otherThanQuotes : OtherThanQuotes '"' [.lit (.mtch ' ') (some .plus)] := by
  refine ⟨blanks_other.regular, blanks_other.lookahead, ?_⟩
  intro x hx v hr
  rw [List.mem_singleton.1 hx] at hr
  cases hr with
  | chars h =>
    have := h '"' (by simp)
    simp [LitSet] at this

/-- The rules ` +` and `"([^"\\]|\\.)*"`: there is a lexer, and it finds the texts in quotes. -/
theorem c114_example : ∃ l, LexerFor .debug ([(" +".toList, fun _ => 0)] ++
      ("\"([^\"\\\\]|\\\\.)*\"".toList, List.length) :: [])
    ([.lit (.mtch ' ') (some .plus)] ++ stringTree :: []) l ∧
    ∀ input, (∃ ts, Tokens l input ts) ∧ ∀ ts, Tokens l input ts →
      QuotesFound '"' (QuotedWithEscapes '"' plainChars '\\' (.cls .wildcard) '"') List.length input ts := by
  have h2 : parse .debug " +".toList = .ok (.ok (.lit (.mtch ' ') (some .plus))) := by with_unfolding_all rfl
  obtain ⟨l, hl⟩ := (c55_partial (K := Nat) .debug
      ([(" +".toList, fun _ => 0)] ++ ("\"([^\"\\\\]|\\\\.)*\"".toList, List.length) :: [])).2.1 (by
    intro r hr
    simp only [List.cons_append, List.nil_append, List.mem_cons, List.not_mem_nil, or_false] at hr
    rcases hr with rfl | rfl
    · exact ⟨_, h2, by rw [← hasEmptySeqB_iff]; decide⟩
    · exact ⟨_, stringTree_parse, by rw [← hasEmptySeqB_iff]; decide⟩)
  have hl' : LexerFor .debug ([(" +".toList, fun _ => 0)] ++ ("\"([^\"\\\\]|\\\\.)*\"".toList, List.length) :: [])
      ([.lit (.mtch ' ') (some .plus)] ++ stringTree :: []) l :=
    ⟨hl, by simp only [List.cons_append, List.nil_append, List.map_cons, List.map_nil, stringTree_parse, h2]⟩
  exact ⟨l, hl', c114_escapes hl' rfl (by simp [plainChars, LitSet, ItemSet]) (by simp [plainChars, LitSet, ItemSet])
    (by decide) blanks_otherThanQuotes⟩

/-- A quote behind a backslash does not end the text: `"a\"b"` is in quotes, and `"a\"` is not. -/
example : QuotedWithEscapes '"' plainChars '\\' (.cls .wildcard) '"' ['"', 'a', '\\', '"', 'b', '"'] ∧
    ¬ QuotedWithEscapes '"' plainChars '\\' (.cls .wildcard) '"' ['"', 'a', '\\', '"'] := by
  constructor
  · exact ⟨['a', '\\', '"', 'b'], rfl, .plain (by simp [plainChars, LitSet, ItemSet]) (.escape trivial
      (.plain (by simp [plainChars, LitSet, ItemSet]) .nil))⟩
  · rintro ⟨u, h, hu⟩
    simp only [List.cons.injEq, true_and] at h
    have : u = ['a', '\\'] := (List.append_inj' (s₁ := ['a', '\\']) (t₁ := ['"']) h rfl).1.symm
    subst this
    cases hu with
    | plain _ h =>
      cases h with
      | plain h _ => simp [plainChars, LitSet, ItemSet] at h

/-- A text in simple quotes. -/
example : Quoted '"' (.group true [.mtch '"']) '"' "\"two words\"".toList ∧ ¬ LitSet (.group true [.mtch '"']) '"' :=
  ⟨⟨"two words".toList, rfl, by simp [LitSet, ItemSet]⟩, by simp [LitSet, ItemSet]⟩

end Pango.Props
