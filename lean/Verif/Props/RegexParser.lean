import Verif.Props.Tokenizer
import Verif.Proofs.RegexParser

/-!
# C04, C05, C06: parsing a pattern
-/

namespace Pango.Props

open Pango Pango.Regex Pango.Spec

/-! ## C05 -/

/-- Specification: somewhere in the text is a numeral with one of the values 2^32, ..., 2^32 + 3. -/
def HasOverflowNumeral (text : List Char) : Prop :=
  ∃ s n, s <:+: text ∧ Numeral s n ∧ 2 ^ 32 ≤ n ∧ n < 2 ^ 32 + 4

theorem HasOverflowNumeral.mono {s t : List Char} (h : HasOverflowNumeral s) (hs : s <:+: t) :
    HasOverflowNumeral t := by
  obtain ⟨u, n, h1, h2⟩ := h
  exact ⟨u, n, h1.trans hs, h2⟩

theorem spanMap_split {β : Type} (f : Char → Option β) (cs : List Char) :
    ∃ pre, cs = pre ++ (spanMap f cs).2 ∧ pre.map f = (spanMap f cs).1.map some := by
  induction cs with
  | nil => exact ⟨[], rfl, rfl⟩
  | cons a r ih =>
    cases h : f a with
    | none => exact ⟨[], by simp [spanMap, h], by simp [spanMap, h]⟩
    | some b =>
      obtain ⟨pre, h1, h2⟩ := ih
      refine ⟨a :: pre, ?_, ?_⟩
      · simp only [spanMap, h, List.cons_append]; rw [← h1]
      · simp [spanMap, h, h2]

theorem takeDec_panic {p : Profile} {c : Char} {d : Nat} {cs : List Char} (hc : decDigit? c = some d)
    (h : takeDecL p cs d = .panic) : p = .debug ∧ HasOverflowNumeral (c :: cs) := by
  obtain ⟨pre, h1, h2⟩ := spanMap_split decDigit? cs
  have hfold : decFold p (some d) (spanMap decDigit? cs).1 = .panic := by
    unfold takeDecL at h
    cases hd : decFold p (some d) (spanMap decDigit? cs).1 with
    | ok r => rw [hd] at h; simp at h
    | panic => rfl
    | diverge => rw [hd] at h; simp at h
  refine ⟨?_, ?_⟩
  · cases p with
    | debug => rfl
    | release =>
      exfalso
      revert hfold
      generalize (spanMap decDigit? cs).1 = ds
      generalize some d = acc
      induction ds generalizing acc with
      | nil => simp [decFold]
      | cons x ds ih =>
        cases acc with
        | none => simpa [decFold, decStep] using ih none
        | some a =>
          simp only [decFold, decStep]
          split
          · unfold addU32
            split
            · simpa using ih _
            · simpa using ih _
          · simpa using ih none
  · refine Classical.byContradiction fun hno => ?_
    have hd := decDigit_conv hc
    have hlt := decDigit_lt hd
    have := decFold_value p (spanMap decDigit? cs).1 d (by omega) ?_ ?_
    · rw [this] at hfold; simp at hfold
    · intro x hx
      have : some x ∈ pre.map decDigit? := by rw [h2]; exact List.mem_map.2 ⟨x, hx, rfl⟩
      obtain ⟨y, _, hy⟩ := List.mem_map.1 this
      exact decDigit_lt (decDigit_conv hy)
    · intro k hk hw
      refine hno ⟨c :: pre.take k, _, ?_, numeral_of_digits (.digit hd) (pre.take k)
        ((spanMap decDigit? cs).1.take k) (by rw [List.map_take, h2, List.map_take]), hw⟩
      refine List.IsPrefix.isInfix ?_
      rw [h1]
      exact (List.prefix_cons_inj c).2 ((List.take_prefix k pre).trans (List.prefix_append _ _))

theorem rangeTail_panic {p : Profile} {first : Option Nat} {comma : Bool} {ch : Char} {cs : List Char}
    (h : rangeTailL p first comma ch cs = .panic) : p = .debug ∧ HasOverflowNumeral (ch :: cs) := by
  unfold rangeTailL at h
  split at h
  · split at h <;> simp at h
  · cases hd : decDigit? ch with
    | none => rw [hd] at h; simp at h
    | some d =>
      rw [hd] at h
      simp only at h
      cases ht : takeDecL p cs d with
      | panic => exact takeDec_panic hd ht
      | diverge => rw [ht] at h; simp at h
      | ok x =>
        rw [ht] at h
        simp only [Outcome.bind_ok] at h
        split at h
        · simp at h
        · split at h
          · simp at h
          · split at h <;> simp at h

theorem tokenKind_panic {p : Profile} {ch : Char} {cs : List Char} (h : tokenKindL p ch cs = .panic) :
    p = .debug ∧ HasOverflowNumeral cs := by
  have hr : handleRangeL p cs = .panic := by
    unfold tokenKindL at h
    repeat' split at h
    all_goals first
      | exact h
      | simp at h
  unfold handleRangeL at hr
  split at hr
  · simp at hr
  · rename_i c cs'
    cases hd : decDigit? c with
    | none => rw [hd] at hr; simp at hr
    | some d =>
      rw [hd] at hr
      simp only at hr
      cases ht : takeDecL p cs' d with
      | panic => exact takeDec_panic hd ht
      | diverge => rw [ht] at hr; simp at hr
      | ok x =>
        obtain ⟨first, rest⟩ := x
        rw [ht] at hr
        simp only [Outcome.bind_ok] at hr
        have hsuf : rest <:+ cs' := (takeDecL_ok ht)
        split at hr
        · simp at hr
        · rename_i c2 cs2 _
          split at hr
          · split at hr
            · simp at hr
            · rename_i c3 cs3
              obtain ⟨hp, ho⟩ := rangeTail_panic hr
              refine ⟨hp, ho.mono ?_⟩
              exact ((List.suffix_cons _ _).trans (hsuf.trans (List.suffix_cons _ _))).isInfix
          · obtain ⟨hp, ho⟩ := rangeTail_panic hr
            exact ⟨hp, ho.mono (hsuf.trans (List.suffix_cons _ _)).isInfix⟩

theorem scan_stop (p : Profile) (cs : List Char) :
    (scan p cs).stop = .eof ∨
    ((scan p cs).stop = .panic ∧ p = .debug ∧ HasOverflowNumeral cs) := by
  rw [scan_eq_scanK]
  generalize cs.length = n
  induction hk : cs.length using Nat.strongRecOn generalizing cs with
  | _ k ih =>
    cases cs with
    | nil => exact .inl rfl
    | cons ch cs =>
      rcases scanK_cons p n ch cs with ⟨ht, e1⟩ | ⟨kind, l, ht, hf, e1⟩
      · obtain ⟨hp, ho⟩ := tokenKind_panic ht
        exact .inr ⟨by rw [e1], hp, ho.mono (List.suffix_cons _ _).isInfix⟩
      · have hl := hf.suffix.length_le
        rw [e1]
        rcases ih l.cs.length (by simp at hk; omega) l.cs rfl with h | ⟨h1, h2, h3⟩
        · exact .inl h
        · exact .inr ⟨h1, h2, h3.mono (hf.suffix.trans (List.suffix_cons _ _)).isInfix⟩

/-- C05 as stated: parsing returns, with a tree or with exactly one error. -/
def ParserTotal : Prop :=
  ∀ p input, (∃ e, parse p input = .ok (.ok e)) ∨ (∃ err, parse p input = .ok (.error [err]))

theorem parse_overflow : parse .debug "a{4294967296}".toList = .panic := by
  unfold parse
  rw [show scan .debug "a{4294967296}".toList = ⟨[⟨.mtch 'a', (0, 1)⟩], .panic⟩ by decide]
  rfl

/-- C05 is false: with overflow checks the pattern `a{4294967296}` crashes the parser. -/
theorem c05_false : ¬ ParserTotal := by
  intro h
  have e := parse_overflow
  rcases h .debug "a{4294967296}".toList with ⟨_, h⟩ | ⟨_, h⟩ <;> rw [e] at h <;> simp at h

theorem parse_good (p : Profile) (input : List Char) :
    Good ⟨(scan p input).toks, (scan p input).stop, none⟩ (parseScan (scan p input))
      (fun e s' => ∃ ks rest, (scan p input).kinds = ks ++ rest ∧ EndsExpr rest ∧
        Pattern lax e ks ∧ rest = s'.kinds) := by
  unfold parseScan
  simp only
  have hp := good_peekTok ⟨(scan p input).toks, (scan p input).stop, none⟩
  revert hp
  generalize peekTok ⟨(scan p input).toks, (scan p input).stop, none⟩ = x
  cases x with
  | ok t s =>
    rintro ⟨h1, rfl, h2⟩
    cases t with
    | none =>
      refine ⟨rfl, [], [], ?_, .inl rfl, .inl ⟨rfl, rfl⟩, ?_⟩
      · have : (scan p input).toks = [] := by
          cases ht : (scan p input).toks with
          | nil => rfl
          | cons t r => simp [ht] at h2
        simp [Scan.kinds, this]
      · have : (scan p input).toks = [] := by
          cases ht : (scan p input).toks with
          | nil => rfl
          | cons t r => simp [ht] at h2
        simp [PState.kinds, this]
    | some t =>
      have := (good_parser (parseFuel (scan p input).toks.length)).1
        ⟨(scan p input).toks, (scan p input).stop, none⟩ (by simp [PState.kinds, parseFuel])
      refine this.mono ?_
      rintro e s' ⟨ks, h3, h4, h5⟩
      exact ⟨ks, s'.kinds, h4, h5, .inr h3, rfl⟩
  | err es => exact id
  | panic => exact id
  | diverge => exact id

/-- C05 as far as it holds.  Missing: patterns that contain a number from 2^32 to 2^32 + 3, with
overflow checks.

For every pattern and build profile, parsing terminates and returns either a tree or exactly one error;
or it panics, and then overflow checks are on and the pattern contains such a number. -/
theorem c05_total_partial (p : Profile) (input : List Char) :
    (∃ e, parse p input = .ok (.ok e)) ∨ (∃ err, parse p input = .ok (.error [err])) ∨
    (parse p input = .panic ∧ p = .debug ∧ HasOverflowNumeral input) := by
  have h := parse_good p input
  unfold parse
  revert h
  cases hr : parseScan (scan p input) with
  | ok e s => intro _; exact .inl ⟨e, rfl⟩
  | err es =>
    intro h
    match es, h with
    | [err], _ => exact .inr (.inl ⟨err, rfl⟩)
  | panic =>
    intro h
    rcases scan_stop p input with h' | ⟨_, h1, h2⟩
    · exact absurd (h'.symm.trans h) (by simp)
    · exact .inr (.inr ⟨rfl, h1, h2⟩)
  | diverge =>
    intro h
    rcases scan_stop p input with h' | ⟨h', _⟩
    · exact absurd (h'.symm.trans h) (by simp)
    · exact absurd (h'.symm.trans h) (by simp)

/-- Each case happens; without overflow checks the third cannot. -/
example : (∃ e, parse .debug "a(b|c)*".toList = .ok (.ok e)) ∧
    parse .debug "a(b".toList = .ok (.error [⟨.rightParan, (0, 1)⟩]) ∧
    parse .debug "a{4294967296}".toList = .panic := by
  refine ⟨?_, rfl, parse_overflow⟩
  exact ⟨.concat [.lit (.mtch 'a') none,
    .group (.alt (.lit (.mtch 'b') none) (.lit (.mtch 'c') none)) (some .asterisk)], rfl⟩

/-! ## C06 -/

/-- C06 as stated: an accepted pattern is, as a whole, a sentence of the documented syntax, and the
result is its tree. -/
def AcceptsOnlyDocumented : Prop :=
  ∀ p input e, parse p input = .ok (.ok e) → Pattern strict e (scan p input).kinds

/-- C06 is false: the pattern `a)b` is accepted, as `a`. -/
theorem c06_false : ¬ AcceptsOnlyDocumented := by
  intro h
  have := h .release "a)b".toList (.lit (.mtch 'a') none) rfl
  rw [show (scan .release "a)b".toList).kinds = [.mtch 'a', .operator .rightParen, .mtch 'b'] from by
    decide] at this
  rcases this with ⟨h, _⟩ | h
  · simp at h
  · obtain ⟨s', h1, h2, _⟩ := yields_parser rfl h (rest := [])
      (s := ⟨(scan .release "a)b".toList).toks, .eof, none⟩)
      (n := parseFuel 3) (by decide) rfl (.inl rfl) (by decide)
    have h3 : expression (parseFuel 3) ⟨(scan .release "a)b".toList).toks, .eof, none⟩ =
      .ok (.lit (.mtch 'a') none) ⟨[⟨.operator .rightParen, (1, 2)⟩, ⟨.mtch 'b', (2, 3)⟩], .eof,
        some (some ⟨.mtch 'a', (0, 1)⟩)⟩ := rfl
    rw [h3] at h1
    simp only [PResult.ok.injEq, true_and] at h1
    subst h1
    simp [PState.kinds] at h2

theorem groupItems_strict {is : List GLit} {ks : List TokenKind} (h : GroupItems lax is ks)
    (hne : is ≠ []) : GroupItems strict is ks := by
  induction h with
  | none _ => exact absurd rfl hne
  | one h => exact .one h
  | @more i is ks ks' h his ih =>
    by_cases h0 : is = []
    · subst h0
      cases his
      rw [List.append_nil]
      exact .one h
    · exact .more h (ih h0)

theorem matchItem_strict {l : Lit} {ks : List TokenKind} (h : MatchItem lax l ks)
    (hne : ¬ ∃ neg, l = .group neg []) : MatchItem strict l ks := by
  cases h with
  | cls k => exact .cls k
  | chr a => exact .chr a
  | group h => exact .group (groupItems_strict h (fun h => hne ⟨false, by rw [h]⟩))
  | negated h => exact .negated (groupItems_strict h (fun h => hne ⟨true, by rw [h]⟩))

theorem expression_strict {e : Expr} {ks : List TokenKind} (h : Expression lax e ks) :
    ¬ HasEmptySeq e → ¬ HasEmptyBracket e → Expression strict e ks := by
  have seq : ∀ {es : List Expr}, ¬ HasEmptySeq (seqTree es) → ¬ HasEmptyBracket (seqTree es) →
      es ≠ [] ∧ ¬ AnyEmptySeq es ∧ ¬ AnyEmptyBracket es := by
    intro es h1 h2
    rcases es with _ | ⟨e, _ | ⟨e', es⟩⟩
    · simp [seqTree, HasEmptySeq] at h1
    · simp only [seqTree] at h1 h2
      exact ⟨by simp, by simpa [AnyEmptySeq] using h1, by simpa [AnyEmptyBracket] using h2⟩
    · simp only [seqTree, HasEmptySeq, HasEmptyBracket] at h1 h2
      exact ⟨by simp, fun h => h1 (.inr h), h2⟩
  refine @Expression.rec lax
    (motive_1 := fun e ks _ => ¬ HasEmptySeq e → ¬ HasEmptyBracket e → Expression strict e ks)
    (motive_2 := fun es ks _ => es ≠ [] → ¬ AnyEmptySeq es → ¬ AnyEmptyBracket es →
      SubExpression strict es ks)
    (motive_3 := fun e ks _ => ¬ HasEmptySeq e → ¬ HasEmptyBracket e → SubExpressionItem strict e ks)
    ?_ ?_ ?_ ?_ ?_ ?_ ?_ e ks h
  · intro es ks _ ih h1 h2
    obtain ⟨a, b, c⟩ := seq h1 h2
    exact .sub (ih a b c)
  · intro es e ks ks' _ _ ih1 ih2 h1 h2
    simp only [HasEmptySeq, HasEmptyBracket, not_or] at h1 h2
    obtain ⟨a, b, c⟩ := seq h1.1 h2.1
    exact .alt (ih1 a b c) (ih2 h1.2 h2.2)
  · intro _ h; exact absurd rfl h
  · intro e ks _ ih _ h1 h2
    simp only [AnyEmptySeq, AnyEmptyBracket, or_false] at h1 h2
    exact .one (ih h1 h2)
  · intro e es ks ks' he hes ih1 ih2 _ h1 h2
    simp only [AnyEmptySeq, AnyEmptyBracket, not_or] at h1 h2
    by_cases h0 : es = []
    · subst h0
      cases hes
      rw [List.append_nil]
      exact .one (ih1 h1.1 h2.1)
    · exact .more (ih1 h1.1 h2.1) (ih2 h0 h1.2 h2.2)
  · intro l q ks kq hl hq _ h2
    exact .mtch (matchItem_strict hl (by simpa [HasEmptyBracket] using h2)) hq
  · intro e q ks kq _ hq ih h1 h2
    simp only [HasEmptySeq, HasEmptyBracket] at h1 h2
    exact .group (ih h1 h2) hq

/-- C06 as far as it holds.  Missing: the rest of a pattern from a surplus right parenthesis on is
ignored, and empty sequences and empty bracket groups are accepted.

If a pattern is accepted, its tokens are a sentence of the relaxed syntax, with the returned tree as
its tree, followed by nothing or by a right parenthesis and more.  If the tree has neither an empty
sequence nor an empty bracket group, the sentence is one of the documented syntax.  And only one tree
belongs to a documented sentence. -/
theorem c06_accepts_partial (p : Profile) (input : List Char) (e : Expr)
    (h : parse p input = .ok (.ok e)) :
    ∃ used rest, (scan p input).kinds = used ++ rest ∧
      (rest = [] ∨ rest.head? = some (.operator .rightParen)) ∧
      Pattern ⟨true, true⟩ e used ∧
      (¬ HasEmptySeq e → ¬ HasEmptyBracket e → Pattern strict e used) ∧
      (∀ e', Pattern strict e used → Pattern strict e' used → e' = e) := by
  have hg := parse_good p input
  unfold parse at h
  cases hr : parseScan (scan p input) with
  | err es => rw [hr] at h; simp at h
  | panic => rw [hr] at h; simp at h
  | diverge => rw [hr] at h; simp at h
  | ok e' s' =>
    rw [hr] at h hg
    simp only [Outcome.ok.injEq, Except.ok.injEq] at h
    subst h
    obtain ⟨_, ks, rest, h1, h2, h3, h4⟩ := hg
    refine ⟨ks, rest, h1, ?_, h3, ?_, ?_⟩
    · rcases h2 with h2 | h2
      · left; simpa using h2
      · exact .inr h2
    · intro h5 h6
      rcases h3 with h3 | h3
      · exact .inl h3
      · exact .inr (expression_strict h3 h5 h6)
    · intro e'' ha hb
      have head : ∀ {e : Expr} {ks : List TokenKind}, Expression strict e ks → ks ≠ [] := by
        intro e ks h
        cases h with
        | sub h => obtain ⟨k, _, rfl, _⟩ := subExpression_head rfl h; simp
        | alt h _ => obtain ⟨k, _, rfl, _⟩ := subExpression_head rfl h; simp
      rcases ha with ⟨rfl, rfl⟩ | ha
      · rcases hb with ⟨rfl, _⟩ | hb
        · rfl
        · exact absurd rfl (head hb)
      · rcases hb with ⟨_, hb⟩ | hb
        · exact absurd hb (head ha)
        · have hk : (PState.mk (ks.map fun k => ⟨k, (0, 0)⟩) .eof none).kinds = ks ++ [] := by
            simp [PState.kinds, Function.comp_def]
          obtain ⟨s1, h5, _⟩ := yields_parser rfl ha hk rfl (.inl rfl) (Nat.le_refl _)
          obtain ⟨s2, h6, _⟩ := yields_parser rfl hb hk rfl (.inl rfl) (Nat.le_refl _)
          rw [h5] at h6
          simp only [PResult.ok.injEq] at h6
          exact h6.1.symm

/-- Accepted patterns of both kinds. -/
example : (∃ e, parse .debug "[a-z]|y+".toList = .ok (.ok e) ∧ ¬ HasEmptySeq e ∧
      ¬ HasEmptyBracket e) ∧
    (∃ e, parse .debug "(|a)".toList = .ok (.ok e) ∧ HasEmptySeq e) := by
  have h1 : parse .debug "[a-z]|y+".toList = .ok (.ok (.alt (.lit (.group false [.range 'a' 'z']) none)
    (.lit (.mtch 'y') (some .plus)))) := by
    unfold parse
    rw [show scan .debug "[a-z]|y+".toList = ⟨[⟨.operator .leftBracket, (0, 1)⟩, ⟨.mtch 'a', (1, 2)⟩,
      ⟨.operator .minus, (2, 3)⟩, ⟨.mtch 'z', (3, 4)⟩, ⟨.operator .rightBracket, (4, 5)⟩,
      ⟨.operator .vertical, (5, 6)⟩, ⟨.mtch 'y', (6, 7)⟩, ⟨.quantifier .plus, (7, 8)⟩], .eof⟩ by decide]
    rfl
  have h2 : parse .debug "(|a)".toList = .ok (.ok (.group (.alt (.concat []) (.lit (.mtch 'a') none)) none)) := by
    unfold parse
    rw [show scan .debug "(|a)".toList = ⟨[⟨.operator .leftParen, (0, 1)⟩, ⟨.operator .vertical, (1, 2)⟩,
      ⟨.mtch 'a', (2, 3)⟩, ⟨.operator .rightParen, (3, 4)⟩], .eof⟩ by decide]
    rfl
  refine ⟨⟨_, h1, ?_, ?_⟩, ⟨_, h2, ?_⟩⟩ <;>
    simp [HasEmptySeq, AnyEmptySeq, HasEmptyBracket]

/-! ## C04 -/

/-- The text of a token, and what scanning it gives. -/
def Writes (p : Profile) (text : List Char) (ks : List TokenKind) : Prop :=
  ∀ rest, (scan p (text ++ rest)).kinds = ks ++ (scan p rest).kinds ∧
    (scan p (text ++ rest)).stop = (scan p rest).stop

theorem Writes.nil (p : Profile) : Writes p [] [] := fun _ => ⟨rfl, rfl⟩

theorem Writes.append {p : Profile} {t u : List Char} {ks ls : List TokenKind} (h : Writes p t ks)
    (h' : Writes p u ls) : Writes p (t ++ u) (ks ++ ls) := by
  intro rest
  rw [List.append_assoc, List.append_assoc]
  obtain ⟨h1, h2⟩ := h (u ++ rest)
  obtain ⟨h3, h4⟩ := h' rest
  rw [h1, h2, h3, h4]
  exact ⟨rfl, rfl⟩

theorem writes_of_token {p : Profile} {c : Char} {cs : List Char} {k : TokenKind}
    (h : ∀ rest, tokenKindL p c (cs ++ rest) = .ok (k, ⟨rest, false⟩)) : Writes p (c :: cs) [k] := by
  intro rest
  exact scan_token (h rest)

theorem writes_operator (p : Profile) {c : Char} {o : OperatorKind} (h1 : c ≠ '\\') (h2 : c ≠ '.')
    (h : operatorOf c = some o) : Writes p [c] [.operator o] :=
  writes_of_token fun rest => by simp [tokenKindL, h1, h2, h]

theorem writes_char (p : Profile) (c : Char) : Writes p (charText c) [.mtch c] := by
  unfold charText
  split
  · rename_i h
    refine writes_of_token fun rest => ?_
    simp only [List.mem_cons, List.not_mem_nil, or_false] at h
    rcases h with rfl | rfl | rfl | rfl | rfl | rfl | rfl | rfl | rfl | rfl | rfl | rfl | rfl <;> rfl
  · split
    · rename_i h; subst h
      exact writes_of_token fun rest => rfl
    · split
      · rename_i h; subst h
        exact writes_of_token fun rest => rfl
      · rename_i h1 h2 h3
        refine writes_of_token fun rest => ?_
        simp only [List.mem_cons, List.not_mem_nil, or_false, not_or] at h1
        simp [tokenKindL, operatorOf, h1, h2]

theorem writes_class (p : Profile) (k : ClassKind) : Writes p (classText k) [.cls k] := by
  cases k <;> exact writes_of_token fun rest => rfl

theorem digitChar_dec {d : Nat} (h : d < 10) : DecDigit (digitChar d) d := by
  have : d = 0 ∨ d = 1 ∨ d = 2 ∨ d = 3 ∨ d = 4 ∨ d = 5 ∨ d = 6 ∨ d = 7 ∨ d = 8 ∨ d = 9 := by omega
  rcases this with rfl | rfl | rfl | rfl | rfl | rfl | rfl | rfl | rfl | rfl <;> rfl

theorem natText_numeral (n : Nat) : Numeral (natText n) n := by
  induction n using Nat.strongRecOn with
  | _ n ih =>
    rw [natText]
    split
    · rename_i h
      exact .digit (digitChar_dec h)
    · rename_i h
      have := (ih (n / 10) (by omega)).snoc (digitChar_dec (Nat.mod_lt n (by decide : 0 < 10)))
      rwa [Nat.div_add_mod] at this

theorem numeral_prefix {s : List Char} {n : Nat} (h : Numeral s n) :
    ∀ t m, t <+: s → Numeral t m → m ≤ n := by
  have det : ∀ {s : List Char} {n m : Nat}, Numeral s n → Numeral s m → n = m := by
    intro s n m h
    induction h generalizing m with
    | @digit c d hd =>
      intro h'
      generalize hs : [c] = s at h'
      cases h' with
      | digit hd' =>
        simp at hs; subst hs
        have := decDigit_of hd; rw [decDigit_of hd'] at this; simpa using this.symm
      | @snoc s' _ _ _ h' _ =>
        cases s' with
        | nil => exact absurd h' (by intro h; generalize hs : ([] : List Char) = s at h; cases h <;> simp at hs)
        | cons a b => simp at hs
    | @snoc s n c d hn hd ih =>
      intro h'
      generalize hs : s ++ [c] = t at h'
      cases h' with
      | @digit c' d' hd' =>
        cases s with
        | nil => exact absurd hn (by intro h; generalize hs : ([] : List Char) = s at h; cases h <;> simp at hs)
        | cons a b => simp at hs
      | @snoc s' n' c' d' hn' hd' =>
        obtain ⟨h1, h2⟩ := List.append_inj' hs rfl
        simp at h2
        subst h1; subst h2
        have := decDigit_of hd; rw [decDigit_of hd'] at this
        rw [ih hn']
        simp at this
        omega
  induction h with
  | @digit c d hd =>
    intro t m ht hm
    have : t = [] ∨ t = [c] := by
      rcases t with _ | ⟨a, t⟩
      · exact .inl rfl
      · right
        obtain ⟨h1, h2⟩ := List.cons_prefix_cons.1 ht
        rw [h1, List.prefix_nil.1 h2]
    rcases this with rfl | rfl
    · exact absurd hm (by intro h; generalize hs : ([] : List Char) = s at h; cases h <;> simp at hs)
    · rw [det hm (.digit hd)]; exact Nat.le_refl _
  | @snoc s n c d hn hd ih =>
    intro t m ht hm
    rcases List.prefix_concat_iff.1 ht with rfl | ht
    · rw [det hm (hn.snoc hd)]; exact Nat.le_refl _
    · have := ih t m ht hm
      omega

theorem natText_window {n : Nat} (h : n < 2 ^ 32) : NoOverflowWindow (natText n) := by
  intro t m ht hm
  have := numeral_prefix (natText_numeral n) t m ht hm
  omega

theorem writes_quant (p : Profile) {q : Option Quant} {kq : List TokenKind} (h : OptQuantifier q kq)
    (hf : QuantFits q) : Writes p (quantText q) kq := by
  have bounds : ∀ (b : Bounds) (k : TokenKind), Bounds.Means b k →
      (∀ s ∈ b.numerals, NoOverflowWindow s) → Writes p b.text [k] :=
    fun b k h1 h2 rest => c03_bounds_partial p b k rest h1 h2
  cases h with
  | none => exact .nil p
  | some q =>
    cases q with
    | asterisk => exact writes_of_token fun rest => rfl
    | plus => exact writes_of_token fun rest => rfl
    | questionMark => exact writes_of_token fun rest => rfl
    | max m =>
      exact bounds (.exactly (natText m)) _ (.exactly (natText_numeral m) hf)
        (by intro s hs; simp [Bounds.numerals] at hs; subst hs; exact natText_window hf)
    | min m =>
      exact bounds (.atLeast (natText m)) _ (.atLeast (natText_numeral m) hf)
        (by intro s hs; simp [Bounds.numerals] at hs; subst hs; exact natText_window hf)
    | range lo hi =>
      exact bounds (.between (natText lo) (natText hi)) _
        (.between (natText_numeral lo) (natText_numeral hi) hf.1 hf.2)
        (by intro s hs
            simp [Bounds.numerals] at hs
            rcases hs with rfl | rfl
            · exact natText_window hf.1
            · exact natText_window hf.2)

theorem writes_groupItem (p : Profile) {i : GLit} {ks : List TokenKind} (h : GroupItem i ks) :
    Writes p (groupItemText i) ks := by
  cases h with
  | cls k => exact writes_class p k
  | chr a => exact writes_char p a
  | range a b =>
    exact (writes_char p a).append
      ((writes_operator p (by decide) (by decide) rfl : Writes p ['-'] _).append (writes_char p b))

theorem writes_groupItems (p : Profile) {r : Relaxed} {is : List GLit} {ks : List TokenKind}
    (h : GroupItems r is ks) : Writes p (is.flatMap groupItemText) ks := by
  induction h with
  | none _ => exact .nil p
  | one h => simpa using writes_groupItem p h
  | more h _ ih => exact (writes_groupItem p h).append ih

theorem writes_matchItem (p : Profile) {r : Relaxed} {l : Lit} {ks : List TokenKind}
    (h : MatchItem r l ks) : Writes p (litText l) ks := by
  have open_ : Writes p ['['] [.operator .leftBracket] := writes_operator p (by decide) (by decide) rfl
  have close : Writes p [']'] [.operator .rightBracket] := writes_operator p (by decide) (by decide) rfl
  have neg : Writes p ['^'] [.operator .carret] := writes_operator p (by decide) (by decide) rfl
  cases h with
  | cls k => exact writes_class p k
  | chr a => exact writes_char p a
  | group h =>
    have := open_.append ((writes_groupItems p h).append close)
    simpa [litText] using this
  | negated h =>
    have := open_.append (neg.append ((writes_groupItems p h).append close))
    simpa [litText] using this

theorem writes_expression (p : Profile) {r : Relaxed} {e : Expr} {ks : List TokenKind}
    (h : Expression r e ks) : ExprFits e → Writes p (exprText e) ks := by
  have seqFits : ∀ {es : List Expr}, ExprFits (seqTree es) → ExprsFit es := by
    intro es h
    rcases es with _ | ⟨e, _ | ⟨e', es⟩⟩
    · trivial
    · exact ⟨h, trivial⟩
    · exact h
  have seqText : ∀ {es : List Expr}, exprText (seqTree es) = exprsText es := by
    intro es
    rcases es with _ | ⟨e, _ | ⟨e', es⟩⟩
    · simp [seqTree, exprText, exprsText]
    · simp [seqTree, exprsText]
    · simp [seqTree, exprText, exprsText]
  have paren : Writes p ['('] [.operator .leftParen] := writes_operator p (by decide) (by decide) rfl
  have close : Writes p [')'] [.operator .rightParen] := writes_operator p (by decide) (by decide) rfl
  have bar : Writes p ['|'] [.operator .vertical] := writes_operator p (by decide) (by decide) rfl
  refine @Expression.rec r
    (motive_1 := fun e ks _ => ExprFits e → Writes p (exprText e) ks)
    (motive_2 := fun es ks _ => ExprsFit es → Writes p (exprsText es) ks)
    (motive_3 := fun e ks _ => ExprFits e → Writes p (exprText e) ks)
    ?_ ?_ ?_ ?_ ?_ ?_ ?_ e ks h
  · intro es ks _ ih hf
    rw [seqText]
    exact ih (seqFits hf)
  · intro es e ks ks' _ _ ih1 ih2 hf
    rw [exprText, seqText]
    simp only [ExprFits] at hf
    exact (ih1 (seqFits hf.1)).append (bar.append (ih2 hf.2))
  · intro _ _; exact .nil p
  · intro e ks _ ih hf
    simp only [ExprsFit] at hf
    simpa [exprsText] using ih hf.1
  · intro e es ks ks' _ _ ih1 ih2 hf
    simp only [ExprsFit] at hf
    rw [exprsText]
    exact (ih1 hf.1).append (ih2 hf.2)
  · intro l q ks kq hl hq hf
    simp only [ExprFits] at hf
    rw [exprText]
    exact (writes_matchItem p hl).append (writes_quant p hq hf)
  · intro e q ks kq _ hq ih hf
    simp only [ExprFits] at hf
    have := paren.append ((ih hf.1).append (close.append (writes_quant p hq hf.2)))
    simpa [exprText] using this

/-- A pattern whose tokens are those of a tree is parsed to this tree. -/
theorem parse_of_kinds {p : Profile} {input : List Char} {e : Expr} {ks : List TokenKind} {b : Bool}
    (h : Expression ⟨false, b⟩ e ks) (h1 : (scan p input).kinds = ks) (h2 : (scan p input).stop = .eof) :
    parse p input = .ok (.ok e) := by
  simp only [Scan.kinds] at h1
  have hne : (scan p input).toks ≠ [] := by
    have : ks ≠ [] := by
      cases h with
      | sub h => obtain ⟨k, _, rfl, _⟩ := subExpression_head rfl h; simp
      | alt h _ => obtain ⟨k, _, rfl, _⟩ := subExpression_head rfl h; simp
    intro h0
    rw [h0] at h1
    exact this (by simpa using h1.symm)
  have hy := yields_parser rfl h (rest := []) (s := ⟨(scan p input).toks, .eof, none⟩)
    (n := parseFuel (scan p input).toks.length) (by simpa [PState.kinds] using h1) rfl
    (.inl rfl) (by simp [PState.kinds, parseFuel])
  obtain ⟨s', h3, _⟩ := hy
  unfold parse parseScan
  cases ht : (scan p input).toks with
  | nil => exact absurd ht hne
  | cons t r =>
    rw [ht] at h3
    simp only [peekTok, h2, h3]

/-- C04.  Every tree of the documented syntax (bracket groups may also be empty) with 32-bit numbers,
written as text and parsed, gives back the same tree. -/
theorem c04_round_trip (p : Profile) (e : Expr) (ks : List TokenKind) (b : Bool)
    (h : Pattern ⟨false, b⟩ e ks) (hf : ExprFits e) : parse p (exprText e) = .ok (.ok e) := by
  rcases h with ⟨rfl, rfl⟩ | h
  · rfl
  · obtain ⟨h1, h2⟩ := writes_expression p h hf []
    rw [List.append_nil, scan_nil] at h1 h2
    exact parse_of_kinds h (by simpa [Scan.kinds] using h1) h2

/-- A tree with most constructs, special characters and numbers. -/
example : ∃ e ks, Pattern ⟨false, true⟩ e ks ∧ ExprFits e ∧
    exprText e = "x\\-{120}|([^\\^a-\\\\\\w]*[])?".toList := by
  have h : ∃ ks, Pattern ⟨false, true⟩ (.alt (.concat [.lit (.mtch 'x') none,
      .lit (.mtch '-') (some (.max 120))]) (.group (.concat [.lit (.group true [.mtch '^',
        .range 'a' '\\', .cls .word]) (some .asterisk), .lit (.group false []) none])
        (some .questionMark))) ks :=
    ⟨_, .inr (.alt (es := [_, _])
      (.more (.mtch (.chr _) .none) (.one (.mtch (.chr _) (.some _))))
      (.sub (es := [_]) (.one (.group (.sub (es := [_, _]) (.more (.mtch (.negated
        (.more (.chr _) (.more (.range _ _) (.one (.cls _))))) (.some _))
        (.one (.mtch (.group (.none rfl)) .none)))) (.some _)))))⟩
  obtain ⟨ks, h⟩ := h
  refine ⟨_, ks, h, ?_, ?_⟩
  · simp only [ExprFits, ExprsFit, QuantFits, and_true, true_and]; decide
  · have hn : natText 120 = "120".toList := by
      rw [natText, if_neg (by decide), natText, if_neg (by decide), natText, if_pos (by decide)]
      decide
    simp only [exprText, exprsText, litText, quantText, hn]
    decide

end Pango.Props
