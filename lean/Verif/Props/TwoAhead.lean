import Verif.Spec.TwoAhead
import Verif.Proofs.ClassDec
import Verif.Proofs.EffectLog
import Verif.Proofs.Rewrite
import Verif.Props.Builder
import Verif.Props.Lossless

/-!
# C116: numbers with a decimal point

Behind the digits of a number there may be a point that does not belong to it.  Then the lexer has read two characters
too many: the point and the character behind it.  It puts back both, and reads both again.
-/

namespace Pango.Props

open Pango Pango.Lex Pango.Fsm Pango.Regex Pango.Spec

variable [Unicode] {K : Type} {p : Profile} {rules : List (List Char × (List Char → K))} {es : List Expr} {l : Lexer K}

/-- With two characters of lookahead at most one character is put back in front of the one that could not be read. -/
theorem _root_.Pango.Spec.LooksTwoAhead.losesNothing (hl : LexerFor p rules es l) (ha : LooksTwoAhead es) :
    LosesNothing es := by
  intro w back x w' back' x' r h h' hb
  obtain ⟨a, b, r', hr⟩ : ∃ a b r', back = a :: b :: r' := by
    have hne := List.length_pos_iff.2 h'.longest.nonempty
    match back, hb with
    | [], hb => simp at hb
    | [a], hb =>
      have := congrArg List.length hb
      simp at this
      omega
    | a :: b :: r', _ => exact ⟨a, b, r', rfl⟩
  subst hr
  have h1 : Readable es (w ++ [a, b]) := hl.toBuilt.readable_mono (v := r') (by simpa using h.live)
  have h2 : Passes es (w ++ [a, b]) := passes_mono es _ (r' ++ [x]) (by simpa using h.ends)
  rcases ha w a b h.longest.nonempty h.longest.isMatch h1 h2 with h3 | h3
  · have := h.longest.longest _ ⟨b :: r', by simp⟩ h3
    simp at this
    omega
  · have := h.longest.longest _ ⟨r', by simp⟩ h3
    simp at this
    omega

/-- The tokens are the first ones of maximal munch, and the others are missing only if all of the text behind can be
read. -/
private theorem steady_munch {R : List (List Char → Prop)} {Live Ends : List Char → Prop}
    {kind : Nat → List Char → Option K} (mono : ∀ w v, Live (w ++ v) → Live w) (live : ∀ w, AnyMatch R w → Live w)
    {ts : List (Tok K)} : ∀ {a : Nat} {s : List Char}, Steady R Live Ends kind a s (ts.map some ++ [none]) →
    ∃ ws rest, s = (ts.map Tok.source).flatten ++ rest ∧ ws.map Prod.fst = ts.map Tok.source ∧
      ts.map (fun t => (t.source, some t.kind)) = ws.map (fun w => (w.1, kind w.2 w.1)) ∧
      Ends rest ∧ NoToken R Live rest ∧
      ∀ more tail, Munch R rest more tail → Munch R s (ws ++ more) tail := by
  induction ts with
  | nil =>
    intro a s h
    cases h with
    | stop he hn => exact ⟨[], s, rfl, rfl, rfl, he, hn, fun _ _ h => h⟩
  | cons t ts ih =>
    intro a s h
    generalize has : (t :: ts).map some ++ [none] = as at h
    cases h with
    | done => simp at has
    | stop => simp at has
    | @token _ i w rest k as he hne hf hm hk hs =>
      simp only [List.map_cons, List.cons_append, List.cons.injEq, Option.some.injEq] at has
      obtain ⟨rfl, rfl⟩ := has
      obtain ⟨ws, tl, h1, h2, h3, h4, h5, h6⟩ := ih hs
      refine ⟨(w, i) :: ws, tl, ?_, ?_, ?_, h4, h5, fun more tail hmu => ?_⟩
      · simp [h1]
      · simp [h2]
      · simp only [List.map_cons, h3, hk]
      · exact .token (hf.longest mono live hne hm.anyMatch) hm (h6 more tail hmu)

/-- There is a tokenization by maximal munch. -/
theorem munch_exists (R : List (List Char → Prop)) (s : List Char) : ∃ ws tail, Munch R s ws tail := by
  generalize hn : s.length = n
  induction n using Nat.strongRecOn generalizing s with
  | ind n ih =>
    by_cases h : NoMatch R s
    · exact ⟨[], s, .stop h⟩
    · simp only [NoMatch, Classical.not_forall, Classical.not_not] at h
      obtain ⟨v, hv, hp, hm⟩ := h
      obtain ⟨w, hw⟩ := exists_longest hv hp hm
      obtain ⟨rest, rfl⟩ := hw.isPrefix
      obtain ⟨i, hi⟩ := hw.isMatch.first
      have hpos := List.length_pos_iff.2 hw.nonempty
      obtain ⟨ws, tail, h⟩ := ih rest.length (by rw [← hn]; simp; omega) rest rfl
      exact ⟨_, _, .token hw hi h⟩

/-- C116 for all lexers that lose nothing: on every text the tokens are the first ones of those of maximal munch.  If
they are not all of them, then some pattern can be read to the end of the text, and does not match all of the rest. -/
theorem c116_first (hl : LexerFor p rules es l) (ha : LosesNothing es) (input : List Char) (ts : List (Tok K))
    (ht : Tokens l input ts) : ∃ ws more tail rest, Munch (taken es) input (ws ++ more) tail ∧
      ts.map (fun t => (t.source, some t.kind)) = ws.map (fun w => (w.1, kindAt rules w.2 w.1)) ∧
      input = (ts.map Tok.source).flatten ++ rest ∧
      (more ≠ [] → Readable es rest ∧ ¬ AnyMatch (taken es) rest) := by
  rw [c23_tokens_partial p rules es l hl, scans_steady hl ha (plain_none _)] at ht
  obtain ⟨ws, rest, h1, _, h3, _, h5, h6⟩ :=
    steady_munch (fun _ _ h => hl.toBuilt.readable_mono h) (fun _ h => hl.toBuilt.readable_taken h) ht
  rcases h5 with h5 | h5
  · exact ⟨ws, [], rest, rest, h6 _ _ (.stop h5), h3, h1, fun h => absurd rfl h⟩
  · obtain ⟨more, tail, hm⟩ := munch_exists (taken es) rest
    exact ⟨ws, more, tail, rest, h6 _ _ hm, h3, h1, fun _ => h5⟩

/-- C116 for all patterns: with two characters of lookahead, the tokens of a text that ends in a closing character are
those of maximal munch. -/
theorem c116_every (hl : LexerFor p rules es l) (ha : LooksTwoAhead es) {x : Char} (hx : AlwaysCloses es x)
    (input : List Char) (ts : List (Tok K)) (ht : Tokens l (input ++ [x]) ts) :
    IsTokenization (taken es) rules (input ++ [x]) ts := by
  rw [c23_tokens_partial p rules es l hl, scans_steady hl (ha.losesNothing hl) (plain_none _)] at ht
  obtain ⟨ws, rest, h1, _, h3, h4, h5, h6⟩ :=
    steady_munch (fun _ _ h => hl.toBuilt.readable_mono h) (fun _ h => hl.toBuilt.readable_taken h) ht
  refine ⟨ws, rest, ?_, h3⟩
  rw [← List.append_nil ws]
  refine h6 _ _ (.stop ?_)
  rcases h5 with h5 | ⟨h5, h7⟩
  · exact h5
  · rcases List.eq_nil_or_concat rest with rfl | ⟨u, y, rfl⟩
    · intro w hw hp
      exact absurd (List.prefix_nil.1 hp) hw
    · have h8 : input ++ [x] = (ts.map Tok.source).flatten ++ u ++ [y] := by simpa using h1
      have h9 := (List.append_inj' h8 rfl).2
      simp only [List.cons.injEq, and_true] at h9
      subst h9
      rw [List.concat_eq_append] at h4 h5 h7
      exact absurd (hx u h5 h4) h7

/-- C116: with two characters of lookahead, a text that ends in a closing character is split into tokens, and the tokens
are those of maximal munch. -/
theorem c116_tokens (hl : LexerFor p rules es l) (hr : Regular es) (ha : TwoLookahead es) {x : Char} (hx : Closes es x)
    (input : List Char) : ∃ ts, Tokens l (input ++ [x]) ts ∧
      ∀ ts', Tokens l (input ++ [x]) ts' → ts' = ts ∧ IsTokenization (languages es) rules (input ++ [x]) ts' := by
  have hb := hl.toBuilt
  obtain ⟨⟨as, it⟩, h⟩ := ((hb.safe _).lexCalls ((input ++ [x]).length + 1) (InputIter.new (input ++ [x]))).2
    (hb.total (fun e he => (hr e he).1) (Nat.le_refl _))
  obtain ⟨⟨ts, it'⟩, h'⟩ := lexAll_of_calls h ((c16_finite _ _ _ _ _ _ h).2.2 (Nat.lt_succ_self _))
  have hts : Tokens l (input ++ [x]) ts := ⟨_, _, it', h'⟩
  have read : ∀ {w : List Char}, w ≠ [] → Readable es w → ∃ e ∈ es, MayRead e w := fun hw h =>
    hb.mayRead hr hw ((hb.live _).2 h)
  have h2 : LooksTwoAhead es := by
    intro w a b hw hm hread _
    rw [taken_languages hl hr] at hm ⊢
    exact ha w a b hw hm (read (by simp) hread)
  have h3 : AlwaysCloses es x := by
    intro u hread _
    rw [taken_languages hl hr]
    exact hx u (read (by simp) hread)
  refine ⟨ts, hts, fun ts' hts' => ⟨tokens_unique hts' hts, ?_⟩⟩
  rw [← taken_languages hl hr]
  exact c116_every hl h2 h3 input ts' hts'

/-! ## Numbers -/

section
variable {D : Lit} {pt : Char}

theorem number_matches {w : List Char} : Matches (numberTree D pt) w ↔ IsNumber D pt w := by
  unfold numberTree IsNumber
  rw [mat_alt]
  have plus : ∀ {v : List Char}, Matches (.lit D (some .plus)) v ↔ v ≠ [] ∧ ∀ c ∈ v, LitSet D c := by
    intro v
    rw [mat_lit]
    simp only [QuantSet, ← List.length_pos_iff]
    exact Iff.rfl
  rw [plus]
  refine or_congr Iff.rfl ?_
  rw [mat_cons]
  constructor
  · rintro ⟨u, v, rfl, h1, h2⟩
    obtain ⟨a, v, rfl, h5, h3⟩ := mat_cons.1 h2
    obtain ⟨v, b, rfl, h6, h4⟩ := mat_cons.1 h3
    rw [mat_nil.1 h4, matches_char.1 h5]
    exact ⟨u, v, by simp, plus.1 h1, plus.1 h6⟩
  · rintro ⟨u, v, rfl, h1, h2⟩
    exact ⟨u, pt :: v, rfl, plus.2 h1, mat_cons.2 ⟨[pt], v, rfl, matches_char.2 rfl,
      mat_cons.2 ⟨v, [], by simp, plus.2 h2, mat_nil.2 rfl⟩⟩⟩

/-- How far a number can be read. -/
theorem number_read {w : List Char} (h : MayRead (numberTree D pt) w) : (∀ c ∈ w, LitSet D c) ∨
    ∃ u v, w = u ++ pt :: v ∧ (u ≠ [] ∧ ∀ c ∈ u, LitSet D c) ∧ ∀ c ∈ v, LitSet D c := by
  rcases read_alt.1 h with h | h
  · exact .inl (read_rep.1 h)
  · rcases read_cons.1 h with h | ⟨u, v, rfl, h1, h2⟩
    · exact .inl (read_rep.1 h)
    · have hu := mat_lit.1 h1
      have hu1 : u ≠ [] := List.length_pos_iff.1 hu.1
      rcases read_cons.1 h2 with h5 | ⟨a, v, rfl, h5, h3⟩
      · rcases read_lit.1 h5 with rfl | ⟨c, rfl, h6⟩
        · exact .inl (by simpa using hu.2)
        · have : c = pt := by simpa [LitSet, eq_comm] using h6
          exact .inr ⟨u, [], by rw [this], ⟨hu1, hu.2⟩, by simp⟩
      · rw [matches_char.1 h5]
        refine .inr ⟨u, v, by simp, ⟨hu1, hu.2⟩, ?_⟩
        rcases read_cons.1 h3 with h6 | ⟨v, b, rfl, h6, h4⟩
        · exact read_rep.1 h6
        · rw [read_nil.1 h4]
          simpa using (mat_lit.1 h6).2

theorem number_regular : RepeatsNonEmpty (numberTree D pt) ∧ CountsAtStart (numberTree D pt) := by
  constructor
  · rw [← repeatsNonEmptyB_iff]; rfl
  · rw [← countsAtStartB_iff]; rfl

/-- The patterns of numbers, of the point and of a character that ends lines. -/
def numberRules (D : Lit) (pt nl : Char) : List Expr := [numberTree D pt, .lit (.mtch pt) none, .lit (.mtch nl) none]

theorem numbers_regular {nl : Char} : Regular (numberRules D pt nl) := by
  intro e he
  simp only [numberRules, List.mem_cons, List.not_mem_nil, or_false] at he
  rcases he with rfl | rfl | rfl
  · exact number_regular
  · exact ⟨trivial, trivial⟩
  · exact ⟨trivial, trivial⟩

private theorem any_number {nl : Char} {w : List Char} : AnyMatch (languages (numberRules D pt nl)) w ↔
    IsNumber D pt w ∨ w = [pt] ∨ w = [nl] := by
  simp only [AnyMatch, languages, numberRules, List.map_cons, List.map_nil, List.mem_cons, List.not_mem_nil, or_false,
    exists_eq_or_imp, exists_eq_left, number_matches, matches_char]

private theorem any_read {nl : Char} {w : List Char} (h : ∃ e ∈ numberRules D pt nl, MayRead e w) :
    MayRead (numberTree D pt) w ∨ w = [] ∨ w = [pt] ∨ w = [nl] := by
  have one : ∀ {c : Char}, MayRead (.lit (.mtch c) none) w → w = [] ∨ w = [c] := by
    intro c h
    rcases read_lit.1 h with h | ⟨d, h, hd⟩
    · exact .inl h
    · have : d = c := by simpa [LitSet, eq_comm] using hd
      exact .inr (by rw [h, this])
  simp only [numberRules, List.mem_cons, List.not_mem_nil, or_false, exists_eq_or_imp, exists_eq_left] at h
  rcases h with h | h | h
  · exact .inl h
  · rcases one h with h | h
    · exact .inr (.inl h)
    · exact .inr (.inr (.inl h))
  · rcases one h with h | h
    · exact .inr (.inl h)
    · exact .inr (.inr (.inr h))

/-- Two characters of lookahead are enough for them. -/
theorem numbers_twoLookahead {nl : Char} : TwoLookahead (numberRules D pt nl) := by
  intro w a b hw _ hr
  have hlen : 0 < w.length := List.length_pos_iff.2 hw
  have hr' : MayRead (numberTree D pt) (w ++ [a, b]) := by
    rcases any_read hr with h | h | h | h
    · exact h
    all_goals
      have := congrArg List.length h
      simp at this
      try omega
  rcases number_read hr' with h | ⟨u, v, h, hu, hv⟩
  · exact .inl (any_number.2 (.inl (.inl ⟨by simp, fun c hc => h c (by
      simp only [List.mem_append, List.mem_cons, List.not_mem_nil, or_false] at hc ⊢
      rcases hc with hc | hc
      · exact .inl hc
      · exact .inr (.inl hc))⟩)))
  · rcases List.eq_nil_or_concat v with rfl | ⟨v', y, rfl⟩
    · -- the point is the last character
      have h1 : (w ++ [a]) ++ [b] = u ++ [pt] := by simpa using h
      have h2 := (List.append_inj' h1 rfl).1
      exact .inl (any_number.2 (.inl (.inl (by rw [h2]; exact hu))))
    · exact .inr (any_number.2 (.inl (.inr ⟨u, _, h, hu, by simp, hv⟩)))

/-- The character at the end of a line closes. -/
theorem numbers_close {nl : Char} (h1 : ¬ LitSet D nl) (h2 : nl ≠ pt) : Closes (numberRules D pt nl) nl := by
  intro u hr
  refine any_number.2 (.inr (.inr ?_))
  rcases any_read hr with h | h | h | h
  · rcases number_read h with h | ⟨a, v, h, ha, hv⟩
    · exact absurd (h nl (by simp)) h1
    · rcases List.eq_nil_or_concat v with rfl | ⟨v', y, rfl⟩
      · have := (List.append_inj' h rfl).2
        simp at this
        exact absurd this h2
      · have h3 : u ++ [nl] = (a ++ pt :: v') ++ [y] := by simpa using h
        have := (List.append_inj' h3 rfl).2
        simp at this
        subst this
        exact absurd (hv nl (by simp)) h1
  · simp at h
  · have := (List.append_inj' (s₁ := u) (s₂ := []) h rfl).2
    simp at this
    exact absurd this h2
  · exact h

end

/-! ## An example, and why the pattern is not `\d+(\.\d+)?` -/

omit [Unicode] in
theorem number_parse : parse .debug "\\d+|\\d+\\.\\d+".toList = .ok (.ok (numberTree (.cls .digit) '.')) := by
  unfold parse
  rw [show scan .debug "\\d+|\\d+\\.\\d+".toList = ⟨[⟨.cls .digit, (0, 2)⟩, ⟨.quantifier .plus, (2, 3)⟩,
    ⟨.operator .vertical, (3, 4)⟩, ⟨.cls .digit, (4, 6)⟩, ⟨.quantifier .plus, (6, 7)⟩, ⟨.mtch '.', (7, 9)⟩,
    ⟨.cls .digit, (9, 11)⟩, ⟨.quantifier .plus, (11, 12)⟩], .eof⟩ by decide +kernel]
  rfl

/-- The tree of `\d+(\.\d+)?`. -/
def optionalTree : Expr := .concat [.lit (.cls .digit) (some .plus),
  .group (.concat [.lit (.mtch '.') none, .lit (.cls .digit) (some .plus)]) (some .questionMark)]

omit [Unicode] in
theorem optional_parse : parse .debug "\\d+(\\.\\d+)?".toList = .ok (.ok optionalTree) := by
  unfold parse
  rw [show scan .debug "\\d+(\\.\\d+)?".toList = ⟨[⟨.cls .digit, (0, 2)⟩, ⟨.quantifier .plus, (2, 3)⟩,
    ⟨.operator .leftParen, (3, 4)⟩, ⟨.mtch '.', (4, 6)⟩, ⟨.cls .digit, (6, 8)⟩, ⟨.quantifier .plus, (8, 9)⟩,
    ⟨.operator .rightParen, (9, 10)⟩, ⟨.quantifier .questionMark, (10, 11)⟩], .eof⟩ by decide +kernel]
  rfl

/-- The lexer with the rules `\d+(\.\d+)?`, `\.` and a line feed. -/
def optionalLexer : Lexer Nat :=
  ⟨⟨0, [⟨0, false, [(.eps, [4]), (.literal (.mtch '.'), [8]), (.literal (.mtch '\n'), [9])]⟩, ⟨1, true, []⟩,
    ⟨2, true, []⟩, ⟨3, false, [(.eps, [5])]⟩,
    ⟨4, false, [(.quantified .plus, [3]), (.literal (.cls .digit), [4])]⟩,
    ⟨5, false, [(.quantified .questionMark, [2]), (.literal (.mtch '.'), [6])]⟩, ⟨6, false, [(.eps, [7])]⟩,
    ⟨7, false, [(.quantified .plus, [5]), (.literal (.cls .digit), [7])]⟩, ⟨8, true, []⟩, ⟨9, true, []⟩]⟩,
    [(2, fun _ => 0), (8, fun _ => 1), (9, fun _ => 2)]⟩

theorem optional_for : LexerFor .debug [("\\d+(\\.\\d+)?".toList, fun _ => 0), ("\\.".toList, fun _ => 1),
    ("\n".toList, fun _ => 2)] [optionalTree, .lit (.mtch '.') none, .lit (.mtch '\n') none] optionalLexer := by
  have h1 : parse .debug "\\.".toList = .ok (.ok (.lit (.mtch '.') none)) := by with_unfolding_all rfl
  have h2 : parse .debug "\n".toList = .ok (.ok (.lit (.mtch '\n') none)) := by with_unfolding_all rfl
  refine ⟨?_, ?_⟩
  · simp only [buildLexer, LexerGenerator.addTokens, LexerGenerator.addToken, optional_parse, h1, h2]
    rfl
  · simp only [List.map_cons, List.map_nil, optional_parse, h1, h2]

/-- The tokens of `1.2.3.4` and a line feed are `1.2`, `.` and `3`.  What is behind is lost: `(\.\d+)?` is read on for as
long as there are points and digits, so `.3.4` and the line feed are put back behind `1.2`, and only `.3` is read again
by the next call. -/
theorem optional_tokens : Tokens optionalLexer "1.2.3.4\n".toList
    [⟨0, "1.2".toList, (0, 3)⟩, ⟨1, ".".toList, (3, 4)⟩, ⟨0, "3".toList, (4, 5)⟩] :=
  ⟨20, 4, ⟨[], [], (5, 0), [], []⟩, by with_unfolding_all rfl⟩

/-- The theorem is false without the lookahead: with `\d+(\.\d+)?` the tokens are not those of maximal munch. -/
theorem c116_optional : ∃ ts, Tokens optionalLexer "1.2.3.4\n".toList ts ∧
    ¬ IsTokenization (languages [optionalTree, .lit (.mtch '.') none, .lit (.mtch '\n') none])
      [("\\d+(\\.\\d+)?".toList, fun _ => 0), ("\\.".toList, fun _ => 1), ("\n".toList, fun _ => 2)]
      "1.2.3.4\n".toList ts := by
  refine ⟨_, optional_tokens, ?_⟩
  rintro ⟨ws, tail, h1, h2⟩
  have h3 : ws.map Prod.fst = ["1.2".toList, ".".toList, "3".toList] := by
    have := congrArg (List.map Prod.fst) h2
    simp only [List.map_map, Function.comp_def, List.map_cons, List.map_nil] at this
    exact this.symm
  have h4 := h1.flatten
  rw [h3] at h4
  have h5 : tail = ['.', '4', '\n'] := List.append_cancel_left (as := "1.2.3".toList) (h4.trans (by rfl))
  refine h1.noMatch ['.'] (by simp) ⟨['4', '\n'], by rw [h5]; rfl⟩ ⟨_, ?_, matches_char.2 rfl⟩
  simp [languages]

/-- The lexer with the rules `\d+|\d+\.\d+`, `\.` and a line feed. -/
def numberLexer : Lexer Nat :=
  ⟨⟨0, [⟨0, false, [(.eps, [3, 5]), (.literal (.mtch '.'), [8]), (.literal (.mtch '\n'), [9])]⟩, ⟨1, true, []⟩,
    ⟨2, true, []⟩, ⟨3, false, [(.quantified .plus, [2]), (.literal (.cls .digit), [3])]⟩,
    ⟨4, false, [(.literal (.mtch '.'), [6])]⟩,
    ⟨5, false, [(.quantified .plus, [4]), (.literal (.cls .digit), [5])]⟩, ⟨6, false, [(.eps, [7])]⟩,
    ⟨7, false, [(.quantified .plus, [2]), (.literal (.cls .digit), [7])]⟩, ⟨8, true, []⟩, ⟨9, true, []⟩]⟩,
    [(2, fun _ => 0), (8, fun _ => 1), (9, fun _ => 2)]⟩

theorem number_for : LexerFor .debug [("\\d+|\\d+\\.\\d+".toList, fun _ => 0), ("\\.".toList, fun _ => 1),
    ("\n".toList, fun _ => 2)] (numberRules (.cls .digit) '.' '\n') numberLexer := by
  have h1 : parse .debug "\\.".toList = .ok (.ok (.lit (.mtch '.') none)) := by with_unfolding_all rfl
  have h2 : parse .debug "\n".toList = .ok (.ok (.lit (.mtch '\n') none)) := by with_unfolding_all rfl
  refine ⟨?_, ?_⟩
  · simp only [buildLexer, LexerGenerator.addTokens, LexerGenerator.addToken, number_parse, h1, h2]
    rfl
  · simp only [List.map_cons, List.map_nil, number_parse, h1, h2, numberRules]

/-- C116 for numbers: every text that ends with a line feed is split into numbers, points and line feeds by maximal
munch. -/
theorem c116_numbers (input : List Char) : ∃ ts, Tokens numberLexer (input ++ ['\n']) ts ∧
    ∀ ts', Tokens numberLexer (input ++ ['\n']) ts' → ts' = ts ∧
      IsTokenization (languages (numberRules (.cls .digit) '.' '\n'))
        [("\\d+|\\d+\\.\\d+".toList, fun _ => 0), ("\\.".toList, fun _ => 1), ("\n".toList, fun _ => 2)]
        (input ++ ['\n']) ts' :=
  c116_tokens number_for numbers_regular numbers_twoLookahead
    (numbers_close (by simp [LitSet, ClassSet]) (by decide)) input

/-- The tokens of `1..2.3.4` and a line feed. -/
example : Tokens numberLexer ("1..2.3.4".toList ++ ['\n'])
    [⟨0, "1".toList, (0, 1)⟩, ⟨1, ".".toList, (1, 2)⟩, ⟨1, ".".toList, (2, 3)⟩, ⟨0, "2.3".toList, (3, 6)⟩,
      ⟨1, ".".toList, (6, 7)⟩, ⟨0, "4".toList, (7, 8)⟩, ⟨2, "\n".toList, (8, 9)⟩] :=
  ⟨20, 8, ⟨[], [], (9, 0), [], []⟩, by with_unfolding_all rfl⟩

/-- Without the line feed the last token is lost if it has a point behind it. -/
example : Tokens numberLexer "1.".toList [] := ⟨20, 8, ⟨[], ['1'], (0, 1), [(1, '.')], []⟩, by with_unfolding_all rfl⟩

/-- One character of lookahead is not enough for these patterns. -/
example : ¬ OneLookahead (numberRules (.cls .digit) '.' '\n') := by
  intro h
  have h1 := h ['1'] '.' (by simp) ⟨_, List.mem_cons_self .., number_matches.2 (.inl ⟨by simp, by simp [LitSet, ClassSet]⟩)⟩
    ⟨_, List.mem_cons_self .., .altR (.later (mat_lit.2 ⟨by simp [QuantSet], by simp [LitSet, ClassSet]⟩) (.here (.char rfl)))⟩
  rcases any_number.1 h1 with (h1 | ⟨u, v, h1, _, h2, _⟩) | h1 | h1
  · have := h1.2 '.' (by simp)
    simp [LitSet, ClassSet] at this
  · match u, h1 with
    | [], h1 => simp at h1
    | [a], h1 =>
      simp at h1
      exact h2 h1.2
    | a :: b :: u, h1 => simp at h1
  · simp at h1
  · simp at h1

end Pango.Props
