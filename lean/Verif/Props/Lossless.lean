import Verif.Proofs.Steady
import Verif.Props.Local
import Verif.Props.Words

/-!
# C13, C18, C66, C67 for lexers that lose nothing

A lexer may put back what it has read behind a match.  As long as all of it is read again, the tokens up to the first
`None` depend on the rest of the text only.
-/

namespace Pango.Props

open Pango Pango.Lex Pango.Fsm Pango.Regex Pango.Spec

variable [Unicode] {K : Type} {p : Profile} {rules : List (List Char × (List Char → K))} {es : List Expr} {l : Lexer K}

/-- If nothing is put back, nothing is lost. -/
theorem _root_.Pango.Spec.PutsNothingBack.losesNothing (ha : PutsNothingBack es) : LosesNothing es :=
  Lex.Keeps.lossless ha

/-- The calls up to the first `None`, if nothing is lost. -/
theorem scans_steady (hl : LexerFor p rules es l) (ha : LosesNothing es) {input : List Char} {as : List (Option (Tok K))}
    (hp : Plain as) :
    Scans es rules input as ↔ Steady (taken es) (Readable es) (Passes es) (kindAt rules) 0 input as :=
  calls_steady ha (fun _ _ h => hl.toBuilt.readable_mono h) (passes_mono es)
    (fun _ h => hl.toBuilt.readable_taken h) (.inl rfl) hp (.new input)

/-- C13 for all lexers that lose nothing.  Missing: the other lexers, for which the claim is false in general, and the
calls after the first `None`. -/
theorem c13_lossless_partial (hl : LexerFor p rules es l) (ha : LosesNothing es) (input : List Char) (ts : List (Tok K))
    (ht : Tokens l input ts) : ∀ t ∈ ts, Longest (taken es) (input.drop t.pos.1) t.source := by
  rw [c23_tokens_partial p rules es l hl, scans_steady hl ha (plain_none _)] at ht
  intro t h
  exact ((ht.sources (fun _ _ h => hl.toBuilt.readable_mono h) (fun _ h => hl.toBuilt.readable_taken h)).1 t h).2.2

/-- C18 for the same lexers.  Missing: the other lexers, for which the claim is false in general, and the calls after
the first `None`. -/
theorem c18_lossless_partial (hl : LexerFor p rules es l) (ha : LosesNothing es) (input : List Char) (ts : List (Tok K))
    (ht : Tokens l input ts) :
    (∀ t ∈ ts, t.source = (input.drop t.pos.1).take (t.pos.2 - t.pos.1)) ∧
    (ts.map Tok.source).flatten ++ input.drop (endOf 0 ts) = input := by
  rw [c23_tokens_partial p rules es l hl, scans_steady hl ha (plain_none _)] at ht
  obtain ⟨h1, h2, _⟩ := ht.sources (fun _ _ h => hl.toBuilt.readable_mono h) (fun _ h => hl.toBuilt.readable_taken h)
  exact ⟨fun t h => (h1 t h).2.1, h2⟩

/-- C66 for the same lexers.  Missing: the other lexers, for which the claim is false in general. -/
theorem c66_lossless_partial (hl : LexerFor p rules es l) (ha : LosesNothing es) (input : List Char)
    (ts ts' : List (Tok K)) (h : Tokens l input (ts ++ ts')) :
    Tokens l (input.drop (endOf 0 ts)) (ts'.map (earlier (endOf 0 ts))) := by
  rw [c23_tokens_partial p rules es l hl, scans_steady hl ha (plain_none _)] at h ⊢
  rw [List.map_append, List.append_assoc, steady_append] at h
  have := h.2.moved (n := endOf 0 ts) (b := 0) (c := 0) (Nat.le_refl _) (by omega)
  simpa [Function.comp_def, Lex.moved, earlier] using this

/-- The other direction of C66 for the same lexers. -/
theorem c66_lossless_join_partial (hl : LexerFor p rules es l) (ha : LosesNothing es) (input : List Char)
    (ts us : List (Tok K)) (h : FirstTokens l input ts) (hu : Tokens l (input.drop (endOf 0 ts)) us) :
    Tokens l input (ts ++ us.map (later (endOf 0 ts))) := by
  rw [firstTokens_scans hl, scans_steady hl ha (plain_some ts)] at h
  rw [c23_tokens_partial p rules es l hl, scans_steady hl ha (plain_none _)] at hu ⊢
  rw [List.map_append, List.append_assoc, steady_append]
  refine ⟨h, ?_⟩
  have := hu.moved (n := 0) (b := endOf 0 ts) (c := endOf 0 ts) (Nat.le_refl _) (by omega)
  simpa [Function.comp_def, Lex.moved, later] using this

/-- C67 for the same lexers.  Missing: the other lexers, for which the claim is false in general. -/
theorem c67_lossless_partial (hl : LexerFor p rules es l) (ha : LosesNothing es) (c : Char) (hc : ∀ e ∈ es, ¬ Uses e c)
    (u v v' : List Char) (ts : List (Tok K)) (h : Tokens l (u ++ c :: v) ts) : Tokens l (u ++ c :: v') ts := by
  rw [c23_tokens_partial p rules es l hl, scans_steady hl ha (plain_none _)] at h ⊢
  refine h.separated (passes_mono es) (passes_dead hl) (fun _ _ h => hl.toBuilt.readable_mono h)
    (fun _ h => hl.toBuilt.readable_taken h) ?_
  intro w hw hm
  obtain ⟨e, he, hu⟩ := Readable.uses hw c hm
  exact hc e he hu

/-- The first token of a text is what stands at its position, and the longest match. -/
theorem first_token (hl : LexerFor p rules es l) {s : List Char} {t : Tok K} {as : List (Option (Tok K))}
    (h : Scans es rules s (some t :: as)) : t.pos.2 = t.source.length ∧ Longest (taken es) s t.source := by
  have mono : ∀ w v, Readable es (w ++ v) → Readable es w := fun _ _ h => hl.toBuilt.readable_mono h
  have live : ∀ w, AnyMatch (taken es) w → Readable es w := fun _ h => hl.toBuilt.readable_taken h
  have left : (Scanner.new s).left = numbered 0 s := rfl
  cases h with
  | next he hc _ =>
    cases hc with
    | @token w back x i k h1 h2 h3 h4 h5 h6 =>
      obtain ⟨rest, hrest⟩ := h1
      have hne : w ≠ [] := fun h0 => h4.nonempty (by rw [h0]; rfl)
      have hsplit : numbered 0 s = w ++ (back ++ [x] ++ rest) := by rw [← left, ← hrest]; simp
      obtain ⟨hw1, _⟩ := numbered_split hsplit
      have hs : s = word w ++ (word back ++ x.2 :: word rest) := by
        have := congrArg word hsplit
        simpa using this
      refine ⟨?_, ?_⟩
      · have : stop w = 0 + (word w).length := by rw [← stop_numbered (by simpa using hne), ← hw1]
        simpa [Scanner.new] using this
      · have h7 : FoundIn (taken es) (Readable es) (word w) (word back ++ x.2 :: word rest) :=
          .inr ⟨_, _, _, rfl, by simpa using h2, by simpa using h3, by simpa using h4⟩
        rw [hs]
        simpa [Scanner.new] using h7.longest mono live (by simpa using hne) h5.anyMatch
    | @last i k h1 h2 h3 h4 =>
      rw [left] at h1 h2 h3
      rw [word_numbered] at h2 h3
      have hne : s ≠ [] := by
        rintro rfl
        exact h1 rfl
      refine ⟨?_, ?_⟩
      · simp only [Scanner.new, left, List.nil_append, word_numbered]
        rw [show (Scanner.mk [] [] (numbered 0 s) 0).left = numbered 0 s from rfl, stop_numbered hne]
        simp
      · simp only [Scanner.new, List.nil_append]
        rw [show (Scanner.mk [] [] (numbered 0 s) 0).left = numbered 0 s from rfl, word_numbered]
        exact ⟨hne, List.prefix_refl _, h3.anyMatch, fun v hv _ => hv.length_le⟩

/-- C66 is the strongest of the claims: for every lexer, if the tokens behind a token are always those of the text behind
it, then C13 and C18 hold up to the first `None`. -/
theorem c66_implies (hl : LexerFor p rules es l)
    (h66 : ∀ (input : List Char) (ts ts' : List (Tok K)), Tokens l input (ts ++ ts') →
      Tokens l (input.drop (endOf 0 ts)) (ts'.map (earlier (endOf 0 ts))))
    (input : List Char) (ts : List (Tok K)) (ht : Tokens l input ts) :
    ∀ t ∈ ts, t.source = (input.drop t.pos.1).take (t.pos.2 - t.pos.1) ∧
      Longest (taken es) (input.drop t.pos.1) t.source := by
  intro t hmem
  obtain ⟨ts1, ts2, rfl⟩ := List.append_of_mem hmem
  have hpos : t.pos.1 = endOf 0 ts1 := by
    obtain ⟨fuel, n, it, h⟩ := ht
    have := c17_positions _ _ _ _ _ _ (lexAll_iff_calls.1 ⟨n, h⟩)
    have go : ∀ (ts : List (Tok K)) (start : Nat), Contiguous input start (returned ((ts ++ t :: ts2).map some ++ [none])) →
        t.pos.1 = endOf start ts := by
      intro ts
      induction ts with
      | nil =>
        intro start h
        simp only [returned, List.nil_append, List.map_cons, List.cons_append, List.filterMap_cons, id, Contiguous] at h
        exact h.1
      | cons u ts ih =>
        intro start h
        simp only [returned, List.map_cons, List.cons_append, List.filterMap_cons, id, Contiguous] at h
        exact ih _ h.2.2.2
    exact go ts1 0 this
  have h1 := h66 input ts1 (t :: ts2) ht
  rw [c23_tokens_partial p rules es l hl] at h1
  obtain ⟨h2, h3⟩ := first_token hl (t := earlier (endOf 0 ts1) t) h1
  rw [← hpos] at h2 h3
  simp only [earlier] at h2 h3
  refine ⟨?_, h3⟩
  rw [h2]
  exact List.prefix_iff_eq_take.1 h3.isPrefix

/-! ## Examples -/

/-- Nothing is lost with the rules `a` and `abc`, although `b` is put back behind `a`. -/
theorem early_lossless : LosesNothing earlyTrees := by
  intro w back x w' back' x' r h h' hb
  have hr : Readable (["a".toList, "abc".toList].map wordTree) (w ++ back) := h.live
  have hl : Longest (taken (["a".toList, "abc".toList].map wordTree)) (w ++ back) w := h.longest
  have hn : [] ∉ ["a".toList, "abc".toList] := by decide
  have hne := h'.longest.nonempty
  have hlen : 2 ≤ back.length := by
    have := List.length_pos_iff.2 hne
    rw [hb]
    simp
    omega
  have hw := List.length_pos_iff.2 hl.nonempty
  have hall : w ++ back = "abc".toList := by
    rcases readable_words.1 hr with h0 | ⟨u, hu, h0⟩
    · exact absurd (List.append_eq_nil_iff.1 h0).1 hl.nonempty
    · simp only [List.mem_cons, List.not_mem_nil, or_false] at hu
      rcases hu with rfl | rfl
      · have := h0.length_le
        simp at this
        omega
      · exact h0.eq_of_length_le (by simp; omega)
  have h1 := hl.longest (w ++ back) (List.prefix_refl _) ((anyMatch_words hn).2 (by rw [hall]; decide))
  simp at h1
  omega

/-- The tokens of `aabaabc` are `a`, `a` and no more.  The `b` in the middle is put back. -/
theorem early_stops : Tokens early "aabaabc".toList [⟨0, ['a'], (0, 1)⟩, ⟨0, ['a'], (1, 2)⟩] :=
  ⟨10, 5, _, by with_unfolding_all rfl⟩

/-- So the theorems apply, and those before did not. -/
example : LosesNothing earlyTrees ∧ ¬ PutsNothingBack earlyTrees ∧
    Tokens early "abaabc".toList [⟨0, ['a'], (0, 1)⟩] ∧ Longest (taken earlyTrees) "abaabc".toList ['a'] := by
  refine ⟨early_lossless, fun h => ?_, ?_, ?_⟩
  · have h1 : FirstTokens early ("ab".toList ++ "d".toList) [⟨0, ['a'], (0, 1)⟩] := ⟨10, _, by with_unfolding_all rfl⟩
    have h2 : FirstTokens early ("ab".toList ++ "c".toList) [⟨1, "abc".toList, (0, 3)⟩] :=
      ⟨10, _, by with_unfolding_all rfl⟩
    have h3 := (c65_exact_partial early_for).2 h "ab".toList "d".toList "c".toList _ h1 (by decide)
    have k2 := (c23_calls_partial _ _ _ _ early_for _ _ _).1 h2
    have k3 := (c23_calls_partial _ _ _ _ early_for _ _ _).1 h3
    exact absurd (c23_unique _ _ _ _ early_for _ _ _ k2.2 k3.2 rfl) (by simp)
  · exact c66_lossless_partial early_for early_lossless "aabaabc".toList [⟨0, ['a'], (0, 1)⟩] [⟨0, ['a'], (1, 2)⟩]
      early_stops
  · exact c13_lossless_partial early_for early_lossless _ _ early_stops ⟨0, ['a'], (1, 2)⟩ (by simp)

/-- What is behind an `x` does not matter. -/
example (v : List Char) : Tokens early ("aab".toList ++ 'x' :: v) [⟨0, ['a'], (0, 1)⟩, ⟨0, ['a'], (1, 2)⟩] := by
  have h : Tokens early ("aab".toList ++ 'x' :: []) [⟨0, ['a'], (0, 1)⟩, ⟨0, ['a'], (1, 2)⟩] :=
    ⟨10, 5, _, by with_unfolding_all rfl⟩
  refine c67_lossless_partial early_for early_lossless 'x' ?_ _ _ _ _ h
  have lit : ∀ d : Char, d ≠ 'x' → ¬ Uses (.lit (.mtch d) none) 'x' := by
    intro d hd h
    cases h with
    | lit h => exact hd h.symm
  intro e he h
  simp only [earlyTrees, List.mem_cons, List.not_mem_nil, or_false] at he
  rcases he with rfl | rfl
  · exact lit _ (by decide) h
  · cases h with
    | part hm h =>
      simp only [List.mem_cons, List.not_mem_nil, or_false] at hm
      rcases hm with rfl | rfl | rfl
      · exact lit _ (by decide) h
      · exact lit _ (by decide) h
      · exact lit _ (by decide) h

/-- With the rules `a`, `abcd`, `b` and `c` something is lost. -/
example : ¬ LosesNothing lossyTrees := by
  intro h
  have h1 := c66_lossless_partial lossy_for h "abcxa".toList [⟨0, ['a'], (0, 1)⟩] _ lossy_tokens
  have h2 : Tokens lossy "bcxa".toList [⟨2, ['b'], (0, 1)⟩, ⟨3, ['c'], (1, 2)⟩] :=
    ⟨10, 5, _, by with_unfolding_all rfl⟩
  have h3 := congrArg List.length (tokens_unique h1 h2)
  simp at h3

end Pango.Props
