import Verif.Props.RegexParser
import Verif.Proofs.RegexAccept

/-!
# Exactly which patterns are accepted (C06), and on which the parser crashes (C05)
-/

namespace Pango.Props

open Pango Pango.Spec Pango.Regex

/-- C06 as far as it holds, exactly.  Missing: that nothing stands behind the expression, that sequences and bracket
groups have an item, and that nothing in a pattern is an overflow.

For every pattern and build profile, the parser returns a tree if and only if: the pattern has no tokens and the tree is
the empty one; or the tokens of the pattern begin with an expression of this tree, in which sequences and bracket
groups may be empty, and either a right parenthesis follows, with anything behind it, or nothing follows, the scanner
does not crash there, and the last token is not a bar. -/
theorem c06_exact_partial (p : Profile) (input : List Char) (e : Expr) :
    parse p input = .ok (.ok e) ↔
      ((scan p input).kinds = [] ∧ (scan p input).stop = .eof ∧ e = .empty) ∨
      ∃ used rest, (scan p input).kinds = used ++ rest ∧ Expression ⟨true, true⟩ e used ∧
        (rest.head? = some (.operator .rightParen) ∨
          rest = [] ∧ (scan p input).stop = .eof ∧
            ∃ init last, used = init ++ [last] ∧ last ≠ .operator .vertical) := by
  have hparse : parse p input = .ok (.ok e) ↔ ∃ s', parseScan (scan p input) = .ok e s' := by
    unfold parse
    cases parseScan (scan p input) <;> simp
  rw [hparse]
  generalize scan p input = sc
  obtain ⟨toks, stop⟩ := sc
  cases toks with
  | nil =>
    have hr : ∀ used rest, ([] : List TokenKind) = used ++ rest →
        ¬ (rest.head? = some (.operator .rightParen) ∨ rest = [] ∧ stop = .eof ∧
            ∃ init last, used = init ++ [last] ∧ last ≠ .operator .vertical) := by
      intro used rest h h'
      obtain ⟨rfl, rfl⟩ := List.append_eq_nil_iff.1 h.symm
      simp at h'
    constructor
    · rintro ⟨s', h⟩
      left
      unfold parseScan peekTok at h
      cases stop <;> simp at h
      exact ⟨rfl, rfl, h.1.symm⟩
    · rintro (⟨_, h, rfl⟩ | ⟨used, rest, h1, _, h2⟩)
      · simp only at h
        subst h
        exact ⟨_, rfl⟩
      · exact absurd h2 (hr used rest h1)
  | cons t r =>
    have hk : ∀ c st, (⟨t :: r, st, c⟩ : PState).kinds = (⟨t :: r, stop⟩ : Scan).kinds := fun _ _ => rfl
    have hlen : ∀ st c, 5 * (⟨t :: r, st, c⟩ : PState).kinds.length + 5 ≤ parseFuel (t :: r).length := by
      intro st c
      simp [PState.kinds, parseFuel]
    have hrun : parseScan ⟨t :: r, stop⟩ = expression (parseFuel (t :: r).length) ⟨t :: r, stop, none⟩ := rfl
    rw [hrun]
    constructor
    · rintro ⟨s', h⟩
      right
      have g := (good_parser (parseFuel (t :: r).length)).1 ⟨t :: r, stop, none⟩ (hlen _ _)
      rw [h] at g
      obtain ⟨_, ks, g1, g2, g3⟩ := g
      refine ⟨ks, s'.kinds, g2, g1, ?_⟩
      rcases g3 with g3 | g3
      · have h0 : s'.kinds = [] := by simpa using g3
        obtain ⟨c1, c2⟩ := closed_of_end _ _ _ _ (hlen _ _) h h0
        rw [h0, List.append_nil] at g2
        rw [g2] at c1
        exact .inr ⟨h0, c2, c1⟩
      · exact .inl g3
    · rintro (⟨h, _⟩ | ⟨used, rest, h1, h2, h3⟩)
      · simp [Scan.kinds] at h
      · have hends : EndsExpr rest := by
          rcases h3 with h3 | h3
          · exact .inr h3
          · exact .inl (by simp [h3.1])
        have hne : rest ≠ [] ∨ Closed used := by
          rcases h3 with h3 | h3
          · left
            rintro rfl
            simp at h3
          · exact .inr h3.2.2
        obtain ⟨s', y1, y2, y3⟩ := yields_expression h2 (s := ⟨t :: r, .eof, none⟩) h1 rfl hends (fun _ => hne)
          (hlen _ _)
        rcases h3 with h3 | ⟨_, h3, _⟩
        · obtain ⟨_, _, b3⟩ := (blind_parser _).1.1 _ _ _ _ y1
          refine ⟨_, b3 ?_ stop⟩
          intro h0
          rw [← y2] at h3
          simp [PState.kinds, h0] at h3
        · simp only at h3
          subst h3
          exact ⟨s', y1⟩

/-- `a)(` is accepted with the tree of `a`, and `|a` with an empty sequence, but `a|` is not accepted. -/
example : (∃ e, parse .debug "a)(".toList = .ok (.ok e)) ∧ (∃ e, parse .debug "|a".toList = .ok (.ok e)) ∧
    ¬ ∃ e, parse .debug "a|".toList = .ok (.ok e) := by
  refine ⟨⟨_, (c06_exact_partial _ _ (.lit (.mtch 'a') none)).2 (.inr ⟨[.mtch 'a'], _, rfl,
      .sub (.one (.mtch (ks := [.mtch 'a']) (kq := []) (.chr 'a') .none)), .inl rfl⟩)⟩,
    ⟨_, (c06_exact_partial _ _ (.alt (.concat []) (.lit (.mtch 'a') none))).2 (.inr ⟨_, [], (List.append_nil _).symm,
      .alt (es := []) (.none rfl) (.sub (.one (.mtch (ks := [.mtch 'a']) (kq := []) (.chr 'a') .none))),
      .inr ⟨rfl, rfl, [.operator .vertical], _, rfl, by simp⟩⟩)⟩, ?_⟩
  rintro ⟨e, h⟩
  rcases (c06_exact_partial _ _ e).1 h with ⟨h, _⟩ | ⟨used, rest, h1, _, h2⟩
  · exact absurd h (by decide)
  · have hk : (scan .debug "a|".toList).kinds = [.mtch 'a', .operator .vertical] := by decide
    rw [hk] at h1
    rcases h2 with h2 | ⟨rfl, _, init, last, rfl, h3⟩
    · have := List.mem_append_right used (List.mem_of_mem_head? h2)
      rw [← h1] at this
      simp at this
    · rw [List.append_nil] at h1
      have := congrArg List.getLast? h1
      rw [List.getLast?_concat] at this
      simp at this
      exact h3 this.symm

/-- C05 as far as it holds, exactly.  Missing: that there is never a crash.

For every pattern and build profile, the parser crashes if and only if the scanner does, and either the tokens before
the number that overflows can be continued to an expression, or all but the last of them can, the last but one of them is
the `-` of a range and the last one stands in place of the end of the range. -/
theorem c05_exact_partial (p : Profile) (input : List Char) :
    parse p input = .panic ↔ (scan p input).stop = .panic ∧
      ∃ pre post, (scan p input).kinds = pre ++ post ∧
        (∃ more e, Expression ⟨true, true⟩ e (pre ++ more)) ∧
        (post = [] ∨ post.length = 1 ∧ pre.getLast? = some (.operator .minus)) := by
  have hparse : parse p input = .panic ↔ parseScan (scan p input) = .panic := by
    unfold parse
    cases parseScan (scan p input) <;> simp
  rw [hparse]
  have hg := parse_good p input
  generalize hsc : scan p input = sc
  rw [hsc] at hg
  obtain ⟨toks, stop⟩ := sc
  by_cases hs : stop = .panic
  · subst hs
    rw [parseScan_panic_iff]
    simp only [true_and]
    exact Iff.rfl
  · refine iff_of_false ?_ fun h => hs h.1
    intro h
    rw [h] at hg
    exact hs hg

/-- The parser crashes on `[a-){4294967296}`, although a right parenthesis cannot end a range, and on `a(b{4294967296}`; it
does not on `a){4294967296}` and on `*{4294967296}`. -/
example : parse .debug "[a-){4294967296}".toList = .panic ∧ parse .debug "a(b{4294967296}".toList = .panic ∧
    parse .debug "a){4294967296}".toList ≠ .panic ∧ parse .debug "*{4294967296}".toList ≠ .panic := by
  have s1 : scan .debug "[a-){4294967296}".toList = ⟨[⟨.operator .leftBracket, (0, 1)⟩, ⟨.mtch 'a', (1, 2)⟩,
    ⟨.operator .minus, (2, 3)⟩, ⟨.operator .rightParen, (3, 4)⟩], .panic⟩ := by decide
  have s2 : scan .debug "a(b{4294967296}".toList = ⟨[⟨.mtch 'a', (0, 1)⟩, ⟨.operator .leftParen, (1, 2)⟩,
    ⟨.mtch 'b', (2, 3)⟩], .panic⟩ := by decide
  have s3 : scan .debug "a){4294967296}".toList = ⟨[⟨.mtch 'a', (0, 1)⟩, ⟨.operator .rightParen, (1, 2)⟩],
    .panic⟩ := by decide
  have s4 : scan .debug "*{4294967296}".toList = ⟨[⟨.quantifier .asterisk, (0, 1)⟩], .panic⟩ := by decide
  refine ⟨(c05_exact_partial _ _).2 ?_, (c05_exact_partial _ _).2 ?_, ?_, ?_⟩
  · rw [s1]
    exact ⟨rfl, [.operator .leftBracket, .mtch 'a', .operator .minus], [.operator .rightParen], rfl,
      ⟨[.mtch 'b', .operator .rightBracket], _,
        .sub (.one (.mtch (kq := []) (.group (.one (.range 'a' 'b'))) .none))⟩, .inr ⟨rfl, rfl⟩⟩
  · rw [s2]
    exact ⟨rfl, [.mtch 'a', .operator .leftParen, .mtch 'b'], [], rfl, ⟨[.operator .rightParen], _,
      .sub (.more (ks := [.mtch 'a']) (.mtch (ks := [.mtch 'a']) (kq := []) (.chr 'a') .none) (.one (.group (ks := [.mtch 'b'])
        (kq := []) (.sub (.one (.mtch (ks := [.mtch 'b']) (kq := []) (.chr 'b') .none))) .none)))⟩, .inl rfl⟩
  · unfold parse
    rw [s3]
    simp [show parseScan ⟨[⟨.mtch 'a', (0, 1)⟩, ⟨.operator .rightParen, (1, 2)⟩], .panic⟩ =
      .ok (.lit (.mtch 'a') none) ⟨[⟨.operator .rightParen, (1, 2)⟩], .panic, some (some ⟨.mtch 'a', (0, 1)⟩)⟩ from rfl]
  · unfold parse
    rw [s4]
    simp [show parseScan ⟨[⟨.quantifier .asterisk, (0, 1)⟩], .panic⟩ =
      .err [⟨.matchCharacterClassLeftBracket, (0, 1)⟩] from rfl]

end Pango.Props
