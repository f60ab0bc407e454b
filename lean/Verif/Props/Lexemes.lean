import Verif.Props.Escapes

/-!
# C54: the tokens of a pattern and their texts
-/

namespace Pango.Props

open Pango Pango.Regex

/-- Specification: the characters that are tokens of their own. -/
def signTable : List (Char × TokenKind) :=
  [('.', .cls .wildcard), ('[', .operator .leftBracket), (']', .operator .rightBracket),
   ('(', .operator .leftParen), (')', .operator .rightParen), ('^', .operator .carret),
   ('|', .operator .vertical), ('-', .operator .minus), ('*', .quantifier .asterisk),
   ('+', .quantifier .plus), ('?', .quantifier .questionMark)]

/-- Specification: the tokens of the pattern syntax and their texts. -/
inductive Lexeme : TokenKind → List Char → Prop
  | sign {c : Char} {k : TokenKind} : (c, k) ∈ signTable → Lexeme k [c]
  | plain {c : Char} : (∀ k, (c, k) ∉ signTable) → c ≠ '\\' → c ≠ '{' → Lexeme (.mtch c) [c]
  | escape {c : Char} {k : TokenKind} : (c, k) ∈ escapeTable → Lexeme k ['\\', c]
  | control {c m : Char} : LetterAt c m.toNat → Lexeme (.mtch m) ['\\', 'c', c]
  | hex2 {s : List Char} {m : Char} : HexNumeral s 2 m.toNat → Lexeme (.mtch m) ('\\' :: 'x' :: s)
  | hex4 {s : List Char} {m : Char} : HexNumeral s 4 m.toNat → Lexeme (.mtch m) ('\\' :: 'u' :: s)
  | braced {s : List Char} {n : Nat} {m : Char} : HexNumeral s n m.toNat → 4 ≤ n →
      Lexeme (.mtch m) ('\\' :: 'u' :: '{' :: s ++ ['}'])
  | bounds {b : Bounds} {q : Quant} : Bounds.Means b (.quantifier q) → Lexeme (.quantifier q) b.text

/-- The part of the pattern in the span of a token. -/
def textOf (input : List Char) (t : Token) : List Char := (input.drop t.pos.1).take (t.pos.2 - t.pos.1)

/-- C54 as stated: the part of the pattern in the span of a token that is not invalid is a text of that
token. -/
def TokensAreLexemes : Prop :=
  ∀ p input t, t ∈ (scan p input).toks → t.kind ≠ .invalid → Lexeme t.kind (textOf input t)

/-- C54 is false: `\u4` is the character with code 4, although four digits are required. -/
theorem c54_false : ¬ TokensAreLexemes := by
  intro h
  have e : (scan .release "\\u4".toList).toks = [⟨.mtch (Char.ofNat 4), (0, 3)⟩] := by decide
  have := h .release "\\u4".toList ⟨.mtch (Char.ofNat 4), (0, 3)⟩ (by rw [e]; simp) (by simp)
  have e2 : textOf "\\u4".toList ⟨.mtch (Char.ofNat 4), (0, 3)⟩ = ['\\', 'u', '4'] := rfl
  rw [e2] at this
  generalize hk : TokenKind.mtch (Char.ofNat 4) = k at this
  generalize ht : ['\\', 'u', '4'] = txt at this
  cases this with
  | sign _ => simp at ht
  | plain _ _ _ => simp at ht
  | escape _ => simp at ht
  | control _ => simp at ht
  | hex2 _ => simp at ht
  | @hex4 s m h =>
    have : ∀ {s n v}, HexNumeral s n v → s.length = n := by
      intro s n v h
      induction h with
      | nil => rfl
      | snoc _ _ ih => simp [ih]
    have := this h
    simp only [List.cons.injEq, true_and] at ht
    rw [← ht] at this
    simp at this
  | @braced s n m _ h => simp at ht
  | bounds _ => simp at hk

/-- The tokens whose text is not one of the syntax, but which are read all the same. -/
inductive Odd : TokenKind → List Char → Prop
  /-- `\u` with a wrong number of digits. -/
  | digits {s : List Char} {n v : Nat} {m : Char} : HexNumeral s n v → 0 < n → n ≠ 4 →
      m.toNat = v % 2 ^ 32 → Odd (.mtch m) ('\\' :: 'u' :: s)
  /-- `\u{…}` with a number that does not fit in 32 bits. -/
  | braced {s : List Char} {n v : Nat} {m : Char} : HexNumeral s n v → 8 < n → m.toNat = v % 2 ^ 32 →
      Odd (.mtch m) ('\\' :: 'u' :: '{' :: s ++ ['}'])
  /-- Bounds that overflow while they are read. -/
  | bounds {b : Bounds} {q : Quant} : (∃ s ∈ b.numerals, ¬ NoOverflowWindow s) →
      Odd (.quantifier q) b.text

theorem spanMap_parts {β : Type} (f : Char → Option β) (cs : List Char) :
    ∃ pre, cs = pre ++ (spanMap f cs).2 ∧ pre.map f = (spanMap f cs).1.map some ∧
      ∀ c, (spanMap f cs).2.head? = some c → f c = none := by
  induction cs with
  | nil => exact ⟨[], rfl, rfl, by simp [spanMap]⟩
  | cons c cs ih =>
    simp only [spanMap]
    cases h : f c with
    | none => exact ⟨[], rfl, rfl, by simpa using h⟩
    | some b =>
      obtain ⟨pre, h1, h2, h3⟩ := ih
      exact ⟨c :: pre, by rw [List.cons_append, ← h1], by simp [h, h2], h3⟩

/-- Reading hexadecimal digits, behind those already read. -/
theorem hexFold {s : List Char} {n v : Nat} (h : HexNumeral s n v) : ∀ (pre : List Char) (ds : List Nat)
    (a : Nat), pre.map hexDigit? = ds.map some → a = v % 2 ^ 32 → ∃ v',
    HexNumeral (s ++ pre) (n + ds.length) v' ∧
    ds.foldl (fun (acc : Nat × Nat) d => (acc.1 + 1, (acc.2 * 16) % u32Size + d)) (n, a) =
      (n + ds.length, v' % 2 ^ 32) := by
  intro pre
  induction pre generalizing s n v with
  | nil =>
    intro ds a hd ha
    have : ds = [] := by simpa using hd.symm
    subst this
    exact ⟨v, by simpa using h, by simp [ha]⟩
  | cons c pre ih =>
    intro ds a hd ha
    cases ds with
    | nil => simp at hd
    | cons d ds =>
      simp only [List.map_cons, List.cons.injEq] at hd
      have hc := hexDigit_conv hd.1
      have hlt := hexDigit_lt hc
      obtain ⟨v', h1, h2⟩ := ih (h.snoc hc) ds ((a * 16) % u32Size + d) hd.2
        (by simp only [u32Size]; omega)
      refine ⟨v', by simpa [Nat.add_assoc, Nat.add_comm 1] using h1, ?_⟩
      rw [List.foldl_cons, h2, List.length_cons, show n + 1 + ds.length = n + (ds.length + 1) by omega]

theorem takeHexL_start (cs : List Char) : ∃ s n v, cs = s ++ (takeHexL cs none).2 ∧ HexNumeral s n v ∧
    (takeHexL cs none).1 = (n, v % 2 ^ 32) := by
  obtain ⟨pre, h1, h2, _⟩ := spanMap_parts hexDigit? cs
  obtain ⟨v', h3, h4⟩ := hexFold .nil pre _ 0 h2 rfl
  rw [List.nil_append, Nat.zero_add] at h3
  exact ⟨pre, _, v', h1, h3, by simp only [takeHexL, h4, Nat.zero_add]⟩

theorem takeHexL_more {c : Char} {d : Nat} (hc : HexDigit c d) (cs : List Char) : ∃ s n v,
    c :: cs = s ++ (takeHexL cs (some d)).2 ∧ HexNumeral s n v ∧ 0 < n ∧
    (takeHexL cs (some d)).1 = (n, v % 2 ^ 32) := by
  obtain ⟨pre, h1, h2, _⟩ := spanMap_parts hexDigit? cs
  have hlt := hexDigit_lt hc
  obtain ⟨v', h3, h4⟩ := hexFold (HexNumeral.nil.snoc hc) pre _ d h2 (by omega)
  refine ⟨c :: pre, _, v', ?_, h3, by omega, by simp only [takeHexL]; exact h4⟩
  rw [List.cons_append]
  exact congrArg (c :: ·) h1

theorem charFromU32_toNat {n : Nat} {c : Char} (h : charFromU32 n = some c) : c.toNat = n := by
  unfold charFromU32 at h
  split at h
  · rename_i hv
    have h32 : n < 4294967296 := by
      rcases hv with hv | hv <;> omega
    simp only [Option.some.injEq] at h
    rw [← h]
    simp [Char.ofNatAux, Char.toNat]
  · simp at h

theorem handleControlL_lexeme {cs : List Char} {m : Char} {l : Left}
    (h : handleControlL cs = (some m, l)) :
    ∃ c, cs = c :: l.cs ∧ LetterAt c m.toNat := by
  unfold handleControlL at h
  split at h
  · simp at h
  · rename_i c cs
    split at h
    · rename_i hc
      simp only [Prod.mk.injEq] at h
      obtain ⟨h, rfl⟩ := h
      refine ⟨c, rfl, ?_⟩
      obtain ⟨i, hi⟩ := letterAt_of hc
      rw [charFromU32_toNat h, (letterAt_cases hi).2.1]
      exact hi
    · simp at h

theorem handleXL_lexeme {cs : List Char} {m : Char} {l : Left} (h : handleXL cs = (some m, l)) :
    ∃ s, cs = s ++ l.cs ∧ HexNumeral s 2 m.toNat := by
  obtain ⟨s, n, v, h1, h2, h3⟩ := takeHexL_start cs
  unfold handleXL at h
  simp only [h3] at h
  split at h
  · simp at h
  · rename_i hn
    simp only [ne_eq, Decidable.not_not] at hn
    subst hn
    simp only [Prod.mk.injEq] at h
    obtain ⟨h, rfl⟩ := h
    have hlt := hexNumeral_lt h2
    rw [Nat.mod_eq_of_lt (by omega)] at h
    exact ⟨s, h1, by rw [charFromU32_toNat h]; exact h2⟩

theorem handleUL_lexeme {cs : List Char} {m : Char} {l : Left} (h : handleUL cs = (some m, l)) :
    ∃ txt, cs = txt ++ l.cs ∧
      (Lexeme (.mtch m) ('\\' :: 'u' :: txt) ∨ Odd (.mtch m) ('\\' :: 'u' :: txt)) := by
  unfold handleUL at h
  split at h
  · simp at h
  · rename_i c cs
    split at h
    · rename_i hc
      subst hc
      obtain ⟨s, n, v, h1, h2, h3⟩ := takeHexL_start cs
      simp only [h3] at h
      split at h
      · simp at h
      · rename_i hn
        split at h
        · simp at h
        · rename_i c' cs' hcs
          split at h
          · rename_i hc'
            subst hc'
            simp only [Prod.mk.injEq] at h
            obtain ⟨h, rfl⟩ := h
            refine ⟨'{' :: s ++ ['}'], by rw [h1, hcs]; simp, ?_⟩
            have hm := charFromU32_toNat h
            by_cases h8 : n ≤ 8
            · left
              have hlt := hexNumeral_lt h2
              have : 16 ^ n ≤ 16 ^ 8 := Nat.pow_le_pow_right (by decide) h8
              rw [Nat.mod_eq_of_lt (by omega)] at hm
              exact .braced (by rw [hm]; exact h2) (by omega)
            · exact .inr (.braced h2 (by omega) hm)
          · simp at h
    · split at h
      · simp at h
      · rename_i d hd
        obtain ⟨s, n, v, h1, h2, h0, h3⟩ := takeHexL_more (hexDigit_conv hd) cs
        simp only [h3] at h
        simp only [Prod.mk.injEq] at h
        obtain ⟨h, rfl⟩ := h
        refine ⟨s, h1, ?_⟩
        have hm := charFromU32_toNat h
        by_cases h4 : n = 4
        · left
          subst h4
          have hlt := hexNumeral_lt h2
          rw [Nat.mod_eq_of_lt (by omega)] at hm
          exact .hex4 (by rw [hm]; exact h2)
        · exact .inr (.digits h2 h0 h4 hm)

theorem classOf_table {c : Char} {k : ClassKind} (h : classOf c = some k) : (c, .cls k) ∈ escapeTable := by
  unfold classOf at h
  repeat' split at h
  all_goals try (simp at h)
  all_goals (subst h; rename_i hc; subst hc; simp [escapeTable])

theorem simpleEscape_table {c m : Char} (h : simpleEscape c = some m) : (c, .mtch m) ∈ escapeTable := by
  unfold simpleEscape at h
  repeat' split at h
  all_goals try (simp at h)
  all_goals (subst h; rename_i hc)
  all_goals first
    | (subst hc; decide)
    | (rcases hc with rfl | rfl | rfl | rfl | rfl | rfl | rfl | rfl | rfl | rfl | rfl | rfl | rfl | rfl |
        rfl | rfl <;> decide)

theorem handleEscapeL_lexeme {cs : List Char} {k : TokenKind} {l : Left} (h : handleEscapeL cs = (k, l))
    (hk : k ≠ .invalid) :
    ∃ txt, cs = txt ++ l.cs ∧ (Lexeme k ('\\' :: txt) ∨ Odd k ('\\' :: txt)) := by
  unfold handleEscapeL at h
  split at h
  · simp only [Prod.mk.injEq] at h; exact absurd h.1.symm hk
  · rename_i c cs
    split at h
    · rename_i cl hcl
      simp only [Prod.mk.injEq] at h
      obtain ⟨rfl, rfl⟩ := h
      exact ⟨[c], rfl, .inl (.escape (classOf_table hcl))⟩
    · split at h
      · rename_i m hm
        simp only [Prod.mk.injEq] at h
        obtain ⟨rfl, rfl⟩ := h
        exact ⟨[c], rfl, .inl (.escape (simpleEscape_table hm))⟩
      · split at h
        · rename_i hc
          subst hc
          simp only [Prod.mk.injEq] at h
          cases hm : (handleControlL cs).1 with
          | none => rw [hm] at h; exact absurd h.1.symm hk
          | some m =>
            rw [hm] at h
            obtain ⟨c, h1, h2⟩ := handleControlL_lexeme (cs := cs) (Prod.ext hm h.2)
            refine ⟨['c', c], by rw [h1]; rfl, .inl ?_⟩
            rw [← h.1]
            exact .control h2
        · split at h
          · rename_i hc
            subst hc
            simp only [Prod.mk.injEq] at h
            cases hm : (handleXL cs).1 with
            | none => rw [hm] at h; exact absurd h.1.symm hk
            | some m =>
              rw [hm] at h
              obtain ⟨s, h1, h2⟩ := handleXL_lexeme (cs := cs) (Prod.ext hm h.2)
              refine ⟨'x' :: s, by rw [h1]; rfl, .inl ?_⟩
              rw [← h.1]
              exact .hex2 h2
          · split at h
            · rename_i hc
              subst hc
              simp only [Prod.mk.injEq] at h
              cases hm : (handleUL cs).1 with
              | none => rw [hm] at h; exact absurd h.1.symm hk
              | some m =>
                rw [hm] at h
                obtain ⟨txt, h1, h2⟩ := handleUL_lexeme (cs := cs) (Prod.ext hm h.2)
                refine ⟨'u' :: txt, by rw [h1]; rfl, ?_⟩
                rw [← h.1]
                exact h2
            · simp only [Prod.mk.injEq] at h; exact absurd h.1.symm hk

/-- Reading a decimal numeral whose first digit was read. -/
theorem takeDecL_start {p : Profile} {c : Char} {d : Nat} (hc : decDigit? c = some d) {cs cs' : List Char}
    {r : Option Nat} (h : takeDecL p cs d = .ok (r, cs')) :
    ∃ s n, c :: cs = s ++ cs' ∧ Numeral s n ∧ (∀ e, cs'.head? = some e → decDigit? e = none) ∧
      (NoOverflowWindow s → r = if n < 2 ^ 32 then some n else none) := by
  obtain ⟨pre, h1, h2, h3⟩ := spanMap_parts decDigit? cs
  simp only [takeDecL, Outcome.bind_eq_ok] at h
  obtain ⟨r', h4, h⟩ := h
  simp only [Outcome.pure_eq, Outcome.ok.injEq, Prod.mk.injEq] at h
  obtain ⟨rfl, rfl⟩ := h
  have hd := decDigit_conv hc
  have hn := numeral_of_digits (.digit hd) pre _ h2
  refine ⟨c :: pre, _, by rw [List.cons_append]; exact congrArg (c :: ·) h1, hn, h3, ?_⟩
  intro hw
  have hds : ∀ x ∈ (spanMap decDigit? cs).1, x < 10 := by
    intro x hx
    have : some x ∈ pre.map decDigit? := by rw [h2]; exact List.mem_map_of_mem hx
    obtain ⟨e, _, he⟩ := List.mem_map.1 this
    exact decDigit_lt (decDigit_conv he)
  have hv := decFold_value p (spanMap decDigit? cs).1 d (by have := decDigit_lt hd; omega) hds
    (fun k hk => by
      have hn := numeral_of_digits (.digit hd) (pre.take k) ((spanMap decDigit? cs).1.take k) (by
        rw [List.map_take, h2, List.map_take])
      exact hw (c :: pre.take k) _ (by simpa using List.take_prefix k pre) hn)
  rw [hv] at h4
  simpa using h4.symm

theorem handleRangeL_lexeme {p : Profile} {cs : List Char} {k : TokenKind} {l : Left}
    (h : handleRangeL p cs = .ok (k, l)) (hk : k ≠ .invalid) :
    ∃ txt, cs = txt ++ l.cs ∧ (Lexeme k ('{' :: txt) ∨ Odd k ('{' :: txt)) := by
  unfold handleRangeL at h
  split at h
  · simp at h; exact absurd h.1.symm hk
  · rename_i c cs
    split at h
    · simp at h; exact absurd h.1.symm hk
    · rename_i d hd
      simp only [Outcome.bind_eq_ok] at h
      obtain ⟨⟨first, cs1⟩, h1, h2⟩ := h
      obtain ⟨s, n, e1, hn, hend, hval⟩ := takeDecL_start hd h1
      simp only at h2
      rw [e1]
      split at h2
      · simp at h2; exact absurd h2.1.symm hk
      · rename_i c1 cs1
        split at h2
        · rename_i hcomma
          subst hcomma
          split at h2
          · simp at h2; exact absurd h2.1.symm hk
          · rename_i c2 cs2
            unfold rangeTailL at h2
            split at h2
            · rename_i hb
              subst hb
              split at h2
              · simp at h2; exact absurd h2.1.symm hk
              · rename_i v
                simp only [Outcome.pure_eq, Outcome.ok.injEq, Prod.mk.injEq, if_true] at h2
                obtain ⟨rfl, rfl⟩ := h2
                refine ⟨s ++ [',', '}'], by simp, ?_⟩
                by_cases hw : NoOverflowWindow s
                · left
                  have hv := hval hw
                  split at hv
                  · rename_i hlt
                    simp only [Option.some.injEq] at hv
                    subst hv
                    exact .bounds (.atLeast hn hlt)
                  · simp at hv
                · exact .inr (.bounds (b := .atLeast s) ⟨s, by simp [Bounds.numerals], hw⟩)
            · split at h2
              · rename_i d2 hd2
                simp only [Outcome.bind_eq_ok] at h2
                obtain ⟨⟨second, cs3⟩, h3, h4⟩ := h2
                obtain ⟨t, m, e2, hm, _, hval2⟩ := takeDecL_start hd2 h3
                simp only at h4
                rw [e2]
                split at h4
                · simp at h4; exact absurd h4.1.symm hk
                · rename_i c3 cs3
                  split at h4
                  · simp at h4; exact absurd h4.1.symm hk
                  · rename_i hb
                    simp only [ne_eq, Decidable.not_not] at hb
                    subst hb
                    split at h4
                    · rename_i lo hi
                      simp only [Outcome.pure_eq, Outcome.ok.injEq, Prod.mk.injEq] at h4
                      obtain ⟨rfl, rfl⟩ := h4
                      refine ⟨s ++ ',' :: t ++ ['}'], by simp, ?_⟩
                      by_cases hw : NoOverflowWindow s
                      · by_cases hw2 : NoOverflowWindow t
                        · left
                          have hv := hval hw
                          have hv2 := hval2 hw2
                          split at hv
                          · split at hv2
                            · simp only [Option.some.injEq] at hv hv2
                              subst hv hv2
                              exact .bounds (.between hn hm (by assumption) (by assumption))
                            · simp at hv2
                          · simp at hv
                        · exact .inr (.bounds (b := .between s t) ⟨t, by simp [Bounds.numerals], hw2⟩)
                      · exact .inr (.bounds (b := .between s t) ⟨s, by simp [Bounds.numerals], hw⟩)
                    · simp at h4; exact absurd h4.1.symm hk
              · simp at h2; exact absurd h2.1.symm hk
        · unfold rangeTailL at h2
          split at h2
          · rename_i hb
            subst hb
            split at h2
            · simp at h2; exact absurd h2.1.symm hk
            · rename_i v
              simp only [Outcome.pure_eq, Outcome.ok.injEq, Prod.mk.injEq, Bool.false_eq_true,
                if_false] at h2
              obtain ⟨rfl, rfl⟩ := h2
              refine ⟨s ++ ['}'], by simp, ?_⟩
              by_cases hw : NoOverflowWindow s
              · left
                have hv := hval hw
                split at hv
                · rename_i hlt
                  simp only [Option.some.injEq] at hv
                  subst hv
                  exact .bounds (.exactly hn hlt)
                · simp at hv
              · exact .inr (.bounds (b := .exactly s) ⟨s, by simp [Bounds.numerals], hw⟩)
          · rw [hend c1 rfl] at h2
            simp at h2; exact absurd h2.1.symm hk

theorem operatorOf_table {c : Char} {o : OperatorKind} (h : operatorOf c = some o) :
    (c, .operator o) ∈ signTable := by
  unfold operatorOf at h
  repeat' split at h
  all_goals try (simp at h)
  all_goals (subst h; rename_i hc; subst hc; simp [signTable])

/-- The text of a token that is not invalid. -/
theorem tokenKindL_lexeme {p : Profile} {ch : Char} {cs : List Char} {k : TokenKind} {l : Left}
    (h : tokenKindL p ch cs = .ok (k, l)) (hk : k ≠ .invalid) :
    ∃ txt, ch :: cs = txt ++ l.cs ∧ (Lexeme k txt ∨ Odd k txt) := by
  unfold tokenKindL at h
  split at h
  · rename_i hc
    subst hc
    simp only [Outcome.ok.injEq] at h
    obtain ⟨txt, h1, h2⟩ := handleEscapeL_lexeme h hk
    exact ⟨'\\' :: txt, by rw [h1]; rfl, h2⟩
  · rename_i hbs
    split at h
    · rename_i hc
      subst hc
      simp only [Outcome.ok.injEq, Prod.mk.injEq] at h
      obtain ⟨rfl, rfl⟩ := h
      exact ⟨['.'], rfl, .inl (.sign (by simp [signTable]))⟩
    · rename_i hdot
      split at h
      · rename_i o ho
        simp only [Outcome.ok.injEq, Prod.mk.injEq] at h
        obtain ⟨rfl, rfl⟩ := h
        exact ⟨[ch], rfl, .inl (.sign (operatorOf_table ho))⟩
      · rename_i ho
        split at h
        · rename_i hc
          subst hc
          simp only [Outcome.ok.injEq, Prod.mk.injEq] at h
          obtain ⟨rfl, rfl⟩ := h
          exact ⟨['*'], rfl, .inl (.sign (by simp [signTable]))⟩
        · rename_i h1
          split at h
          · rename_i hc
            subst hc
            simp only [Outcome.ok.injEq, Prod.mk.injEq] at h
            obtain ⟨rfl, rfl⟩ := h
            exact ⟨['+'], rfl, .inl (.sign (by simp [signTable]))⟩
          · rename_i h2
            split at h
            · rename_i hc
              subst hc
              simp only [Outcome.ok.injEq, Prod.mk.injEq] at h
              obtain ⟨rfl, rfl⟩ := h
              exact ⟨['?'], rfl, .inl (.sign (by simp [signTable]))⟩
            · rename_i h3
              split at h
              · rename_i hc
                subst hc
                obtain ⟨txt, e1, e2⟩ := handleRangeL_lexeme h hk
                exact ⟨'{' :: txt, by rw [e1]; rfl, e2⟩
              · rename_i h4
                simp only [Outcome.ok.injEq, Prod.mk.injEq] at h
                obtain ⟨rfl, rfl⟩ := h
                refine ⟨[ch], rfl, .inl (.plain ?_ hbs h4)⟩
                intro k hk
                have hop : ∀ c o, operatorOf c = some o → ch ≠ c := by
                  rintro c o h rfl
                  rw [ho] at h
                  simp at h
                simp only [signTable, List.mem_cons, Prod.mk.injEq, List.not_mem_nil, or_false] at hk
                rcases hk with ⟨h, _⟩ | ⟨h, _⟩ | ⟨h, _⟩ | ⟨h, _⟩ | ⟨h, _⟩ | ⟨h, _⟩ | ⟨h, _⟩ | ⟨h, _⟩ |
                  ⟨h, _⟩ | ⟨h, _⟩ | ⟨h, _⟩
                · exact hdot h
                · exact hop _ _ rfl h
                · exact hop _ _ rfl h
                · exact hop _ _ rfl h
                · exact hop _ _ rfl h
                · exact hop _ _ rfl h
                · exact hop _ _ rfl h
                · exact hop _ _ rfl h
                · exact h1 h
                · exact h2 h
                · exact h3 h

theorem scanK_lexemes (p : Profile) (pre cs : List Char) : ∀ t ∈ (scanK p (pre ++ cs).length cs).toks,
    t.kind ≠ .invalid → Lexeme t.kind (textOf (pre ++ cs) t) ∨ Odd t.kind (textOf (pre ++ cs) t) := by
  induction hk : cs.length using Nat.strongRecOn generalizing pre cs with
  | _ k ih =>
    cases cs with
    | nil => simp [scanK_nil]
    | cons ch cs =>
      rcases scanK_cons p (pre ++ ch :: cs).length ch cs with ⟨_, e1⟩ | ⟨kind, l, ht, hf, e1⟩
      · rw [e1]; simp
      · rw [e1]
        intro t ht' hne
        rcases List.mem_cons.1 ht' with rfl | ht'
        · simp only at hne ⊢
          obtain ⟨txt, h1, h2⟩ := tokenKindL_lexeme ht hne
          have hh : l.hitEnd = false := by
            cases hh : l.hitEnd with
            | false => rfl
            | true => exact absurd (hf.hit hh).2 hne
          suffices e : textOf (pre ++ ch :: cs) ⟨kind, ((pre ++ ch :: cs).length - (cs.length + 1),
              if l.hitEnd then 1 else (pre ++ ch :: cs).length - l.cs.length)⟩ = txt by
            rw [e]; exact h2
          have hlen := congrArg List.length h1
          simp only [List.length_cons, List.length_append] at hlen
          simp only [textOf, hh, Bool.false_eq_true, if_false, List.length_append, List.length_cons]
          rw [show pre.length + (cs.length + 1) - (cs.length + 1) = pre.length by omega,
            List.drop_left, h1, show pre.length + (cs.length + 1) - l.cs.length - pre.length = txt.length
              by omega, List.take_left]
        · obtain ⟨u, hu⟩ := hf.suffix
          have hlen := hf.suffix.length_le
          simp only [List.length_cons] at hk
          have := ih l.cs.length (by omega) (pre ++ ch :: u) l.cs rfl
          rw [show pre ++ ch :: u ++ l.cs = pre ++ ch :: cs by rw [← hu]; simp] at this
          exact this t ht' hne

/-- C54 as far as it holds.  Missing: the three texts of `Odd` that are not in the syntax and are read
all the same.

The part of the pattern in the span of a token that is not invalid is a text of that token, or one of
these three. -/
theorem c54_partial (p : Profile) (input : List Char) (t : Token) (ht : t ∈ (scan p input).toks)
    (hk : t.kind ≠ .invalid) : Lexeme t.kind (textOf input t) ∨ Odd t.kind (textOf input t) := by
  rw [scan_eq_scanK] at ht
  exact scanK_lexemes p [] input t ht hk

/-- A pattern with tokens of many sorts, and an odd one. -/
example : (scan .debug "a.\\x41{2,}\\u{1F600}\\d*\\u4".toList).toks.map
      (fun t => (t.kind, String.ofList (textOf "a.\\x41{2,}\\u{1F600}\\d*\\u4".toList t))) =
    [(.mtch 'a', "a"), (.cls .wildcard, "."), (.mtch 'A', "\\x41"), (.quantifier (.min 2), "{2,}"),
     (.mtch '😀', "\\u{1F600}"), (.cls .digit, "\\d"), (.quantifier .asterisk, "*"),
     (.mtch (Char.ofNat 4), "\\u4")] ∧
    Lexeme (.quantifier (.min 2)) "{2,}".toList ∧ Odd (.mtch (Char.ofNat 4)) "\\u4".toList := by
  refine ⟨by decide, ?_, ?_⟩
  · exact .bounds (.atLeast (s := ['2']) (n := 2) (.digit rfl) (by decide))
  · exact .digits (HexNumeral.nil.snoc (c := '4') (d := 4) (.inl rfl)) (by decide) (by decide) rfl

/-- C54, the other direction, as far as it holds.  Missing: hexadecimal digits behind an escape without
braces (C02), numbers that are long enough to overflow (C03, C51).

A text of the syntax is read as its token, and what follows is read as if it stood alone. -/
theorem c54_reads_partial (p : Profile) (k : TokenKind) (txt rest : List Char) (h : Lexeme k txt)
    (hx : ∀ s, txt = '\\' :: 'x' :: s ∨ txt = '\\' :: 'u' :: s → NoHexAhead rest)
    (hlen : txt.length ≤ 11) :
    (scan p (txt ++ rest)).kinds = k :: (scan p rest).kinds := by
  have len : ∀ {s n v}, HexNumeral s n v → s.length = n := by
    intro s n v h
    induction h with
    | nil => rfl
    | snoc _ _ ih => simp [ih]
  have inv : ∀ {s n v}, HexNumeral s (n + 1) v →
      ∃ s' v' c d, s = s' ++ [c] ∧ HexNumeral s' n v' ∧ HexDigit c d ∧ v = 16 * v' + d := by
    intro s n v h
    cases h with
    | snoc h hc => exact ⟨_, _, _, _, rfl, h, hc, rfl⟩
  have inv0 : ∀ {s v}, HexNumeral s 0 v → s = [] ∧ v = 0 := by
    intro s v h
    cases h
    exact ⟨rfl, rfl⟩
  have code : ∀ (m : Char), IsCode m.toNat := by
    intro m
    exact m.valid
  have inj : ∀ {m c : Char}, c.toNat = m.toNat → c = m := fun h => Char.toNat_inj.1 h
  cases h with
  | @sign c k h =>
    have : tokenKindL p c rest = .ok (k, ⟨rest, false⟩) := by
      simp only [signTable, List.mem_cons, Prod.mk.injEq, List.not_mem_nil, or_false] at h
      rcases h with ⟨rfl, rfl⟩ | ⟨rfl, rfl⟩ | ⟨rfl, rfl⟩ | ⟨rfl, rfl⟩ | ⟨rfl, rfl⟩ | ⟨rfl, rfl⟩ |
        ⟨rfl, rfl⟩ | ⟨rfl, rfl⟩ | ⟨rfl, rfl⟩ | ⟨rfl, rfl⟩ | ⟨rfl, rfl⟩ <;> rfl
    exact (scan_token this).1
  | @plain c hs hb hr =>
    have hne : ∀ d k, (d, k) ∈ signTable → c ≠ d := fun d k hd e => hs k (e ▸ hd)
    have ho : operatorOf c = none := by
      cases ho : operatorOf c with
      | none => rfl
      | some o => exact absurd (operatorOf_table ho) (hs _)
    have : tokenKindL p c rest = .ok (.mtch c, ⟨rest, false⟩) := by
      unfold tokenKindL
      rw [if_neg hb, if_neg (hne '.' (.cls .wildcard) (by simp [signTable])), ho]
      simp only
      rw [if_neg (hne '*' (.quantifier .asterisk) (by simp [signTable])),
        if_neg (hne '+' (.quantifier .plus) (by simp [signTable])),
        if_neg (hne '?' (.quantifier .questionMark) (by simp [signTable])), if_neg hr]
    exact (scan_token this).1
  | escape h => exact c50_table p _ _ rest h
  | @control c m h =>
    obtain ⟨m', h1, h2⟩ := (c50_control p c rest).1 _ h
    rw [inj h1] at h2
    exact h2
  | @hex2 s m h =>
    obtain ⟨s1, v1, b, y, rfl, h1, hb, e1⟩ := inv h
    obtain ⟨s2, v2, a, x, rfl, h2, ha, e2⟩ := inv h1
    obtain ⟨rfl, rfl⟩ := inv0 h2
    obtain ⟨c, hc, e⟩ := c02_two_digits_partial p a b x y rest ha hb (hx _ (.inl rfl))
    rw [inj (m := m) (c := c) (by omega)] at e
    simpa using e
  | @hex4 s m h =>
    obtain ⟨s1, v1, d, w, rfl, h1, hd, e1⟩ := inv h
    obtain ⟨s2, v2, c, z, rfl, h2, hc, e2⟩ := inv h1
    obtain ⟨s3, v3, b, y, rfl, h3, hb, e3⟩ := inv h2
    obtain ⟨s4, v4, a, x, rfl, h4, ha, e4⟩ := inv h3
    obtain ⟨rfl, rfl⟩ := inv0 h4
    have hm := code m
    have he : 16 * (16 * (16 * x + y) + z) + w = m.toNat := by omega
    obtain ⟨ch, hch, e⟩ := (c02_four_digits_partial p a b c d x y z w rest ha hb hc hd
      (hx _ (.inr rfl))).1 (by rw [he]; unfold IsCode at hm; omega)
    rw [inj (m := m) (c := ch) (by omega)] at e
    simpa using e
  | @braced s n m h h4 =>
    have hl := len h
    simp only [List.length_append, List.length_cons, List.length_nil] at hlen
    obtain ⟨c, hc, e⟩ := (c51_partial p s n _ rest h h4 (by omega)).1 (code m)
    rw [inj hc] at e
    simpa using e
  | @bounds b q h =>
    refine (c03_bounds_partial p b _ rest h ?_).1
    intro s hs
    apply noOverflowWindow_of_short
    cases b with
    | exactly s' =>
      simp only [Bounds.numerals, List.mem_singleton] at hs
      subst hs
      simp only [Bounds.text, List.length_append, List.length_cons, List.length_nil] at hlen
      omega
    | atLeast s' =>
      simp only [Bounds.numerals, List.mem_singleton] at hs
      subst hs
      simp only [Bounds.text, List.length_append, List.length_cons, List.length_nil] at hlen
      omega
    | between s' t' =>
      simp only [Bounds.numerals, List.mem_cons, List.not_mem_nil, or_false] at hs
      simp only [Bounds.text, List.length_append, List.length_cons, List.length_nil] at hlen
      rcases hs with rfl | rfl <;> omega

/-- Bounds that meet the hypotheses, and a hexadecimal escape in front of a letter that is no digit. -/
example : Lexeme (.quantifier (.range 0 99999)) "{0,99999}".toList ∧ "{0,99999}".toList.length ≤ 11 ∧
    Lexeme (.mtch 'A') "\\x41".toList ∧ NoHexAhead ['g'] := by
  refine ⟨?_, by decide, ?_, ?_⟩
  · refine .bounds (.between (s := ['0']) (t := "99999".toList) (n := 0) (m := 99999) (.digit rfl) ?_ (by decide) (by decide))
    have h1 : Numeral ['9'] 9 := .digit rfl
    have h2 := h1.snoc (c := '9') (d := 9) rfl
    have h3 := h2.snoc (c := '9') (d := 9) rfl
    have h4 := h3.snoc (c := '9') (d := 9) rfl
    exact h4.snoc (c := '9') (d := 9) rfl
  · exact .hex2 ((HexNumeral.nil.snoc (c := '4') (d := 4) (.inl rfl)).snoc (c := '1') (d := 1) (.inl rfl))
  · intro c d hc
    simp only [List.head?_cons, Option.some.injEq] at hc
    subst hc
    intro h
    have := hexDigit_of h
    rw [show hexDigit? 'g' = none by decide] at this
    simp at this

end Pango.Props
