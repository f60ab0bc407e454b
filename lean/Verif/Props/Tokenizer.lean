import Verif.Proofs.Scan

/-!
# C01, C02, C03: splitting a pattern into tokens
-/

namespace Pango.Props

open Pango Pango.Regex

/-! ## C01 -/

/-- Specification: the spans of the tokens are non-empty, the first starts at `a`, each further one
starts where the previous one ended, the last one ends at `b`. -/
def Tiles (a b : Nat) : List Token → Prop
  | [] => a = b
  | t :: ts => t.pos.1 = a ∧ a < t.pos.2 ∧ Tiles t.pos.2 b ts

/-- C01 as stated: scanning gets to the end of every pattern, and the spans tile it. -/
def SpansTile : Prop :=
  ∀ p input, (scan p input).stop = .eof ∧ Tiles 0 input.length (scan p input).toks

/-- C01 is false: the pattern `ab\` has three characters and its last token is reported with the span
`(2, 1)`. -/
theorem c01_false : ¬ SpansTile := by
  intro h
  have := (h .release "ab\\".toList).2
  revert this
  have e : (scan .release "ab\\".toList).toks =
    [⟨.mtch 'a', (0, 1)⟩, ⟨.mtch 'b', (1, 2)⟩, ⟨.invalid, (2, 1)⟩] := by decide
  rw [e]
  simp [Tiles]

theorem scanK_tiles (p : Profile) (n : Nat) (cs : List Char) (hn : cs.length ≤ n) :
    ((scanK p n cs).stop = .eof ∧
      (Tiles (n - cs.length) n (scanK p n cs).toks ∨
        ∃ init last, (scanK p n cs).toks = init ++ [last] ∧ Tiles (n - cs.length) last.pos.1 init ∧
          last.pos.1 < n ∧ last.kind = .invalid ∧ last.pos.2 = 1)) ∨
    ((scanK p n cs).stop = .panic ∧ ∃ m, m < n ∧ Tiles (n - cs.length) m (scanK p n cs).toks) := by
  induction hk : cs.length using Nat.strongRecOn generalizing cs with
  | _ k ih =>
    cases cs with
    | nil =>
      left
      refine ⟨rfl, .inl ?_⟩
      simp at hk; subst hk
      simp [scanK_nil, Tiles]
    | cons ch cs =>
      simp only [List.length_cons] at hk hn
      subst hk
      rcases scanK_cons p n ch cs with ⟨ht, e1⟩ | ⟨kind, l, ht, hf, e1⟩
      · right
        rw [e1]
        exact ⟨rfl, n - (cs.length + 1), by omega, rfl⟩
      · have hl := hf.suffix.length_le
        cases hh : l.hitEnd with
        | true =>
          obtain ⟨h1, h2⟩ := hf.hit hh
          rw [hh, h1] at e1
          left
          rw [e1, scanK_nil]
          refine ⟨rfl, .inr ⟨[], _, rfl, rfl, ?_, h2, rfl⟩⟩
          simp; omega
        | false =>
          rw [hh] at e1
          simp only [Bool.false_eq_true, if_false] at e1
          rw [e1]
          have := ih l.cs.length (by omega) l.cs (by omega) rfl
          rcases this with ⟨hs, ht | ⟨init, last, h1, h2, h3, h4, h5⟩⟩ | ⟨hs, m, hm, ht⟩
          · exact .inl ⟨hs, .inl ⟨rfl, by simp; omega, ht⟩⟩
          · refine .inl ⟨hs, .inr ⟨_ :: init, last, by rw [h1]; rfl, ⟨rfl, ?_, h2⟩, h3, h4, h5⟩⟩
            simp; omega
          · exact .inr ⟨hs, m, hm, rfl, by simp; omega, ht⟩

/-- C01 as far as it holds.  Missing: the end of an invalid last token that the end of the pattern cuts
off (it is reported as 1), and patterns on which the tokenizer panics (C03).

For every pattern, scanning stops within one call per character and one for the end.  If it does not
panic, the spans tile the pattern, except that the last token, if it is invalid, may be reported to end
at 1.  If it panics, the tokens before that tile a proper prefix of the pattern. -/
theorem c01_spans_tile_partial (p : Profile) (input : List Char) :
    ((scan p input).stop = .eof ∧
      (Tiles 0 input.length (scan p input).toks ∨
        ∃ init last, (scan p input).toks = init ++ [last] ∧ Tiles 0 last.pos.1 init ∧
          last.pos.1 < input.length ∧ last.kind = .invalid ∧ last.pos.2 = 1)) ∨
    ((scan p input).stop = .panic ∧ ∃ m, m < input.length ∧ Tiles 0 m (scan p input).toks) := by
  have := scanK_tiles p input.length input (Nat.le_refl _)
  rw [Nat.sub_self] at this
  rw [scan_eq_scanK]
  exact this

/-- All cases happen: a pattern that is tiled, one that is cut off, one that panics. -/
example : (scan .debug "a\\x41{2}".toList).toks =
    [⟨.mtch 'a', (0, 1)⟩, ⟨.mtch 'A', (1, 5)⟩, ⟨.quantifier (.max 2), (5, 8)⟩] := by decide
example : (scan .debug "a\\".toList).toks = [⟨.mtch 'a', (0, 1)⟩, ⟨.invalid, (1, 1)⟩] := by decide
example : scan .debug "a{4294967296}".toList = ⟨[⟨.mtch 'a', (0, 1)⟩], .panic⟩ := by decide

/-! ## C02 -/

/-- Specification: `c` is the hexadecimal digit of value `d`. -/
def HexDigit (c : Char) (d : Nat) : Prop :=
  ("0123456789abcdef".toList)[d]? = some c ∨ ("0123456789ABCDEF".toList)[d]? = some c

/-- Specification: the text does not begin with a hexadecimal digit. -/
def NoHexAhead (rest : List Char) : Prop := ∀ c d, rest.head? = some c → ¬ HexDigit c d

theorem le_char_iff (a b : Char) : a ≤ b ↔ a.toNat ≤ b.toNat := by
  rw [Char.le_def]; exact UInt32.le_iff_toNat_le

theorem hexDigit_of {c : Char} {d : Nat} (h : HexDigit c d) : hexDigit? c = some d := by
  have hd : d < 16 := by
    rcases h with h | h <;> exact (List.getElem?_eq_some_iff.1 h).1
  have : d = 0 ∨ d = 1 ∨ d = 2 ∨ d = 3 ∨ d = 4 ∨ d = 5 ∨ d = 6 ∨ d = 7 ∨ d = 8 ∨ d = 9 ∨ d = 10 ∨
      d = 11 ∨ d = 12 ∨ d = 13 ∨ d = 14 ∨ d = 15 := by omega
  rcases this with rfl | rfl | rfl | rfl | rfl | rfl | rfl | rfl | rfl | rfl | rfl | rfl | rfl | rfl |
    rfl | rfl <;> rcases h with h | h <;> (simp at h; subst h; decide)

theorem hexDigit_lt {c : Char} {d : Nat} (h : HexDigit c d) : d < 16 := by
  rcases h with h | h <;> exact (List.getElem?_eq_some_iff.1 h).1

theorem hexDigit_conv {c : Char} {d : Nat} (h : hexDigit? c = some d) : HexDigit c d := by
  have e : c = Char.ofNat c.toNat := (Char.ofNat_toNat c).symm
  unfold hexDigit? at h
  simp only [le_char_iff] at h
  split at h
  · rename_i hc
    simp only [show '0'.toNat = 48 from rfl, show '9'.toNat = 57 from rfl] at hc h
    have : c.toNat = 48 ∨ c.toNat = 49 ∨ c.toNat = 50 ∨ c.toNat = 51 ∨ c.toNat = 52 ∨ c.toNat = 53 ∨
      c.toNat = 54 ∨ c.toNat = 55 ∨ c.toNat = 56 ∨ c.toNat = 57 := by omega
    rcases this with hh | hh | hh | hh | hh | hh | hh | hh | hh | hh <;>
      (rw [hh] at h e; simp at h; subst h; subst e; left; decide)
  · split at h
    · rename_i hc
      simp only [show 'a'.toNat = 97 from rfl, show 'f'.toNat = 102 from rfl] at hc h
      have : c.toNat = 97 ∨ c.toNat = 98 ∨ c.toNat = 99 ∨ c.toNat = 100 ∨ c.toNat = 101 ∨
        c.toNat = 102 := by omega
      rcases this with hh | hh | hh | hh | hh | hh <;>
        (rw [hh] at h e; simp at h; subst h; subst e; left; decide)
    · split at h
      · rename_i hc
        simp only [show 'A'.toNat = 65 from rfl, show 'F'.toNat = 70 from rfl] at hc h
        have : c.toNat = 65 ∨ c.toNat = 66 ∨ c.toNat = 67 ∨ c.toNat = 68 ∨ c.toNat = 69 ∨
          c.toNat = 70 := by omega
        rcases this with hh | hh | hh | hh | hh | hh <;>
          (rw [hh] at h e; simp at h; subst h; subst e; right; decide)
      · simp at h

theorem spanMap_noHex {rest : List Char} (h : NoHexAhead rest) :
    spanMap hexDigit? rest = ([], rest) := by
  cases rest with
  | nil => rfl
  | cons c rest =>
    have : hexDigit? c = none := by
      cases hc : hexDigit? c with
      | none => rfl
      | some d => exact absurd (hexDigit_conv hc) (h c d rfl)
    simp [spanMap, this]

theorem charFromU32_some {n : Nat} (h : n < 0xd800 ∨ (0xdfff < n ∧ n < 0x110000)) :
    ∃ c : Char, c.toNat = n ∧ charFromU32 n = some c := by
  have hv : n.isValidChar := by
    rcases h with h | h
    · exact .inl h
    · exact .inr h
  refine ⟨Char.ofNatAux n hv, ?_, by simp [charFromU32, hv]⟩
  have h32 : n < 4294967296 := by omega
  simp [Char.ofNatAux, Char.toNat]

/-- C02 as stated for two digits: whatever follows, `\xHH` is the character with that code. -/
def HexEscape2Exact : Prop :=
  ∀ p a b x y rest, HexDigit a x → HexDigit b y →
    ∃ c : Char, c.toNat = 16 * x + y ∧
      (scan p ('\\' :: 'x' :: a :: b :: rest)).kinds = .mtch c :: (scan p rest).kinds

/-- C02 as stated for four digits that denote a character. -/
def HexEscape4Exact : Prop :=
  ∀ p a b c d x y z w rest, HexDigit a x → HexDigit b y → HexDigit c z → HexDigit d w →
    16 * (16 * (16 * x + y) + z) + w < 0xd800 →
    ∃ ch : Char, ch.toNat = 16 * (16 * (16 * x + y) + z) + w ∧
      (scan p ('\\' :: 'u' :: a :: b :: c :: d :: rest)).kinds = .mtch ch :: (scan p rest).kinds

/-- C02 is false for two digits: in `\x41b` the escape is rejected because another hexadecimal digit
follows. -/
theorem c02_two_digits_false : ¬ HexEscape2Exact := by
  intro h
  obtain ⟨c, _, h⟩ := h .release '4' '1' 4 1 ['b'] (.inl rfl) (.inl rfl)
  have e : (scan .release ['\\', 'x', '4', '1', 'b']).kinds = [.invalid] := by decide
  rw [e] at h
  simp at h

/-- C02 is false for four digits: the escape of U+00E9 followed by `a` is read as the one character U+0E9A, not as `é` and `a`. -/
theorem c02_four_digits_false : ¬ HexEscape4Exact := by
  intro h
  obtain ⟨c, hc, h⟩ := h .release '0' '0' 'e' '9' 0 0 14 9 ['a'] (.inl rfl) (.inl rfl) (.inl rfl)
    (.inl rfl) (by decide)
  have e : (scan .release ['\\', 'u', '0', '0', 'e', '9', 'a']).kinds = [.mtch (Char.ofNat 0xe9a)] := by
    decide
  rw [e] at h
  injection h with h1 h2
  injection h1 with h1
  rw [← h1] at hc
  revert hc
  decide

/-- C02, two digits, as far as it holds.  Missing: a hexadecimal digit behind the escape. -/
theorem c02_two_digits_partial (p : Profile) (a b : Char) (x y : Nat) (rest : List Char)
    (ha : HexDigit a x) (hb : HexDigit b y) (hr : NoHexAhead rest) :
    ∃ c : Char, c.toNat = 16 * x + y ∧
      (scan p ('\\' :: 'x' :: a :: b :: rest)).kinds = .mtch c :: (scan p rest).kinds := by
  have hx := hexDigit_lt ha
  have hy := hexDigit_lt hb
  obtain ⟨c, hc, e⟩ := charFromU32_some (n := 16 * x + y) (by omega)
  refine ⟨c, hc, ?_⟩
  have ht : takeHexL (a :: b :: rest) none = ((2, 16 * x + y), rest) := by
    simp only [takeHexL, spanMap, hexDigit_of ha, hexDigit_of hb, spanMap_noHex hr, List.foldl_cons,
      List.foldl_nil, u32Size]
    congr 2
    omega
  have hk : tokenKindL p '\\' ('x' :: a :: b :: rest) = .ok (.mtch c, ⟨rest, false⟩) := by
    have h1 : handleXL (a :: b :: rest) = (some c, ⟨rest, false⟩) := by
      simp [handleXL, ht, e]
    have h2 : handleEscapeL ('x' :: a :: b :: rest) = (.mtch c, ⟨rest, false⟩) := by
      simp [handleEscapeL, show classOf 'x' = none by decide, show simpleEscape 'x' = none by decide, h1,
        matchOrInvalid]
    simp [tokenKindL, h2]
  exact (scan_token hk).1

/-- C02, four digits, as far as it holds.  Missing: a hexadecimal digit behind the escape.  Codes of
surrogates, which are no characters, give an invalid token. -/
theorem c02_four_digits_partial (p : Profile) (a b c d : Char) (x y z w : Nat) (rest : List Char)
    (ha : HexDigit a x) (hb : HexDigit b y) (hc : HexDigit c z) (hd : HexDigit d w)
    (hr : NoHexAhead rest) :
    let code := 16 * (16 * (16 * x + y) + z) + w
    (¬ (0xd800 ≤ code ∧ code ≤ 0xdfff) → ∃ ch : Char, ch.toNat = code ∧
      (scan p ('\\' :: 'u' :: a :: b :: c :: d :: rest)).kinds = .mtch ch :: (scan p rest).kinds) ∧
    (0xd800 ≤ code ∧ code ≤ 0xdfff →
      (scan p ('\\' :: 'u' :: a :: b :: c :: d :: rest)).kinds = .invalid :: (scan p rest).kinds) := by
  intro code
  have hx := hexDigit_lt ha
  have hy := hexDigit_lt hb
  have hz := hexDigit_lt hc
  have hw := hexDigit_lt hd
  have hcode : code = 16 * (16 * (16 * x + y) + z) + w := rfl
  have ht : takeHexL (b :: c :: d :: rest) (some x) = ((4, code), rest) := by
    simp only [takeHexL, spanMap, hexDigit_of hb, hexDigit_of hc, hexDigit_of hd, spanMap_noHex hr,
      List.foldl_cons, List.foldl_nil, u32Size]
    congr 2
    omega
  have hne : a ≠ '{' := by
    intro h
    have := hexDigit_of ha
    rw [h] at this
    revert this
    rw [show hexDigit? '{' = none by decide]
    simp
  have h1 : handleUL (a :: b :: c :: d :: rest) = (charFromU32 code, ⟨rest, false⟩) := by
    simp [handleUL, hne, hexDigit_of ha, ht]
  have hk : tokenKindL p '\\' ('u' :: a :: b :: c :: d :: rest) =
      .ok (matchOrInvalid (charFromU32 code), ⟨rest, false⟩) := by
    have h2 : handleEscapeL ('u' :: a :: b :: c :: d :: rest) =
        (matchOrInvalid (charFromU32 code), ⟨rest, false⟩) := by
      simp [handleEscapeL, show classOf 'u' = none by decide, show simpleEscape 'u' = none by decide, h1]
    simp [tokenKindL, h2]
  have hs := (scan_token hk).1
  constructor
  · intro hv
    obtain ⟨ch, hch, e⟩ := charFromU32_some (n := code) (by omega)
    exact ⟨ch, hch, by rw [hs, e]; rfl⟩
  · intro hv
    have : charFromU32 code = none := by
      unfold charFromU32
      rw [dif_neg]
      intro h
      rcases h with h | h <;> omega
    rw [hs, this]; rfl

/-- An escape with text behind it that meets the hypotheses. -/
example : HexDigit 'e' 14 ∧ HexDigit '9' 9 ∧ NoHexAhead ['x', 'a'] ∧
    (scan .debug "\\xe9xa".toList).kinds = [.mtch 'é', .mtch 'x', .mtch 'a'] := by
  refine ⟨.inl rfl, .inl rfl, ?_, by decide⟩
  intro c d hc
  simp at hc; subst hc
  intro h
  have := hexDigit_of h
  revert this
  rw [show hexDigit? 'x' = none by decide]
  simp

/-! ## C03 -/

/-- Specification: `c` is the decimal digit of value `d`. -/
def DecDigit (c : Char) (d : Nat) : Prop := ("0123456789".toList)[d]? = some c

/-- Specification: the text is a decimal numeral (digits only, at least one, leading zeros allowed) of
value `n`. -/
inductive Numeral : List Char → Nat → Prop
  | digit {c : Char} {d : Nat} : DecDigit c d → Numeral [c] d
  | snoc {s : List Char} {n : Nat} {c : Char} {d : Nat} :
      Numeral s n → DecDigit c d → Numeral (s ++ [c]) (10 * n + d)

/-- The bounds in braces, as text. -/
inductive Bounds where
  | exactly (s : List Char)
  | atLeast (s : List Char)
  | between (s t : List Char)

/-- The text of the bounds. -/
def Bounds.text : Bounds → List Char
  | .exactly s => '{' :: s ++ ['}']
  | .atLeast s => '{' :: s ++ [',', '}']
  | .between s t => '{' :: s ++ ',' :: t ++ ['}']

/-- Specification: what the bounds mean as a token; `invalid` if a number does not fit in 32 bits. -/
inductive Bounds.Means : Bounds → TokenKind → Prop
  | exactly {s : List Char} {n : Nat} : Numeral s n → n < 2 ^ 32 →
      Means (.exactly s) (.quantifier (.max n))
  | exactlyBig {s : List Char} {n : Nat} : Numeral s n → 2 ^ 32 ≤ n → Means (.exactly s) .invalid
  | atLeast {s : List Char} {n : Nat} : Numeral s n → n < 2 ^ 32 →
      Means (.atLeast s) (.quantifier (.min n))
  | atLeastBig {s : List Char} {n : Nat} : Numeral s n → 2 ^ 32 ≤ n → Means (.atLeast s) .invalid
  | between {s t : List Char} {n m : Nat} : Numeral s n → Numeral t m → n < 2 ^ 32 → m < 2 ^ 32 →
      Means (.between s t) (.quantifier (.range n m))
  | betweenBig {s t : List Char} {n m : Nat} : Numeral s n → Numeral t m →
      2 ^ 32 ≤ n ∨ 2 ^ 32 ≤ m → Means (.between s t) .invalid

/-- C03 as stated. -/
def BoundsExact : Prop :=
  ∀ p b k rest, Bounds.Means b k →
    (scan p (b.text ++ rest)).kinds = k :: (scan p rest).kinds

theorem decDigit_of {c : Char} {d : Nat} (h : DecDigit c d) : decDigit? c = some d := by
  have hd : d < 10 := (List.getElem?_eq_some_iff.1 h).1
  have : d = 0 ∨ d = 1 ∨ d = 2 ∨ d = 3 ∨ d = 4 ∨ d = 5 ∨ d = 6 ∨ d = 7 ∨ d = 8 ∨ d = 9 := by omega
  rcases this with rfl | rfl | rfl | rfl | rfl | rfl | rfl | rfl | rfl | rfl <;>
    (simp [DecDigit] at h; subst h; decide)

theorem decDigit_lt {c : Char} {d : Nat} (h : DecDigit c d) : d < 10 :=
  (List.getElem?_eq_some_iff.1 h).1

def numeralDigits (s : List Char) : List Nat := s.filterMap decDigit?

/-- Value of a digit list. -/
def digitsValue (start : Nat) (ds : List Nat) : Nat := ds.foldl (fun n d => 10 * n + d) start

theorem numeral_digits {s : List Char} {n : Nat} (h : Numeral s n) :
    ∃ c d s' ds, s = c :: s' ∧ DecDigit c d ∧ s'.map decDigit? = ds.map some ∧ (∀ x ∈ ds, x < 10) ∧
      digitsValue d ds = n := by
  induction h with
  | @digit c d h => exact ⟨c, d, [], [], rfl, h, rfl, by simp, rfl⟩
  | @snoc s n c d _ hc ih =>
    obtain ⟨c0, d0, s', ds, rfl, h1, h2, h3, h4⟩ := ih
    refine ⟨c0, d0, s' ++ [c], ds ++ [d], rfl, h1, by simp [h2, decDigit_of hc], ?_, ?_⟩
    · intro x hx
      rcases List.mem_append.1 hx with hx | hx
      · exact h3 x hx
      · simp at hx; subst hx; exact decDigit_lt hc
    · simp only [digitsValue] at h4
      simp [digitsValue, h4]

theorem spanMap_digits {s : List Char} {ds : List Nat} (h : s.map decDigit? = ds.map some)
    {c : Char} (hc : decDigit? c = none) (rest : List Char) :
    spanMap decDigit? (s ++ c :: rest) = (ds, c :: rest) := by
  induction s generalizing ds with
  | nil =>
    have : ds = [] := by simpa using h.symm
    subst this
    simp [spanMap, hc]
  | cons a s ih =>
    cases ds with
    | nil => simp at h
    | cons d ds =>
      simp only [List.map_cons, List.cons.injEq] at h
      simp [spanMap, h.1, ih h.2]

/-- The fold computes the value, or `none` if it is too large, unless some intermediate value lies in
the window where the addition overflows. -/
theorem decFold_value (p : Profile) (ds : List Nat) (start : Nat) (hs : start < 2 ^ 32)
    (hd : ∀ x ∈ ds, x < 10)
    (hw : ∀ k ≤ ds.length, ¬ (2 ^ 32 ≤ digitsValue start (ds.take k) ∧
      digitsValue start (ds.take k) < 2 ^ 32 + 4)) :
    decFold p (some start) ds =
      .ok (if digitsValue start ds < 2 ^ 32 then some (digitsValue start ds) else none) := by
  induction ds generalizing start with
  | nil => simp [decFold, digitsValue, hs]
  | cons d ds ih =>
    have hd0 : d < 10 := hd d (by simp)
    have hstep : decFold p (some start) (d :: ds) = (decStep p (some start) d).bind
        (fun acc => decFold p acc ds) := rfl
    have hge : ∀ (ds : List Nat) (m : Nat), m ≤ digitsValue m ds := by
      intro ds
      induction ds with
      | nil => intro m; exact Nat.le_refl _
      | cons d ds ih =>
        intro m
        have := ih (10 * m + d)
        simp only [digitsValue, List.foldl_cons] at this ⊢
        omega
    have hnone : ∀ ds : List Nat, decFold p none ds = .ok none := by
      intro ds
      induction ds with
      | nil => rfl
      | cons d ds ih => simpa [decFold, decStep] using ih
    have hval : digitsValue start (d :: ds) = digitsValue (10 * start + d) ds := rfl
    by_cases h1 : start * 10 < u32Size
    · by_cases h2 : start * 10 + d < u32Size
      · have e : decStep p (some start) d = .ok (some (start * 10 + d)) := by
          simp [decStep, h1, addU32, h2]
        rw [hstep, e]
        simp only [Outcome.bind]
        rw [show start * 10 + d = 10 * start + d by omega, hval]
        refine ih (10 * start + d) ?_ (fun x hx => hd x (by simp [hx])) ?_
        · simp only [u32Size] at h2; omega
        · intro k hk
          have := hw (k + 1) (by simp; omega)
          simpa [digitsValue] using this
      · exfalso
        have := hw 1 (by simp)
        simp only [List.take_succ_cons, List.take_zero, digitsValue, List.foldl_cons,
          List.foldl_nil] at this
        simp only [u32Size] at h1 h2
        omega
    · have e : decStep p (some start) d = .ok none := by simp [decStep, h1]
      rw [hstep, e]
      simp only [Outcome.bind]
      rw [hnone, if_neg]
      have := hge ds (10 * start + d)
      rw [hval]
      simp only [u32Size] at h1
      omega

/-- Specification: no prefix of the numeral has one of the values 2^32, ..., 2^32 + 3 (for a numeral
without leading zeros: it does not begin with 4294967296, ..., 4294967299). -/
def NoOverflowWindow (s : List Char) : Prop :=
  ∀ t n, t <+: s → Numeral t n → ¬ (2 ^ 32 ≤ n ∧ n < 2 ^ 32 + 4)

theorem decDigit_conv {c : Char} {d : Nat} (h : decDigit? c = some d) : DecDigit c d := by
  have e : c = Char.ofNat c.toNat := (Char.ofNat_toNat c).symm
  unfold decDigit? at h
  simp only [le_char_iff] at h
  split at h
  · rename_i hc
    simp only [show '0'.toNat = 48 from rfl, show '9'.toNat = 57 from rfl] at hc h
    have : c.toNat = 48 ∨ c.toNat = 49 ∨ c.toNat = 50 ∨ c.toNat = 51 ∨ c.toNat = 52 ∨ c.toNat = 53 ∨
      c.toNat = 54 ∨ c.toNat = 55 ∨ c.toNat = 56 ∨ c.toNat = 57 := by omega
    rcases this with hh | hh | hh | hh | hh | hh | hh | hh | hh | hh <;>
      (rw [hh] at h e; simp at h; subst h; subst e; simp [DecDigit])
  · simp at h

theorem numeral_of_digits {pre : List Char} {v : Nat} (h : Numeral pre v) (s : List Char)
    (ds : List Nat) (hs : s.map decDigit? = ds.map some) : Numeral (pre ++ s) (digitsValue v ds) := by
  induction s generalizing pre v ds with
  | nil =>
    have : ds = [] := by simpa using hs.symm
    subst this
    simpa [digitsValue] using h
  | cons a s ih =>
    cases ds with
    | nil => simp at hs
    | cons d ds =>
      simp only [List.map_cons, List.cons.injEq] at hs
      have := ih (h.snoc (decDigit_conv hs.1)) ds hs.2
      simpa [digitsValue] using this

/-- Reading a numeral. -/
theorem takeDec_numeral (p : Profile) {s : List Char} {n : Nat} (h : Numeral s n)
    (hw : NoOverflowWindow s) {e : Char} (he : decDigit? e = none) (rest : List Char) :
    ∃ c s' d, s = c :: s' ∧ decDigit? c = some d ∧
      takeDecL p (s' ++ e :: rest) d = .ok (if n < 2 ^ 32 then some n else none, e :: rest) := by
  obtain ⟨c, d, s', ds, rfl, h1, h2, h3, h4⟩ := numeral_digits h
  refine ⟨c, s', d, rfl, decDigit_of h1, ?_⟩
  have hv := decFold_value p ds d (by have := decDigit_lt h1; omega) h3 (fun k hk => by
    have hn := numeral_of_digits (.digit h1) (s'.take k) (ds.take k) (by
      rw [List.map_take, h2, List.map_take])
    exact hw (c :: s'.take k) _ (by simpa using List.take_prefix k s') hn)
  simp only [takeDecL, spanMap_digits h2 he, hv, h4, Outcome.bind_ok, Outcome.pure_eq]

/-- The hypothesis of `c03_bounds_partial` is met by every numeral of at most nine digits. -/
theorem noOverflowWindow_of_short {s : List Char} (h : s.length ≤ 9) : NoOverflowWindow s := by
  have hlt : ∀ t n, Numeral t n → n < 10 ^ t.length := by
    intro t n ht
    induction ht with
    | digit hd => have := decDigit_lt hd; simpa using this
    | @snoc s n c d _ hc ih =>
      have := decDigit_lt hc
      simp only [List.length_append, List.length_cons, List.length_nil]
      rw [Nat.pow_succ]
      omega
  intro t n htp hn hw
  have h1 := hlt t n hn
  have h2 : t.length ≤ 9 := Nat.le_trans htp.length_le h
  have h3 : 10 ^ t.length ≤ 10 ^ 9 := Nat.pow_le_pow_right (by decide) h2
  omega

/-- The numerals of the bounds. -/
def Bounds.numerals : Bounds → List (List Char)
  | .exactly s => [s]
  | .atLeast s => [s]
  | .between s t => [s, t]

/-- C03 as far as it holds.  Missing: numerals of which a prefix has one of the values 2^32, ...,
2^32 + 3. -/
theorem c03_bounds_partial (p : Profile) (b : Bounds) (k : TokenKind) (rest : List Char)
    (hk : Bounds.Means b k) (hw : ∀ s ∈ b.numerals, NoOverflowWindow s) :
    (scan p (b.text ++ rest)).kinds = k :: (scan p rest).kinds ∧
    (scan p (b.text ++ rest)).stop = (scan p rest).stop := by
  have hbrace : decDigit? '}' = none := by decide
  have hcomma : decDigit? ',' = none := by decide
  have key : ∀ cs, handleRangeL p cs = .ok (k, ⟨rest, false⟩) → b.text ++ rest = '{' :: cs →
      (scan p (b.text ++ rest)).kinds = k :: (scan p rest).kinds ∧
      (scan p (b.text ++ rest)).stop = (scan p rest).stop := by
    intro cs hcs htext
    rw [htext]
    have : tokenKindL p '{' cs = .ok (k, ⟨rest, false⟩) := by
      simp [tokenKindL, show operatorOf '{' = none by decide, hcs]
    exact scan_token this
  have hexact : ∀ (s : List Char) (n : Nat), Numeral s n → NoOverflowWindow s →
      handleRangeL p (s ++ '}' :: rest) =
        .ok (if n < 2 ^ 32 then .quantifier (.max n) else .invalid, ⟨rest, false⟩) := by
    intro s n hn hws
    obtain ⟨c, s', d, rfl, h1, h2⟩ := takeDec_numeral p hn hws hbrace rest
    simp only [List.cons_append, handleRangeL, h1, h2, Outcome.bind_ok]
    by_cases hlt : n < 2 ^ 32 <;> simp [rangeTailL, hlt]
  have hmin : ∀ (s : List Char) (n : Nat), Numeral s n → NoOverflowWindow s →
      handleRangeL p (s ++ ',' :: '}' :: rest) =
        .ok (if n < 2 ^ 32 then .quantifier (.min n) else .invalid, ⟨rest, false⟩) := by
    intro s n hn hws
    obtain ⟨c, s', d, rfl, h1, h2⟩ := takeDec_numeral p hn hws hcomma ('}' :: rest)
    simp only [List.cons_append, handleRangeL, h1, h2, Outcome.bind_ok]
    by_cases hlt : n < 2 ^ 32 <;> simp [rangeTailL, hlt]
  have hrange : ∀ (s t : List Char) (n m : Nat), Numeral s n → Numeral t m → NoOverflowWindow s →
      NoOverflowWindow t →
      handleRangeL p (s ++ ',' :: (t ++ '}' :: rest)) =
        .ok (if n < 2 ^ 32 ∧ m < 2 ^ 32 then .quantifier (.range n m) else .invalid,
          ⟨rest, false⟩) := by
    intro s t n m hn hm hws hwt
    obtain ⟨c', t', d', rfl, h3, h4⟩ := takeDec_numeral p hm hwt hbrace rest
    obtain ⟨c, s', d, rfl, h1, h2⟩ := takeDec_numeral p hn hws hcomma (c' :: t' ++ '}' :: rest)
    have hc' : c' ≠ '}' := by intro h; rw [h, hbrace] at h3; simp at h3
    simp only [List.cons_append] at h2
    simp only [List.cons_append, handleRangeL, h1, h2, Outcome.bind_ok]
    simp only [if_true, rangeTailL, hc', if_false, h3, h4, Outcome.bind_ok]
    by_cases h5 : n < 2 ^ 32 <;> by_cases h6 : m < 2 ^ 32 <;> simp [h5, h6]
  cases hk with
  | @exactly s n hn hlt =>
    have := hexact s n hn (hw s (by simp [Bounds.numerals]))
    rw [if_pos hlt] at this
    exact key _ this (by simp [Bounds.text])
  | @exactlyBig s n hn hlt =>
    have := hexact s n hn (hw s (by simp [Bounds.numerals]))
    rw [if_neg (by omega)] at this
    exact key _ this (by simp [Bounds.text])
  | @atLeast s n hn hlt =>
    have := hmin s n hn (hw s (by simp [Bounds.numerals]))
    rw [if_pos hlt] at this
    exact key _ this (by simp [Bounds.text])
  | @atLeastBig s n hn hlt =>
    have := hmin s n hn (hw s (by simp [Bounds.numerals]))
    rw [if_neg (by omega)] at this
    exact key _ this (by simp [Bounds.text])
  | @between s t n m hn hm h1 h2 =>
    have := hrange s t n m hn hm (hw s (by simp [Bounds.numerals])) (hw t (by simp [Bounds.numerals]))
    rw [if_pos ⟨h1, h2⟩] at this
    exact key _ this (by simp [Bounds.text])
  | @betweenBig s t n m hn hm h1 =>
    have := hrange s t n m hn hm (hw s (by simp [Bounds.numerals])) (hw t (by simp [Bounds.numerals]))
    rw [if_neg (by omega)] at this
    exact key _ this (by simp [Bounds.text])

theorem numeral_ex : Numeral "4294967296".toList 4294967296 := by
  have h1 : Numeral ['4'] 4 := .digit rfl
  have h2 := h1.snoc (c := '2') (d := 2) rfl
  have h3 := h2.snoc (c := '9') (d := 9) rfl
  have h4 := h3.snoc (c := '4') (d := 4) rfl
  have h5 := h4.snoc (c := '9') (d := 9) rfl
  have h6 := h5.snoc (c := '6') (d := 6) rfl
  have h7 := h6.snoc (c := '7') (d := 7) rfl
  have h8 := h7.snoc (c := '2') (d := 2) rfl
  have h9 := h8.snoc (c := '9') (d := 9) rfl
  exact h9.snoc (c := '6') (d := 6) rfl

/-- C03 is false: `{4294967296}` crashes the tokenizer with overflow checks, and without them it is read
as `{0}`. -/
theorem c03_false : ¬ BoundsExact ∧
    scan .debug "{4294967296}".toList = ⟨[], .panic⟩ ∧
    (scan .release "{4294967296}".toList).kinds = [.quantifier (.max 0)] := by
  have e : (scan .release "{4294967296}".toList).kinds = [.quantifier (.max 0)] := by decide
  refine ⟨fun h => ?_, by decide, e⟩
  have := h .release (.exactly "4294967296".toList) .invalid [] (.exactlyBig numeral_ex (by decide))
  rw [show (Bounds.exactly "4294967296".toList).text ++ [] = "{4294967296}".toList by decide, e] at this
  simp at this

/-- Numerals with leading zeros meet the hypotheses. -/
example : Bounds.Means (.between "007".toList "12".toList) (.quantifier (.range 7 12)) ∧
    (∀ s ∈ (Bounds.between "007".toList "12".toList).numerals, NoOverflowWindow s) ∧
    (scan .debug "{007,12}a".toList).kinds = [.quantifier (.range 7 12), .mtch 'a'] ∧
    (scan .debug "{99999999999}a".toList).kinds = [.invalid, .mtch 'a'] := by
  refine ⟨?_, ?_, by decide, by decide⟩
  case refine_2 =>
    intro s hs
    simp only [Bounds.numerals, List.mem_cons, List.not_mem_nil, or_false] at hs
    rcases hs with rfl | rfl <;> exact noOverflowWindow_of_short (by decide)
  have h1 : Numeral ['0'] 0 := .digit rfl
  have h2 := h1.snoc (c := '0') (d := 0) rfl
  have h3 := h2.snoc (c := '7') (d := 7) rfl
  have h4 : Numeral ['1'] 1 := .digit rfl
  exact .between h3 (h4.snoc (c := '2') (d := 2) rfl) (by decide) (by decide)

end Pango.Props
