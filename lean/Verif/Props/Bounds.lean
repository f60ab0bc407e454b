import Verif.Props.Tokenizer

/-!
# C03: what happens to counted bounds at the top of the 32-bit range

`c03_bounds_partial` leaves out the numerals of which a prefix has one of the values 2^32, ..., 2^32 + 3.
Here is what happens to them: with overflow checks the tokenizer panics, without them the prefix is read as
the one digit by which it exceeds 2^32.
-/

namespace Pango.Props

open Pango Pango.Regex

/-- Specification: `t` is the numeral `s` with a prefix of value 2^32 + r, where r < 4, replaced by the
digit r. -/
def Wraps (s t : List Char) : Prop :=
  ∃ u v r c, s = u ++ v ∧ Numeral u (2 ^ 32 + r) ∧ r < 4 ∧ DecDigit c r ∧ t = c :: v

/-- Specification: `t` is what is left of `s` when such prefixes are replaced as long as there are any. -/
inductive WrapsTo : List Char → List Char → Prop
  | done {s : List Char} : NoOverflowWindow s → WrapsTo s s
  | wrap {s t u : List Char} : Wraps s t → WrapsTo t u → WrapsTo s u

/-- The same for both numerals of the bounds. -/
inductive Bounds.WrapTo : Bounds → Bounds → Prop
  | exactly {s s' : List Char} : WrapsTo s s' → WrapTo (.exactly s) (.exactly s')
  | atLeast {s s' : List Char} : WrapsTo s s' → WrapTo (.atLeast s) (.atLeast s')
  | between {s s' t t' : List Char} : WrapsTo s s' → WrapsTo t t' →
      WrapTo (.between s t) (.between s' t')

theorem decFold_append (p : Profile) (acc : Option Nat) (xs ys : List Nat) :
    decFold p acc (xs ++ ys) = (decFold p acc xs).bind (fun a => decFold p a ys) := by
  induction xs generalizing acc with
  | nil => rfl
  | cons x xs ih =>
    have e : ∀ zs, decFold p acc (x :: zs) = (decStep p acc x).bind (fun a => decFold p a zs) :=
      fun _ => rfl
    rw [List.cons_append, e, e]
    cases decStep p acc x with
    | ok a => exact ih a
    | panic => rfl
    | diverge => rfl

theorem digitsValue_ge (ds : List Nat) (m : Nat) : m ≤ digitsValue m ds := by
  induction ds generalizing m with
  | nil => exact Nat.le_refl _
  | cons d ds ih =>
    have := ih (10 * m + d)
    simp only [digitsValue, List.foldl_cons] at this ⊢
    omega

theorem digitsValue_take (ds : List Nat) (m k : Nat) :
    digitsValue m (ds.take k) ≤ digitsValue m ds := by
  have : digitsValue m ds = digitsValue (digitsValue m (ds.take k)) (ds.drop k) := by
    unfold digitsValue
    rw [← List.foldl_append, List.take_append_drop]
  rw [this]
  exact digitsValue_ge _ _

/-- Adding up the digits of a numeral of value 2^32 + r. -/
theorem decFold_window {u : List Char} {r : Nat} (h : Numeral u (2 ^ 32 + r)) (hr : r < 4) :
    ∃ c d u' du, u = c :: u' ∧ DecDigit c d ∧ u'.map decDigit? = du.map some ∧
      decFold .debug (some d) du = .panic ∧ decFold .release (some d) du = .ok (some r) := by
  generalize hn : 2 ^ 32 + r = n at h
  cases h with
  | digit hd =>
    have := decDigit_lt hd
    omega
  | @snoc s m c d hs hc =>
    have hd := decDigit_lt hc
    obtain ⟨c0, d0, s', ds, rfl, h1, h2, h3, h4⟩ := numeral_digits hs
    have hm : m < 2 ^ 32 := by omega
    have hv : ∀ p, decFold p (some d0) ds = .ok (some m) := by
      intro p
      have := decFold_value p ds d0 (by have := decDigit_lt h1; omega) h3 (fun k _ => by
        have := digitsValue_take ds d0 k
        omega)
      rw [this, h4, if_pos hm]
    have hmul : m * 10 < u32Size := by simp only [u32Size]; omega
    have hadd : ¬ m * 10 + d < u32Size := by simp only [u32Size]; omega
    refine ⟨c0, d0, s' ++ [c], ds ++ [d], rfl, h1, by simp [h2, decDigit_of hc], ?_, ?_⟩
    · rw [decFold_append, hv]
      simp [decFold, decStep, hmul, addU32, hadd, Outcome.bind]
    · have e : decStep .release (some m) d = .ok (some r) := by
        have : (m * 10 + d) % u32Size = r := by simp only [u32Size]; omega
        simp only [decStep, hmul, if_true, addU32, hadd, if_false, this]
        rfl
      rw [decFold_append, hv]
      show (decStep .release (some m) d).bind (fun a => decFold .release a []) = _
      rw [e]
      rfl

theorem digits_of {s : List Char} (h : ∀ x ∈ s, ∃ d, decDigit? x = some d) :
    ∃ ds : List Nat, s.map decDigit? = ds.map some := by
  induction s with
  | nil => exact ⟨[], rfl⟩
  | cons a s ih =>
    obtain ⟨d, hd⟩ := h a (by simp)
    obtain ⟨ds, hds⟩ := ih (fun x hx => h x (by simp [hx]))
    exact ⟨d :: ds, by simp [hd, hds]⟩

theorem numeral_all {s : List Char} {n : Nat} (h : Numeral s n) :
    ∀ x ∈ s, ∃ d, decDigit? x = some d := by
  induction h with
  | digit hd =>
    intro x hx
    simp at hx
    subst hx
    exact ⟨_, decDigit_of hd⟩
  | snoc _ hc ih =>
    intro x hx
    rcases List.mem_append.1 hx with hx | hx
    · exact ih x hx
    · simp at hx
      subst hx
      exact ⟨_, decDigit_of hc⟩

/-- The numeral is read as `o`: the number, or `none` if it is too large. -/
def ReadsAs (p : Profile) (s : List Char) (o : Option Nat) : Prop :=
  ∃ c s' d, s = c :: s' ∧ decDigit? c = some d ∧ ∀ e rest, decDigit? e = none →
    takeDecL p (s' ++ e :: rest) d = .ok (o, e :: rest)

/-- Reading the numeral panics. -/
def ReadPanics (p : Profile) (s : List Char) : Prop :=
  ∃ c s' d, s = c :: s' ∧ decDigit? c = some d ∧ ∀ e rest, decDigit? e = none →
    takeDecL p (s' ++ e :: rest) d = .panic

theorem reads_plain (p : Profile) {s : List Char} {n : Nat} (h : Numeral s n)
    (hw : NoOverflowWindow s) : ReadsAs p s (if n < 2 ^ 32 then some n else none) := by
  obtain ⟨c, d, s', ds, rfl, h1, h2, h3, h4⟩ := numeral_digits h
  refine ⟨c, s', d, rfl, decDigit_of h1, fun e rest he => ?_⟩
  obtain ⟨c', s'', d', e1, e2, e3⟩ := takeDec_numeral p h hw he rest
  obtain ⟨rfl, rfl⟩ := List.cons.inj e1
  rw [decDigit_of h1] at e2
  obtain rfl := Option.some.inj e2
  exact e3

theorem reads_panics {s : List Char} {n : Nat} (h : Numeral s n) (hw : ¬ NoOverflowWindow s) :
    ReadPanics .debug s := by
  obtain ⟨u, m, hu, hm, hlo, hhi⟩ : ∃ u m, u <+: s ∧ Numeral u m ∧ 2 ^ 32 ≤ m ∧ m < 2 ^ 32 + 4 := by
    simp only [NoOverflowWindow, Classical.not_forall, Classical.not_not] at hw
    obtain ⟨u, m, h1, h2, h3, h4⟩ := hw
    exact ⟨u, m, h1, h2, h3, h4⟩
  obtain ⟨v, rfl⟩ := hu
  obtain ⟨r, rfl⟩ : ∃ r, m = 2 ^ 32 + r := ⟨m - 2 ^ 32, by omega⟩
  obtain ⟨c, d, u', du, rfl, h1, h2, h3, _⟩ := decFold_window hm (by omega)
  obtain ⟨dv, hdv⟩ := digits_of (s := v) (fun x hx => numeral_all h x (by simp [hx]))
  refine ⟨c, u' ++ v, d, rfl, decDigit_of h1, fun e rest he => ?_⟩
  have hs := spanMap_digits (s := u' ++ v) (ds := du ++ dv) (by simp [h2, hdv]) he rest
  simp only [takeDecL, hs, decFold_append, h3]
  rfl

theorem wraps_numeral {s t : List Char} {m : Nat} (h : Wraps s t) (ht : Numeral t m) :
    ∃ n, Numeral s n := by
  obtain ⟨u, v, r, c, rfl, hu, hr, hc, rfl⟩ := h
  obtain ⟨dv, hdv⟩ := digits_of (s := v) (fun x hx => numeral_all ht x (by simp [hx]))
  exact ⟨_, numeral_of_digits hu v dv hdv⟩

theorem numeral_wraps {s t : List Char} {n : Nat} (h : Wraps s t) (hs : Numeral s n) :
    ∃ m, Numeral t m := by
  obtain ⟨u, v, r, c, rfl, hu, hr, hc, rfl⟩ := h
  obtain ⟨dv, hdv⟩ := digits_of (s := v) (fun x hx => numeral_all hs x (by simp [hx]))
  exact ⟨_, numeral_of_digits (.digit hc) v dv hdv⟩

theorem reads_wraps {s t : List Char} {m : Nat} {o : Option Nat} (h : Wraps s t) (ht : Numeral t m)
    (hr : ReadsAs .release t o) : ReadsAs .release s o := by
  obtain ⟨u, v, r, c, rfl, hu, hr4, hc, rfl⟩ := h
  obtain ⟨c', v', d', e1, e2, e3⟩ := hr
  obtain ⟨rfl, rfl⟩ := List.cons.inj e1
  rw [decDigit_of hc] at e2
  obtain rfl := Option.some.inj e2
  obtain ⟨dv, hdv⟩ := digits_of (s := v) (fun x hx => numeral_all ht x (by simp [hx]))
  obtain ⟨c0, d, u', du, rfl, h1, h2, _, h3⟩ := decFold_window hu hr4
  refine ⟨c0, u' ++ v, d, rfl, decDigit_of h1, fun e rest he => ?_⟩
  rw [← e3 e rest he]
  have hs := spanMap_digits (s := u' ++ v) (ds := du ++ dv) (by simp [h2, hdv]) he rest
  have hs' := spanMap_digits (s := v) (ds := dv) hdv he rest
  simp only [takeDecL, hs, hs', decFold_append, h3]
  rfl

theorem wrapsTo_numeral {s t : List Char} {m : Nat} (h : WrapsTo s t) (ht : Numeral t m) :
    ∃ n, Numeral s n := by
  induction h with
  | done _ => exact ⟨m, ht⟩
  | wrap h1 _ ih =>
    obtain ⟨n, hn⟩ := ih ht
    exact wraps_numeral h1 hn

theorem wrapsTo_clean {s t : List Char} (h : WrapsTo s t) : NoOverflowWindow t := by
  induction h with
  | done h => exact h
  | wrap _ _ ih => exact ih

theorem reads_wrapsTo {s t : List Char} {m : Nat} (h : WrapsTo s t) (ht : Numeral t m) :
    ReadsAs .release s (if m < 2 ^ 32 then some m else none) := by
  induction h with
  | done h => exact reads_plain _ ht h
  | wrap h1 h2 ih =>
    obtain ⟨n, hn⟩ := wrapsTo_numeral h2 ht
    exact reads_wraps h1 hn (ih ht)

/-- Every numeral comes to an end: the replacement makes it shorter. -/
theorem wrapsTo_exists {s : List Char} {n : Nat} (h : Numeral s n) :
    ∃ t m, WrapsTo s t ∧ Numeral t m := by
  induction hl : s.length using Nat.strongRecOn generalizing s n with
  | _ k ih =>
    by_cases hw : NoOverflowWindow s
    · exact ⟨s, n, .done hw, h⟩
    · obtain ⟨u, m, hu, hm, hlo, hhi⟩ : ∃ u m, u <+: s ∧ Numeral u m ∧ 2 ^ 32 ≤ m ∧ m < 2 ^ 32 + 4 := by
        simp only [NoOverflowWindow, Classical.not_forall, Classical.not_not] at hw
        obtain ⟨u, m, h1, h2, h3, h4⟩ := hw
        exact ⟨u, m, h1, h2, h3, h4⟩
      obtain ⟨v, rfl⟩ := hu
      obtain ⟨r, rfl⟩ : ∃ r, m = 2 ^ 32 + r := ⟨m - 2 ^ 32, by omega⟩
      have hr : r < 4 := by omega
      obtain ⟨c, hc⟩ : ∃ c, DecDigit c r := by
        have : r = 0 ∨ r = 1 ∨ r = 2 ∨ r = 3 := by omega
        rcases this with rfl | rfl | rfl | rfl
        · exact ⟨'0', rfl⟩
        · exact ⟨'1', rfl⟩
        · exact ⟨'2', rfl⟩
        · exact ⟨'3', rfl⟩
      have hW : Wraps (u ++ v) (c :: v) := ⟨u, v, r, c, rfl, hm, hr, hc, rfl⟩
      obtain ⟨m', hm'⟩ := numeral_wraps hW h
      have hu : 2 ≤ u.length := by
        generalize hn : 2 ^ 32 + r = n at hm
        cases hm with
        | digit hd => have := decDigit_lt hd; omega
        | snoc hs _ =>
          cases hs <;> simp
      obtain ⟨t, m2, h1, h2⟩ := ih (c :: v).length (by simp at hl ⊢; omega) hm' rfl
      exact ⟨t, m2, .wrap hW h1, h2⟩

/-! ### The bounds -/

/-- The token for one number, or for one that is too large. -/
def tokenOf (q : Nat → Quant) : Option Nat → TokenKind
  | some n => .quantifier (q n)
  | none => .invalid

/-- The token for two numbers. -/
def tokenOf₂ : Option Nat → Option Nat → TokenKind
  | some n, some m => .quantifier (.range n m)
  | _, _ => .invalid

theorem comma_digit : decDigit? ',' = none := by decide
theorem brace_digit : decDigit? '}' = none := by decide

theorem range_exactly {p : Profile} {s : List Char} {o : Option Nat} (h : ReadsAs p s o)
    (rest : List Char) : handleRangeL p (s ++ '}' :: rest) =
      .ok (tokenOf .max o, ⟨rest, false⟩) := by
  obtain ⟨c, s', d, rfl, h1, h2⟩ := h
  simp only [List.cons_append, handleRangeL, h1, h2 '}' rest brace_digit, Outcome.bind_ok]
  cases o <;> simp [rangeTailL, tokenOf]

theorem range_atLeast {p : Profile} {s : List Char} {o : Option Nat} (h : ReadsAs p s o)
    (rest : List Char) : handleRangeL p (s ++ ',' :: '}' :: rest) =
      .ok (tokenOf .min o, ⟨rest, false⟩) := by
  obtain ⟨c, s', d, rfl, h1, h2⟩ := h
  simp only [List.cons_append, handleRangeL, h1, h2 ',' ('}' :: rest) comma_digit, Outcome.bind_ok]
  cases o <;> simp [rangeTailL, tokenOf]

theorem range_between {p : Profile} {s t : List Char} {o o' : Option Nat} (h : ReadsAs p s o)
    (h' : ReadsAs p t o') (rest : List Char) :
    handleRangeL p (s ++ ',' :: (t ++ '}' :: rest)) =
      .ok (tokenOf₂ o o', ⟨rest, false⟩) := by
  obtain ⟨c, s', d, rfl, h1, h2⟩ := h
  obtain ⟨c', t', d', rfl, h3, h4⟩ := h'
  have hc' : c' ≠ '}' := by intro h; rw [h, brace_digit] at h3; simp at h3
  have h2 := h2 ',' (c' :: t' ++ '}' :: rest) comma_digit
  simp only [List.cons_append] at h2
  simp only [List.cons_append, handleRangeL, h1, h2, Outcome.bind_ok]
  simp only [if_true, rangeTailL, hc', if_false, h3, h4 '}' rest brace_digit, Outcome.bind_ok]
  cases o <;> cases o' <;> simp [tokenOf₂]

theorem range_first_panics {p : Profile} {s : List Char} (h : ReadPanics p s) {e : Char}
    (he : decDigit? e = none) (rest : List Char) : handleRangeL p (s ++ e :: rest) = .panic := by
  obtain ⟨c, s', d, rfl, h1, h2⟩ := h
  simp only [List.cons_append, handleRangeL, h1, h2 e rest he]
  rfl

theorem range_second_panics {p : Profile} {s t : List Char} {o : Option Nat} (h : ReadsAs p s o)
    (h' : ReadPanics p t) (rest : List Char) :
    handleRangeL p (s ++ ',' :: (t ++ '}' :: rest)) = .panic := by
  obtain ⟨c, s', d, rfl, h1, h2⟩ := h
  obtain ⟨c', t', d', rfl, h3, h4⟩ := h'
  have hc' : c' ≠ '}' := by intro h; rw [h, brace_digit] at h3; simp at h3
  have h2 := h2 ',' (c' :: t' ++ '}' :: rest) comma_digit
  simp only [List.cons_append] at h2
  simp only [List.cons_append, handleRangeL, h1, h2, Outcome.bind_ok]
  simp only [if_true, rangeTailL, hc', if_false, h3, h4 '}' rest brace_digit]
  rfl

theorem scan_range {p : Profile} {cs rest : List Char} {k : TokenKind}
    (h : handleRangeL p cs = .ok (k, ⟨rest, false⟩)) :
    (scan p ('{' :: cs)).kinds = k :: (scan p rest).kinds ∧
    (scan p ('{' :: cs)).stop = (scan p rest).stop := by
  have : tokenKindL p '{' cs = .ok (k, ⟨rest, false⟩) := by
    simp [tokenKindL, show operatorOf '{' = none by decide, h]
  exact scan_token this

theorem scan_range_panics {p : Profile} {cs : List Char} (h : handleRangeL p cs = .panic) :
    scan p ('{' :: cs) = ⟨[], .panic⟩ := by
  have h' : tokenKindL p '{' cs = .panic := by
    simp [tokenKindL, show operatorOf '{' = none by decide, h]
  rw [scan_eq_scanK]
  rcases scanK_cons p ('{' :: cs).length '{' cs with ⟨_, e1⟩ | ⟨kind', l', ht, _, _⟩
  · exact e1
  · rw [h'] at ht; simp at ht

/-- C03, the bounds that `c03_bounds_partial` leaves out, with overflow checks: the tokenizer panics at
the bounds if and only if a prefix of one of the numerals has one of the values 2^32, ..., 2^32 + 3. -/
theorem c03_panics_partial (b : Bounds) (k : TokenKind) (rest : List Char) (hk : Bounds.Means b k) :
    scan .debug (b.text ++ rest) = ⟨[], .panic⟩ ↔ ∃ s ∈ b.numerals, ¬ NoOverflowWindow s := by
  constructor
  · intro h
    refine Classical.byContradiction fun hn => ?_
    have hall : ∀ s ∈ b.numerals, NoOverflowWindow s := fun s hs =>
      Classical.byContradiction fun hw => hn ⟨s, hs, hw⟩
    have := (c03_bounds_partial .debug b k rest hk hall).1
    rw [h] at this
    simp [Scan.kinds] at this
  · have hex : ∀ s n, Numeral s n → (∃ s' ∈ (Bounds.exactly s).numerals, ¬ NoOverflowWindow s') →
        scan .debug ((Bounds.exactly s).text ++ rest) = ⟨[], .panic⟩ := by
      rintro s n hn ⟨s', hs', hw⟩
      simp only [Bounds.numerals, List.mem_singleton] at hs'
      subst hs'
      have := scan_range_panics (range_first_panics (reads_panics hn hw) brace_digit rest)
      simpa [Bounds.text] using this
    have hal : ∀ s n, Numeral s n → (∃ s' ∈ (Bounds.atLeast s).numerals, ¬ NoOverflowWindow s') →
        scan .debug ((Bounds.atLeast s).text ++ rest) = ⟨[], .panic⟩ := by
      rintro s n hn ⟨s', hs', hw⟩
      simp only [Bounds.numerals, List.mem_singleton] at hs'
      subst hs'
      have := scan_range_panics (range_first_panics (reads_panics hn hw) comma_digit ('}' :: rest))
      simpa [Bounds.text] using this
    have hbe : ∀ s t n m, Numeral s n → Numeral t m →
        (∃ s' ∈ (Bounds.between s t).numerals, ¬ NoOverflowWindow s') →
        scan .debug ((Bounds.between s t).text ++ rest) = ⟨[], .panic⟩ := by
      rintro s t n m hn hm ⟨s', hs', hw⟩
      by_cases hws : NoOverflowWindow s
      · have hwt : ¬ NoOverflowWindow t := by
          simp only [Bounds.numerals, List.mem_cons, List.not_mem_nil, or_false] at hs'
          rcases hs' with rfl | rfl
          · exact absurd hws hw
          · exact hw
        have := scan_range_panics (range_second_panics (reads_plain .debug hn hws)
          (reads_panics hm hwt) rest)
        simpa [Bounds.text] using this
      · have := scan_range_panics (range_first_panics (reads_panics hn hws) comma_digit
          (t ++ '}' :: rest))
        simpa [Bounds.text] using this
    cases hk with
    | exactly hn _ => exact hex _ _ hn
    | exactlyBig hn _ => exact hex _ _ hn
    | atLeast hn _ => exact hal _ _ hn
    | atLeastBig hn _ => exact hal _ _ hn
    | between hn hm _ _ => exact hbe _ _ _ _ hn hm
    | betweenBig hn hm _ => exact hbe _ _ _ _ hn hm

/-- C03, the bounds that `c03_bounds_partial` leaves out, without overflow checks: they are read as the
bounds in which each prefix of value 2^32 + r with r < 4 is replaced by the digit r, as long as there is
one. -/
theorem c03_wraps_partial (b b' : Bounds) (k : TokenKind) (rest : List Char) (hb : b.WrapTo b')
    (hk : Bounds.Means b' k) :
    (scan .release (b.text ++ rest)).kinds = k :: (scan .release rest).kinds ∧
    (scan .release (b.text ++ rest)).stop = (scan .release rest).stop := by
  cases hb with
  | @exactly s s' h =>
    rw [show (Bounds.exactly s).text ++ rest = '{' :: (s ++ '}' :: rest) by simp [Bounds.text]]
    have key : ∀ n, Numeral s' n → k = tokenOf .max (if n < 2 ^ 32 then some n else none) → _ := fun n hn e => by
      have := scan_range (range_exactly (reads_wrapsTo h hn) rest)
      rw [← e] at this
      exact this
    cases hk with
    | exactly hn hl => exact key _ hn (by rw [if_pos hl]; rfl)
    | exactlyBig hn hl => exact key _ hn (by rw [if_neg (by omega)]; rfl)
  | @atLeast s s' h =>
    rw [show (Bounds.atLeast s).text ++ rest = '{' :: (s ++ ',' :: '}' :: rest) by simp [Bounds.text]]
    have key : ∀ n, Numeral s' n → k = tokenOf .min (if n < 2 ^ 32 then some n else none) → _ := fun n hn e => by
      have := scan_range (range_atLeast (reads_wrapsTo h hn) rest)
      rw [← e] at this
      exact this
    cases hk with
    | atLeast hn hl => exact key _ hn (by rw [if_pos hl]; rfl)
    | atLeastBig hn hl => exact key _ hn (by rw [if_neg (by omega)]; rfl)
  | @between s s' t t' h h' =>
    rw [show (Bounds.between s t).text ++ rest = '{' :: (s ++ ',' :: (t ++ '}' :: rest)) by
      simp [Bounds.text]]
    have key : ∀ n m, Numeral s' n → Numeral t' m →
        k = tokenOf₂ (if n < 2 ^ 32 then some n else none) (if m < 2 ^ 32 then some m else none) → _ := fun n m hn hm e => by
      have := scan_range (range_between (reads_wrapsTo h hn) (reads_wrapsTo h' hm) rest)
      rw [← e] at this
      exact this
    cases hk with
    | between hn hm h1 h2 => exact key _ _ hn hm (by rw [if_pos h1, if_pos h2]; rfl)
    | betweenBig hn hm hl =>
      refine key _ _ hn hm ?_
      rcases hl with hl | hl
      · rw [if_neg (Nat.not_lt.2 hl)]
        rfl
      · generalize (if _ < 2 ^ 32 then some _ else none : Option Nat) = o
        rw [if_neg (Nat.not_lt.2 hl)]
        cases o <;> rfl

/-- Every bounds that mean something lead to bounds that mean something, so the theorem says for all of
them how they are read. -/
theorem wrapTo_exists (b : Bounds) (k : TokenKind) (hk : Bounds.Means b k) :
    ∃ b' k', b.WrapTo b' ∧ Bounds.Means b' k' := by
  have one : ∀ s n, Numeral s n → ∃ s' m, WrapsTo s s' ∧ Numeral s' m := fun s n h => wrapsTo_exists h
  have hex : ∀ s n, Numeral s n → ∃ b' k', (Bounds.exactly s).WrapTo b' ∧ Bounds.Means b' k' := by
    intro s n hn
    obtain ⟨s', m, h1, h2⟩ := one s n hn
    by_cases hm : m < 2 ^ 32
    · exact ⟨_, _, .exactly h1, .exactly h2 hm⟩
    · exact ⟨_, _, .exactly h1, .exactlyBig h2 (Nat.not_lt.1 hm)⟩
  have hal : ∀ s n, Numeral s n → ∃ b' k', (Bounds.atLeast s).WrapTo b' ∧ Bounds.Means b' k' := by
    intro s n hn
    obtain ⟨s', m, h1, h2⟩ := one s n hn
    by_cases hm : m < 2 ^ 32
    · exact ⟨_, _, .atLeast h1, .atLeast h2 hm⟩
    · exact ⟨_, _, .atLeast h1, .atLeastBig h2 (Nat.not_lt.1 hm)⟩
  have hbe : ∀ s t n m, Numeral s n → Numeral t m →
      ∃ b' k', (Bounds.between s t).WrapTo b' ∧ Bounds.Means b' k' := by
    intro s t n m hn hm
    obtain ⟨s', n', h1, h2⟩ := one s n hn
    obtain ⟨t', m', h3, h4⟩ := one t m hm
    by_cases hl : 2 ^ 32 ≤ n' ∨ 2 ^ 32 ≤ m'
    · exact ⟨_, _, .between h1 h3, .betweenBig h2 h4 hl⟩
    · exact ⟨_, _, .between h1 h3, .between h2 h4 (by omega) (by omega)⟩
  cases hk with
  | exactly hn _ => exact hex _ _ hn
  | exactlyBig hn _ => exact hex _ _ hn
  | atLeast hn _ => exact hal _ _ hn
  | atLeastBig hn _ => exact hal _ _ hn
  | between hn hm _ _ => exact hbe _ _ _ _ hn hm
  | betweenBig hn hm _ => exact hbe _ _ _ _ hn hm

/-- `42949672967` begins with 2^32 + 0 and is read as `07`. -/
example : Bounds.WrapTo (.exactly "42949672967".toList) (.exactly "07".toList) ∧
    Bounds.Means (.exactly "07".toList) (.quantifier (.max 7)) ∧
    (∃ s ∈ (Bounds.exactly "42949672967".toList).numerals, ¬ NoOverflowWindow s) ∧
    (scan .release "{42949672967}a".toList).kinds = [.quantifier (.max 7), .mtch 'a'] ∧
    scan .debug "{42949672967}a".toList = ⟨[], .panic⟩ := by
  have h0 : Numeral ['0'] 0 := .digit rfl
  refine ⟨.exactly (.wrap ⟨"4294967296".toList, ['7'], 0, '0', by decide, numeral_ex, by decide, rfl, rfl⟩
    (.done (noOverflowWindow_of_short (by decide)))), .exactly (h0.snoc (c := '7') (d := 7) rfl)
    (by decide), ⟨_, List.mem_singleton.2 rfl, fun h => ?_⟩, by decide, by decide⟩
  exact h "4294967296".toList _ ⟨['7'], by decide⟩ numeral_ex (by decide)

end Pango.Props
