import Verif.Props.Escapes

/-!
# C02, C51: hexadecimal escapes, whatever the number of digits

`c02_two_digits_partial` and `c02_four_digits_partial` are about escapes behind which no further
hexadecimal digit follows.  Here is what an escape without braces is read as when any number of digits
follow, and what an escape in braces is read as when its number is not a code.
-/

namespace Pango.Props

open Pango Pango.Regex

/-- The hexadecimal reader on a run of digits. -/
theorem takeHexL_run {s : List Char} {n v : Nat} (h : HexNumeral s n v) {rest : List Char}
    (hr : NoHexAhead rest) : takeHexL (s ++ rest) none = ((n, v % u32Size), rest) := by
  have key : ∀ {s : List Char} {n v : Nat}, HexNumeral s n v → ∃ ds : List Nat,
      s.map hexDigit? = ds.map some ∧
      ds.foldl (fun (acc : Nat × Nat) d => (acc.1 + 1, (acc.2 * 16) % u32Size + d)) (0, 0) =
        (n, v % u32Size) := by
    intro s n v h
    induction h with
    | nil => exact ⟨[], rfl, rfl⟩
    | @snoc s n v c d _ hc ih =>
      obtain ⟨ds, h1, h2⟩ := ih
      refine ⟨ds ++ [d], by simp [h1, hexDigit_of hc], ?_⟩
      rw [List.foldl_append, h2]
      have := hexDigit_lt hc
      simp only [List.foldl_cons, List.foldl_nil, u32Size]
      congr 1
      omega
  have span : ∀ (s : List Char) (ds : List Nat), s.map hexDigit? = ds.map some →
      spanMap hexDigit? (s ++ rest) = (ds, rest) := by
    intro s
    induction s with
    | nil =>
      intro ds h
      have : ds = [] := by simpa using h.symm
      subst this
      exact spanMap_noHex hr
    | cons a s ih =>
      intro ds h
      cases ds with
      | nil => simp at h
      | cons d ds =>
        simp only [List.map_cons, List.cons.injEq] at h
        simp [spanMap, h.1, ih ds h.2]
  obtain ⟨ds, h1, h2⟩ := key h
  simp only [takeHexL, span s ds h1, h2]

theorem charFromU32_none {n : Nat} (h : ¬ IsCode n) : charFromU32 n = none := by
  unfold charFromU32
  rw [dif_neg]
  exact h

theorem handleEscapeL_x (cs : List Char) :
    handleEscapeL ('x' :: cs) = (matchOrInvalid (handleXL cs).1, (handleXL cs).2) := by
  simp [handleEscapeL, show classOf 'x' = none by decide, show simpleEscape 'x' = none by decide]

/-- C02, `\x` and the run of all hexadecimal digits behind it: it is the character if there are two, and
one invalid token otherwise. -/
theorem c02_x_run_partial (p : Profile) (s : List Char) (n v : Nat) (rest : List Char)
    (h : HexNumeral s n v) (hr : NoHexAhead rest) :
    (n = 2 → ∃ c : Char, c.toNat = v ∧
      (scan p ('\\' :: 'x' :: s ++ rest)).kinds = .mtch c :: (scan p rest).kinds) ∧
    (n ≠ 2 → (scan p ('\\' :: 'x' :: s ++ rest)).kinds = .invalid :: (scan p rest).kinds) := by
  have ht := takeHexL_run h hr
  constructor
  · rintro rfl
    have hv := hexNumeral_lt h
    obtain ⟨c, hc, e⟩ := charFromU32_some (n := v) (by omega)
    refine ⟨c, hc, scan_escape p (b := false) ?_⟩
    rw [List.append_eq, handleEscapeL_x]
    have : v % u32Size = v := Nat.mod_eq_of_lt (by simp only [u32Size]; omega)
    simp [handleXL, ht, this, e, matchOrInvalid]
  · intro hn
    refine scan_escape p (b := false) ?_
    rw [List.append_eq, handleEscapeL_x]
    simp [handleXL, ht, hn, matchOrInvalid]

/-- C02, `\u` and the run of all hexadecimal digits behind it, of which there is at least one: it is the
character whose code is the number modulo 2^32, and one invalid token if there is none. -/
theorem c02_u_run_partial (p : Profile) (s : List Char) (n v : Nat) (rest : List Char)
    (h : HexNumeral s n v) (hn : 0 < n) (hr : NoHexAhead rest) :
    (IsCode (v % 2 ^ 32) → ∃ c : Char, c.toNat = v % 2 ^ 32 ∧
      (scan p ('\\' :: 'u' :: s ++ rest)).kinds = .mtch c :: (scan p rest).kinds) ∧
    (¬ IsCode (v % 2 ^ 32) →
      (scan p ('\\' :: 'u' :: s ++ rest)).kinds = .invalid :: (scan p rest).kinds) := by
  have hu : (scan p ('\\' :: 'u' :: s ++ rest)).kinds =
      matchOrInvalid (charFromU32 (v % u32Size)) :: (scan p rest).kinds := by
    refine scan_escape p (b := false) ?_
    rw [List.append_eq, handleEscapeL_u]
    have hrun : ∃ a s' d, s = a :: s' ∧ HexDigit a d := by
      have : ∀ {s : List Char} {n v : Nat}, HexNumeral s n v → 0 < n →
          ∃ a s' d, s = a :: s' ∧ HexDigit a d := by
        intro s n v h
        induction h with
        | nil => intro h; omega
        | @snoc s n v c d hs hc ih =>
          intro _
          cases hs with
          | nil => exact ⟨c, [], d, rfl, hc⟩
          | snoc h1 h2 =>
            obtain ⟨a, s', d', e, ha⟩ := ih (by omega)
            exact ⟨a, s' ++ [c], d', by rw [e]; rfl, ha⟩
      exact this h hn
    obtain ⟨a, s', d, rfl, ha⟩ := hrun
    have hbr : a ≠ '{' := by
      rintro rfl
      have := hexDigit_of ha
      rw [show hexDigit? '{' = none by decide] at this
      simp at this
    have ht := takeHexL_run h hr
    have ht' : (takeHexL (s' ++ rest) (some d)) = ((n, v % u32Size), rest) := by
      rw [← ht]
      have := hexDigit_lt ha
      simp only [List.cons_append, takeHexL, spanMap, hexDigit_of ha, List.foldl_cons, Nat.zero_mul, Nat.zero_mod,
        Nat.zero_add]
    simp [handleUL, hbr, hexDigit_of ha, ht']
  constructor
  · intro hc
    obtain ⟨c, h1, h2⟩ := charFromU32_some hc
    exact ⟨c, h1, by rw [hu, show v % u32Size = v % 2 ^ 32 from rfl, h2]; rfl⟩
  · intro hc
    rw [hu, show v % u32Size = v % 2 ^ 32 from rfl, charFromU32_none hc]
    rfl

/-- C51, any number of digits: if the number modulo 2^32 is no code, the escape is one invalid token. -/
theorem c51_no_code_partial (p : Profile) (s : List Char) (n v : Nat) (rest : List Char)
    (h : HexNumeral s n v) (hn : 4 ≤ n) (hc : ¬ IsCode (v % 2 ^ 32)) :
    (scan p ('\\' :: 'u' :: '{' :: s ++ '}' :: rest)).kinds = .invalid :: (scan p rest).kinds := by
  rw [braced_modulo p rest h hn, show v % u32Size = v % 2 ^ 32 from rfl, charFromU32_none hc]
  rfl

/-- Runs of one, three and five digits, and a number that is no code. -/
example : HexNumeral "4".toList 1 4 ∧ HexNumeral "d80000".toList 6 0xd80000 ∧ ¬ IsCode (0xd80000 % 2 ^ 32) ∧
    NoHexAhead ['g'] ∧
    (scan .debug "\\x4g\\x415g\\u1F600g\\ud80000g\\u{110000}".toList).kinds =
      [.invalid, .mtch 'g', .invalid, .mtch 'g', .mtch '😀', .mtch 'g', .invalid, .mtch 'g', .invalid] := by
  refine ⟨?_, ?_, by simp [IsCode], ?_, by decide⟩
  · exact hexNumeral_of [('4', 4)] (by
      intro x hx
      simp only [List.mem_cons, List.not_mem_nil, or_false] at hx
      subst hx
      exact .inl rfl)
  · exact hexNumeral_of [('d', 13), ('8', 8), ('0', 0), ('0', 0), ('0', 0), ('0', 0)] (by
      intro x hx
      simp only [List.mem_cons, List.not_mem_nil, or_false] at hx
      rcases hx with rfl | rfl | rfl | rfl | rfl | rfl <;> exact .inl rfl)
  · intro c d hc
    simp at hc
    subst hc
    intro h
    have := hexDigit_of h
    rw [show hexDigit? 'g' = none by decide] at this
    simp at this

end Pango.Props
