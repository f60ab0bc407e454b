import Verif.Proofs.Tokenizer

/-!
# The token stream of a pattern on plain character lists
-/

namespace Pango.Regex

open Pango CachedPeekable

theorem spanMap_suffix {α β : Type} (f : α → Option β) (cs : List α) : (spanMap f cs).2 <:+ cs := by
  induction cs with
  | nil => exact List.suffix_refl _
  | cons c cs ih =>
    simp only [spanMap]
    cases f c with
    | none => exact List.suffix_refl _
    | some b => exact ih.trans (List.suffix_cons c cs)

/-- What is left is a suffix; if the end was met, nothing is left and the token is invalid. -/
structure Fine (k : TokenKind) (l : Left) (cs : List Char) : Prop where
  suffix : l.cs <:+ cs
  hit : l.hitEnd = true → l.cs = [] ∧ k = .invalid

theorem fine_of_suffix {k : TokenKind} {cs cs' : List Char} (h : cs' <:+ cs) : Fine k ⟨cs', false⟩ cs :=
  ⟨h, by simp⟩

theorem fine_end {cs : List Char} : Fine .invalid ⟨[], true⟩ cs := ⟨List.nil_suffix, by simp⟩

theorem suffix_of_cons {c : Char} {a b : List Char} (h : c :: a <:+ b) : a <:+ b :=
  (List.suffix_cons c a).trans h

theorem takeDecL_ok {p : Profile} {cs cs' : List Char} {d : Nat} {r : Option Nat}
    (h : takeDecL p cs d = .ok (r, cs')) : cs' <:+ cs := by
  simp only [takeDecL, Outcome.bind_eq_ok] at h
  obtain ⟨_, _, h⟩ := h
  simp at h
  rw [← h.2]; exact spanMap_suffix _ _

theorem rangeTailL_fine {p : Profile} {first : Option Nat} {comma : Bool} {ch : Char} {cs cs0 : List Char}
    {k : TokenKind} {l : Left} (hs : cs <:+ cs0) (h : rangeTailL p first comma ch cs = .ok (k, l)) :
    Fine k l cs0 := by
  unfold rangeTailL at h
  split at h
  · cases first <;> (simp at h; obtain ⟨rfl, rfl⟩ := h; exact fine_of_suffix hs)
  · split at h
    · simp only [Outcome.bind_eq_ok] at h
      obtain ⟨⟨second, cs'⟩, h1, h2⟩ := h
      have hs' := (takeDecL_ok h1).trans hs
      simp only at h2
      split at h2
      · simp at h2; obtain ⟨rfl, rfl⟩ := h2; exact fine_end
      · have hs'' := suffix_of_cons hs'
        split at h2
        · simp at h2; obtain ⟨rfl, rfl⟩ := h2; exact fine_of_suffix hs''
        · split at h2 <;> (simp at h2; obtain ⟨rfl, rfl⟩ := h2; exact fine_of_suffix hs'')
    · simp at h; obtain ⟨rfl, rfl⟩ := h; exact fine_of_suffix hs

theorem handleRangeL_fine {p : Profile} {cs : List Char} {k : TokenKind} {l : Left}
    (h : handleRangeL p cs = .ok (k, l)) : Fine k l cs := by
  unfold handleRangeL at h
  split at h
  · simp at h; obtain ⟨rfl, rfl⟩ := h; exact fine_end
  · rename_i ch cs
    have h0 : cs <:+ ch :: cs := List.suffix_cons _ _
    split at h
    · simp at h; obtain ⟨rfl, rfl⟩ := h; exact fine_of_suffix h0
    · simp only [Outcome.bind_eq_ok] at h
      obtain ⟨⟨first, cs'⟩, h1, h2⟩ := h
      have hs' := (takeDecL_ok h1).trans h0
      simp only at h2
      split at h2
      · simp at h2; obtain ⟨rfl, rfl⟩ := h2; exact fine_end
      · have hs'' := suffix_of_cons hs'
        split at h2
        · split at h2
          · simp at h2; obtain ⟨rfl, rfl⟩ := h2; exact fine_end
          · exact rangeTailL_fine (suffix_of_cons hs'') h2
        · exact rangeTailL_fine hs'' h2

theorem takeHexL_suffix (cs : List Char) (start : Option Nat) : (takeHexL cs start).2 <:+ cs :=
  spanMap_suffix _ _

theorem handleControlL_fine (cs : List Char) :
    Fine (matchOrInvalid (handleControlL cs).1) (handleControlL cs).2 cs := by
  unfold handleControlL
  split
  · exact fine_end
  · split <;> exact fine_of_suffix (List.suffix_cons _ _)

theorem handleXL_fine (cs : List Char) :
    Fine (matchOrInvalid (handleXL cs).1) (handleXL cs).2 cs := by
  unfold handleXL
  simp only
  split <;> exact fine_of_suffix (takeHexL_suffix cs none)

theorem handleUL_fine (cs : List Char) :
    Fine (matchOrInvalid (handleUL cs).1) (handleUL cs).2 cs := by
  unfold handleUL
  split
  · exact fine_end
  · rename_i ch cs
    have h0 : cs <:+ ch :: cs := List.suffix_cons _ _
    split
    · have h1 := (takeHexL_suffix cs none).trans h0
      simp only
      split
      · exact fine_of_suffix h1
      · split
        · exact fine_end
        · rename_i heq
          rw [heq] at h1
          split <;> exact fine_of_suffix (suffix_of_cons h1)
    · split
      · exact fine_of_suffix h0
      · exact fine_of_suffix ((takeHexL_suffix cs _).trans h0)

theorem handleEscapeL_fine (cs : List Char) : Fine (handleEscapeL cs).1 (handleEscapeL cs).2 cs := by
  unfold handleEscapeL
  split
  · exact fine_end
  · rename_i ch cs
    have h0 : cs <:+ ch :: cs := List.suffix_cons _ _
    split
    · exact fine_of_suffix h0
    · split
      · exact fine_of_suffix h0
      · split
        · have := handleControlL_fine cs; exact ⟨this.suffix.trans h0, this.hit⟩
        · split
          · have := handleXL_fine cs; exact ⟨this.suffix.trans h0, this.hit⟩
          · split
            · have := handleUL_fine cs; exact ⟨this.suffix.trans h0, this.hit⟩
            · exact fine_of_suffix h0

theorem tokenKindL_fine {p : Profile} {ch : Char} {cs : List Char} {k : TokenKind} {l : Left}
    (h : tokenKindL p ch cs = .ok (k, l)) : Fine k l cs := by
  unfold tokenKindL at h
  split at h
  · simp at h
    have := handleEscapeL_fine cs
    rw [h] at this
    exact this
  · split at h
    · simp at h; obtain ⟨rfl, rfl⟩ := h; exact fine_of_suffix (List.suffix_refl _)
    · split at h
      · simp at h; obtain ⟨rfl, rfl⟩ := h; exact fine_of_suffix (List.suffix_refl _)
      · split at h
        · simp at h; obtain ⟨rfl, rfl⟩ := h; exact fine_of_suffix (List.suffix_refl _)
        · split at h
          · simp at h; obtain ⟨rfl, rfl⟩ := h; exact fine_of_suffix (List.suffix_refl _)
          · split at h
            · simp at h; obtain ⟨rfl, rfl⟩ := h; exact fine_of_suffix (List.suffix_refl _)
            · split at h
              · exact handleRangeL_fine h
              · simp at h; obtain ⟨rfl, rfl⟩ := h; exact fine_of_suffix (List.suffix_refl _)

theorem takeDecL_cases (p : Profile) (cs : List Char) (d : Nat) :
    (∃ r, takeDecL p cs d = .ok (r, (spanMap decDigit? cs).2)) ∨ takeDecL p cs d = .panic := by
  rcases decFold_cases p (spanMap decDigit? cs).1 (some d) with ⟨r, h⟩ | h <;> simp [takeDecL, h]

theorem tokenKindL_ne_diverge (p : Profile) (ch : Char) (cs : List Char) :
    tokenKindL p ch cs ≠ .diverge := by
  have hr : ∀ first comma ch cs, rangeTailL p first comma ch cs ≠ .diverge := by
    intro first comma ch cs
    unfold rangeTailL
    split
    · cases first <;> simp
    · split
      · rename_i d _
        rcases takeDecL_cases p cs d with ⟨r, h⟩ | h
        · simp only [h, Outcome.bind_ok]
          split
          · simp
          · split
            · simp
            · split <;> simp
        · simp [h]
      · simp
  unfold tokenKindL
  repeat' split
  all_goals try simp
  · unfold handleRangeL
    split
    · simp
    · rename_i ch cs
      split
      · simp
      · rename_i d _
        rcases takeDecL_cases p cs d with ⟨r, h⟩ | h
        · simp only [h, Outcome.bind_ok]
          split
          · simp
          · split
            · split
              · simp
              · exact hr _ _ _ _
            · exact hr _ _ _ _
        · simp [h]

/-! ## The stream -/

/-- `scanLoop` on a character list that is the rest of an input of `n` characters. -/
def scanL (p : Profile) (n : Nat) : Nat → List Char → Scan
  | 0, _ => ⟨[], .fuel⟩
  | _ + 1, [] => ⟨[], .eof⟩
  | k + 1, ch :: cs =>
    match tokenKindL p ch cs with
    | .ok (kind, l) =>
      let s := scanL p n k l.cs
      ⟨⟨kind, (n - (cs.length + 1), if l.hitEnd then 1 else n - l.cs.length)⟩ :: s.toks, s.stop⟩
    | .panic => ⟨[], .panic⟩
    | .diverge => ⟨[], .fuel⟩

theorem scanLoop_eq (p : Profile) (n : Nat) : ∀ (k : Nat) (it : CharIter) (cs : List Char),
    cs.length ≤ n → it.rest = enumFrom (n - cs.length) cs → scanLoop p k it = scanL p n k cs := by
  intro k
  induction k with
  | zero => intro it cs _ _; rfl
  | succ k ih =>
    intro it cs hle hrest
    cases cs with
    | nil =>
      have : it.next = (none, ⟨it.rest.tail, some it.rest.head?⟩) := by
        simp [CachedPeekable.next, hrest, enumFrom]
      simp [scanLoop, tokenizerNext, this, scanL]
    | cons ch cs =>
      simp only [List.length_cons] at hle
      simp only [enumFrom, List.length_cons] at hrest
      have hn : it.next = (some (n - (cs.length + 1), ch),
          ⟨enumFrom (n - cs.length) cs, some (some (n - cs.length - 1, ch))⟩) := by
        simp only [CachedPeekable.next, hrest, List.head?_cons, List.tail_cons]
        rw [show n - (cs.length + 1) + 1 = n - cs.length by omega,
          show n - (cs.length + 1) = n - cs.length - 1 by omega]
      have hrel : Rel n ⟨enumFrom (n - cs.length) cs, some (some (n - cs.length - 1, ch))⟩ ⟨cs, false⟩ :=
        ⟨by simp; omega, rfl, by simp; omega⟩
      simp only [scanLoop, tokenizerNext, hn, scanL]
      rcases tokenKind_rel p ch hrel with ⟨a, it', l, e1, e2, h'⟩ | ⟨e1, e2⟩
      · simp only [e1, e2, Outcome.bind_ok, Outcome.pure_eq]
        rw [ih it' l.cs h'.le h'.rest]
        congr 3
        · have := h'.cur
          cases hh : l.hitEnd with
          | true => rw [hh] at this; simp [tokenEnd, currentItem, this.1]
          | false =>
            rw [hh] at this
            obtain ⟨c, hc, hlt⟩ := this
            simp [tokenEnd, currentItem, hc]; omega
      · simp only [e1, e2, Outcome.bind_panic]

theorem scan_eq (p : Profile) (input : List Char) :
    scan p input = scanL p input.length (input.length + 1) input :=
  scanLoop_eq p input.length _ _ _ (Nat.le_refl _) (by simp [tokenizerNew, ofList])

theorem scanL_fuel (p : Profile) (n : Nat) : ∀ (k k' : Nat) (cs : List Char),
    cs.length < k → cs.length < k' → scanL p n k cs = scanL p n k' cs := by
  intro k
  induction k with
  | zero => intro k' cs h; omega
  | succ k ih =>
    intro k' cs h h'
    obtain ⟨k', rfl⟩ : ∃ j, k' = j + 1 := ⟨k' - 1, by omega⟩
    cases cs with
    | nil => rfl
    | cons ch cs =>
      simp only [scanL]
      cases ht : tokenKindL p ch cs with
      | panic => rfl
      | diverge => rfl
      | ok x =>
        obtain ⟨kind, l⟩ := x
        have hl := (tokenKindL_fine ht).suffix.length_le
        simp only [List.length_cons] at h h'
        simp only
        rw [ih k' l.cs (by omega) (by omega)]

/-- The kinds of the tokens of a pattern. -/
def Scan.kinds (s : Scan) : List TokenKind := s.toks.map Token.kind

/-- The token stream of a character list with enough calls. -/
def scanK (p : Profile) (n : Nat) (cs : List Char) : Scan := scanL p n (cs.length + 1) cs

theorem scanK_nil (p : Profile) (n : Nat) : scanK p n [] = ⟨[], .eof⟩ := rfl

theorem scanK_cons (p : Profile) (n : Nat) (ch : Char) (cs : List Char) :
    (tokenKindL p ch cs = .panic ∧ scanK p n (ch :: cs) = ⟨[], .panic⟩) ∨
    ∃ kind l, tokenKindL p ch cs = .ok (kind, l) ∧ Fine kind l cs ∧
      scanK p n (ch :: cs) =
        ⟨⟨kind, (n - (cs.length + 1), if l.hitEnd then 1 else n - l.cs.length)⟩ ::
          (scanK p n l.cs).toks, (scanK p n l.cs).stop⟩ := by
  cases ht : tokenKindL p ch cs with
  | panic => left; simp [scanK, scanL, ht]
  | diverge => exact absurd ht (tokenKindL_ne_diverge p ch cs)
  | ok x =>
    obtain ⟨kind, l⟩ := x
    right
    have hf := tokenKindL_fine ht
    have hl := hf.suffix.length_le
    refine ⟨kind, l, rfl, hf, ?_⟩
    simp only [scanK, List.length_cons]
    rw [scanL, ht]
    simp only
    rw [scanL_fuel p n (cs.length + 1) (l.cs.length + 1) l.cs (by omega) (by omega)]

theorem scan_eq_scanK (p : Profile) (input : List Char) : scan p input = scanK p input.length input :=
  scan_eq p input

theorem scanK_kinds (p : Profile) (n m : Nat) (cs : List Char) :
    (scanK p n cs).kinds = (scanK p m cs).kinds ∧ (scanK p n cs).stop = (scanK p m cs).stop := by
  induction hk : cs.length using Nat.strongRecOn generalizing cs with
  | _ k ih =>
    cases cs with
    | nil => simp [scanK_nil]
    | cons ch cs =>
      rcases scanK_cons p n ch cs with ⟨ht, e1⟩ | ⟨kind, l, ht, hf, e1⟩ <;>
        rcases scanK_cons p m ch cs with ⟨ht', e2⟩ | ⟨kind', l', ht', hf', e2⟩
      · rw [e1, e2]; simp
      · rw [ht] at ht'; simp at ht'
      · rw [ht] at ht'; simp at ht'
      · rw [ht] at ht'; simp at ht'
        obtain ⟨rfl, rfl⟩ := ht'
        have hl := hf.suffix.length_le
        obtain ⟨h1, h2⟩ := ih l.cs.length (by simp at hk; omega) l.cs rfl
        rw [e1, e2]
        simp only [Scan.kinds, List.map_cons] at h1 ⊢
        exact ⟨by rw [h1], h2⟩

/-- A token that is read without meeting the end. -/
theorem scan_token {p : Profile} {ch : Char} {cs : List Char} {kind : TokenKind} {l : Left}
    (h : tokenKindL p ch cs = .ok (kind, l)) :
    (scan p (ch :: cs)).kinds = kind :: (scan p l.cs).kinds ∧
    (scan p (ch :: cs)).stop = (scan p l.cs).stop := by
  rw [scan_eq_scanK, scan_eq_scanK]
  rcases scanK_cons p (ch :: cs).length ch cs with ⟨ht, e1⟩ | ⟨kind', l', ht, hf, e1⟩
  · rw [h] at ht; simp at ht
  · rw [h] at ht; simp at ht
    obtain ⟨rfl, rfl⟩ := ht
    obtain ⟨h1, h2⟩ := scanK_kinds p (ch :: cs).length l.cs.length l.cs
    rw [e1]
    simp only [Scan.kinds, List.map_cons] at h1 ⊢
    exact ⟨by rw [h1], h2⟩

theorem scan_nil (p : Profile) : scan p [] = ⟨[], .eof⟩ := rfl

end Pango.Regex
