import Verif.Spec.Compose
import Verif.Proofs.Rewrite
import Verif.Proofs.RegexParser

/-!
# Reading patterns that are put together
-/

namespace Pango.Regex

open Pango Pango.Spec

/-! ## Tokens -/

/-- The text `y` does not go on where a run of digits ended: something else was left, or `y` does not begin with a
hexadecimal digit. -/
def Apart (left y : List Char) : Prop := left = [] → ∀ d ∈ y.head?, hexDigit? d = none

theorem apart_cons (c : Char) (cs y : List Char) : Apart (c :: cs) y := fun h => by cases h

theorem spanMap_append {α β : Type} (f : α → Option β) (cs y : List α)
    (h : (spanMap f cs).2 = [] → ∀ d ∈ y.head?, f d = none) :
    spanMap f (cs ++ y) = ((spanMap f cs).1, (spanMap f cs).2 ++ y) := by
  induction cs with
  | nil =>
    cases y with
    | nil => rfl
    | cons d y => simp [spanMap, h rfl d rfl]
  | cons d cs ih =>
    simp only [List.cons_append, spanMap] at h ⊢
    cases hd : f d with
    | none => rfl
    | some b => simp only [hd] at h; simp [ih h]

variable {p : Profile} {c : Char} {y : List Char}

theorem decDigit_of_hex (h : hexDigit? c = none) : decDigit? c = none := by
  unfold hexDigit? at h
  unfold decDigit?
  split at h
  · cases h
  · rename_i h'; simp [h']

theorem takeHexL_append {cs : List Char} {start : Option Nat} (h : Apart (takeHexL cs start).2 y) :
    takeHexL (cs ++ y) start = ((takeHexL cs start).1, (takeHexL cs start).2 ++ y) := by
  simp only [takeHexL, spanMap_append hexDigit? cs y h]

theorem takeDecL_append {cs cs' : List Char} {start : Nat} {r : Option Nat}
    (ht : takeDecL p cs start = .ok (r, cs')) (h : Apart cs' y) :
    takeDecL p (cs ++ y) start = .ok (r, cs' ++ y) := by
  simp only [takeDecL, Outcome.bind_eq_ok] at ht ⊢
  obtain ⟨r', h1, h2⟩ := ht
  simp at h2
  obtain ⟨rfl, rfl⟩ := h2
  rw [spanMap_append decDigit? cs y fun he d hd => decDigit_of_hex (h he d hd)]
  exact ⟨r', h1, by simp⟩

theorem rangeTailL_append {first : Option Nat} {comma : Bool} {ch : Char} {cs : List Char}
    {k : TokenKind} {l : Left} (ht : rangeTailL p first comma ch cs = .ok (k, l)) (hk : k ≠ .invalid) :
    rangeTailL p first comma ch (cs ++ y) = .ok (k, ⟨l.cs ++ y, false⟩) := by
  unfold rangeTailL at ht ⊢
  split at ht
  · rename_i h1
    rw [if_pos h1]
    cases first with
    | none => simp at ht; exact absurd ht.1.symm hk
    | some n => simp at ht ⊢; obtain ⟨rfl, rfl⟩ := ht; exact ⟨rfl, rfl⟩
  · rename_i h1
    rw [if_neg h1]
    split at ht
    · simp only [Outcome.bind_eq_ok] at ht
      obtain ⟨⟨second, cs'⟩, h2, h3⟩ := ht
      simp only at h3
      split at h3
      · simp at h3; exact absurd h3.1.symm hk
      · rename_i d cs''
        simp only [takeDecL_append h2 (apart_cons _ _ _), Outcome.bind_ok, List.cons_append]
        split at h3
        · simp at h3; exact absurd h3.1.symm hk
        · rename_i h4
          rw [if_neg h4]
          split at h3
          · simp at h3 ⊢; obtain ⟨rfl, rfl⟩ := h3; exact ⟨rfl, rfl⟩
          · simp at h3; exact absurd h3.1.symm hk
    · simp at ht; exact absurd ht.1.symm hk

theorem handleRangeL_append {cs : List Char} {k : TokenKind} {l : Left}
    (ht : handleRangeL p cs = .ok (k, l)) (hk : k ≠ .invalid) :
    handleRangeL p (cs ++ y) = .ok (k, ⟨l.cs ++ y, false⟩) := by
  cases cs with
  | nil => simp [handleRangeL] at ht; exact absurd ht.1.symm hk
  | cons ch cs =>
    simp only [List.cons_append, handleRangeL] at ht ⊢
    split at ht
    · simp at ht; exact absurd ht.1.symm hk
    · simp only [Outcome.bind_eq_ok] at ht
      obtain ⟨⟨first, cs'⟩, h2, h3⟩ := ht
      simp only at h3
      split at h3
      · simp at h3; exact absurd h3.1.symm hk
      · simp only [takeDecL_append h2 (apart_cons _ _ _), Outcome.bind_ok, List.cons_append]
        split at h3
        · rename_i h4
          rw [if_pos h4]
          split at h3
          · simp at h3; exact absurd h3.1.symm hk
          · simp only [List.cons_append]
            exact rangeTailL_append h3 hk
        · rename_i h4
          rw [if_neg h4]
          exact rangeTailL_append h3 hk

theorem handleControlL_append {cs : List Char} (hk : matchOrInvalid (handleControlL cs).1 ≠ .invalid) :
    handleControlL (cs ++ y) = ((handleControlL cs).1, ⟨(handleControlL cs).2.cs ++ y, false⟩) := by
  cases cs with
  | nil => exact absurd rfl hk
  | cons ch cs =>
    simp only [List.cons_append, handleControlL]
    split <;> rfl

theorem handleXL_append {cs : List Char} (h : Apart (handleXL cs).2.cs y) :
    handleXL (cs ++ y) = ((handleXL cs).1, ⟨(handleXL cs).2.cs ++ y, false⟩) := by
  have h' : Apart (takeHexL cs none).2 y := by
    simp only [handleXL] at h
    split at h <;> exact h
  simp only [handleXL, takeHexL_append h']
  split <;> rfl

theorem handleUL_append {cs : List Char} (h : Apart (handleUL cs).2.cs y)
    (hk : matchOrInvalid (handleUL cs).1 ≠ .invalid) :
    handleUL (cs ++ y) = ((handleUL cs).1, ⟨(handleUL cs).2.cs ++ y, false⟩) := by
  cases cs with
  | nil => exact absurd rfl hk
  | cons ch cs =>
    simp only [List.cons_append, handleUL] at h hk ⊢
    by_cases h1 : ch = '{'
    · simp only [if_pos h1] at hk h ⊢
      by_cases h2 : (takeHexL cs none).1.1 < 4
      · rw [if_pos h2] at hk; exact absurd rfl hk
      · simp only [if_neg h2] at hk h ⊢
        cases h3 : (takeHexL cs none).2 with
        | nil => simp only [h3] at hk; exact absurd rfl hk
        | cons d cs' =>
          rw [takeHexL_append (by rw [h3]; exact apart_cons _ _ _), if_neg h2, h3]
          simp only [List.cons_append]
          split <;> rfl
    · simp only [if_neg h1] at hk h ⊢
      cases h2 : hexDigit? ch with
      | none => rfl
      | some d =>
        simp only [h2] at h
        simp only [takeHexL_append h]

theorem handleEscapeL_append {cs : List Char} (h : Apart (handleEscapeL cs).2.cs y)
    (hk : (handleEscapeL cs).1 ≠ .invalid) :
    handleEscapeL (cs ++ y) = ((handleEscapeL cs).1, ⟨(handleEscapeL cs).2.cs ++ y, false⟩) := by
  cases cs with
  | nil => exact absurd rfl hk
  | cons ch cs =>
    simp only [List.cons_append, handleEscapeL] at h hk ⊢
    cases h1 : classOf ch with
    | some k => rfl
    | none =>
      simp only [h1] at h hk
      cases h2 : simpleEscape ch with
      | some k => rfl
      | none =>
        simp only [h2] at h hk ⊢
        by_cases h3 : ch = 'c'
        · simp only [if_pos h3] at h hk ⊢; rw [handleControlL_append hk]
        · simp only [if_neg h3] at h hk ⊢
          by_cases h4 : ch = 'x'
          · simp only [if_pos h4] at h hk ⊢; rw [handleXL_append h]
          · simp only [if_neg h4] at h hk ⊢
            by_cases h5 : ch = 'u'
            · simp only [if_pos h5] at h hk ⊢; rw [handleUL_append h hk]
            · rw [if_neg h5] at hk; exact absurd rfl hk

/-- A token that is not invalid is the same if more text follows. -/
theorem tokenKindL_append {ch : Char} {cs : List Char} {k : TokenKind} {l : Left}
    (ht : tokenKindL p ch cs = .ok (k, l)) (hk : k ≠ .invalid)
    (h : ch = '\\' → Apart l.cs y) :
    tokenKindL p ch (cs ++ y) = .ok (k, ⟨l.cs ++ y, false⟩) := by
  unfold tokenKindL at ht ⊢
  split at ht
  · rename_i h1
    rw [if_pos h1]
    simp only [Outcome.ok.injEq] at ht
    have h2 : (handleEscapeL cs).1 ≠ .invalid := by rw [ht]; exact hk
    rw [handleEscapeL_append (by rw [ht]; exact h h1) h2, ht]
  · rename_i h1
    rw [if_neg h1]
    split at ht
    · rename_i h2; rw [if_pos h2]; simp at ht; obtain ⟨rfl, rfl⟩ := ht; rfl
    · rename_i h2
      rw [if_neg h2]
      split at ht
      · simp at ht; obtain ⟨rfl, rfl⟩ := ht; rfl
      · split at ht
        · rename_i h4; rw [if_pos h4]; simp at ht; obtain ⟨rfl, rfl⟩ := ht; rfl
        · rename_i h4
          rw [if_neg h4]
          split at ht
          · rename_i h5; rw [if_pos h5]; simp at ht; obtain ⟨rfl, rfl⟩ := ht; rfl
          · rename_i h5
            rw [if_neg h5]
            split at ht
            · rename_i h6; rw [if_pos h6]; simp at ht; obtain ⟨rfl, rfl⟩ := ht; rfl
            · rename_i h6
              rw [if_neg h6]
              split at ht
              · rename_i h7; rw [if_pos h7]; exact handleRangeL_append ht hk
              · rename_i h7; rw [if_neg h7]; simp at ht; obtain ⟨rfl, rfl⟩ := ht; rfl

/-- The tokens of a text with more text behind it: all but the last ones are the same, and so are the last ones if a
text follows that does not begin with a hexadecimal digit. -/
theorem scan_front (a : List Char) {k1 k2 : List TokenKind} (he : (scan p a).kinds = k1 ++ k2)
    (hk : TokenKind.invalid ∉ k1) : ∃ a2, (scan p a2).kinds = k2 ∧ (scan p a2).stop = (scan p a).stop ∧ a2.length ≤ a.length ∧
      ∀ y, ('\\' ∈ a → Apart a2 y) → (scan p (a ++ y)).kinds = k1 ++ (scan p (a2 ++ y)).kinds ∧
        (scan p (a ++ y)).stop = (scan p (a2 ++ y)).stop := by
  induction k1 generalizing a with
  | nil => exact ⟨a, he, rfl, Nat.le_refl _, fun y _ => ⟨rfl, rfl⟩⟩
  | cons k k1 ih =>
    cases a with
    | nil => cases he
    | cons ch cs =>
      cases ht : tokenKindL p ch cs with
      | panic =>
        rw [scan_eq_scanK] at he
        rcases scanK_cons p (ch :: cs).length ch cs with ⟨_, e⟩ | ⟨_, _, e, _⟩
        · rw [e] at he; cases he
        · rw [ht] at e; cases e
      | diverge => exact absurd ht (tokenKindL_ne_diverge p ch cs)
      | ok x =>
        obtain ⟨k', l⟩ := x
        obtain ⟨h1, h2⟩ := scan_token ht
        rw [h1, List.cons_append, List.cons.injEq] at he
        obtain ⟨rfl, he⟩ := he
        rw [List.mem_cons, not_or] at hk
        obtain ⟨a2, h3, h4, h5, h6⟩ := ih l.cs he hk.2
        have hl := (tokenKindL_fine ht).suffix.length_le
        refine ⟨a2, h3, by rw [h4, h2], by simp; omega, fun y hy => ?_⟩
        have hsuf := (tokenKindL_fine ht).suffix
        obtain ⟨h7, h8⟩ := h6 y fun hb => hy (List.mem_cons_of_mem _ (hsuf.subset hb))
        have hap : ch = '\\' → Apart l.cs y := fun hb h =>
          hy (by rw [hb]; exact List.mem_cons_self) (by rw [h] at h5; exact List.eq_nil_of_length_eq_zero (by simpa using h5))
        obtain ⟨h9, h10⟩ := scan_token (tokenKindL_append ht (Ne.symm hk.1) hap)
        simp only [List.cons_append]
        rw [h9, h10, h7, h8]
        exact ⟨rfl, rfl⟩

/-- The tokens of a text with more behind it, if no number can go on. -/
theorem scan_append (a : List Char) (hs : (scan p a).stop = .eof) (hk : TokenKind.invalid ∉ (scan p a).kinds)
    (h : '\\' ∈ a → ∀ d ∈ y.head?, hexDigit? d = none) :
    (scan p (a ++ y)).kinds = (scan p a).kinds ++ (scan p y).kinds ∧ (scan p (a ++ y)).stop = (scan p y).stop := by
  obtain ⟨a2, h1, h2, -, h4⟩ := scan_front a (List.append_nil _).symm hk
  have : a2 = [] := by
    cases a2 with
    | nil => rfl
    | cons ch cs =>
      rw [hs] at h2
      rw [scan_eq_scanK] at h1 h2
      rcases scanK_cons p (ch :: cs).length ch cs with ⟨_, e⟩ | ⟨_, _, _, _, e⟩
      · rw [e] at h2; cases h2
      · rw [e] at h1; cases h1
  subst this
  exact h4 y fun hb _ => h hb

theorem scan_append_cons (h : hexDigit? c = none) (a : List Char) (hs : (scan p a).stop = .eof)
    (hk : TokenKind.invalid ∉ (scan p a).kinds) :
    (scan p (a ++ c :: y)).kinds = (scan p a).kinds ++ (scan p (c :: y)).kinds ∧
      (scan p (a ++ c :: y)).stop = (scan p (c :: y)).stop :=
  scan_append a hs hk fun _ d hd => by cases hd; exact h

theorem scan_bar (p : Profile) (y : List Char) : (scan p ('|' :: y)).kinds = .operator .vertical :: (scan p y).kinds ∧
    (scan p ('|' :: y)).stop = (scan p y).stop :=
  scan_token (l := ⟨y, false⟩) rfl

theorem scan_left (p : Profile) (y : List Char) : (scan p ('(' :: y)).kinds = .operator .leftParen :: (scan p y).kinds ∧
    (scan p ('(' :: y)).stop = (scan p y).stop :=
  scan_token (l := ⟨y, false⟩) rfl

theorem scan_right (p : Profile) (y : List Char) :
    (scan p (')' :: y)).kinds = .operator .rightParen :: (scan p y).kinds ∧
    (scan p (')' :: y)).stop = (scan p y).stop :=
  scan_token (l := ⟨y, false⟩) rfl

theorem rangeTailL_right {first : Option Nat} {comma : Bool} {ch : Char} {cs : List Char} {k : TokenKind} {l : Left}
    (ht : rangeTailL p first comma ch cs = .ok (k, l)) : k ≠ .operator .rightParen := by
  unfold rangeTailL at ht
  split at ht
  · cases first <;> (simp at ht; obtain ⟨rfl, -⟩ := ht; simp)
  · split at ht
    · simp only [Outcome.bind_eq_ok] at ht
      obtain ⟨⟨second, cs'⟩, -, h3⟩ := ht
      simp only at h3
      split at h3
      · simp at h3; obtain ⟨rfl, -⟩ := h3; simp
      · split at h3
        · simp at h3; obtain ⟨rfl, -⟩ := h3; simp
        · split at h3 <;> (simp at h3; obtain ⟨rfl, -⟩ := h3; simp)
    · simp at ht; obtain ⟨rfl, -⟩ := ht; simp

theorem handleRangeL_right {cs : List Char} {k : TokenKind} {l : Left} (ht : handleRangeL p cs = .ok (k, l)) :
    k ≠ .operator .rightParen := by
  unfold handleRangeL at ht
  split at ht
  · simp at ht; obtain ⟨rfl, -⟩ := ht; simp
  · split at ht
    · simp at ht; obtain ⟨rfl, -⟩ := ht; simp
    · simp only [Outcome.bind_eq_ok] at ht
      obtain ⟨⟨first, cs'⟩, -, h3⟩ := ht
      simp only at h3
      split at h3
      · simp at h3; obtain ⟨rfl, -⟩ := h3; simp
      · split at h3
        · split at h3
          · simp at h3; obtain ⟨rfl, -⟩ := h3; simp
          · exact rangeTailL_right h3
        · exact rangeTailL_right h3

theorem matchOrInvalid_right (o : Option Char) : matchOrInvalid o ≠ .operator .rightParen := by
  cases o <;> simp [matchOrInvalid]

theorem handleEscapeL_right (cs : List Char) : (handleEscapeL cs).1 ≠ .operator .rightParen := by
  unfold handleEscapeL
  repeat' split
  all_goals first | exact matchOrInvalid_right _ | simp

/-- A right parenthesis is the token of the character `)`. -/
theorem tokenKindL_right {ch : Char} {cs : List Char} {l : Left}
    (ht : tokenKindL p ch cs = .ok (.operator .rightParen, l)) : ch = ')' := by
  unfold tokenKindL at ht
  split at ht
  · simp only [Outcome.ok.injEq] at ht
    exact absurd (congrArg Prod.fst ht) (handleEscapeL_right cs)
  · split at ht
    · simp at ht
    · split at ht
      · rename_i o h
        simp at ht
        rw [ht.1] at h
        unfold operatorOf at h
        repeat' split at h
        all_goals first | assumption | simp at h
      · split at ht
        · simp at ht
        · split at ht
          · simp at ht
          · split at ht
            · simp at ht
            · split at ht
              · exact absurd rfl (handleRangeL_right ht)
              · simp at ht

theorem scan_starts_right {a : List Char} {ks : List TokenKind} (h : (scan p a).kinds = .operator .rightParen :: ks) :
    ∃ a', a = ')' :: a' := by
  cases a with
  | nil => cases h
  | cons ch cs =>
    rw [scan_eq_scanK] at h
    rcases scanK_cons p (ch :: cs).length ch cs with ⟨_, e⟩ | ⟨k, l, ht, _, e⟩
    · rw [e] at h; cases h
    · rw [e] at h
      simp only [Scan.kinds, List.map_cons, List.cons.injEq] at h
      rw [h.1] at ht
      exact ⟨cs, by rw [tokenKindL_right ht]⟩

/-! ## Trees -/

theorem groupItem_valid {i : GLit} {ks : List TokenKind} (h : GroupItem i ks) : TokenKind.invalid ∉ ks := by
  cases h <;> simp

theorem groupItems_valid {r : Relaxed} {is : List GLit} {ks : List TokenKind} (h : GroupItems r is ks) :
    TokenKind.invalid ∉ ks := by
  induction h with
  | none => simp
  | one h => exact groupItem_valid h
  | more h _ ih => simp [groupItem_valid h, ih]

theorem matchItem_valid {r : Relaxed} {l : Lit} {ks : List TokenKind} (h : MatchItem r l ks) :
    TokenKind.invalid ∉ ks := by
  cases h with
  | cls => simp
  | chr => simp
  | group h => simp [groupItems_valid h]
  | negated h => simp [groupItems_valid h]

theorem optQuantifier_valid {q : Option Quant} {ks : List TokenKind} (h : OptQuantifier q ks) :
    TokenKind.invalid ∉ ks := by
  cases h <;> simp

theorem expression_valid {r : Relaxed} {e : Expr} {ks : List TokenKind} (h : Expression r e ks) :
    TokenKind.invalid ∉ ks := by
  refine Expression.rec (motive_1 := fun _ ks _ => TokenKind.invalid ∉ ks)
    (motive_2 := fun _ ks _ => TokenKind.invalid ∉ ks) (motive_3 := fun _ ks _ => TokenKind.invalid ∉ ks)
    ?_ ?_ ?_ ?_ ?_ ?_ ?_ h
  · exact fun _ ih => ih
  · intro _ _ _ _ _ _ h1 h2; simp [h1, h2]
  · intro _; simp
  · exact fun _ ih => ih
  · intro _ _ _ _ _ _ h1 h2; simp [h1, h2]
  · intro _ _ _ _ h1 h2; simp [matchItem_valid h1, optQuantifier_valid h2]
  · intro _ _ _ _ _ h2 h1; simp [h1, optQuantifier_valid h2]

theorem groupItems_bracket {r r' : Relaxed} (hb : r.emptyBracket = true → r'.emptyBracket = true) {is : List GLit}
    {ks : List TokenKind} (h : GroupItems r is ks) : GroupItems r' is ks := by
  induction h with
  | none h => exact .none (hb h)
  | one h => exact .one h
  | more h _ ih => exact .more h ih

theorem matchItem_bracket {r r' : Relaxed} (hb : r.emptyBracket = true → r'.emptyBracket = true) {l : Lit}
    {ks : List TokenKind} (h : MatchItem r l ks) : MatchItem r' l ks := by
  cases h with
  | cls k => exact .cls k
  | chr a => exact .chr a
  | group h => exact .group (groupItems_bracket hb h)
  | negated h => exact .negated (groupItems_bracket hb h)

theorem any_seqTree {es : List Expr} (h : HasEmptySeq (seqTree es)) : es = [] ∨ AnyEmptySeq es := by
  match es, h with
  | [], _ => exact .inl rfl
  | [e], h => exact .inr (.inl h)
  | e :: e' :: es, h => rcases h with h | h; cases h; exact .inr h

theorem seqTree_any {es : List Expr} (h : es = [] ∨ AnyEmptySeq es) : HasEmptySeq (seqTree es) := by
  match es, h with
  | [], _ => exact .inl rfl
  | [e], .inr (.inl h) => exact h
  | e :: e' :: es, .inr h => exact .inr h

/-- An expression may be read with other rules for what may be empty. -/
theorem expression_relax {r r' : Relaxed} (hb : r.emptyBracket = true → r'.emptyBracket = true) {e : Expr}
    {ks : List TokenKind} (h : Expression r e ks)
    (hs : (r.emptySeq = true → r'.emptySeq = true) ∨ ¬ HasEmptySeq e) : Expression r' e ks := by
  revert hs
  refine Expression.rec (motive_1 := fun e ks _ => (r.emptySeq = true → r'.emptySeq = true) ∨ ¬ HasEmptySeq e →
      Expression r' e ks)
    (motive_2 := fun es ks _ => (r.emptySeq = true → r'.emptySeq = true) ∨ ¬ (es = [] ∨ AnyEmptySeq es) →
      SubExpression r' es ks)
    (motive_3 := fun e ks _ => (r.emptySeq = true → r'.emptySeq = true) ∨ ¬ HasEmptySeq e →
      SubExpressionItem r' e ks) ?_ ?_ ?_ ?_ ?_ ?_ ?_ h
  · intro es ks _ ih hs
    exact .sub (ih (hs.imp_right fun h h' => h (seqTree_any h')))
  · intro es e ks ks' _ _ h1 h2 hs
    exact .alt (h1 (hs.imp_right fun h h' => h (.inl (seqTree_any h')))) (h2 (hs.imp_right fun h h' => h (.inr h')))
  · intro h hs
    rcases hs with hs | hs
    · exact .none (hs h)
    · exact absurd (.inl rfl) hs
  · intro e ks _ ih hs
    exact .one (ih (hs.imp_right fun h h' => h (.inr (.inl h'))))
  · intro e es ks ks' _ hes h1 h2 hs
    by_cases he : es = []
    · subst he
      cases hes with
      | none hr =>
        rcases hs with hs | hs
        · exact .more (h1 (.inl hs)) (.none (hs hr))
        · have := SubExpression.one (h1 (.inr fun h => hs (.inr (.inl h))))
          simpa using this
    · exact .more (h1 (hs.imp_right fun h h' => h (.inr (.inl h'))))
        (h2 (hs.imp_right fun h h' => h (.inr (h'.elim (fun h => absurd h he) .inr))))
  · intro l q ks kq h1 h2 _
    exact .mtch (matchItem_bracket hb h1) h2
  · intro e q ks kq _ h2 ih hs
    exact .group (ih hs) h2

theorem seq_ne_nil {r : Relaxed} (hr : r.emptySeq = false) {es : List Expr} {ks : List TokenKind}
    (h : SubExpression r es ks) : ks ≠ [] := by
  cases h with
  | none h => rw [hr] at h; cases h
  | one h => exact (item_closed h).ne_nil
  | more h _ => intro he; exact (item_closed h).ne_nil (List.append_eq_nil_iff.1 he).1

theorem expression_closed {r : Relaxed} (hr : r.emptySeq = false) {e : Expr} {ks : List TokenKind}
    (h : Expression r e ks) : Closed ks := by
  cases h with
  | sub h => exact seq_closed h (seq_ne_nil hr h)
  | alt h h' => exact (closed_cons (expression_closed hr h')).append_left _

end Pango.Regex

namespace Pango.Spec

open Pango Pango.Regex

theorem item_not_alt {r : Relaxed} {e : Expr} {ks : List TokenKind} (h : SubExpressionItem r e ks) (x y : Expr) :
    e ≠ .alt x y := by
  cases h <;> simp

theorem seqTree_not_alt {r : Relaxed} {es : List Expr} {ks : List TokenKind} (h : SubExpression r es ks) (x y : Expr) :
    seqTree es ≠ .alt x y := by
  cases h with
  | none => simp [seqTree]
  | one h => exact item_not_alt h x y
  | @more e es _ _ h _ =>
    cases es with
    | nil => exact item_not_alt h x y
    | cons => simp [seqTree]

theorem orTree_seq {r : Relaxed} {es : List Expr} {ks : List TokenKind} (h : SubExpression r es ks) (e : Expr) :
    orTree (seqTree es) e = .alt (seqTree es) e := by
  generalize he : seqTree es = t
  cases t with
  | alt x y => exact absurd he (seqTree_not_alt h x y)
  | _ => rfl

/-- Two expressions with a bar between them. -/
theorem Expression.bar {r : Relaxed} {e1 e2 : Expr} {k1 k2 : List TokenKind} (h1 : Expression r e1 k1)
    (h2 : Expression r e2 k2) : Expression r (orTree e1 e2) (k1 ++ .operator .vertical :: k2) := by
  cases h1 with
  | sub h => rw [orTree_seq h]; exact .alt h h2
  | @alt es e ks ks' h h' =>
    rw [List.append_assoc, List.cons_append, orTree]
    exact .alt h (Expression.bar h' h2)

theorem Whole.valid {p : Profile} {a : List Char} {e : Expr} (h : Whole p a e) :
    TokenKind.invalid ∉ (scan p a).kinds := expression_valid h.tokens

theorem Whole.bar {p : Profile} {a b : List Char} {e1 e2 : Expr} (h1 : Whole p a e1) (h2 : Whole p b e2) :
    Whole p (a ++ '|' :: b) (orTree e1 e2) := by
  obtain ⟨h3, h4⟩ := scan_append_cons (c := '|') (y := b) rfl a h1.ends h1.valid
  obtain ⟨h5, h6⟩ := scan_bar p b
  refine ⟨?_, by rw [h4, h6, h2.ends]⟩
  rw [h3, h5]
  exact h1.tokens.bar h2.tokens

theorem sub_nil {r : Relaxed} {es : List Expr} {ks : List TokenKind} (h : SubExpression r es ks) (he : es = [] := by rfl) :
    r.emptySeq = true ∧ ks = [] := by
  cases h with
  | none h => exact ⟨h, rfl⟩
  | one => cases he
  | more => cases he

theorem subExpression_append {r : Relaxed} {es fs : List Expr} {ks ls : List TokenKind} (h : SubExpression r es ks)
    (h' : SubExpression r fs ls) : SubExpression r (es ++ fs) (ks ++ ls) := by
  induction es generalizing ks with
  | nil => cases h; exact h'
  | cons e es ih =>
    cases h with
    | one h => exact .more h h'
    | more h hs => rw [List.append_assoc, List.cons_append]; exact .more h (ih hs)

theorem item_parts {r : Relaxed} {e : Expr} {ks : List TokenKind} (h : SubExpressionItem r e ks) : parts e = [e] := by
  cases h <;> rfl

theorem Expression.seq {r : Relaxed} {e : Expr} {ks : List TokenKind} (h : Expression r e ks)
    (hn : ∀ x y, e ≠ .alt x y) : ∃ es, SubExpression r es ks ∧ e = seqTree es ∧ parts e = es := by
  cases h with
  | alt => exact absurd rfl (hn _ _)
  | @sub es _ h =>
    refine ⟨es, h, rfl, ?_⟩
    match es, h with
    | [], _ => rfl
    | [e], h =>
      cases h with
      | one h => exact item_parts h
      | more h1 _ => exact item_parts h1
    | e :: e' :: es, _ => rfl

/-- Two texts without bars, one behind the other. -/
theorem Whole.append {p : Profile} {a b : List Char} {e1 e2 : Expr} (h1 : Whole p a e1) (h2 : Whole p b e2)
    (n1 : ∀ x y, e1 ≠ .alt x y) (n2 : ∀ x y, e2 ≠ .alt x y) (h : '\\' ∈ a → ∀ d ∈ b.head?, hexDigit? d = none) :
    Whole p (a ++ b) (.concat (parts e1 ++ parts e2)) := by
  obtain ⟨h3, h4⟩ := scan_append (y := b) a h1.ends h1.valid h
  refine ⟨?_, by rw [h4, h2.ends]⟩
  rw [h3]
  obtain ⟨es, s1, e1', p1⟩ := h1.tokens.seq n1
  obtain ⟨fs, s2, e2', p2⟩ := h2.tokens.seq n2
  have hs := Expression.sub (subExpression_append s1 s2)
  rw [p1, p2]
  have l1 : es ≠ [] := fun h => by subst h; exact absurd (sub_nil s1).1 (by simp)
  have l2 : fs ≠ [] := fun h => by subst h; exact absurd (sub_nil s2).1 (by simp)
  match es, fs, hs with
  | e :: es, f :: fs, hs =>
    have : seqTree (e :: es ++ f :: fs) = .concat (e :: es ++ f :: fs) := by
      cases es <;> rfl
    rwa [this] at hs
  | [], _, _ => exact absurd rfl l1
  | _, [], _ => exact absurd rfl l2

/-- A pattern in parentheses, with what comes behind it. -/
theorem Whole.scan_paren {p : Profile} {a : List Char} {e : Expr} (h : Whole p a e) (y : List Char) :
    (scan p ('(' :: a ++ ')' :: y)).kinds =
        .operator .leftParen :: ((scan p a).kinds ++ .operator .rightParen :: (scan p y).kinds) ∧
      (scan p ('(' :: a ++ ')' :: y)).stop = (scan p y).stop := by
  obtain ⟨h3, h4⟩ := scan_append_cons (c := ')') (y := y) rfl a h.ends h.valid
  obtain ⟨h5, h6⟩ := scan_right p y
  obtain ⟨h7, h8⟩ := scan_left p (a ++ ')' :: y)
  rw [List.cons_append, h7, h8, h3, h4, h5, h6]
  exact ⟨rfl, rfl⟩

theorem Whole.repeated {p : Profile} {a q : List Char} {e : Expr} {k : Option Quant} (h : Whole p a e)
    (hq : OptQuantifier k (scan p q).kinds) (hs : (scan p q).stop = .eof) :
    Whole p ('(' :: a ++ ')' :: q) (.group e k) := by
  obtain ⟨h1, h2⟩ := h.scan_paren q
  refine ⟨?_, by rw [h2, hs]⟩
  rw [h1]
  exact .sub (.one (.group h.tokens hq))

theorem Whole.sequence {p : Profile} {a b : List Char} {e1 e2 : Expr} (h1 : Whole p a e1) (h2 : Whole p b e2) :
    Whole p ('(' :: a ++ ')' :: ('(' :: b ++ [')'])) (.concat [.group e1 none, .group e2 none]) := by
  obtain ⟨h3, h4⟩ := h1.scan_paren ('(' :: b ++ [')'])
  obtain ⟨h5, h6⟩ := h2.scan_paren []
  refine ⟨?_, by rw [h4, h6]; rfl⟩
  rw [h3, h5]
  have := SubExpression.more (SubExpressionItem.group h1.tokens .none) (.one (SubExpressionItem.group h2.tokens .none))
  have := Expression.sub this
  simpa [seqTree, Scan.kinds, scan_nil] using this

/-! ## No empty sequences -/

theorem expression_noEmpty {r : Relaxed} (hr : r.emptySeq = false) {e : Expr} {ks : List TokenKind} (h : Expression r e ks) :
    ¬ HasEmptySeq e := by
  refine Expression.rec (motive_1 := fun e _ _ => ¬ HasEmptySeq e)
    (motive_2 := fun es _ _ => es ≠ [] ∧ ¬ AnyEmptySeq es) (motive_3 := fun e _ _ => ¬ HasEmptySeq e)
    ?_ ?_ ?_ ?_ ?_ ?_ ?_ h
  · exact fun _ ih he => (any_seqTree he).elim ih.1 ih.2
  · intro _ _ _ _ _ _ h1 h2 he
    rcases he with he | he
    · exact (any_seqTree he).elim h1.1 h1.2
    · exact h2 he
  · intro h; rw [hr] at h; cases h
  · intro _ _ _ ih; exact ⟨by simp, by simpa [AnyEmptySeq] using ih⟩
  · intro _ _ _ _ _ _ h1 h2; exact ⟨by simp, by simp [AnyEmptySeq, h1, h2.2]⟩
  · intro _ _ _ _ _ _ h; exact h
  · intro _ _ _ _ _ _ ih h; exact ih h

theorem Whole.noEmpty {p : Profile} {a : List Char} {e : Expr} (h : Whole p a e) : ¬ HasEmptySeq e :=
  expression_noEmpty rfl h.tokens

/-- `a|b` with the bar moved to the front. -/
theorem orTree_rewrites [Unicode] (e1 e2 : Expr) : Rewrites (.alt e1 e2) (orTree e1 e2) := by
  match e1 with
  | .alt x y => exact .trans .altAssoc (.alt .refl (orTree_rewrites y e2))
  | .concat _ => exact .refl
  | .empty => exact .refl
  | .lit _ _ => exact .refl
  | .group _ _ => exact .refl

theorem mat_sequence [Unicode] {es fs : List Expr} {w : List Char} : Matches (.concat (es ++ fs)) w ↔
    ∃ u v, w = u ++ v ∧ Matches (.concat es) u ∧ Matches (.concat fs) v := by
  induction es generalizing w with
  | nil =>
    constructor
    · exact fun h => ⟨[], w, rfl, mat_nil.2 rfl, h⟩
    · rintro ⟨u, v, rfl, h1, h2⟩; rw [mat_nil.1 h1]; exact h2
  | cons e es ih =>
    simp only [List.cons_append, mat_cons, ih]
    constructor
    · rintro ⟨u, _, rfl, h1, v, v', rfl, h2, h3⟩
      exact ⟨u ++ v, v', by simp, ⟨u, v, rfl, h1, h2⟩, h3⟩
    · rintro ⟨_, v', rfl, ⟨u, v, rfl, h1, h2⟩, h3⟩
      exact ⟨u, v ++ v', by simp, h1, v, v', rfl, h2, h3⟩

theorem mat_parts [Unicode] {e : Expr} {w : List Char} : Matches (.concat (parts e)) w ↔ Matches e w := by
  have h : Matches (.concat [e]) w ↔ Matches e w := (Rewrites.single (e := e)).same.mat w
  cases e with
  | concat es => exact Iff.rfl
  | _ => exact h

end Pango.Spec
