import Verif.Spec.RegexClass
import Verif.Spec.RegexSyntax

/-!
# The classes of patterns are decidable
-/

namespace Pango.Spec

open Pango.Regex

mutual

/-- Whether the tree matches the empty string. -/
def nullable : Expr → Bool
  | .concat es => nullableAll es
  | .empty => true
  | .alt l r => nullable l || nullable r
  | .lit _ none => false
  | .lit _ (some q) => q.isSatisfied 0
  | .group e none => nullable e
  | .group e (some q) => q.isSatisfied 0 || nullable e && !(quantEmpty q)

def nullableAll : List Expr → Bool
  | [] => true
  | e :: es => nullable e && nullableAll es

/-- No number of repetitions is allowed. -/
def quantEmpty : Quant → Bool
  | .range lo hi => hi < lo
  | _ => false

end

mutual

def hasEmptySeqB : Expr → Bool
  | .concat es => es.isEmpty || anyEmptySeqB es
  | .empty => false
  | .alt l r => hasEmptySeqB l || hasEmptySeqB r
  | .lit _ _ => false
  | .group e _ => hasEmptySeqB e

def anyEmptySeqB : List Expr → Bool
  | [] => false
  | e :: es => hasEmptySeqB e || anyEmptySeqB es

end

mutual

def repeatsNonEmptyB : Expr → Bool
  | .concat es => repeatsNonEmptyAllB es
  | .empty => true
  | .alt l r => repeatsNonEmptyB l && repeatsNonEmptyB r
  | .lit _ _ => true
  | .group e none => repeatsNonEmptyB e
  | .group e (some _) => !nullable e && repeatsNonEmptyB e

def repeatsNonEmptyAllB : List Expr → Bool
  | [] => true
  | e :: es => repeatsNonEmptyB e && repeatsNonEmptyAllB es

end

mutual

def beginsWithLiteralB : Expr → Bool
  | .concat es => firstBeginsWithLiteralB es
  | .empty => false
  | .alt l r => beginsWithLiteralB l && beginsWithLiteralB r
  | .lit _ none => true
  | .lit _ (some _) => false
  | .group e none => beginsWithLiteralB e
  | .group _ (some _) => false

def firstBeginsWithLiteralB : List Expr → Bool
  | [] => false
  | e :: _ => beginsWithLiteralB e

end

mutual

def countsAtStartB : Expr → Bool
  | .concat es => countsAtStartSeqB es
  | .empty => true
  | .alt l r => countsAtStartB l && countsAtStartB r
  | .lit _ _ => true
  | .group e none => countsAtStartB e
  | .group e (some q) => countsAtStartB e && (q == .asterisk || beginsWithLiteralB e)

def countsAtStartSeqB : List Expr → Bool
  | [] => true
  | e :: es => countsAtStartB e && (!nullable e || countsAtStartSeqB es)

end

mutual

theorem hasEmptySeqB_iff (e : Expr) : hasEmptySeqB e = true ↔ HasEmptySeq e := by
  match e with
  | .concat es => simp [hasEmptySeqB, HasEmptySeq, anyEmptySeqB_iff es]
  | .empty => simp [hasEmptySeqB, HasEmptySeq]
  | .alt l r => simp [hasEmptySeqB, HasEmptySeq, hasEmptySeqB_iff l, hasEmptySeqB_iff r]
  | .lit _ _ => simp [hasEmptySeqB, HasEmptySeq]
  | .group e _ => simp [hasEmptySeqB, HasEmptySeq, hasEmptySeqB_iff e]

theorem anyEmptySeqB_iff (es : List Expr) : anyEmptySeqB es = true ↔ AnyEmptySeq es := by
  match es with
  | [] => simp [anyEmptySeqB, AnyEmptySeq]
  | e :: es => simp [anyEmptySeqB, AnyEmptySeq, hasEmptySeqB_iff e, anyEmptySeqB_iff es]

end

mutual

theorem beginsWithLiteralB_iff (e : Expr) : beginsWithLiteralB e = true ↔ BeginsWithLiteral e := by
  match e with
  | .concat es => simp [beginsWithLiteralB, BeginsWithLiteral, firstBeginsWithLiteralB_iff es]
  | .empty => simp [beginsWithLiteralB, BeginsWithLiteral]
  | .alt l r =>
    simp [beginsWithLiteralB, BeginsWithLiteral, beginsWithLiteralB_iff l, beginsWithLiteralB_iff r]
  | .lit _ none => simp [beginsWithLiteralB, BeginsWithLiteral]
  | .lit _ (some _) => simp [beginsWithLiteralB, BeginsWithLiteral]
  | .group e none => simp [beginsWithLiteralB, BeginsWithLiteral, beginsWithLiteralB_iff e]
  | .group _ (some _) => simp [beginsWithLiteralB, BeginsWithLiteral]

theorem firstBeginsWithLiteralB_iff (es : List Expr) :
    firstBeginsWithLiteralB es = true ↔ FirstBeginsWithLiteral es := by
  match es with
  | [] => simp [firstBeginsWithLiteralB, FirstBeginsWithLiteral]
  | e :: es => simp [firstBeginsWithLiteralB, FirstBeginsWithLiteral, beginsWithLiteralB_iff e]

end

variable [Unicode]

theorem quant_some_length (q : Quant) : (∃ n, 0 < n ∧ QuantSet (some q) n) ∨ q.isSatisfied 0 = true ∨
    quantEmpty q = true := by
  cases q with
  | asterisk => exact .inr (.inl rfl)
  | plus => exact .inl ⟨1, by decide, Nat.le_refl 1⟩
  | questionMark => exact .inr (.inl rfl)
  | max m =>
    cases m with
    | zero => exact .inr (.inl rfl)
    | succ m => exact .inl ⟨m + 1, by omega, rfl⟩
  | min m =>
    cases m with
    | zero => exact .inr (.inl rfl)
    | succ m => exact .inl ⟨m + 1, by omega, Nat.le_refl _⟩
  | range lo hi =>
    by_cases h : hi < lo
    · exact .inr (.inr (by simp [quantEmpty, h]))
    · cases lo with
      | zero => exact .inr (.inl (by simp [Quant.isSatisfied]))
      | succ lo => exact .inl ⟨lo + 1, by omega, by simp [QuantSet]; omega⟩

theorem quantSet_zero (q : Quant) : q.isSatisfied 0 = true ↔ QuantSet (some q) 0 := by
  cases q <;> simp [Quant.isSatisfied, QuantSet] <;> omega

theorem quantEmpty_iff (q : Quant) (h : quantEmpty q = true) (n : Nat) : ¬ QuantSet (some q) n := by
  cases q <;> simp [quantEmpty, QuantSet] at h ⊢
  omega

mutual

theorem nullable_iff (e : Expr) : nullable e = true ↔ Matches e [] := by
  match e with
  | .concat es => rw [nullable]; exact nullableAll_iff es
  | .empty => simp [nullable]; exact .empty
  | .alt l r =>
    rw [nullable, Bool.or_eq_true, nullable_iff l, nullable_iff r]
    constructor
    · rintro (h | h)
      · exact .altL h
      · exact .altR h
    · intro h
      cases h with
      | altL h => exact .inl h
      | altR h => exact .inr h
  | .lit l none =>
    constructor
    · intro h; cases h
    · intro h; cases h with | lit h _ => cases h
  | .lit l (some q) =>
    rw [nullable, quantSet_zero]
    constructor
    · intro h; exact .lit h (by simp)
    · intro h; cases h with | lit h _ => exact h
  | .group e none =>
    rw [nullable, nullable_iff e]
    constructor
    · intro h
      have := Matches.group (q := none) (ws := [[]]) rfl (by simpa using h)
      simpa using this
    · intro h
      generalize hv : ([] : List Char) = v at h
      cases h with
      | @group _ _ ws h1 h2 =>
        obtain ⟨u, rfl⟩ := List.length_eq_one_iff.1 h1
        simp only [List.flatten_cons, List.flatten_nil, List.append_nil] at hv
        exact h2 _ (by simp [hv])
  | .group e (some q) =>
    rw [nullable]
    simp only [Bool.or_eq_true, Bool.and_eq_true, nullable_iff e, Bool.not_eq_true']
    constructor
    · rintro (h | ⟨h1, h2⟩)
      · have := Matches.group (e := e) (q := some q) (ws := []) ((quantSet_zero q).1 h) (by simp)
        simpa using this
      · rcases quant_some_length q with ⟨n, _, hn⟩ | h | h
        · have := Matches.group (e := e) (q := some q) (ws := List.replicate n []) (by simpa using hn)
            (by intro w hw; rw [List.eq_of_mem_replicate hw]; exact h1)
          simpa using this
        · have := Matches.group (e := e) (q := some q) (ws := []) ((quantSet_zero q).1 h) (by simp)
          simpa using this
        · rw [h2] at h; cases h
    · intro h
      generalize hv : ([] : List Char) = v at h
      cases h with
      | @group _ _ ws h1 h2 =>
        cases ws with
        | nil => exact .inl ((quantSet_zero q).2 h1)
        | cons u ws =>
          refine .inr ⟨?_, ?_⟩
          · rw [List.flatten_cons] at hv
            obtain ⟨rfl, h3⟩ := List.append_eq_nil_iff.1 hv.symm
            rw [List.flatten_cons, h3]
            exact h2 [] List.mem_cons_self
          · cases hq : quantEmpty q with
            | false => rfl
            | true => exact absurd h1 (quantEmpty_iff q hq _)

theorem nullableAll_iff (es : List Expr) : nullableAll es = true ↔ Matches (.concat es) [] := by
  match es with
  | [] => simp [nullableAll]; exact .nil
  | e :: es =>
    rw [nullableAll, Bool.and_eq_true, nullable_iff e, nullableAll_iff es]
    constructor
    · rintro ⟨h1, h2⟩
      exact .cons h1 h2
    · intro h
      generalize hv : ([] : List Char) = v at h
      cases h with
      | cons h1 h2 =>
        obtain ⟨rfl, rfl⟩ := List.append_eq_nil_iff.1 hv.symm
        exact ⟨h1, h2⟩

end

mutual

theorem repeatsNonEmptyB_iff (e : Expr) : repeatsNonEmptyB e = true ↔ RepeatsNonEmpty e := by
  match e with
  | .concat es => simp [repeatsNonEmptyB, RepeatsNonEmpty, repeatsNonEmptyAllB_iff es]
  | .empty => simp [repeatsNonEmptyB, RepeatsNonEmpty]
  | .alt l r =>
    simp [repeatsNonEmptyB, RepeatsNonEmpty, repeatsNonEmptyB_iff l, repeatsNonEmptyB_iff r]
  | .lit _ _ => simp [repeatsNonEmptyB, RepeatsNonEmpty]
  | .group e none => simp [repeatsNonEmptyB, RepeatsNonEmpty, repeatsNonEmptyB_iff e]
  | .group e (some _) =>
    simp only [repeatsNonEmptyB, RepeatsNonEmpty, Bool.and_eq_true, repeatsNonEmptyB_iff e,
      ← nullable_iff, Bool.not_eq_true', Bool.not_eq_true]

theorem repeatsNonEmptyAllB_iff (es : List Expr) :
    repeatsNonEmptyAllB es = true ↔ RepeatsNonEmptyAll es := by
  match es with
  | [] => simp [repeatsNonEmptyAllB, RepeatsNonEmptyAll]
  | e :: es =>
    simp [repeatsNonEmptyAllB, RepeatsNonEmptyAll, repeatsNonEmptyB_iff e, repeatsNonEmptyAllB_iff es]

end

mutual

theorem countsAtStartB_iff (e : Expr) : countsAtStartB e = true ↔ CountsAtStart e := by
  match e with
  | .concat es => simp [countsAtStartB, CountsAtStart, countsAtStartSeqB_iff es]
  | .empty => simp [countsAtStartB, CountsAtStart]
  | .alt l r => simp [countsAtStartB, CountsAtStart, countsAtStartB_iff l, countsAtStartB_iff r]
  | .lit _ _ => simp [countsAtStartB, CountsAtStart]
  | .group e none => simp [countsAtStartB, CountsAtStart, countsAtStartB_iff e]
  | .group e (some q) =>
    simp [countsAtStartB, CountsAtStart, countsAtStartB_iff e, beginsWithLiteralB_iff e]

theorem countsAtStartSeqB_iff (es : List Expr) : countsAtStartSeqB es = true ↔ CountsAtStartSeq es := by
  match es with
  | [] => simp [countsAtStartSeqB, CountsAtStartSeq]
  | e :: es =>
    simp only [countsAtStartSeqB, CountsAtStartSeq, Bool.and_eq_true, Bool.or_eq_true,
      countsAtStartB_iff e, countsAtStartSeqB_iff es, ← nullable_iff, Bool.not_eq_true']
    cases nullable e <;> simp

end

omit [Unicode] in
instance (e : Expr) : Decidable (HasEmptySeq e) := decidable_of_iff _ (hasEmptySeqB_iff e)

end Pango.Spec
