import Verif.Spec.Regex

/-!
# C08: character sets
-/

namespace Pango.Props

open Pango.Regex Pango.Spec

private theorem isAsciiDigit_iff (c : Char) :
    isAsciiDigit c = true ↔ c ∈ ['0', '1', '2', '3', '4', '5', '6', '7', '8', '9'] := by
  constructor
  · intro h
    simp only [isAsciiDigit, Bool.and_eq_true, decide_eq_true_eq] at h
    have h1 : 48 ≤ c.toNat := h.1
    have h2 : c.toNat ≤ 57 := h.2
    have e : c = Char.ofNat c.toNat := (Char.ofNat_toNat c).symm
    have : c.toNat = 48 ∨ c.toNat = 49 ∨ c.toNat = 50 ∨ c.toNat = 51 ∨ c.toNat = 52 ∨ c.toNat = 53 ∨
        c.toNat = 54 ∨ c.toNat = 55 ∨ c.toNat = 56 ∨ c.toNat = 57 := by omega
    rcases this with h | h | h | h | h | h | h | h | h | h <;> rw [e, h] <;> decide
  · intro h
    simp only [List.mem_cons, List.not_mem_nil, or_false] at h
    rcases h with rfl | rfl | rfl | rfl | rfl | rfl | rfl | rfl | rfl | rfl <;> decide

variable [Unicode]

private theorem class_contains (k : ClassKind) (c : Char) : k.contains c = true ↔ ClassSet k c := by
  cases k <;> simp only [ClassKind.contains, ClassSet, ← isAsciiDigit_iff] <;> simp

private theorem item_contains (i : GLit) (c : Char) : i.contains c = true ↔ ItemSet i c := by
  cases i with
  | mtch a => simp only [GLit.contains, ItemSet, beq_iff_eq]; exact eq_comm
  | cls k => exact class_contains k c
  | range lo hi =>
    simp only [GLit.contains, ItemSet, Bool.and_eq_true, decide_eq_true_eq]
    exact Iff.rfl

/-- **C08.** A literal matches a character exactly if the character belongs to the set it denotes. -/
theorem c08_literal_sets (l : Lit) (c : Char) : l.contains c = true ↔ LitSet l c := by
  cases l with
  | mtch a => simp only [Lit.contains, LitSet, beq_iff_eq]; exact eq_comm
  | cls k => exact class_contains k c
  | group neg items =>
    have h : containsAny items c = true ↔ ∃ i ∈ items, ItemSet i c := by
      simp [containsAny, item_contains]
    cases neg
    · simp [Lit.contains, LitSet, h]
    · simp only [Lit.contains, LitSet, ← h]
      simp

/-- **C08**, complements: each upper-case class matches exactly what the lower-case one does not, and
`[^...]` exactly what `[...]` does not. -/
theorem c08_complements (c : Char) (items : List GLit) :
    (Lit.cls .nonWord).contains c = !(Lit.cls .word).contains c ∧
    (Lit.cls .nonDigit).contains c = !(Lit.cls .digit).contains c ∧
    (Lit.cls .nonWhitespace).contains c = !(Lit.cls .whitespace).contains c ∧
    (Lit.group true items).contains c = !(Lit.group false items).contains c := by
  simp [Lit.contains, ClassKind.contains]

/-- `[b-d\dx]` matches `c`, `[^b-d\dx]` does not; the bounds of a range are included. -/
example : LitSet (.group false [.range 'b' 'd', .cls .digit, .mtch 'x']) 'd' ∧
    ¬ LitSet (.group true [.range 'b' 'd', .cls .digit, .mtch 'x']) '7' := by
  constructor
  · exact ⟨.range 'b' 'd', by simp, by simp [ItemSet]⟩
  · intro h
    exact h ⟨.cls .digit, by simp, by simp [ItemSet, ClassSet]⟩

end Pango.Props
