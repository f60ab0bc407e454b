/-!
# Brackets that match
-/

namespace Pango.Spec

/-- Every bracket of the text is closed, and they are nested at most as deep as the number says. -/
inductive Brackets (o c : Char) : Nat → List Char → Prop
  | nil {d : Nat} : Brackets o c d []
  | other {d : Nat} {x : Char} {w : List Char} : x ≠ o → x ≠ c → Brackets o c d w → Brackets o c d (x :: w)
  | nest {d : Nat} {u w : List Char} : Brackets o c d u → Brackets o c (d + 1) w → Brackets o c (d + 1) (o :: u ++ c :: w)

/-- A text in brackets, with further brackets in it. -/
def Comment (o c : Char) (w : List Char) : Prop := ∃ d u, Brackets o c d u ∧ w = o :: u ++ [c]

end Pango.Spec
