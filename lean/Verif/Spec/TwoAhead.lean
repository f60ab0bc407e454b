import Verif.Spec.RegexReach

/-!
# Lexers that look two characters ahead
-/

namespace Pango.Spec

open Pango.Regex

variable [Unicode]

/-- Two characters of lookahead are enough: if a pattern matches a word, and two more characters can be read, then there
is a match with the first of them or with both. -/
def TwoLookahead (es : List Expr) : Prop :=
  ∀ w a b, w ≠ [] → AnyMatch (languages es) w → (∃ e ∈ es, MayRead e (w ++ [a, b])) →
    AnyMatch (languages es) (w ++ [a]) ∨ AnyMatch (languages es) (w ++ [a, b])

/-- The character is read only as the last one of a match. -/
def Closes (es : List Expr) (x : Char) : Prop :=
  ∀ u, (∃ e ∈ es, MayRead e (u ++ [x])) → AnyMatch (languages es) (u ++ [x])

/-- The same for all patterns, with the words that the matcher takes and reads. -/
def LooksTwoAhead (es : List Expr) : Prop :=
  ∀ w a b, w ≠ [] → AnyMatch (taken es) w → Readable es (w ++ [a, b]) → Passes es (w ++ [a, b]) →
    AnyMatch (taken es) (w ++ [a]) ∨ AnyMatch (taken es) (w ++ [a, b])

/-- The same for all patterns. -/
def AlwaysCloses (es : List Expr) (x : Char) : Prop :=
  ∀ u, Readable es (u ++ [x]) → Passes es (u ++ [x]) → AnyMatch (taken es) (u ++ [x])

/-- A number: digits, or digits, a point and digits. -/
def IsNumber (digit : Lit) (point : Char) (w : List Char) : Prop :=
  (w ≠ [] ∧ ∀ c ∈ w, LitSet digit c) ∨
    ∃ u v, w = u ++ point :: v ∧ (u ≠ [] ∧ ∀ c ∈ u, LitSet digit c) ∧ v ≠ [] ∧ ∀ c ∈ v, LitSet digit c

/-- A pattern for these, such as `\d+|\d+\.\d+`. -/
def numberTree (digit : Lit) (point : Char) : Expr :=
  .alt (.lit digit (some .plus))
    (.concat [.lit digit (some .plus), .lit (.mtch point) none, .lit digit (some .plus)])

end Pango.Spec
