import Verif.Spec.RegexReach
import Verif.Spec.Lexing

/-!
# Lexers that lose nothing
-/

namespace Pango.Spec

/-- Reading stops behind `w ++ back`, at `x`, and the longest match at the front is `w`.  So `w` is a token, and what is
put back is `back` and `x`.  A rule is given by the words that it matches, `Live w` says that some rule can be read up to
the end of `w`, and `Ends w` that reading `w` does not go on forever. -/
structure Turns (rules : List (List Char → Prop)) (Live Ends : List Char → Prop) (w back : List Char) (x : Char) : Prop where
  live : Live (w ++ back)
  dead : ¬ Live (w ++ back ++ [x])
  ends : Ends (w ++ back ++ [x])
  longest : Longest rules (w ++ back) w

/-- No token is found, and no end of it, inside of what was put back. -/
def Lossless (rules : List (List Char → Prop)) (Live Ends : List Char → Prop) : Prop :=
  ∀ w back x w' back' x' r, Turns rules Live Ends w back x → Turns rules Live Ends w' back' x' →
    back ≠ w' ++ back' ++ x' :: r

/-- The same for the rules with these patterns. -/
def LosesNothing [Unicode] (es : List Regex.Expr) : Prop := Lossless (taken es) (Readable es) (Passes es)

end Pango.Spec
