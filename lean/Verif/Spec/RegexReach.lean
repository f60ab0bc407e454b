import Verif.Spec.RegexStart
import Verif.Spec.RegexSpin
import Verif.Spec.RegexPrefix
import Verif.Spec.Lexing

/-!
# How far the matcher reads

`MayRead` says what can be read from the front of a pattern somewhere in a string.  This is about the very
start of a string, where optional parts are passed over without counting.
-/

namespace Pango.Spec

open Pango.Regex

variable [Unicode]

/-- The words, with the first character of the input at their front, that can be read from the front of a
pattern, whether or not they can be completed to a match. -/
inductive MayBegin : Expr → List Char → Prop
  | char {l : Lit} {c : Char} : LitSet l c → MayBegin (.lit l none) [c]
  | chars {l : Lit} {q : Quant} {w : List Char} : w ≠ [] → (∀ c ∈ w, LitSet l c) → MayBegin (.lit l (some q)) w
  | altL {l r : Expr} {w : List Char} : MayBegin l w → MayBegin (.alt l r) w
  | altR {l r : Expr} {w : List Char} : MayBegin r w → MayBegin (.alt l r) w
  | here {e : Expr} {es : List Expr} {w : List Char} : MayBegin e w → MayBegin (.concat (e :: es)) w
  | after {e : Expr} {es : List Expr} {b : Bool} {u v : List Char} :
      Begins e b u → MayRead (.concat es) v → MayBegin (.concat (e :: es)) (u ++ v)
  | later {e : Expr} {es : List Expr} {w : List Char} :
      Skips e → MayBegin (.concat es) w → MayBegin (.concat (e :: es)) w
  | group {e : Expr} {w : List Char} : MayBegin e w → MayBegin (.group e none) w
  | first {e : Expr} {q : Quant} {w : List Char} : MayBegin e w → MayBegin (.group e (some q)) w
  | inside {e : Expr} {q : Quant} {b : Bool} {u : List Char} {ws : List (List Char)} {v : List Char} :
      Begins e b u → (∀ w ∈ ws, Matches e w) → MayRead e v →
      MayBegin (.group e (some q)) (u ++ (ws.flatten ++ v))

/-- Some pattern can be read up to the end of the word. -/
def Readable (es : List Expr) (w : List Char) : Prop := w = [] ∨ ∃ e ∈ es, MayBegin e w

/-- What the matcher takes for a match, for each pattern. -/
def taken (es : List Expr) : List (List Char → Prop) := es.map fun e w => Taken e w

/-- No beginning of the word brings the matcher of one of the patterns to a place where it gets stuck. -/
def Passes (es : List Expr) (w : List Char) : Prop := ∀ e ∈ es, ∀ v, v <+: w → ¬ SpinsFirst e v

/-- One character of lookahead is enough: if a pattern matches a word, and the next character can still be read,
by this pattern or by another one, then with this character there is a match as well. -/
def LooksOneAhead (es : List Expr) : Prop :=
  ∀ w c, w ≠ [] → AnyMatch (taken es) w → Readable es (w ++ [c]) → Passes es (w ++ [c]) →
    AnyMatch (taken es) (w ++ [c])

/-- Nothing that was read behind a match is put back: if the text `w ++ back` can be read, and not with the next
character, and `w` is the longest match at its front, then it is the whole text. -/
def PutsNothingBack (es : List Expr) : Prop :=
  ∀ w back x, Readable es (w ++ back) → ¬ Readable es (w ++ back ++ [x]) → Passes es (w ++ back ++ [x]) →
    Longest (taken es) (w ++ back) w → back = []

end Pango.Spec
