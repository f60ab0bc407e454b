import Verif.Spec.RegexPrefix

/-!
# Tokens with blanks behind them
-/

namespace Pango.Spec

open Pango.Regex

/-- A text is read by maximal munch, and all blanks behind a word belong to its token: the words, the numbers of
their rules and the blanks behind them, and the rest of the input at which no rule matches any more. -/
inductive SpacedMunch {α : Type} (rules : List (List α → Prop)) (blank : α → Prop) :
    List α → List (List α × Nat × List α) → List α → Prop
  | stop {input : List α} : NoMatch rules input → SpacedMunch rules blank input [] input
  | token {w bs rest : List α} {i : Nat} {ts : List (List α × Nat × List α)} {tail : List α} :
      Longest rules (w ++ (bs ++ rest)) w → FirstMatch rules w i → (∀ c ∈ bs, blank c) →
      (∀ c, rest.head? = some c → ¬ blank c) → SpacedMunch rules blank rest ts tail →
      SpacedMunch rules blank (w ++ (bs ++ rest)) ((w, i, bs) :: ts) tail

/-- Words with the numbers of their rules, with blanks behind each of them; only the last may do without. -/
inductive Separated {α : Type} (rules : List (List α → Prop)) (blank : α → Prop) : List (List α × Nat × List α) → Prop
  | nil : Separated rules blank []
  | last {w bs : List α} {i : Nat} : w ≠ [] → FirstMatch rules w i → (∀ c ∈ bs, blank c) →
      Separated rules blank [(w, i, bs)]
  | cons {w bs : List α} {i : Nat} {ts : List (List α × Nat × List α)} : w ≠ [] → FirstMatch rules w i → bs ≠ [] →
      (∀ c ∈ bs, blank c) → Separated rules blank ts → Separated rules blank ((w, i, bs) :: ts)

/-- The text of words with blanks behind them. -/
def spacedText {α : Type} (ts : List (List α × Nat × List α)) : List α := (ts.map fun t => t.1 ++ t.2.2).flatten

/-- The tree of `(a)(b)`, where `b` is a pattern for blanks like `\s*`. -/
def blankTree (S : Lit) (e : Expr) : Expr := .concat [.group e none, .group (.lit S (some .asterisk)) none]

/-- The pattern `(a)(b)`. -/
def blankPattern (blank pattern : List Char) : List Char := '(' :: pattern ++ ')' :: ('(' :: blank ++ [')'])

/-- Rules with blanks behind each pattern.  The functions get what `trim` leaves of the text. -/
def blankRules {K : Type} (blank : List Char) (trim : List Char → List Char)
    (rules : List (List Char × (List Char → K))) : List (List Char × (List Char → K)) :=
  rules.map fun r => (blankPattern blank r.1, fun w => r.2 (trim w))

end Pango.Spec
