import Verif.Model.Ast

/-!
# What patterns mean

The meaning of character sets and of regular expressions, independent of the code.
-/

namespace Pango.Spec

open Pango.Regex

variable [Unicode]

/-- The characters of a class: `\w`, `\s` as the standard library defines them, `\d` the ten ASCII
digits, the upper-case classes their complements, `.` everything. -/
def ClassSet : ClassKind → Char → Prop
  | .wildcard, _ => True
  | .word, c => Unicode.isAlphabetic c = true
  | .whitespace, c => Unicode.isWhitespace c = true
  | .digit, c => c ∈ ['0', '1', '2', '3', '4', '5', '6', '7', '8', '9']
  | .nonWord, c => ¬ Unicode.isAlphabetic c = true
  | .nonWhitespace, c => ¬ Unicode.isWhitespace c = true
  | .nonDigit, c => c ∉ ['0', '1', '2', '3', '4', '5', '6', '7', '8', '9']

/-- The characters of an item of a bracket group; a range is meant by code point. -/
def ItemSet : GLit → Char → Prop
  | .mtch a, c => c = a
  | .cls k, c => ClassSet k c
  | .range lo hi, c => lo.toNat ≤ c.toNat ∧ c.toNat ≤ hi.toNat

/-- The characters a literal matches. -/
def LitSet : Lit → Char → Prop
  | .mtch a, c => c = a
  | .cls k, c => ClassSet k c
  | .group false items, c => ∃ i ∈ items, ItemSet i c
  | .group true items, c => ¬ ∃ i ∈ items, ItemSet i c

/-- The numbers of repetitions a quantifier allows. -/
def QuantSet : Option Quant → Nat → Prop
  | none, n => n = 1
  | some .asterisk, _ => True
  | some .plus, n => 1 ≤ n
  | some .questionMark, n => n = 0 ∨ n = 1
  | some (.max m), n => n = m
  | some (.min m), n => m ≤ n
  | some (.range lo hi), n => lo ≤ n ∧ n ≤ hi

/-- The regular language of a pattern tree.  A quantified literal or group is a repetition of it a
number of times the quantifier allows. -/
inductive Matches : Expr → List Char → Prop
  | empty : Matches .empty []
  | altL {l r : Expr} {w : List Char} : Matches l w → Matches (.alt l r) w
  | altR {l r : Expr} {w : List Char} : Matches r w → Matches (.alt l r) w
  | nil : Matches (.concat []) []
  | cons {e : Expr} {es : List Expr} {u v : List Char} :
      Matches e u → Matches (.concat es) v → Matches (.concat (e :: es)) (u ++ v)
  | lit {l : Lit} {q : Option Quant} {w : List Char} :
      QuantSet q w.length → (∀ c ∈ w, LitSet l c) → Matches (.lit l q) w
  | group {e : Expr} {q : Option Quant} {ws : List (List Char)} :
      QuantSet q ws.length → (∀ w ∈ ws, Matches e w) → Matches (.group e q) ws.flatten

end Pango.Spec
