import Verif.Spec.RegexPrefix

/-!
# Patterns that say themselves where their matches end
-/

namespace Pango.Spec

open Pango.Regex

variable [Unicode]

/-- A match of the pattern can be read no further. -/
def SelfDelimiting (e : Expr) : Prop := ∀ w v, Matches e w → MayRead e (w ++ v) → v = []

/-- A text in quotes: an opening character, characters of a set, and a closing character. -/
def Quoted (opening : Char) (inside : Lit) (closing : Char) (w : List Char) : Prop :=
  ∃ u, w = opening :: (u ++ [closing]) ∧ ∀ c ∈ u, LitSet inside c

/-- The inside of a text in quotes with escapes: characters of a set, and characters of another set behind an escape
character. -/
inductive InQuotes (inside : Lit) (escape : Char) (escaped : Lit) : List Char → Prop
  | nil : InQuotes inside escape escaped []
  | plain {c : Char} {u : List Char} :
      LitSet inside c → InQuotes inside escape escaped u → InQuotes inside escape escaped (c :: u)
  | escape {c : Char} {u : List Char} :
      LitSet escaped c → InQuotes inside escape escaped u → InQuotes inside escape escaped (escape :: c :: u)

/-- A text in quotes with escapes. -/
def QuotedWithEscapes (opening : Char) (inside : Lit) (escape : Char) (escaped : Lit) (closing : Char)
    (w : List Char) : Prop :=
  ∃ u, w = opening :: (u ++ [closing]) ∧ InQuotes inside escape escaped u

omit [Unicode] in
/-- The tree of a pattern like `"[^"]*"`. -/
def quotedTree (opening : Char) (inside : Lit) (closing : Char) : Expr :=
  .concat [.lit (.mtch opening) none, .lit inside (some .asterisk), .lit (.mtch closing) none]

omit [Unicode] in
/-- The tree of a pattern like `"([^"\\]|\\.)*"`. -/
def escapesTree (opening : Char) (inside : Lit) (escape : Char) (escaped : Lit) (closing : Char) : Expr :=
  .concat [.lit (.mtch opening) none,
    .group (.alt (.lit inside none) (.concat [.lit (.mtch escape) none, .lit escaped none])) (some .asterisk),
    .lit (.mtch closing) none]

end Pango.Spec
