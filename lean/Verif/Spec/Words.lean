import Verif.Spec.RegexReach

/-!
# Patterns that are words
-/

namespace Pango.Spec

open Pango.Regex

/-- The tree of the pattern that is the word and nothing else. -/
def wordTree : List Char → Expr
  | [c] => .lit (.mtch c) none
  | w => .concat (w.map fun c => .lit (.mtch c) none)

/-- No word begins with another one. -/
def PrefixFree (ws : List (List Char)) : Prop := ∀ u ∈ ws, ∀ v ∈ ws, u <+: v → u = v

/-- Between a word and a longer word that begins with it there is a word at each length. -/
def FillsUp (ws : List (List Char)) : Prop := ∀ u ∈ ws, ∀ v ∈ ws, ∀ x, u <+: x → x <+: v → x ∈ ws

/-- The characters that do not stand for themselves in a pattern. -/
def specials : List Char := ['.', '[', ']', '(', ')', '^', '|', '-', '*', '+', '?', '{', '\\']

/-- A text as a pattern: a backslash in front of the characters that would not stand for themselves. -/
def quoted : List Char → List Char
  | [] => []
  | c :: w => if c ∈ specials then '\\' :: c :: quoted w else c :: quoted w

/-- The rules whose patterns are the words. -/
def wordRules {K : Type} (kinds : List (List Char × (List Char → K))) : List (List Char × (List Char → K)) :=
  kinds.map fun k => (quoted k.1, k.2)

/-- The languages of the words: each contains this word and no other one. -/
def only (ws : List (List Char)) : List (List Char → Prop) := ws.map fun w v => v = w

end Pango.Spec
