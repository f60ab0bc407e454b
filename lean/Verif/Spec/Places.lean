import Verif.Spec.Words

/-!
# Words with a choice of characters in each place
-/

namespace Pango.Spec

/-- The characters that can stand in a place: the given ones, or all but these. -/
structure Place where
  except : Bool
  chars : List Char

/-- The character can stand there. -/
def Place.allows (p : Place) (c : Char) : Prop := if p.except then c ∉ p.chars else c ∈ p.chars

/-- The word has one character for each place. -/
def Fills : List Char → List Place → Prop
  | [], [] => True
  | c :: v, p :: ps => p.allows c ∧ Fills v ps
  | _, _ => False

/-- `[...]` or `[^...]`, with a backslash in front of special characters. -/
def Place.text (p : Place) : List Char := '[' :: (if p.except then ['^'] else []) ++ quoted p.chars ++ [']']

/-- The places one after the other. -/
def placesText (ps : List Place) : List Char := ps.flatMap Place.text

/-- A word whose letters may be written small or large. -/
def anyCase (w : List Char) : List Place := w.map fun c => ⟨false, [c.toLower, c.toUpper]⟩

end Pango.Spec
