import Verif.Model.Printed

/-!
# What `Debug` of the user's types has to be like
-/

namespace Pango.Parse

variable {V T : Type}

/-- The outputs of the user's types, printed in this way, tell the values apart. -/
def Prints.Told (d : Prints V T) (style : Style) : Prop :=
  (∀ v v', d.var style v = d.var style v' → v = v') ∧ ∀ t t', d.term style t = d.term style t' → t = t'

/-- Outputs that can be told apart in front of a right parenthesis, whatever comes behind it. -/
def Reads {α : Type} (f : α → Text) : Prop := ∀ a b x y, f a ++ ')' :: x = f b ++ ')' :: y → a = b

/-- The outputs of the user's types, printed on one line, can be told apart in front of a right parenthesis. -/
def Prints.Reads (d : Prints V T) : Prop := Parse.Reads (d.var .compact) ∧ Parse.Reads (d.term .compact)

/-- How far a text has been read: parentheses that are open, or inside of quotation marks, perhaps behind a
backslash. -/
inductive Mark where
  | plain
  | quoted (q : Char)
  | escaped (q : Char)
  deriving DecidableEq

/-- Reading a character.  There is no going on at a right parenthesis that is not open. -/
def readChar : Mark × Nat → Char → Option (Mark × Nat)
  | (.plain, n), c =>
    if c = '(' then some (.plain, n + 1)
    else if c = ')' then (if n = 0 then none else some (.plain, n - 1))
    else if c = '"' ∨ c = '\'' then some (.quoted c, n)
    else some (.plain, n)
  | (.quoted q, n), c =>
    if c = '\\' then some (.escaped q, n)
    else if c = q then some (.plain, n)
    else some (.quoted q, n)
  | (.escaped q, n), _ => some (.quoted q, n)

/-- Reading a text. -/
def readText : Mark × Nat → Text → Option (Mark × Nat)
  | s, [] => some s
  | s, c :: t =>
    match readChar s c with
    | some s => readText s t
    | none => none

/-- Parentheses are closed in the order in which they are opened, apart from those in quotation marks. -/
def Balanced (t : Text) : Prop := readText (.plain, 0) t = some (.plain, 0)

instance (t : Text) : Decidable (Balanced t) := inferInstanceAs (Decidable (_ = _))

end Pango.Parse
