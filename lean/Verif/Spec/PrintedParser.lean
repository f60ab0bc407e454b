import Verif.Spec.Printed

/-!
# Outputs of `Debug` that can stand in a map
-/

namespace Pango.Parse

variable {V T : Type}

/-- Reading a character of an output.  There is no going on at a closing bracket that is not open, and at a colon or a
comma outside of brackets. -/
def neatChar : Mark × Nat → Char → Option (Mark × Nat)
  | (.plain, n), c =>
    if c ∈ ['(', '[', '{'] then some (.plain, n + 1)
    else if c ∈ [')', ']', '}'] then (if n = 0 then none else some (.plain, n - 1))
    else if c ∈ [':', ','] then (if n = 0 then none else some (.plain, n))
    else if c ∈ ['"', '\''] then some (.quoted c, n)
    else some (.plain, n)
  | (.quoted q, n), c =>
    if c = '\\' then some (.escaped q, n)
    else if c = q then some (.plain, n)
    else some (.quoted q, n)
  | (.escaped q, n), _ => some (.quoted q, n)

/-- Reading an output. -/
def neatText : Mark × Nat → Text → Option (Mark × Nat)
  | s, [] => some s
  | s, c :: t =>
    match neatChar s c with
    | some s => neatText s t
    | none => none

/-- As many brackets of all kinds are closed as are opened, and not before, and colons and commas are inside of brackets;
all this apart from what is in quotation marks. -/
def Neat (t : Text) : Prop := neatText (.plain, 0) t = some (.plain, 0)

instance (t : Text) : Decidable (Neat t) := inferInstanceAs (Decidable (_ = _))

/-- All the outputs of the user's types, printed in this way, are neat and tell the values apart. -/
def Prints.Neat (d : Prints V T) (style : Style) : Prop :=
  d.Told style ∧ (∀ v, Parse.Neat (d.var style v)) ∧ ∀ t, Parse.Neat (d.term style t)

end Pango.Parse
