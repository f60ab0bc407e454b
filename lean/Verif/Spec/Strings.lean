import Verif.Spec.Nested

/-!
# Lists of strings, as they are written
-/

namespace Pango.Spec

open Pango.Parse

/-- The tokens of lists of strings: strings with what they stand for, brackets, commas, an end marker, and one that is not
used. -/
inductive DataTok where
  | str (s : List Char)
  | opening
  | comma
  | closing
  | stop
  | never
  deriving DecidableEq

/-- Strings are of the same kind; other tokens are if they are equal. -/
instance : TerminalEq DataTok where
  teq
    | .str _, .str _ => true
    | .opening, .opening | .comma, .comma | .closing, .closing | .stop, .stop | .never, .never => true
    | _, _ => false

/-- A string is written in quotes, with a backslash before each quote and each backslash in it. -/
def quote (s : List Char) : List Char :=
  '"' :: (s.flatMap fun c => if c = '"' ∨ c = '\\' then ['\\', c] else [c]) ++ ['"']

/-- What is left of a text in quotes without the quotes and the backslashes. -/
def unquote : List Char → List Char
  | [] => []
  | _ :: w => inside w
where
  /-- What is left of the text behind the first quote. -/
  inside : List Char → List Char
    | '\\' :: c :: w => c :: inside w
    | '"' :: _ => []
    | c :: w => c :: inside w
    | [] => []

/-- How tokens are written. -/
def tokenText : DataTok → List Char
  | .str s => quote s
  | .opening => ['[']
  | .comma => [',']
  | .closing => [']']
  | .stop => [';']
  | .never => []

/-- How lists of strings are written. -/
def stringsText (d : Data (List Char)) : List Char :=
  (d.text DataTok.opening .comma .closing (fun s => [.str s]) ++ [DataTok.stop]).flatMap tokenText

/-- The tree of lists of strings, where each string is a variable with a token below it. -/
def stringsTree (d : Data (List Char)) : Node (ListVar ⊕ Bool) DataTok :=
  d.tree .opening .comma .closing fun s => .mk (.var false) [.mk (.term (.str s)) []]

end Pango.Spec
