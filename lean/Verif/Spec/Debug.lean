import Verif.Model.Debug
import Verif.Spec.Scanning

/-!
# What is written while a lexer reads
-/

namespace Pango.Spec

open Pango.Lex

variable {σ K : Type}

/-- How far a call reads: to the end of the text, or up to a character with which no rule can be read on. -/
structure ReadTo (Live : List Char → Prop) (text u : List Char) : Prop where
  isPrefix : u <+: text
  live : Live u
  stops : u = text ∨ ∃ x, u ++ [x] <+: text ∧ ¬ Live (u ++ [x])

/-- What is written for `u`, behind `w`: for each character the character itself, and whether some rule matches all that
has been read. -/
inductive WrittenFor (rules : List (List Char → Prop)) : List Char → List Char → List (Dbg σ) → Prop
  | nil {w : List Char} : WrittenFor rules w [] []
  | cons {w u : List Char} {d : Dbg σ} {ds : List (Dbg σ)} : (d.accepting = true ↔ AnyMatch rules (w ++ [d.input])) →
      WrittenFor rules (w ++ [d.input]) u ds → WrittenFor rules w (d.input :: u) (d :: ds)

/-- Several calls, as in `Calls`, with what they write. -/
inductive WritingCalls (rules : List (List Char → Prop)) (Live Ends : List Char → Prop)
    (kind : Nat → List Char → Option K) : Scanner → List (Option (Tok K)) → List (Dbg σ) → Prop
  | done {sc : Scanner} : WritingCalls rules Live Ends kind sc [] []
  | next {sc sc' : Scanner} {a : Option (Tok K)} {as : List (Option (Tok K))} {u : List Char} {ds out : List (Dbg σ)} :
      Ends (word sc.left) → Call rules Live kind sc a sc' → ReadTo Live (word sc.left) u → WrittenFor rules [] u ds →
      WritingCalls rules Live Ends kind sc' as out → WritingCalls rules Live Ends kind sc (a :: as) (ds ++ out)

end Pango.Spec
