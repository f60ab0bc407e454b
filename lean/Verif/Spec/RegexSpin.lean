import Verif.Spec.RegexStart

/-!
# Strings on which the matcher gets stuck

Once the matcher stands at the front of a repeated group that matches the empty string, it goes around the
group without reading anything, and counts the rounds, for ever.  This says which strings bring it there.
-/

namespace Pango.Spec

open Pango.Regex

variable [Unicode]

/-- Reading the string from the front of the pattern may bring the matcher to a repeated group that matches the
empty string. -/
inductive Spins : Expr → List Char → Prop
  | altL {l r : Expr} {w : List Char} : Spins l w → Spins (.alt l r) w
  | altR {l r : Expr} {w : List Char} : Spins r w → Spins (.alt l r) w
  | here {e : Expr} {es : List Expr} {w : List Char} : Spins e w → Spins (.concat (e :: es)) w
  | later {e : Expr} {es : List Expr} {u v : List Char} :
      Matches e u → Spins (.concat es) v → Spins (.concat (e :: es)) (u ++ v)
  | group {e : Expr} {w : List Char} : Spins e w → Spins (.group e none) w
  | rounds {e : Expr} {q : Quant} {ws : List (List Char)} :
      (∀ w ∈ ws, Matches e w) → Matches e [] → Spins (.group e (some q)) ws.flatten
  | inside {e : Expr} {q : Quant} {ws : List (List Char)} {v : List Char} :
      (∀ w ∈ ws, Matches e w) → Spins e v → Spins (.group e (some q)) (ws.flatten ++ v)

/-- The same for a string with the first character of the input at its front.  Before that character nothing is
counted, so the matcher does not get stuck there. -/
inductive SpinsFirst : Expr → List Char → Prop
  | altL {l r : Expr} {w : List Char} : SpinsFirst l w → SpinsFirst (.alt l r) w
  | altR {l r : Expr} {w : List Char} : SpinsFirst r w → SpinsFirst (.alt l r) w
  | here {e : Expr} {es : List Expr} {w : List Char} : SpinsFirst e w → SpinsFirst (.concat (e :: es)) w
  | after {e : Expr} {es : List Expr} {b : Bool} {u v : List Char} :
      Begins e b u → Spins (.concat es) v → SpinsFirst (.concat (e :: es)) (u ++ v)
  | later {e : Expr} {es : List Expr} {w : List Char} :
      Skips e → SpinsFirst (.concat es) w → SpinsFirst (.concat (e :: es)) w
  | group {e : Expr} {w : List Char} : SpinsFirst e w → SpinsFirst (.group e none) w
  | first {e : Expr} {q : Quant} {w : List Char} : SpinsFirst e w → SpinsFirst (.group e (some q)) w
  | rounds {e : Expr} {q : Quant} {b : Bool} {u : List Char} {ws : List (List Char)} :
      Begins e b u → (∀ w ∈ ws, Matches e w) → Matches e [] →
      SpinsFirst (.group e (some q)) (u ++ ws.flatten)
  | inside {e : Expr} {q : Quant} {b : Bool} {u : List Char} {ws : List (List Char)} {v : List Char} :
      Begins e b u → (∀ w ∈ ws, Matches e w) → Spins e v →
      SpinsFirst (.group e (some q)) (u ++ (ws.flatten ++ v))

end Pango.Spec
