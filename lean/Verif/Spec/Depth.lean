import Verif.Model.Ast
import Verif.Model.Slr
import Verif.Spec.RegexSyntax

/-!
# How deep a pattern is nested
-/

namespace Pango.Spec

open Pango.Regex

mutual

/-- How deep the groups of a pattern are nested. -/
def groupNesting : Expr → Nat
  | .concat es => groupNestings es
  | .empty => 0
  | .alt l r => max (groupNesting l) (groupNesting r)
  | .lit _ _ => 0
  | .group e _ => groupNesting e + 1

/-- The deepest of several. -/
def groupNestings : List Expr → Nat
  | [] => 0
  | e :: es => max (groupNesting e) (groupNestings es)

end

mutual

/-- How deep a pattern is nested if every alternative counts as nested in those to the left of it. -/
def nesting : Expr → Nat
  | .concat es => nestings es
  | .empty => 0
  | .alt l r => max (nesting l) (nesting r + 1)
  | .lit _ _ => 0
  | .group e _ => nesting e + 1

/-- The deepest of several. -/
def nestings : List Expr → Nat
  | [] => 0
  | e :: es => max (nesting e) (nestings es)

end

mutual

/-- The number of alternations of a pattern. -/
def bars : Expr → Nat
  | .concat es => barsOf es
  | .empty => 0
  | .alt l r => bars l + bars r + 1
  | .lit _ _ => 0
  | .group e _ => bars e

/-- The number of alternations of several. -/
def barsOf : List Expr → Nat
  | [] => 0
  | e :: es => bars e + barsOf es

end

/-- The number of left parentheses and bars among tokens. -/
def openings (ks : List TokenKind) : Nat :=
  (ks.filter fun k => k = .operator .leftParen ∨ k = .operator .vertical).length

/-- A way down in a syntax tree, from the given expression, over so many expressions. -/
inductive WayDown : Expr → Nat → Prop where
  | here (e : Expr) : WayDown e 1
  | element {es : List Expr} {e : Expr} {n : Nat} : e ∈ es → WayDown e n → WayDown (.concat es) (n + 1)
  | left {l r : Expr} {n : Nat} : WayDown l n → WayDown (.alt l r) (n + 1)
  | right {l r : Expr} {n : Nat} : WayDown r n → WayDown (.alt l r) (n + 1)
  | inside {e : Expr} {q : Option Quant} {n : Nat} : WayDown e n → WayDown (.group e q) (n + 1)

/-- The same for a tree that is read from the left up to the first empty sequence in it. -/
inductive ReachedWay : Expr → Nat → Prop where
  | here (e : Expr) : ReachedWay e 1
  | element {pre post : List Expr} {e : Expr} {n : Nat} : (∀ f ∈ pre, ¬ HasEmptySeq f) → ReachedWay e n →
      ReachedWay (.concat (pre ++ e :: post)) (n + 1)
  | left {l r : Expr} {n : Nat} : ReachedWay l n → ReachedWay (.alt l r) (n + 1)
  | right {l r : Expr} {n : Nat} : ¬ HasEmptySeq l → ReachedWay r n → ReachedWay (.alt l r) (n + 1)
  | inside {e : Expr} {q : Option Quant} {n : Nat} : ReachedWay e n → ReachedWay (.group e q) (n + 1)

/-- A way down in a parse tree, from the given node, over so many nodes. -/
inductive TreeWay {V T : Type} : Parse.Node V T → Nat → Prop where
  | here (n : Parse.Node V T) : TreeWay n 1
  | child {s : Parse.Sym V T} {ns : List (Parse.Node V T)} {n : Parse.Node V T} {k : Nat} : n ∈ ns → TreeWay n k →
      TreeWay (.mk s ns) (k + 1)

end Pango.Spec
