import Verif.Spec.Slr

/-!
# Expressions with operators

A table of operators as it stands in the manual of a language: levels from the loosest to the tightest, each with
operators of one fixity.
-/

namespace Pango.Spec

open Pango.Parse

/-- Where the operands of an operator stand, and on which side an operand may have the same level. -/
inductive Fixity where
  | left
  | right
  | before
  | behind
  deriving DecidableEq

/-- The tokens of expressions: operators, values, parentheses, an end marker, and one that is not used. -/
inductive OpTok (O A : Type) where
  | op (o : O)
  | val (a : A)
  | lpar
  | rpar
  | stop
  | never
  deriving DecidableEq

/-- Values are of the same kind; other tokens are if they are equal.  This is what the example program of the repository
does (pango-parser/examples/expr.rs:16-24). -/
instance {O A : Type} [DecidableEq O] : TerminalEq (OpTok O A) where
  teq
    | .op o, .op p => decide (o = p)
    | .val _, .val _ => true
    | .lpar, .lpar | .rpar, .rpar | .stop, .stop | .never, .never => true
    | _, _ => false

/-- Expressions without parentheses. -/
inductive OpExpr (O A : Type) where
  | val (a : A)
  | binary (l : OpExpr O A) (o : O) (r : OpExpr O A)
  | before (o : O) (e : OpExpr O A)
  | behind (e : OpExpr O A) (o : O)

variable {O A : Type}

/-- A table of operators, the loosest level first. -/
abbrev OpTable (O : Type) := List (Fixity × List O)

/-- The operator stands in the level. -/
def InLevel (tb : OpTable O) (i : Nat) (f : Fixity) (o : O) : Prop := ∃ ops, tb[i]? = some (f, ops) ∧ o ∈ ops

/-- No operator stands in two levels. -/
def OneLevel (tb : OpTable O) : Prop := ∀ i j f f' o, InLevel tb i f o → InLevel tb j f' o → i = j

/-- The grammar of a table, with a variable for each level and one for what binds tighter than all operators: the rules
that every textbook gives. -/
inductive OpRule (tb : OpTable O) (a : A) : Nat → Body Nat (OpTok O A) → Prop
  | next {i : Nat} : i < tb.length → OpRule tb a i [.var (i + 1)]
  | left {i : Nat} {o : O} : InLevel tb i .left o → OpRule tb a i [.var i, .term (.op o), .var (i + 1)]
  | right {i : Nat} {o : O} : InLevel tb i .right o → OpRule tb a i [.var (i + 1), .term (.op o), .var i]
  | before {i : Nat} {o : O} : InLevel tb i .before o → OpRule tb a i [.term (.op o), .var i]
  | behind {i : Nat} {o : O} : InLevel tb i .behind o → OpRule tb a i [.var i, .term (.op o)]
  | val : OpRule tb a tb.length [.term (.val a)]
  | parens : OpRule tb a tb.length [.term .lpar, .var 0, .term .rpar]

/-- The tokens are a text of the expression, in a place where operators from the level on may stand without
parentheses. -/
inductive IsText (tb : OpTable O) : Nat → List (OpTok O A) → OpExpr O A → Prop
  | val {a : A} : IsText tb tb.length [.val a] (.val a)
  | parens {w : List (OpTok O A)} {e : OpExpr O A} : IsText tb 0 w e → IsText tb tb.length (.lpar :: w ++ [.rpar]) e
  | tighter {i : Nat} {w : List (OpTok O A)} {e : OpExpr O A} : i < tb.length → IsText tb (i + 1) w e → IsText tb i w e
  | left {i : Nat} {o : O} {u w : List (OpTok O A)} {l r : OpExpr O A} : InLevel tb i .left o → IsText tb i u l →
      IsText tb (i + 1) w r → IsText tb i (u ++ .op o :: w) (.binary l o r)
  | right {i : Nat} {o : O} {u w : List (OpTok O A)} {l r : OpExpr O A} : InLevel tb i .right o → IsText tb (i + 1) u l →
      IsText tb i w r → IsText tb i (u ++ .op o :: w) (.binary l o r)
  | before {i : Nat} {o : O} {w : List (OpTok O A)} {e : OpExpr O A} : InLevel tb i .before o → IsText tb i w e →
      IsText tb i (.op o :: w) (.before o e)
  | behind {i : Nat} {o : O} {w : List (OpTok O A)} {e : OpExpr O A} : InLevel tb i .behind o → IsText tb i w e →
      IsText tb i (w ++ [.op o]) (.behind e o)

/-- What a tree stands for, if nodes with one child and parentheses are left out.  The children of a node are in
reverse order. -/
inductive Stands : Node Nat (OpTok O A) → OpExpr O A → Prop
  | val {v : Nat} {a : A} : Stands (.mk (.var v) [.mk (.term (.val a)) []]) (.val a)
  | next {v w : Nat} {cs : List (Node Nat (OpTok O A))} {e : OpExpr O A} : Stands (.mk (.var w) cs) e →
      Stands (.mk (.var v) [.mk (.var w) cs]) e
  | parens {v : Nat} {c : Node Nat (OpTok O A)} {e : OpExpr O A} : Stands c e →
      Stands (.mk (.var v) [.mk (.term .rpar) [], c, .mk (.term .lpar) []]) e
  | binary {v : Nat} {o : O} {c d : Node Nat (OpTok O A)} {l r : OpExpr O A} : Stands c l → Stands d r →
      Stands (.mk (.var v) [d, .mk (.term (.op o)) [], c]) (.binary l o r)
  | before {v : Nat} {o : O} {c : Node Nat (OpTok O A)} {e : OpExpr O A} : Stands c e →
      Stands (.mk (.var v) [c, .mk (.term (.op o)) []]) (.before o e)
  | behind {v : Nat} {o : O} {c : Node Nat (OpTok O A)} {e : OpExpr O A} : Stands c e →
      Stands (.mk (.var v) [.mk (.term (.op o)) [], c]) (.behind e o)

/-- The operators of the expression are in the table, with the right number of operands. -/
def FitsTable (tb : OpTable O) : OpExpr O A → Prop
  | .val _ => True
  | .binary l o r => (∃ i, InLevel tb i .left o ∨ InLevel tb i .right o) ∧ FitsTable tb l ∧ FitsTable tb r
  | .before o e => (∃ i, InLevel tb i .before o) ∧ FitsTable tb e
  | .behind e o => (∃ i, InLevel tb i .behind o) ∧ FitsTable tb e

/-- Parentheses, if they are needed. -/
def inParens (needed : Bool) (w : List (OpTok O A)) : List (OpTok O A) :=
  if needed then .lpar :: w ++ [.rpar] else w

/-- The text of an expression with parentheses only where they are needed, in a place where operators from the level `k`
on may stand without. -/
def opText [DecidableEq O] (tb : OpTable O) : Nat → OpExpr O A → List (OpTok O A)
  | _, .val a => [.val a]
  | k, .binary l o r =>
    let i := tb.findIdx fun lv => o ∈ lv.2
    let isRight := (tb[i]?.map (·.1)) = some .right
    inParens (decide (i < k)) (opText tb (if isRight then i + 1 else i) l ++ .op o :: opText tb (if isRight then i else i + 1) r)
  | k, .before o e =>
    let i := tb.findIdx fun lv => o ∈ lv.2
    inParens (decide (i < k)) (.op o :: opText tb i e)
  | k, .behind e o =>
    let i := tb.findIdx fun lv => o ∈ lv.2
    inParens (decide (i < k)) (opText tb i e ++ [.op o])

end Pango.Spec
