import Verif.Spec.Slr

/-!
# Statements with `if` and `else`

An `if` can have an `else` or none.  So `if c if d s else t` can be read in two ways; the usual rule is that the `else`
belongs to the nearest `if`.
-/

namespace Pango.Spec

open Pango.Parse

/-- Statements. -/
inductive IfStmt where
  | simple (s : String)
  | ifThen (cond : String) (body : IfStmt)
  | ifElse (cond : String) (body otherwise : IfStmt)
  deriving DecidableEq

/-- The tokens: an `if` with its condition, an `else`, a simple statement, an end marker, and one that is not used. -/
inductive IfTok where
  | cond (c : String)
  | els
  | simple (s : String)
  | stop
  | never
  deriving DecidableEq

/-- Whether tokens are of the same kind, whatever the condition or the statement is. -/
def IfTok.same : IfTok → IfTok → Bool
  | .cond _, .cond _ | .els, .els | .simple _, .simple _ | .stop, .stop | .never, .never => true
  | _, _ => false

instance : TerminalEq IfTok := ⟨IfTok.same⟩

/-- How a statement is written. -/
def IfStmt.tokens : IfStmt → List IfTok
  | .simple s => [.simple s]
  | .ifThen c a => .cond c :: a.tokens
  | .ifElse c a b => .cond c :: (a.tokens ++ .els :: b.tokens)

/-- Every `if` in the statement has an `else`. -/
def IfStmt.full : IfStmt → Bool
  | .simple _ => true
  | .ifThen _ _ => false
  | .ifElse _ a b => a.full && b.full

/-- Every `else` belongs to the nearest `if` that it can belong to: between an `if` and its `else`, every `if` has an
`else`. -/
def IfStmt.Nearest : IfStmt → Prop
  | .simple _ => True
  | .ifThen _ a => a.Nearest
  | .ifElse _ a b => a.full = true ∧ a.Nearest ∧ b.Nearest

/-! ## The grammar -/

/-- The variables of the grammar. -/
inductive IfVar where
  | stmt
  | matched
  | unmatched
  | cond
  | els
  | program
  deriving DecidableEq

/-- The grammar of the textbooks, with a variable for each of the terminals that stand in several rules:
`stmt → matched | unmatched`, `matched → s | cond matched els matched`,
`unmatched → cond stmt | cond matched els unmatched`, `cond → if`, `els → else`. -/
def ifGrammar : Grammar IfVar IfTok :=
  ⟨.stmt, [
    (.stmt, [.var .matched]), (.stmt, [.var .unmatched]),
    (.matched, [.term (.simple "")]), (.matched, [.var .cond, .var .matched, .var .els, .var .matched]),
    (.unmatched, [.var .cond, .var .stmt]), (.unmatched, [.var .cond, .var .matched, .var .els, .var .unmatched]),
    (.cond, [.term (.cond "")]), (.els, [.term .els])]⟩

/-- The tree of a statement below `stmt`; the children of a node are in reverse order. -/
def IfStmt.tree : IfStmt → Node IfVar IfTok
  | .simple s => .mk (.var .matched) [.mk (.term (.simple s)) []]
  | .ifThen c a =>
    .mk (.var .unmatched) [.mk (.var .stmt) [a.tree], .mk (.var .cond) [.mk (.term (.cond c)) []]]
  | .ifElse c a b =>
    .mk (.var (if b.full then .matched else .unmatched))
      [b.tree, .mk (.var .els) [.mk (.term .els) []], a.tree, .mk (.var .cond) [.mk (.term (.cond c)) []]]

end Pango.Spec
