import Verif.Model.RegexParser
import Verif.Model.Nfa
import Verif.Model.Slr

/-!
# How deep the code recurses

The functions that call themselves, with a count of how many calls of them are active at the same time: the functions of
the pattern parser (`pango-lexer/src/regex/parser.rs`), `Compiler::expr` (`pango-lexer/src/fsm/nfa/compiler.rs`), and
what the compiler of the language generates to free syntax trees and parse trees.  All else in both crates is loops.
-/

namespace Pango.Regex

open Pango

/-- A method of `Parser`, with the number of calls of `expression` that are active at the same time.  Every cycle of
calls goes through `expression`.  The methods are at regex/parser.rs:98-395. -/
def PD (α : Type) := PState → PResult α × Nat

namespace PD

/-- Sequencing with `?`.  As at regex/parser.rs:113-395. -/
def bind {α β : Type} (x : PD α) (f : α → PD β) : PD β := fun s =>
  match x s with
  | (.ok a s, d) => ((f a s).1, max d (f a s).2)
  | (.err e, d) => (.err e, d)
  | (.panic, d) => (.panic, d)
  | (.diverge, d) => (.diverge, d)

/-- Return a value.  As `Ok(..)` at regex/parser.rs:113-395. -/
def pure {α : Type} (a : α) : PD α := fun s => (.ok a s, 0)

/-- Models one statement after another, as at regex/parser.rs:113-395, written with `do`. -/
instance : Monad PD where
  pure := PD.pure
  bind := PD.bind

/-- A method that does not call `expression`.  For example regex/parser.rs:346-395. -/
def lift {α : Type} (x : P α) : PD α := fun s => (x s, 0)

/-- A call of `expression`.  At regex/parser.rs:103, 129 and 192. -/
def call {α : Type} (x : PD α) : PD α := fun s => ((x s).1, (x s).2 + 1)

end PD

mutual

/-- `expression` (parser.rs:113-134). -/
def expressionD : Nat → PD Expr
  | 0 => PD.call (PD.lift fun _ => .diverge)
  | n + 1 => PD.call do
    let lhs ← subExpressionD n
    match ← PD.lift peekKind with
    | some (.operator .vertical) =>
      let _ ← PD.lift nextTok
      let rhs ← expressionD n
      pure (.alt (concatOf lhs) rhs)
    | _ => pure (concatOf lhs)

/-- `sub_expression` (parser.rs:137-158). -/
def subExpressionD : Nat → PD (List Expr)
  | 0 => PD.lift fun _ => .diverge
  | n + 1 => do
    match ← PD.lift peekKind with
    | none => PD.lift (failHere .subExpression)
    | some _ => subExpressionLoopD n

/-- The loop of `sub_expression` (parser.rs:145-155): a loop, not a recursion, in the code. -/
def subExpressionLoopD : Nat → PD (List Expr)
  | 0 => PD.lift fun _ => .diverge
  | n + 1 => do
    match ← PD.lift peekKind with
    | none => pure []
    | some (.operator .vertical) => pure []
    | some (.operator .rightParen) => pure []
    | some _ =>
      let item ← subExpressionItemD n
      let items ← subExpressionLoopD n
      pure (item :: items)

/-- `sub_expression_item` (parser.rs:161-173). -/
def subExpressionItemD : Nat → PD Expr
  | 0 => PD.lift fun _ => .diverge
  | n + 1 => do
    match ← PD.lift peekKind with
    | none => PD.lift (failHere .tokenForSubExpression)
    | some (.operator .leftParen) => groupD n
    | some _ => PD.lift (match_ n)

/-- `group` (parser.rs:176-221). -/
def groupD : Nat → PD Expr
  | 0 => PD.lift fun _ => .diverge
  | n + 1 => do
    match (← PD.lift nextTok).map Token.kind with
    | some (.operator .leftParen) =>
      let expr ← expressionD n
      match (← PD.lift nextTok).map Token.kind with
      | some (.operator .rightParen) =>
        let quantifier ← PD.lift optQuantifier
        pure (.group expr quantifier)
      | _ => PD.lift (failHere .rightParan)
    | _ => PD.lift (failHere .leftParan)

end

/-- `Parser::new(input).parse()` (parser.rs:88-110): the result, and the greatest number of calls of `expression` that
are active at the same time. -/
def parseD (p : Profile) (input : List Char) : Outcome (Except (List ParseError) Expr) × Nat :=
  let sc := scan p input
  let s : PState := ⟨sc.toks, sc.stop, none⟩
  match peekTok s with
  | .ok none _ => (.ok (.ok .empty), 0)
  | .ok (some _) s =>
    match expressionD (parseFuel sc.toks.length) s with
    | (.ok e _, d) => (.ok (.ok e), d)
    | (.err es, d) => (.ok (.error es), d)
    | (.panic, d) => (.panic, d)
    | (.diverge, d) => (.diverge, d)
  | .err es => (.ok (.error es), 0)
  | .panic => (.panic, 0)
  | .diverge => (.diverge, 0)

mutual

/-- How deep freeing a syntax tree (ast.rs:23-34) recurses: there is no `impl Drop`, so boxes and vectors are freed by
calls for what is in them. -/
def Expr.freeDepth : Expr → Nat
  | .concat es => freeDepths es + 1
  | .empty => 1
  | .alt l r => max l.freeDepth r.freeDepth + 1
  | .lit _ _ => 1
  | .group e _ => e.freeDepth + 1

/-- The same for the elements of a vector, one after the other.  The vectors are at regex/ast.rs:25. -/
def freeDepths : List Expr → Nat
  | [] => 0
  | e :: es => max e.freeDepth (freeDepths es)

end

end Pango.Regex

namespace Pango.Fsm

open Pango Pango.Regex

mutual

/-- `Compiler::expr` (fsm/nfa/compiler.rs:89-145), with the number of calls of it that are active at the same time. -/
def compileExprD : Expr → Nat → Nat → Nfa → Outcome Nfa × Nat
  | .concat es, start, dest, nfa =>
    let (r, d) := compileConcatD es start dest nfa
    (r, d + 1)
  | .empty, start, dest, nfa => (nfa.addTransition start dest .eps, 1)
  | .alt l r, start, dest, nfa =>
    match compileExprD l start dest nfa with
    | (.ok nfa, d) =>
      let (x, d') := compileExprD r start dest nfa
      (x, max d d' + 1)
    | (x, d) => (x, d + 1)
  | .lit l none, start, dest, nfa => (nfa.addTransition start dest (.literal l), 1)
  | .lit l (some q), start, dest, nfa => (do
    let (x, nfa) ← insertQuantifierState nfa q start dest
    nfa.addTransition x x (.literal l), 1)
  | .group e none, start, dest, nfa =>
    let (r, d) := compileExprD e start dest nfa
    (r, d + 1)
  | .group e (some q), start, dest, nfa =>
    match insertQuantifierState nfa q start dest with
    | .ok (x, nfa) =>
      let (r, d) := compileExprD e x x nfa
      (r, d + 1)
    | .panic => (.panic, 1)
    | .diverge => (.diverge, 1)

/-- The `Concat` case of `Compiler::expr` (fsm/nfa/compiler.rs:91-112): a loop in the code. -/
def compileConcatD : List Expr → Nat → Nat → Nfa → Outcome Nfa × Nat
  | [], _, _, _ => (.panic, 0)
  | [e], start, dest, nfa => compileExprD e start dest nfa
  | e :: es, start, dest, nfa =>
    let (m, nfa) := nfa.addState false
    match compileExprD e start m nfa with
    | (.ok nfa, d) =>
      let (x, d') := compileConcatD es m dest nfa
      (x, max d d')
    | (x, d) => (x, d)

end

end Pango.Fsm

namespace Pango.Parse

variable {V T : Type}

mutual

/-- How deep freeing a parse tree (cst.rs:11-16) recurses, as for syntax trees. -/
def Node.freeDepth : Node V T → Nat
  | .mk _ children => nodesFreeDepth children + 1

/-- The same for the elements of a vector, one after the other.  The vector is at cst.rs:13. -/
def nodesFreeDepth : List (Node V T) → Nat
  | [] => 0
  | n :: ns => max n.freeDepth (nodesFreeDepth ns)

end

end Pango.Parse
