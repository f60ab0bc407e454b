import Verif.Spec.Slr

/-!
# Texts in which a name is used that was declared

A text is a list of declarations of `n` names, in any order and any number of times, and behind it the use of one of the
names that were declared.
-/

namespace Pango.Spec

open Pango.Parse

/-- The variables: the text, the declaration of a name, and what can come as long as the name that is used at the end was
not declared yet, or if it was. -/
inductive UseVar
  | whole
  | text
  | name (i : Nat)
  | need (i : Nat)
  | seen (i : Nat)
  deriving Repr, DecidableEq

inductive UseTok
  | decl (i : Nat)
  | use (i : Nat)
  | stop
  | never
  deriving Repr, DecidableEq

instance : TerminalEq UseTok := ⟨fun s t => s == t⟩

/-- The rules. -/
inductive UseRule (n : Nat) : UseVar → Body UseVar UseTok → Prop
  | text {i : Nat} : i < n → UseRule n .text [.var (.need i)]
  | name {i : Nat} : i < n → UseRule n (.name i) [.term (.decl i)]
  | skip {i j : Nat} : i < n → j < n → j ≠ i → UseRule n (.need i) [.var (.name j), .var (.need i)]
  | find {i : Nat} : i < n → UseRule n (.need i) [.var (.name i), .var (.seen i)]
  | more {i j : Nat} : i < n → j < n → UseRule n (.seen i) [.var (.name j), .var (.seen i)]
  | use {i : Nat} : i < n → UseRule n (.seen i) [.term (.use i)]

end Pango.Spec
