import Verif.Spec.Regex

/-!
# Other ways to write the same pattern
-/

namespace Pango.Spec

open Pango.Regex

variable [Unicode]

/-- The laws by which a pattern may be written differently, anywhere in a pattern. -/
inductive Rewrites : Expr → Expr → Prop
  | refl {e : Expr} : Rewrites e e
  | symm {e e' : Expr} : Rewrites e e' → Rewrites e' e
  | trans {e e' e'' : Expr} : Rewrites e e' → Rewrites e' e'' → Rewrites e e''
  /-- `a|b` is `b|a`. -/
  | altComm {a b : Expr} : Rewrites (.alt a b) (.alt b a)
  /-- `(a|b)|c` is `a|(b|c)`. -/
  | altAssoc {a b c : Expr} : Rewrites (.alt (.alt a b) c) (.alt a (.alt b c))
  /-- `a|a` is `a`. -/
  | altSame {a : Expr} : Rewrites (.alt a a) a
  /-- `(e)` is `e`. -/
  | paren {e : Expr} : Rewrites (.group e none) e
  /-- A sequence of one pattern is that pattern. -/
  | single {e : Expr} : Rewrites (.concat [e]) e
  /-- `(ab)c` is `abc`. -/
  | inline {e : Expr} {ys zs : List Expr} :
      Rewrites (.concat (.concat (e :: ys) :: zs)) (.concat (e :: ys ++ zs))
  /-- `x(a|b)y` is `xay|xby`. -/
  | distrib {a b : Expr} {xs ys : List Expr} : Rewrites (.concat (xs ++ .alt a b :: ys))
      (.alt (.concat (xs ++ a :: ys)) (.concat (xs ++ b :: ys)))
  /-- Quantifiers that allow the same numbers: `e?` is `e{0,1}`, `e*` is `e{0,}`, `e+` is `e{1,}`. -/
  | quantLit {l : Lit} {q q' : Quant} : (∀ n, QuantSet (some q) n ↔ QuantSet (some q') n) →
      Rewrites (.lit l (some q)) (.lit l (some q'))
  | quantGroup {e : Expr} {q q' : Quant} : (∀ n, QuantSet (some q) n ↔ QuantSet (some q') n) →
      Rewrites (.group e (some q)) (.group e (some q'))
  /-- Literals for the same characters: `[0-9]` is `\d`, `[ba]` is `[ab]`, `[a]` is `a`. -/
  | chars {l l' : Lit} {q : Option Quant} : (∀ c, LitSet l c ↔ LitSet l' c) → Rewrites (.lit l q) (.lit l' q)
  /-- `[ab]` is `a|b`. -/
  | choice {l l1 l2 : Lit} : (∀ c, LitSet l c ↔ LitSet l1 c ∨ LitSet l2 c) →
      Rewrites (.lit l none) (.alt (.lit l1 none) (.lit l2 none))
  /-- `a+` is `(a)+`. -/
  | wrap {l : Lit} {q : Quant} : Rewrites (.lit l (some q)) (.group (.lit l none) (some q))
  | alt {a a' b b' : Expr} : Rewrites a a' → Rewrites b b' → Rewrites (.alt a b) (.alt a' b')
  | head {e e' : Expr} {es : List Expr} : Rewrites e e' → Rewrites (.concat (e :: es)) (.concat (e' :: es))
  | tail {e : Expr} {es es' : List Expr} :
      Rewrites (.concat es) (.concat es') → Rewrites (.concat (e :: es)) (.concat (e :: es'))
  | group {e e' : Expr} {q : Option Quant} : Rewrites e e' → Rewrites (.group e q) (.group e' q)

end Pango.Spec
