import Verif.Spec.Slr

/-!
# A grammar in place of a terminal

A terminal of one grammar, the hole, stands for the sentences of another grammar.
-/

namespace Pango.Spec

open Pango.Parse

variable {V W T : Type}

/-- A symbol of the outer grammar, with the start variable of the inner grammar in place of the hole. -/
def plugSym [DecidableEq T] (s : W) (a : T) : Sym V T → Sym (V ⊕ W) T
  | .var v => .var (.inl v)
  | .term t => if t = a then .var (.inr s) else .term t
  | .eps => .eps

/-- A symbol of the inner grammar. -/
def innerSym : Sym W T → Sym (V ⊕ W) T
  | .var w => .var (.inr w)
  | .term t => .term t
  | .eps => .eps

/-- The rules of both grammars, with the inner start variable in place of the hole. -/
inductive PluggedRule [DecidableEq T] (o : Grammar V T) (i : Grammar W T) (a : T) : V ⊕ W → Body (V ⊕ W) T → Prop
  | outer {v : V} {β : Body V T} : (v, β) ∈ o.rules → PluggedRule o i a (.inl v) (β.map (plugSym i.start a))
  | inner {w : W} {β : Body W T} : (w, β) ∈ i.rules → PluggedRule o i a (.inr w) (β.map innerSym)

/-- The terminal is in some body. -/
def HasTerm (g : Grammar V T) (t : T) : Prop := ∃ v β, (v, β) ∈ g.rules ∧ .term t ∈ β

/-- When the grammars can be put together: there is no epsilon, there is one terminal of each kind in each grammar, the
grammars have no kind in common, nor is the hole of a kind of the inner grammar, and the hole never stands directly
behind the hole. -/
structure Fit [TerminalEq T] (o : Grammar V T) (i : Grammar W T) (a : T) : Prop where
  outerEps : EpsFree o
  innerEps : EpsFree i
  outerKinds : ∀ t u, HasTerm o t → HasTerm o u → teq t u = true → t = u
  innerKinds : ∀ t u, HasTerm i t → HasTerm i u → teq t u = true → t = u
  differ : ∀ t u, HasTerm o t → HasTerm i u → teq t u = false
  hole : HasTerm o a
  notTwice : ∀ v x y, ¬ Derives o [.var v] (x ++ .term a :: .term a :: y)

/-- The second sequence is the first one with something of the given kind in place of each hole. -/
inductive Filled [TerminalEq T] (a : T) (by_ : List T → Prop) : List T → List T → Prop
  | nil : Filled a by_ [] []
  | keep {t : T} {u w : List T} : teq a t = false → Filled a by_ u w → Filled a by_ (t :: u) (t :: w)
  | fill {t : T} {u x w : List T} : teq a t = true → by_ x → Filled a by_ u w → Filled a by_ (t :: u) (x ++ w)

end Pango.Spec
