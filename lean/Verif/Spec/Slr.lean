import Verif.Spec.Cfg
import Verif.Spec.Items
import Verif.Model.Slr

/-!
# SLR(1) parsing

What a table and a parser should do, in terms of derivations, items and trees.
-/

namespace Pango.Spec

open Pango.Parse

variable {V T : Type}

/-- The cursor is at the end of the body. -/
def Complete (i : Item V T) : Prop := i.cursor = i.body.length

/-- An action of the SLR(1) construction in the state behind `γ`, on a terminal or (`none`) at the end of the input:
to shift, or to reduce by a rule.  At the end of the input a rule of the start variable can be reduced. -/
inductive SlrAction (g : Grammar V T) (γ : List (Sym V T)) : Option T → Option (V × Body V T) → Prop
  | shift {h : V} {i : Item V T} {t : T} : Viable g γ (h, i) → Reads i (.term t) → SlrAction g γ (some t) none
  | reduce {h : V} {i : Item V T} {t : T} : Viable g γ (h, i) → Complete i → InFollow g h (.term t) →
      SlrAction g γ (some t) (some (h, i.body))
  | accept {i : Item V T} : Viable g γ (g.start, i) → Complete i → SlrAction g γ none (some (g.start, i.body))

/-- An item in the state behind `γ` needs an entry of the table; at the end of the input it does so only if
`accepts`. -/
inductive Needs (g : Grammar V T) (accepts : Prop) (γ : List (Sym V T)) : V × Item V T → Option T → Prop
  | shift {h : V} {i : Item V T} {t : T} : Viable g γ (h, i) → Reads i (.term t) →
      Needs g accepts γ (h, i) (some t)
  | reduce {h : V} {i : Item V T} {t : T} : Viable g γ (h, i) → Complete i → InFollow g h (.term t) →
      Needs g accepts γ (h, i) (some t)
  | accept {i : Item V T} : Viable g γ (g.start, i) → Complete i → accepts → Needs g accepts γ (g.start, i) none

/-- The variable stands in some body. -/
def Occurs (g : Grammar V T) (v : V) : Prop := ∃ h β, (h, β) ∈ g.rules ∧ .var v ∈ β

/-- Something stands behind the variable in some body. -/
def Followed (g : Grammar V T) (v : V) : Prop :=
  ∃ h pre x post, (h, pre ++ .var v :: x :: post) ∈ g.rules

/-- Something can stand behind the variable: it does in some body, or the variable is the last symbol in a body of such a
variable. -/
inductive Followable (g : Grammar V T) : V → Prop
  | behind {v : V} : Followed g v → Followable g v
  | last {h v : V} {pre : List (Sym V T)} : (h, pre ++ [.var v]) ∈ g.rules → Followable g h → Followable g v

/-- A terminal can follow the variable, or something stands behind it in some body, or behind a variable that has a body
with the variable at its end. -/
def SurelyFollowed (g : Grammar V T) (v : V) : Prop :=
  (∃ t, InFollow g v (.term t)) ∨ Followed g v ∨ ∃ h pre, (h, pre ++ [.var v]) ∈ g.rules ∧ Followed g h

/-- No body contains an epsilon. -/
def EpsFree (g : Grammar V T) : Prop := ∀ h β, (h, β) ∈ g.rules → Sym.eps ∉ β

/-- `nodes` are trees for the symbols `α`, and `w` are the tokens at their leaves.  A token stands for a terminal of
the grammar of the same kind.  The children of a node are in reverse order. -/
inductive Forest [TerminalEq T] (g : Grammar V T) : List (Sym V T) → List (Node V T) → List T → Prop
  | nil : Forest g [] [] []
  | eps {α : List (Sym V T)} {ns : List (Node V T)} {w : List T} : Forest g α ns w → Forest g (.eps :: α) ns w
  | term {t u : T} {α : List (Sym V T)} {ns : List (Node V T)} {w : List T} : teq t u = true → Forest g α ns w →
      Forest g (.term t :: α) (.mk (.term u) [] :: ns) (u :: w)
  | var {v : V} {β α : List (Sym V T)} {cs ns : List (Node V T)} {x w : List T} : (v, β) ∈ g.rules →
      Forest g β cs x → Forest g α ns w → Forest g (.var v :: α) (.mk (.var v) cs.reverse :: ns) (x ++ w)

/-- A parse tree of the tokens. -/
def ParseTree [TerminalEq T] (g : Grammar V T) (n : Node V T) (w : List T) : Prop :=
  Forest g [.var g.start] [n] w

/-- The tree has a variable without children: the variable was replaced by the empty string. -/
inductive HasEmpty : Node V T → Prop
  | here {v : V} : HasEmpty (.mk (.var v) [])
  | child {x : Sym V T} {cs : List (Node V T)} {n : Node V T} : n ∈ cs → HasEmpty n → HasEmpty (.mk x cs)

/-- `h` derives `v` by rules whose bodies are a single variable. -/
inductive UnitChain (g : Grammar V T) : V → V → Prop
  | one {h v : V} : (h, [.var v]) ∈ g.rules → UnitChain g h v
  | step {h v w : V} : (h, [.var v]) ∈ g.rules → UnitChain g v w → UnitChain g h w

/-- The grammar without the rules that contain an epsilon. -/
def dropEps (g : Grammar V T) : Grammar V T :=
  ⟨g.start, g.rules.filter fun r => r.2.all fun x => match x with | .eps => false | _ => true⟩

/-- The variable can begin inside of what another variable stands for: it occurs in a body behind another symbol, or
at the front of a body of a variable that can. -/
inductive Inside (g : Grammar V T) : V → Prop
  | behind {h v : V} {x : Sym V T} {pre post : List (Sym V T)} : (h, x :: (pre ++ .var v :: post)) ∈ g.rules →
      Inside g v
  | front {h v : V} {post : List (Sym V T)} : (h, .var v :: post) ∈ g.rules → Inside g h → Inside g v

/-- The variable can be reached from the start variable. -/
inductive Reachable (g : Grammar V T) : V → Prop
  | start : Reachable g g.start
  | step {h v : V} {β : Body V T} : Reachable g h → (h, β) ∈ g.rules → .var v ∈ β → Reachable g v

/-- The grammars have the same start variable, and the same rules for the variables that can be reached from it. -/
def SameReachable (g g' : Grammar V T) : Prop :=
  g.start = g'.start ∧ ∀ v β, Reachable g v → ((v, β) ∈ g.rules ↔ (v, β) ∈ g'.rules)

/-- A variable that can be reached is only in bodies of variables that can be reached. -/
def Separate (g : Grammar V T) : Prop :=
  ∀ h β v, (h, β) ∈ g.rules → .var v ∈ β → Reachable g v → Reachable g h

/-- Tokens of the same kinds. -/
inductive SameTokens [TerminalEq T] : List T → List T → Prop
  | nil : SameTokens [] []
  | cons {t u : T} {v w : List T} : teq t u = true → SameTokens v w → SameTokens (t :: v) (u :: w)

/-- Trees that differ only in the tokens at their leaves, which are of the same kinds. -/
inductive SameTrees [TerminalEq T] : List (Node V T) → List (Node V T) → Prop
  | nil : SameTrees [] []
  | leaf {t u : T} {ns ms : List (Node V T)} : teq t u = true → SameTrees ns ms →
      SameTrees (.mk (.term t) [] :: ns) (.mk (.term u) [] :: ms)
  | node {v : V} {cs ds ns ms : List (Node V T)} : SameTrees cs ds → SameTrees ns ms →
      SameTrees (.mk (.var v) cs :: ns) (.mk (.var v) ds :: ms)

/-- Results of parsing that differ only in the tokens at the leaves of trees. -/
inductive SameResult [TerminalEq T] : Outcome (Option (Node V T)) → Outcome (Option (Node V T)) → Prop
  | tree {n m : Node V T} : SameTrees [n] [m] → SameResult (.ok (some n)) (.ok (some m))
  | error : SameResult (.ok none) (.ok none)
  | panic : SameResult .panic .panic
  | diverge : SameResult .diverge .diverge

mutual

/-- The tokens at the leaves of a tree, read from right to left. -/
def tokens : Node V T → List T
  | .mk (.term t) _ => [t]
  | .mk (.var _) cs => tokensAll cs
  | .mk .eps cs => tokensAll cs

/-- The tokens at the leaves of trees, read from right to left. -/
def tokensAll : List (Node V T) → List T
  | [] => []
  | n :: ns => tokensAll ns ++ tokens n

end

end Pango.Spec
