import Verif.Spec.Slr

/-!
# The SLR(1) machine of a grammar

A shift-reduce parser described without tables and without numbered states: what it does depends on the symbols on its
stack, through the items behind them (`Viable`), and on the next token, through the FOLLOW sets.
-/

namespace Pango.Spec

open Pango.Parse

variable {V T : Type}

/-- The symbols on the stack (from bottom to top), their trees (from top to bottom), and the tokens not yet read. -/
structure Config (V T : Type) where
  syms : List (Sym V T)
  trees : List (Node V T)
  input : List T

/-- Nothing is on the stack, and nothing was read. -/
def Config.start (input : List T) : Config V T := ⟨[], [], input⟩

/-- One step.  A token is shifted if an item behind the stack has a terminal of its kind behind the cursor.  A complete
item is reduced if a terminal of the kind of the next token is in the FOLLOW set of its variable: the stack must hold at
least as many symbols as the body, and an item behind what is left must have the variable behind the cursor. -/
inductive ShiftReduce [TerminalEq T] (g : Grammar V T) : Config V T → Config V T → Prop
  | shift {γ : List (Sym V T)} {ns : List (Node V T)} {h : V} {i : Item V T} {t u : T} {w : List T} :
      Viable g γ (h, i) → Reads i (.term t) → teq t u = true →
      ShiftReduce g ⟨γ, ns, u :: w⟩ ⟨γ ++ [.term t], .mk (.term u) [] :: ns, w⟩
  | reduce {γ ρ : List (Sym V T)} {ns : List (Node V T)} {h h' : V} {i i' : Item V T} {t u : T} {w : List T} :
      Viable g (γ ++ ρ) (h, i) → Complete i → InFollow g h (.term t) → teq t u = true →
      ρ.length = i.body.length → Viable g γ (h', i') → Reads i' (.var h) →
      ShiftReduce g ⟨γ ++ ρ, ns, u :: w⟩
        ⟨γ ++ [.var h], .mk (.var h) (ns.take i.body.length) :: ns.drop i.body.length, u :: w⟩

/-- A number of steps. -/
inductive ShiftReduces [TerminalEq T] (g : Grammar V T) : Nat → Config V T → Config V T → Prop
  | refl {x : Config V T} : ShiftReduces g 0 x x
  | step {k : Nat} {x y z : Config V T} : ShiftReduce g x y → ShiftReduces g k y z → ShiftReduces g (k + 1) x z

/-- How the machine stops. -/
inductive Halt (V T : Type) where
  | tree (n : Node V T)
  | error
  | underflow

/-- Where the machine stops.  It stops with an error where no item asks for the next token, or where nothing behind the
rest of the stack asks for the variable of a reduction.  At the end of the input, if it `accepts` at all, a complete
rule of the start variable gives the tree.  A rule can be longer than the stack (rules with epsilon only): one more
tree, an empty one of the start variable, lies below the stack. -/
inductive Halts [TerminalEq T] (g : Grammar V T) (accepts : Prop) : Config V T → Halt V T → Prop
  | noAction {γ : List (Sym V T)} {ns : List (Node V T)} {w : List T} :
      (∀ p k, Needs g accepts γ p k → keyEq k w.head? = false) → Halts g accepts ⟨γ, ns, w⟩ .error
  | noGoto {γ ρ : List (Sym V T)} {ns : List (Node V T)} {h : V} {i : Item V T} {t u : T} {w : List T} :
      Viable g (γ ++ ρ) (h, i) → Complete i → InFollow g h (.term t) → teq t u = true →
      ρ.length = i.body.length → (∀ q, Viable g γ q → ¬ Reads q.2 (.var h)) →
      Halts g accepts ⟨γ ++ ρ, ns, u :: w⟩ .error
  | accept {γ : List (Sym V T)} {ns : List (Node V T)} {i : Item V T} :
      Viable g γ (g.start, i) → Complete i → accepts → i.body.length ≤ γ.length + 1 →
      Halts g accepts ⟨γ, ns, []⟩ (.tree (.mk (.var g.start) ((ns ++ [Node.mk (.var g.start) []]).take i.body.length)))
  | reduceUnder {γ : List (Sym V T)} {ns : List (Node V T)} {h : V} {i : Item V T} {t u : T} {w : List T} :
      Viable g γ (h, i) → Complete i → InFollow g h (.term t) → teq t u = true → γ.length < i.body.length →
      Halts g accepts ⟨γ, ns, u :: w⟩ .underflow
  | acceptUnder {γ : List (Sym V T)} {ns : List (Node V T)} {i : Item V T} :
      Viable g γ (g.start, i) → Complete i → accepts → γ.length + 1 < i.body.length →
      Halts g accepts ⟨γ, ns, []⟩ .underflow

/-- On this input the machine stops like this after this many steps. -/
def MachineRun [TerminalEq T] (g : Grammar V T) (accepts : Prop) (input : List T) (steps : Nat) (s : Halt V T) : Prop :=
  ∃ c, ShiftReduces g steps (.start input) c ∧ Halts g accepts c s

/-- Every variable stands for some tokens. -/
def Productive [TerminalEq T] (g : Grammar V T) : Prop :=
  ∀ v β, (v, β) ∈ g.rules → ∃ n w, Forest g [.var v] [n] w

/-- Some sentence begins with the tokens. -/
def BeginsSentence [TerminalEq T] (g : Grammar V T) (w : List T) : Prop := ∃ rest n, ParseTree g n (w ++ rest)

end Pango.Spec
