import Verif.Spec.Scanning
import Verif.Model.Effects

/-!
# Which functions of the user a lexer calls

While a call reads, the lexer calls a function each time that what the call has read is matched by a rule: the
function of the first such rule, with the source that the token would have if it ended here.  The token gets the
kind that was returned last.
-/

namespace Pango.Spec

open Pango.Lex

variable {W K : Type}

/-- `u` is what a call reads of `left`: all, or up to the first character that cannot be read. -/
structure ReadsUpTo (Live : List Char → Prop) (left u : List (Nat × Char)) : Prop where
  isPrefix : u <+: left
  live : Live (word u)
  stops : ∀ x, u ++ [x] <+: left → ¬ Live (word (u ++ [x]))

/-- The functions that are called while `rest` is read, by a call that has read `w`: the numbers of the rules and
the sources.  The sources begin with `skipped`. -/
inductive Applies (rules : List (List Char → Prop)) (skipped : List Char) :
    List Char → List Char → List (Nat × List Char) → Prop
  | done {w : List Char} : Applies rules skipped w [] []
  | skip {w rest : List Char} {c : Char} {log : List (Nat × List Char)} : ¬ AnyMatch rules (w ++ [c]) →
      Applies rules skipped (w ++ [c]) rest log → Applies rules skipped w (c :: rest) log
  | apply {w rest : List Char} {c : Char} {i : Nat} {log : List (Nat × List Char)} :
      FirstMatch rules (w ++ [c]) i → Applies rules skipped (w ++ [c]) rest log →
      Applies rules skipped w (c :: rest) ((i, skipped ++ (w ++ [c])) :: log)

/-- Functions called one after the other: what the last one returns (`k` if there is none), and the world at the
end. -/
def runAll (act : Nat → List Char → Option (Action W K)) :
    List (Nat × List Char) → Option K → W → Outcome (Option K × W)
  | [], k, world => .ok (k, world)
  | (i, source) :: log, _, world =>
    match act i source with
    | none => .panic
    | some f =>
      match f world with
      | .ok (k, world) => runAll act log (some k) world
      | .panic => .panic
      | .diverge => .diverge

/-- The token with the kind that was returned for it. -/
def withKind : Option (Tok (Action W K)) → Option K → Option (Tok K)
  | some t, some k => some ⟨k, t.source, t.pos⟩
  | _, _ => none

/-- Several calls: they take the scanner and the world to another scanner and another world. -/
inductive CallsE (rules : List (List Char → Prop)) (Live Ends : List Char → Prop)
    (act : Nat → List Char → Option (Action W K)) :
    Scanner → W → List (Option (Tok K)) → Scanner → W → Prop
  | done {sc : Scanner} {world : W} : CallsE rules Live Ends act sc world [] sc world
  | next {sc sc' sc'' : Scanner} {world world' world'' : W} {a : Option (Tok (Action W K))}
      {as : List (Option (Tok K))} {u : List (Nat × Char)} {log : List (Nat × List Char)} {k : Option K} :
      Ends (word sc.left) → Call rules Live act sc a sc' → ReadsUpTo Live sc.left u →
      Applies rules (word sc.skipped) [] (word u) log → runAll act log none world = .ok (k, world') →
      CallsE rules Live Ends act sc' world' as sc'' world'' →
      CallsE rules Live Ends act sc world (withKind a k :: as) sc'' world''

end Pango.Spec
