import Verif.Spec.Effects
import Verif.Model.Caught

/-!
# What a lexer does after a panic that was caught

A call that is left by a panic has read up to the end of the text that the function was called for.  This text is
not given back and is not forgotten: as the text read by calls that found nothing, it is the beginning of the
source of the next token, and of the sources that functions are called with until then.
-/

namespace Pango.Spec

open Pango.Lex

variable {W K : Type}

/-- A function that may panic as an action: it is not said what comes after the panic. -/
def uncaught (f : Fallible W K) : Action W K := fun world =>
  match f world with
  | (some k, world) => .ok (k, world)
  | (none, _) => .panic

/-- Several calls: they take the scanner and the world to another scanner and another world. -/
inductive CallsC (rules : List (List Char → Prop)) (Live Ends : List Char → Prop)
    (act : Nat → List Char → Option (Fallible W K)) :
    Scanner → W → List (Answer K) → Scanner → W → Prop
  | done {sc : Scanner} {world : W} : CallsC rules Live Ends act sc world [] sc world
  /-- A call in which no function panics. -/
  | returned {sc sc' sc'' : Scanner} {world world' world'' : W} {a : Option (Tok (Action W K))}
      {as : List (Answer K)} {u : List (Nat × Char)} {log : List (Nat × List Char)} {k : Option K} :
      Ends (word sc.left) → Call rules Live (fun i source => (act i source).map uncaught) sc a sc' →
      ReadsUpTo Live sc.left u → Applies rules (word sc.skipped) [] (word u) log →
      runAll (fun i source => (act i source).map uncaught) log none world = .ok (k, world') →
      CallsC rules Live Ends act sc' world' as sc'' world'' →
      CallsC rules Live Ends act sc world (.returned (withKind a k) :: as) sc'' world''
  /-- A call that has read `u`, and calls for `u ++ [x]` a function that panics. -/
  | panicked {sc sc'' : Scanner} {world world' world'' world''' : W} {as : List (Answer K)}
      {u : List (Nat × Char)} {x : Nat × Char} {log : List (Nat × List Char)} {k : Option K} {i : Nat}
      {f : Fallible W K} :
      u ++ [x] <+: sc.left → Ends (word (u ++ [x])) → Applies rules (word sc.skipped) [] (word u) log →
      runAll (fun i source => (act i source).map uncaught) log none world = .ok (k, world') →
      FirstMatch rules (word (u ++ [x])) i → act i (word (sc.skipped ++ u ++ [x])) = some f →
      f world' = (none, world'') →
      CallsC rules Live Ends act ⟨sc.skipped ++ u ++ [x], sc.again.drop (u ++ [x]).length,
        sc.ahead.drop ((u ++ [x]).length - sc.again.length), sc.start⟩ world'' as sc'' world''' →
      CallsC rules Live Ends act sc world (.panicked :: as) sc'' world'''

end Pango.Spec
