import Verif.Model.Lexer
import Verif.Spec.Lexing

/-!
# What a lexer does, call by call

A call reads characters as long as some rule can be read on.  It returns the longest word that it has seen a
rule match, and puts back the characters that it has read behind this word.  They are the first to be read by
the next call.  What the call itself had not yet read of the characters that were put back before is lost.  A
call that comes to the end of the input returns nothing unless a rule matches all that it has read.  A call
that finds nothing puts nothing back; what it has read becomes the beginning of the source of the next token.
-/

namespace Pango.Spec

open Pango.Lex

variable {K : Type}

/-- What a lexer remembers between two calls.  Characters come with their positions in the input. -/
structure Scanner where
  /-- What calls have read that found nothing. -/
  skipped : List (Nat × Char)
  /-- What has been put back. -/
  again : List (Nat × Char)
  /-- What has not been read. -/
  ahead : List (Nat × Char)
  /-- Where the last token ended. -/
  start : Nat

/-- The characters with their positions. -/
def numbered (n : Nat) : List Char → List (Nat × Char)
  | [] => []
  | c :: cs => (n, c) :: numbered (n + 1) cs

/-- The beginning of the input. -/
def Scanner.new (input : List Char) : Scanner := ⟨[], [], numbered 0 input, 0⟩

/-- What is left to read. -/
def Scanner.left (sc : Scanner) : List (Nat × Char) := sc.again ++ sc.ahead

/-- The characters without their positions. -/
def word (l : List (Nat × Char)) : List Char := l.map Prod.snd

/-- The position behind the last of the characters. -/
def stop (l : List (Nat × Char)) : Nat :=
  match l.getLast? with
  | some x => x.1 + 1
  | none => 0

/-- One call: what it returns, and what the lexer remembers after it.  A rule is given by the words that it
matches, `Live w` says that some rule can be read up to the end of `w`, and `kind i` is what rule `i` makes of
the source of a token. -/
inductive Call (rules : List (List Char → Prop)) (Live : List Char → Prop) (kind : Nat → List Char → Option K)
    (sc : Scanner) : Option (Tok K) → Scanner → Prop
  /-- Behind `w ++ back` comes `x`, which cannot be read.  The longest match is `w`. -/
  | token {w back : List (Nat × Char)} {x : Nat × Char} {i : Nat} {k : K} :
      w ++ back ++ [x] <+: sc.left → Live (word (w ++ back)) → ¬ Live (word (w ++ back ++ [x])) →
      Longest rules (word (w ++ back)) (word w) → FirstMatch rules (word w) i →
      kind i (word (sc.skipped ++ w)) = some k →
      Call rules Live kind sc (some ⟨k, word (sc.skipped ++ w), (sc.start, stop w)⟩)
        ⟨[], back ++ [x], sc.ahead.drop ((w ++ back ++ [x]).length - sc.again.length), stop w⟩
  /-- Everything that is left is read, and matched. -/
  | last {i : Nat} {k : K} : sc.left ≠ [] → Live (word sc.left) → FirstMatch rules (word sc.left) i →
      kind i (word (sc.skipped ++ sc.left)) = some k →
      Call rules Live kind sc (some ⟨k, word (sc.skipped ++ sc.left), (sc.start, stop sc.left)⟩)
        ⟨[], [], [], stop sc.left⟩
  /-- Behind `u` comes `x`, which cannot be read, and nothing was matched. -/
  | nothing {u : List (Nat × Char)} {x : Nat × Char} : u ++ [x] <+: sc.left → Live (word u) →
      ¬ Live (word (u ++ [x])) → NoMatch rules (word u) →
      Call rules Live kind sc none
        ⟨sc.skipped ++ u ++ [x], sc.again.drop (u ++ [x]).length,
          sc.ahead.drop ((u ++ [x]).length - sc.again.length), sc.start⟩
  /-- Everything that is left is read, and not matched. -/
  | over : Live (word sc.left) → (sc.left = [] ∨ ¬ AnyMatch rules (word sc.left)) →
      Call rules Live kind sc none ⟨sc.skipped ++ sc.left, [], [], sc.start⟩

/-- Several calls.  `Ends w` says that reading the word does not go on forever. -/
inductive Calls (rules : List (List Char → Prop)) (Live Ends : List Char → Prop)
    (kind : Nat → List Char → Option K) : Scanner → List (Option (Tok K)) → Prop
  | done {sc : Scanner} : Calls rules Live Ends kind sc []
  | next {sc sc' : Scanner} {a : Option (Tok K)} {as : List (Option (Tok K))} : Ends (word sc.left) →
      Call rules Live kind sc a sc' → Calls rules Live Ends kind sc' as →
      Calls rules Live Ends kind sc (a :: as)

end Pango.Spec
