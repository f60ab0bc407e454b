import Verif.Model.Nfa
import Verif.Model.Dot

/-!
# Printing the automaton of a lexer (pango-lexer/src/fsm/nfa/dot.rs)

`showC` is the `Debug` output of characters.  The other `Debug` outputs are those that `derive` makes.
-/

namespace Pango.Fsm

open Pango Pango.Regex
open Pango.Parse (joinText)

/-- The derived output for a tuple struct or variant.  For the types with `derive(Debug)` at fsm/nfa/model.rs:37-47 and
regex/ast.rs:37-62. -/
def tupleDebug (name : String) (fields : List (List Char)) : List Char :=
  name.toList ++ ['('] ++ joinText [',', ' '] fields ++ [')']

/-- `Debug for ClassKind` (regex/tokenizer.rs:49-59). -/
def classDebug : ClassKind → List Char
  | .wildcard => "Wildcard".toList
  | .word => "Word".toList
  | .whitespace => "Whitespace".toList
  | .digit => "Digit".toList
  | .nonWord => "NonWord".toList
  | .nonDigit => "NonDigit".toList
  | .nonWhitespace => "NonWhitespace".toList

/-- `Debug for GroupedLiteralKind` (regex/ast.rs:52-61). -/
def gLitDebug (showC : Char → List Char) : GLit → List Char
  | .mtch c => tupleDebug "Match" [showC c]
  | .cls k => tupleDebug "Class" [classDebug k]
  | .range lo hi => tupleDebug "Range" [showC lo, showC hi]

/-- `Debug for LiteralKind` (regex/ast.rs:37-49), with the one of `W` (prelude.rs:2-3). -/
def litDebug (showC : Char → List Char) : Lit → List Char
  | .mtch c => tupleDebug "Match" [showC c]
  | .cls k => tupleDebug "Class" [classDebug k]
  | .group negated literals =>
    "Group { negated: ".toList ++ (if negated then "true".toList else "false".toList) ++ ", literals: ".toList ++
      tupleDebug "W" [['['] ++ joinText [',', ' '] (literals.map (gLitDebug showC)) ++ [']']] ++ " }".toList

/-- `Debug for QuantifierKind` and `QuantifierRangeKind` (regex/tokenizer.rs:74-90). -/
def quantDebug : Quant → List Char
  | .asterisk => "Asterisk".toList
  | .plus => "Plus".toList
  | .questionMark => "QuestionMark".toList
  | .max n => tupleDebug "Range" [tupleDebug "Max" [Nat.toDigits 10 n]]
  | .min n => tupleDebug "Range" [tupleDebug "Min" [Nat.toDigits 10 n]]
  | .range lo hi => tupleDebug "Range" [tupleDebug "Range" [Nat.toDigits 10 lo, Nat.toDigits 10 hi]]

/-- `Debug for Input` (fsm/nfa/model.rs:37-47). -/
def inputDebug (showC : Char → List Char) : Input → List Char
  | .literal l => tupleDebug "Literal" [litDebug showC l]
  | .eps => "Eps".toList
  | .quantified q => tupleDebug "Quantified" [quantDebug q]

/-- `State::transition_tuples` (fsm/nfa/dot.rs:55-65), with the input in place of its text.  The map and the sets of
destinations are iterated in hash order. -/
def NState.tuples (ord : HashOrder) (s : NState) : List (Nat × Nat × Input) :=
  (ord.shuffle [s.id, 0] _ s.transitions.zipIdx).flatMap fun t =>
    (ord.shuffle [s.id, 1, t.2] _ t.1.2).map fun d => (s.id, d, t.1.1)

/-- One line of `transition_dot` (fsm/nfa/dot.rs:44-51). -/
def lineText (showC : Char → List Char) (e : Nat × Nat × Input) : List Char :=
  Nat.toDigits 10 e.1 ++ " -> ".toList ++ Nat.toDigits 10 e.2.1 ++ " [label = \"".toList ++ inputDebug showC e.2.2 ++
    "\"];".toList

/-- `Nfa::to_dot` (fsm/nfa/dot.rs:16-40) and `Display for Nfa` (6-10).  In the format string of the code the
indentation behind a backslash at the end of a line does not count. -/
def Nfa.toDot (showC : Char → List Char) (ord : HashOrder) (nfa : Nfa) : List Char :=
  "digraph nfa {\n\trankdir = LR;\n\n\t// final states\n\t".toList ++ "node [shape = doublecircle]; ".toList ++
    joinText [' '] ((nfa.states.filter (·.fin)).map fun s => Nat.toDigits 10 s.id) ++
    "\n\tnode [shape = circle]; 0;\n\n".toList ++
    joinText ['\n'] ((nfa.states.flatMap (NState.tuples ord)).map fun e => '\t' :: lineText showC e) ++ "\n}".toList

end Pango.Fsm
