import Verif.Model.Cfsm

/-!
# Printing the automaton of a grammar (pango-parser/src/cfsm/dot.rs)
-/

namespace Pango.Parse

open Pango

variable {V T : Type}

/-- `format!("{:?}", …)` of a symbol without its constructor (cfsm/dot.rs:54-58, 82-86), where `showV` and `showT`
are the `Debug` outputs of variables and terminals.  The derived output for `Symbol::Epsilon` is its name. -/
def symText (showV : V → List Char) (showT : T → List Char) : Sym V T → List Char
  | .term t => showT t
  | .var v => showV v
  | .eps => "Epsilon".toList

/-- `Vec<String>::join`.  At cfsm/dot.rs:39 and 93. -/
def joinText (sep : List Char) : List (List Char) → List Char
  | [] => []
  | [x] => x
  | x :: y :: r => x ++ sep ++ joinText sep (y :: r)

/-- `Display for ItemBody` (cfsm/dot.rs:69-95). -/
def Item.text (showV : V → List Char) (showT : T → List Char) (i : Item V T) : List Char :=
  joinText [' '] ((i.render fun s => String.ofList (symText showV showT s)).map String.toList)

/-- `format!("{:?} ➞ {}", head, item_body)` (cfsm/dot.rs:37). -/
def itemText (showV : V → List Char) (showT : T → List Char) (i : V × Item V T) : List Char :=
  showV i.1 ++ " ➞ ".toList ++ i.2.text showV showT

/-- `node_labels_dot` (cfsm/dot.rs:33-43) for one state.  The items are iterated in hash order, head by
head (cfsm/item.rs:119-123). -/
def nodeText [DecidableEq V] (showV : V → List Char) (showT : T → List Char) (ord : HashOrder) (s : CState V T) : List Char :=
  Nat.toDigits 10 s.id ++ " [label=\"".toList ++
    joinText ['\\', 'n'] ((((ord.sub s.id).sub 0).grouped Prod.fst s.items).map (itemText showV showT)) ++ "\"];".toList

/-- One transition of `transitions_dot` (cfsm/dot.rs:50-60). -/
def edgeText (showV : V → List Char) (showT : T → List Char) (id : Nat) (t : Sym V T × Nat) : List Char :=
  Nat.toDigits 10 id ++ " -> ".toList ++ Nat.toDigits 10 t.2 ++ " [label = \"".toList ++
    symText showV showT t.1 ++ "\"]".toList

/-- `transitions_dot` (cfsm/dot.rs:45-65) for one state: the map of transitions is iterated in hash order. -/
def edgeTexts (showV : V → List Char) (showT : T → List Char) (ord : HashOrder) (s : CState V T) :
    List (List Char) :=
  (ord.shuffle [s.id, 1] _ s.transitions).map (edgeText showV showT s.id)

/-- `to_dot` (cfsm/dot.rs:14-31).  `states` is a `BTreeSet` ordered by id, which is the order of the list. -/
def Cfsm.toDot [DecidableEq V] (showV : V → List Char) (showT : T → List Char) (ord : HashOrder) (c : Cfsm V T) : List Char :=
  "digraph cfsm {\n\trankdir=LR;\n\n\tnode [shape=rectangle];\n".toList ++
    (c.states.map (nodeText showV showT ord)).flatMap (fun l => '\t' :: l ++ ['\n']) ++ "\n\n".toList ++
    (c.states.flatMap (edgeTexts showV showT ord)).flatMap (fun l => '\t' :: l ++ ['\n']) ++ "\n}".toList

end Pango.Parse
