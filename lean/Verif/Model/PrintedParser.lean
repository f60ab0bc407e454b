import Verif.Model.Printed

/-!
# The text of a grammar and of a parser

`Debug` is derived for `Grammar` and `Slr` and written by hand for `ParseTable` and the keys of its rows.  Hash
containers are printed in the order of their iteration.
-/

namespace Pango.Parse

/-- `Formatter::debug_set` of the standard library with its entries: how a `HashSet` is printed.  Called by what is
derived at grammar.rs:15 for the field `rules`. -/
def debugSet (style : Style) (entries : List Text) : Text :=
  match entries with
  | [] => "{}".toList
  | v :: entries =>
    match style with
    | .compact => "{".toList ++ v ++ entries.flatMap (fun f => ", ".toList ++ f) ++ "}".toList
    | .pretty =>
      "{\n".toList ++ (v :: entries).flatMap (fun f => pad true (f ++ ",\n".toList)) ++ "}".toList

/-- `Formatter::debug_map` of the standard library with its entries: how a `HashMap` is printed, which is as a set of
entries with a key and a value each.  Called by what is derived at grammar.rs:15 for the field `rules`, and at
parser/table.rs:34-35. -/
def debugMap (style : Style) (entries : List (Text × Text)) : Text :=
  debugSet style (entries.map fun e => e.1 ++ ": ".toList ++ e.2)

/-- `Debug` of `usize`, in decimal.  The numbers printed by what is derived at parser/table.rs:19 and for `StateId`
(cfsm/state.rs:23). -/
def debugNat (n : Nat) : Text := Nat.toDigits 10 n

variable {V T : Type}

/-- `Debug` of `Body`, a `Vec` (pango-parser/src/lib.rs:23). -/
def bodyText (d : Prints V T) (style : Style) (body : Body V T) : Text :=
  debugList style (body.map (Sym.debug d style))

/-- The iteration over `rules`, a `HashMap` of `HashSet`s.  By what is derived at grammar.rs:15 (grammar.rs:24). -/
def rulesInOrder [DecidableEq V] (ord : HashOrder) (rules : List (V × Body V T)) : List (V × List (Body V T)) :=
  (ord.shuffle [0] _ (extendSet [] (rules.map Prod.fst)).zipIdx).map fun k =>
    (k.1, ord.shuffle [1, k.2] _ ((rules.filter fun r => r.1 = k.1).map Prod.snd))

/-- `Debug` of `Grammar` (grammar.rs:15-21), printed at pango-parser/examples/expr.rs:66. -/
def grammarText [DecidableEq V] (d : Prints V T) (style : Style) (ord : HashOrder) (g : Grammar V T) : Text :=
  debugStruct style "Grammar".toList
    [("start_variable".toList, d.var style g.start),
      ("rules".toList, debugMap style ((rulesInOrder ord g.rules).map fun r =>
        (d.var style r.1, debugSet style (r.2.map (bodyText d style)))))]

/-- `Debug` of the keys of the action table (parser/table.rs:199-209); `none` is `Eof`. -/
def keyText (d : Prints V T) (style : Style) : Option T → Text
  | some t => debugTuple style "T".toList [d.term style t]
  | none => "Eof".toList

/-- `Debug` of `ActionKind` (parser/table.rs:19-24). -/
def Action.debug (d : Prints V T) (style : Style) : Action V → Text
  | .shift dest => debugStruct style "Shift".toList [("dest_state".toList, debugNat dest)]
  | .reduce v n =>
    debugStruct style "Reduce".toList [("variable".toList, d.var style v), ("amount".toList, debugNat n)]
  | .accept v n =>
    debugStruct style "Accept".toList [("variable".toList, d.var style v), ("amount".toList, debugNat n)]

/-- A row of the action table (parser/table.rs:16), in the order of its iteration. -/
def actionRowText (d : Prints V T) (style : Style) (row : ActionRow V T) : Text :=
  debugMap style (row.map fun e => (keyText d style e.1, e.2.debug d style))

/-- A row of the goto table (parser/table.rs:17), in the order of its iteration. -/
def gotoRowText (d : Prints V T) (style : Style) (row : List (V × Nat)) : Text :=
  debugMap style (row.map fun e => (d.var style e.1, debugNat e.2))

/-- The rows of a table, each in the order of its iteration.  By the calls of `field` at parser/table.rs:34-35; `which`
tells the two tables apart. -/
def rowsInOrder {α : Type} (ord : HashOrder) (which : Nat) (rows : List (List α)) : List (List α) :=
  rows.zipIdx.map fun r => ord.shuffle [which, r.2] _ r.1

/-- `Debug` of `Slr` (parser/slr.rs:15-18) and of `ParseTable` (parser/table.rs:31-39), which leaves out the automaton and
the grammar. -/
def parserText (d : Prints V T) (style : Style) (ord : HashOrder) (tbl : Table V T) : Text :=
  debugStruct style "Slr".toList
    [("table".toList, debugStruct style "ParseTable".toList
      [("action".toList, debugList style ((rowsInOrder ord 0 tbl.action).map (actionRowText d style))),
        ("goto".toList, debugList style ((rowsInOrder ord 1 tbl.goto).map (gotoRowText d style)))])]

end Pango.Parse
