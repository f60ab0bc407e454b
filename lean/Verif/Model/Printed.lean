import Verif.Model.Slr

/-!
# The text of a tree

The fields of `Cst` and `Node` are not public: all that a user of the crate can do with a tree is to print it with
`{:?}` or `{:#?}`, as at pango-parser/examples/expr.rs:78.  `Debug` is derived for them; the derived code calls the
builders of the standard library, which are modelled here as functions on texts.
-/

namespace Pango.Parse

/-- What is printed.  As at pango-parser/examples/expr.rs:78. -/
abbrev Text := List Char

/-- The two ways to print with `Debug`: `{:?}` and `{:#?}` (pango-parser/examples/expr.rs:66 and 78). -/
inductive Style where
  | compact
  | pretty
  deriving Repr, DecidableEq

/-- `PadAdapter` of the standard library, which indents the lines that are printed through it; the flag says whether
the next character begins a line.  Used by what is derived at cst.rs:3 and 9 and pango-parser/src/lib.rs:15. -/
def pad : Bool → Text → Text
  | _, [] => []
  | true, c :: s => ' ' :: ' ' :: ' ' :: ' ' :: c :: pad (c == '\n') s
  | false, c :: s => c :: pad (c == '\n') s

/-- `Formatter::debug_struct` of the standard library with its fields.  Called by what is derived at cst.rs:3 and 9. -/
def debugStruct (style : Style) (name : Text) (fields : List (Text × Text)) : Text :=
  match fields with
  | [] => name
  | (n, v) :: fields =>
    match style with
    | .compact =>
      name ++ " { ".toList ++ n ++ ": ".toList ++ v ++
        fields.flatMap (fun f => ", ".toList ++ f.1 ++ ": ".toList ++ f.2) ++ " }".toList
    | .pretty =>
      name ++ " {\n".toList ++
        ((n, v) :: fields).flatMap (fun f => pad true (f.1 ++ ": ".toList ++ f.2 ++ ",\n".toList)) ++ "}".toList

/-- `Formatter::debug_tuple` of the standard library with its fields.  Called by what is derived at
pango-parser/src/lib.rs:15. -/
def debugTuple (style : Style) (name : Text) (fields : List Text) : Text :=
  match fields with
  | [] => name
  | v :: fields =>
    match style with
    | .compact => name ++ "(".toList ++ v ++ fields.flatMap (fun f => ", ".toList ++ f) ++ ")".toList
    | .pretty =>
      name ++ "(\n".toList ++ (v :: fields).flatMap (fun f => pad true (f ++ ",\n".toList)) ++ ")".toList

/-- `Formatter::debug_list` of the standard library with its entries: how a `Vec` is printed.  Called by what is derived
at cst.rs:9 for the field `children`. -/
def debugList (style : Style) (entries : List Text) : Text :=
  match entries with
  | [] => "[]".toList
  | v :: entries =>
    match style with
    | .compact => "[".toList ++ v ++ entries.flatMap (fun f => ", ".toList ++ f) ++ "]".toList
    | .pretty =>
      "[\n".toList ++ (v :: entries).flatMap (fun f => pad true (f ++ ",\n".toList)) ++ "]".toList

/-- What the user's types print: `Debug` of the variables and of the terminals.  The bounds at cst.rs:3 and 9. -/
structure Prints (V T : Type) where
  var : Style → V → Text
  term : Style → T → Text

variable {V T : Type}

/-- `Debug` of `Symbol` (pango-parser/src/lib.rs:15-20). -/
def Sym.debug (d : Prints V T) (style : Style) : Sym V T → Text
  | .term t => debugTuple style "Terminal".toList [d.term style t]
  | .var v => debugTuple style "Variable".toList [d.var style v]
  | .eps => "Epsilon".toList

mutual

/-- `Debug` of `Node` (cst.rs:9-14). -/
def Node.debug (d : Prints V T) (style : Style) : Node V T → Text
  | .mk s cs =>
    debugStruct style "Node".toList
      [("symbol".toList, s.debug d style), ("children".toList, debugList style (Node.debugs d style cs))]

/-- `Debug` of each of the children.  cst.rs:13. -/
def Node.debugs (d : Prints V T) (style : Style) : List (Node V T) → List Text
  | [] => []
  | n :: ns => n.debug d style :: Node.debugs d style ns

end

/-- What is printed for the result of `Slr::parse` (pango-parser/examples/expr.rs:78): `Debug` of `Result`, of `Cst`
(cst.rs:3-7) and of the unit type. -/
def resultText (d : Prints V T) (style : Style) : Option (Node V T) → Text
  | some n => debugTuple style "Ok".toList [debugStruct style "Cst".toList [("root".toList, n.debug d style)]]
  | none => debugTuple style "Err".toList ["()".toList]

end Pango.Parse
