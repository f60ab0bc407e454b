import Verif.Spec.Strings
import Verif.Spec.Slr

/-!
# Data in the style of JSON

Numbers are whole numbers, and in a string a backslash stands for the character behind it.
-/

namespace Pango.Spec

open Pango.Parse

/-- The data. -/
inductive Json where
  | null
  | bool (b : Bool)
  | num (z : Int)
  | str (s : List Char)
  | arr (items : List Json)
  | obj (fields : List (List Char × Json))

/-- The tokens: those of the data, an end marker, and one that is not used. -/
inductive JsonTok where
  | null
  | bool (b : Bool)
  | num (z : Int)
  | str (s : List Char)
  | leftBracket
  | rightBracket
  | leftBrace
  | rightBrace
  | comma
  | colon
  | stop
  | never
  deriving DecidableEq

/-- Whether tokens are of the same kind: numbers are, and strings are; others if they are equal. -/
def JsonTok.same : JsonTok → JsonTok → Bool
  | .num _, .num _ | .str _, .str _ => true
  | t, u => decide (t = u)

instance : TerminalEq JsonTok := ⟨JsonTok.same⟩

/-! ## How data is written -/

/-- Lists of tokens, with commas between them. -/
def withCommas : List (List JsonTok) → List JsonTok
  | [] => []
  | [w] => w
  | w :: ws => w ++ .comma :: withCommas ws

mutual
/-- The tokens of the data. -/
def Json.tokens : Json → List JsonTok
  | .null => [.null]
  | .bool b => [.bool b]
  | .num z => [.num z]
  | .str s => [.str s]
  | .arr js => .leftBracket :: withCommas (itemTokens js) ++ [.rightBracket]
  | .obj fs => .leftBrace :: withCommas (fieldTokens fs) ++ [.rightBrace]

/-- The tokens of the elements of an array. -/
def itemTokens : List Json → List (List JsonTok)
  | [] => []
  | j :: js => j.tokens :: itemTokens js

/-- The tokens of the fields of an object. -/
def fieldTokens : List (List Char × Json) → List (List JsonTok)
  | [] => []
  | (s, j) :: fs => (.str s :: .colon :: j.tokens) :: fieldTokens fs
end

/-- The characters that can be put behind each word. -/
def IsBlank (c : Char) : Prop := c = ' ' ∨ c = '\t' ∨ c = '\r' ∨ c = '\n'

/-- What stands between the quotes of a string: a quote or a backslash needs a backslash in front of it, other characters
may have one. -/
inductive Escaped : List Char → List Char → Prop
  | nil : Escaped [] []
  | plain {c : Char} {s w : List Char} : c ≠ '"' → c ≠ '\\' → Escaped s w → Escaped (c :: s) (c :: w)
  | escape {c : Char} {s w : List Char} : Escaped s w → Escaped (c :: s) ('\\' :: c :: w)

/-- The words for a token, without blanks. -/
inductive JsonWord : JsonTok → List Char → Prop
  | null : JsonWord .null "null".toList
  | true : JsonWord (.bool true) "true".toList
  | false : JsonWord (.bool false) "false".toList
  | number {ds : List Char} : ds ≠ [] → (∀ c ∈ ds, c.isDigit) → JsonWord (.num (Nat.ofDigitChars 10 ds 0)) ds
  | minus {ds : List Char} : ds ≠ [] → (∀ c ∈ ds, c.isDigit) → JsonWord (.num (-Nat.ofDigitChars 10 ds 0)) ('-' :: ds)
  | string {s w : List Char} : Escaped s w → JsonWord (.str s) ('"' :: (w ++ ['"']))
  | leftBracket : JsonWord .leftBracket ['[']
  | rightBracket : JsonWord .rightBracket [']']
  | leftBrace : JsonWord .leftBrace ['{']
  | rightBrace : JsonWord .rightBrace ['}']
  | comma : JsonWord .comma [',']
  | colon : JsonWord .colon [':']
  | stop : JsonWord .stop [';']

/-- A text of tokens: a word for each of them, with any number of blanks behind it. -/
inductive JsonText : List JsonTok → List Char → Prop
  | nil : JsonText [] []
  | cons {t : JsonTok} {ts : List JsonTok} {w blanks text : List Char} : JsonWord t w → (∀ c ∈ blanks, IsBlank c) →
      JsonText ts text → JsonText (t :: ts) (w ++ (blanks ++ text))

/-- The text begins with no word and with no blank. -/
def BeginsWithNone (text : List Char) : Prop :=
  (∀ t w, w <+: text → ¬ JsonWord t w) ∧ ∀ c, text.head? = some c → ¬ IsBlank c

/-- How a token is printed. -/
def JsonTok.print : JsonTok → List Char
  | .null => "null".toList
  | .bool b => if b then "true".toList else "false".toList
  | .num z => if z < 0 then '-' :: Nat.toDigits 10 z.natAbs else Nat.toDigits 10 z.natAbs
  | .str s => quote s
  | .leftBracket => ['[']
  | .rightBracket => [']']
  | .leftBrace => ['{']
  | .rightBrace => ['}']
  | .comma => [',']
  | .colon => [':']
  | .stop => [';']
  | .never => []

/-- How a document is printed: with a semicolon at its end and no blanks. -/
def Json.print (j : Json) : List Char := (j.tokens ++ [JsonTok.stop]).flatMap JsonTok.print

/-! ## The grammar -/

/-- The variables: data, what is behind the left bracket and the elements of an array, the same for an object, a field,
and the document. -/
inductive JsonVar where
  | value
  | rest
  | items
  | fields
  | members
  | member
  | document
  deriving DecidableEq

/-- The grammar, without the end marker. -/
def jsonGrammar : Grammar JsonVar JsonTok := ⟨.value, [
  (.value, [.term .null]),
  (.value, [.term (.bool true)]),
  (.value, [.term (.bool false)]),
  (.value, [.term (.num 0)]),
  (.value, [.term (.str [])]),
  (.value, [.term .leftBracket, .var .rest]),
  (.value, [.term .leftBrace, .var .fields]),
  (.rest, [.term .rightBracket]),
  (.rest, [.var .items, .term .rightBracket]),
  (.items, [.var .value]),
  (.items, [.var .items, .term .comma, .var .value]),
  (.fields, [.term .rightBrace]),
  (.fields, [.var .members, .term .rightBrace]),
  (.members, [.var .member]),
  (.members, [.var .members, .term .comma, .var .member]),
  (.member, [.term (.str []), .term .colon, .var .value])]⟩

/-! ## The trees, where the children of a node are in reverse order -/

/-- A token in a tree. -/
def leaf (t : JsonTok) : Node JsonVar JsonTok := .mk (.term t) []

/-- The trees of elements, with commas between them. -/
def commaTree (v : JsonVar) : List (Node JsonVar JsonTok) → List (Node JsonVar JsonTok)
  | [] => []
  | n :: ns => [ns.foldl (fun before n => .mk (.var v) [n, leaf .comma, before]) (.mk (.var v) [n])]

mutual
/-- The tree of the data. -/
def Json.tree : Json → Node JsonVar JsonTok
  | .null => .mk (.var .value) [leaf .null]
  | .bool b => .mk (.var .value) [leaf (.bool b)]
  | .num z => .mk (.var .value) [leaf (.num z)]
  | .str s => .mk (.var .value) [leaf (.str s)]
  | .arr js => .mk (.var .value)
      [.mk (.var .rest) (leaf .rightBracket :: commaTree .items (itemTrees js)), leaf .leftBracket]
  | .obj fs => .mk (.var .value)
      [.mk (.var .fields) (leaf .rightBrace :: commaTree .members (fieldTrees fs)), leaf .leftBrace]

/-- The trees of the elements of an array. -/
def itemTrees : List Json → List (Node JsonVar JsonTok)
  | [] => []
  | j :: js => j.tree :: itemTrees js

/-- The trees of the fields of an object. -/
def fieldTrees : List (List Char × Json) → List (Node JsonVar JsonTok)
  | [] => []
  | (s, j) :: fs => .mk (.var .member) [j.tree, leaf .colon, leaf (.str s)] :: fieldTrees fs
end

end Pango.Spec
