/-!
# The DOT language, as far as it is needed

A reader for the part of the DOT language (https://graphviz.org/doc/info/lang.html) without block comments, subgraphs,
ports, HTML strings, concatenated strings and undirected edges.  What it reads is what the full language says;
everything else is `none`.
-/

namespace Pango.Spec.Dot

abbrev Text := List Char

inductive Tok where
  | word (w : Text)
  | quoted (w : Text)
  | lbrace | rbrace | lbracket | rbracket | eq | semi | comma | arrow
  deriving Repr, DecidableEq

/-- Where the scanner is: between tokens, in a word, behind `-`, in a quoted string, behind a backslash in a quoted
string, behind `/`, or in a comment up to the end of the line. -/
inductive Mode where
  | plain
  | word (w : Text)
  | dash
  | quoted (w : Text)
  | escaped (w : Text)
  | slash
  | comment
  deriving Repr, DecidableEq

def wordChar (c : Char) : Bool := c.isAlphanum || c == '_' || decide (128 ≤ c.toNat)

/-- A word is a numeral or does not begin with a digit. -/
def okWord (w : Text) : Bool := w.all Char.isDigit || !(w.head?.any Char.isDigit)

/-- The next character between tokens. -/
def plainStep (c : Char) : Option (List Tok × Mode) :=
  if wordChar c then some ([], .word [c])
  else match c with
    | ' ' | '\t' | '\n' | '\r' => some ([], .plain)
    | '{' => some ([.lbrace], .plain)
    | '}' => some ([.rbrace], .plain)
    | '[' => some ([.lbracket], .plain)
    | ']' => some ([.rbracket], .plain)
    | '=' => some ([.eq], .plain)
    | ';' => some ([.semi], .plain)
    | ',' => some ([.comma], .plain)
    | '-' => some ([], .dash)
    | '"' => some ([], .quoted [])
    | '/' => some ([], .slash)
    | _ => none

/-- The next character.  In a quoted string `\"` is a quote, a backslash at the end of a line continues the string
on the next line, and other backslashes stay. -/
def step : Mode → Char → Option (List Tok × Mode)
  | .plain, c => plainStep c
  | .word w, c =>
    if wordChar c then some ([], .word (w ++ [c]))
    else if okWord w then (plainStep c).map fun r => (.word w :: r.1, r.2)
    else none
  | .dash, c => if c = '>' then some ([.arrow], .plain) else none
  | .quoted w, c =>
    if c = '"' then some ([.quoted w], .plain)
    else if c = '\\' then some ([], .escaped w)
    else some ([], .quoted (w ++ [c]))
  | .escaped w, c =>
    if c = '"' then some ([], .quoted (w ++ ['"']))
    else if c = '\n' then some ([], .quoted w)
    else some ([], .quoted (w ++ ['\\', c]))
  | .slash, c => if c = '/' then some ([], .comment) else none
  | .comment, c => if c = '\n' then some ([], .plain) else some ([], .comment)

def run : Mode → Text → Option (List Tok × Mode)
  | m, [] => some ([], m)
  | m, c :: r =>
    match step m c with
    | none => none
    | some (ts, m') =>
      match run m' r with
      | none => none
      | some (ts', m'') => some (ts ++ ts', m'')

/-- The tokens of a text. -/
def tokens (text : Text) : Option (List Tok) :=
  match run .plain text with
  | some (ts, .plain) => some ts
  | some (ts, .comment) => some ts
  | some (ts, .word w) => if okWord w then some (ts ++ [.word w]) else none
  | _ => none

/-- The keywords, which are case-independent. -/
def keyword (w : Text) : Bool :=
  ["node", "edge", "graph", "digraph", "subgraph", "strict"].any (fun k => k.toList == w.map Char.toLower)

/-- An identifier is a word that is no keyword or a quoted string. -/
def Tok.name? : Tok → Option Text
  | .word w => if keyword w then none else some w
  | .quoted w => some w
  | _ => none

abbrev Attrs := List (Text × Text)

/-- Attributes up to `]`, each with an optional `;` or `,` behind it. -/
def attrs : List Tok → Option (Attrs × List Tok)
  | .rbracket :: r => some ([], r)
  | k :: .eq :: v :: .semi :: r => add k v (attrs r)
  | k :: .eq :: v :: .comma :: r => add k v (attrs r)
  | k :: .eq :: v :: r => add k v (attrs r)
  | _ => none
where
  add (k v : Tok) (r : Option (Attrs × List Tok)) : Option (Attrs × List Tok) :=
    match k.name?, v.name?, r with
    | some k, some v, some (as, r) => some ((k, v) :: as, r)
    | _, _, _ => none

/-- An optional attribute list. -/
def attrList : List Tok → Option (Attrs × List Tok)
  | .lbracket :: r => attrs r
  | r => some ([], r)

/-- The node statements and the edge statements of a graph, in order, and the names of nodes in all of them, in order,
each with the defaults that a node gets if this is its first mention. -/
structure Graph where
  nodes : List (Text × Attrs)
  edges : List (Text × Text × Attrs)
  mentions : List (Text × Attrs)
  deriving Repr, DecidableEq

/-- A node statement in front of the rest. -/
def Graph.addNode (g : Graph) (ds : Attrs) (a : Text) (as : Attrs) : Graph :=
  ⟨(a, as) :: g.nodes, g.edges, (a, ds) :: g.mentions⟩

/-- An edge statement in front of the rest. -/
def Graph.addEdge (g : Graph) (ds : Attrs) (a b : Text) (as : Attrs) : Graph :=
  ⟨g.nodes, (a, b, as) :: g.edges, (a, ds) :: (b, ds) :: g.mentions⟩

/-- At most `n` statements, up to `}` and the end, where nodes get the defaults `ds`.  `node` in front of attributes
sets defaults for the nodes that come up later. -/
def statements : Nat → Attrs → List Tok → Option Graph
  | 0, _, _ => none
  | _ + 1, _, [.rbrace] => some ⟨[], [], []⟩
  | n + 1, ds, .semi :: r => statements n ds r
  | n + 1, ds, a :: .eq :: b :: r =>
    match a.name?, b.name? with
    | some _, some _ => statements n ds r
    | _, _ => none
  | n + 1, ds, a :: .arrow :: b :: r =>
    match a.name?, b.name?, attrList r with
    | some a, some b, some (as, r) => (statements n ds r).map fun g => g.addEdge ds a b as
    | _, _, _ => none
  | n + 1, ds, a :: r =>
    if a = .word ['n', 'o', 'd', 'e'] then
      match attrList r with
      | some (as, r) => statements n (as ++ ds) r
      | none => none
    else
      match a.name?, attrList r with
      | some a, some (as, r) => (statements n ds r).map fun g => g.addNode ds a as
      | _, _ => none
  | _ + 1, _, [] => none

/-- A directed graph with a name. -/
def read (text : Text) : Option Graph :=
  match tokens text with
  | some (.word ['d', 'i', 'g', 'r', 'a', 'p', 'h'] :: name :: .lbrace :: r) =>
    if name.name?.isSome then statements (r.length + 1) [] r else none
  | _ => none

/-- The lines of a label: `\n`, `\l` and `\r` end a line, and a backslash in front of any other character stands
for that character.  The escapes for the names of the object are not covered. -/
def labelLines : Text → Option (List Text)
  | [] => some [[]]
  | '\\' :: c :: r =>
    if c = 'n' ∨ c = 'l' ∨ c = 'r' then (labelLines r).map ([] :: ·)
    else if c ∈ ['N', 'G', 'E', 'T', 'H', 'L'] then none
    else (labelLines r).map fun ls => (c :: ls.headD []) :: ls.tail
  | c :: r =>
    if c = '\n' then (labelLines r).map ([] :: ·)
    else (labelLines r).map fun ls => (c :: ls.headD []) :: ls.tail

/-- The value of an attribute. -/
def attr (as : Attrs) (k : String) : Option Text := (as.find? (fun a => a.1 == k.toList)).map Prod.snd

/-- The default of an attribute for a node: the one at its first mention. -/
def Graph.default (g : Graph) (node : Text) (k : String) : Option Text :=
  (g.mentions.find? (fun m => m.1 == node)).bind fun m => attr m.2 k

end Pango.Spec.Dot
