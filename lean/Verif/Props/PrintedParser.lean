import Verif.Proofs.PrintedTable
import Verif.Props.Printed

/-!
# C100, C101: printed grammars and parsers

`grammarText d style ord g` and `parserText d style ord tbl` are what is printed for a grammar and for a parser with
`{:?}` (`.compact`) or `{:#?}` (`.pretty`), if the user's types print themselves as `d` and the hash containers are
iterated as `ord` says.
-/

namespace Pango.Props

open Pango Pango.Parse Pango.Spec Pango.Example

/-- The same start variable and the same rules. -/
def SameGrammar {V T : Type} (g g' : Grammar V T) : Prop :=
  g.start = g'.start ∧ ∀ v body, (v, body) ∈ g.rules ↔ (v, body) ∈ g'.rules

/-! ## Full claims -/

/-- C100, the full claim: grammars that are printed alike, in whatever order, have the same start variable and the same
rules, provided that the user's variables and terminals can be told apart by what they print. -/
def PrintedGrammar : Prop :=
  ∀ (V T : Type) [DecidableEq V] [DecidableEq T] (d : Prints V T), d.Told .compact → d.Told .pretty →
    ∀ (g g' : Grammar V T), Built g → Built g' → ∀ (style : Style) (ord ord' : HashOrder),
      grammarText d style ord g = grammarText d style ord' g' → SameGrammar g g'

/-- C101, the full claim: parsers that are printed alike, in whatever order, do the same on every input, under the same
condition. -/
def PrintedParser : Prop :=
  ∀ (V T : Type) [DecidableEq V] [DecidableEq T] [TerminalEq T] [LawfulTerminalEq T] (d : Prints V T),
    d.Told .compact → d.Told .pretty → ∀ (g g' : Grammar V T) (tbl tbl' : Table V T), Built g → Built g' →
      IsParser g tbl → IsParser g' tbl' → ∀ (style : Style) (ord ord' : HashOrder),
        parserText d style ord tbl = parserText d style ord' tbl' →
        ∀ fuel input, parseTokens tbl fuel input = parseTokens tbl' fuel input

/-! ## Counterexamples -/

/-- A name that looks like a rule and the name of another variable, printed over several lines. -/
def ruleName : String := "A: {\n    [\n        Terminal(\n            x,\n        ),\n    ],\n},\nB"

/-- `S → x`, `A → x` and `B → y`. -/
def spelledRules : Grammar String String := ⟨"S", [("S", [.term "x"]), ("A", [.term "x"]), ("B", [.term "y"])]⟩

/-- `S → x` and a rule for a variable with that name. -/
def forgedRule : Grammar String String := ⟨"S", [("S", [.term "x"]), (ruleName, [.term "y"])]⟩

/-- C100 does not hold, even for `{:#?}`: two rules can look like one. -/
theorem c100_false : ¬ PrintedGrammar := by
  intro h
  have := h _ _ bareNames (bareNames_told _) (bareNames_told _) spelledRules forgedRule
    ⟨[.setStart "S", .addRules "S" [[.term "x"]], .addRules "A" [[.term "x"]], .addRules "B" [[.term "y"]]], by decide⟩
    ⟨[.setStart "S", .addRules "S" [[.term "x"]], .addRules ruleName [[.term "y"]]], by decide⟩ .pretty .insertion .insertion (by decide +kernel)
  exact absurd ((this.2 "B" [.term "y"]).mp (by decide)) (by decide)

/-- `S → S ; | a | b`. -/
def listOf (a b : String) : Grammar String String :=
  ⟨"S", [("S", [.var "S", .term ";"]), ("S", [.term a]), ("S", [.term b])]⟩

/-- Names that look like two entries of a table. -/
def pAndQ : String := "p): Shift { dest_state: 2 }, T(q"
@[inherit_doc pAndQ] def qAndR : String := "q): Shift { dest_state: 2 }, T(r"

theorem listOf_built {a b : String} (h : (runCalls [.setStart "S", .addRules "S" [[.var "S", .term ";"], [.term a],
    [.term b]]]).build = .ok (listOf a b)) : Built (listOf a b) := ⟨_, h⟩

/-- C101 does not hold for `{:?}`: of two parsers that are printed alike one accepts `p` and the other does not. -/
theorem c101_false : ¬ PrintedParser := by
  intro h
  have := h _ _ bareNames (bareNames_told _) (bareNames_told _) (listOf "p" qAndR) (listOf pAndQ "r")
    (tableOf (listOf "p" qAndR)) (tableOf (listOf pAndQ "r")) (listOf_built (by decide)) (listOf_built (by decide))
    ⟨100, .insertion, by decide +kernel⟩ ⟨100, .insertion, by decide +kernel⟩ .compact .insertion .insertion
    (by decide +kernel) 100 ["p"]
  exact absurd this (by decide +kernel)

/-! ## What holds -/

theorem _root_.Pango.Parse.Prints.Neat.maps {V T : Type} {d : Prints V T} {style : Style} (hd : d.Neat style) :
    d.Maps style where
  told := hd.1
  var := neat_delim hd.2.1 hd.1.1
  head v := (hd.2.1 v).head
  reads h := by
    subst h
    exact reads_of_neat hd.2.2 hd.1.2

theorem maps_pretty {V T : Type} {d : Prints V T} (hd : d.Told .pretty) (hv : ∀ v, Neat (d.var .pretty v)) :
    d.Maps .pretty where
  told := hd
  var := neat_delim hv hd.1
  head v := (hv v).head
  reads h := by cases h

theorem same_of_text {V T : Type} [DecidableEq V] {d : Prints V T} {style : Style} (hd : d.Maps style)
    {g g' : Grammar V T} {ord ord' : HashOrder} (h : grammarText d style ord g = grammarText d style ord' g') :
    SameGrammar g g' := by
  obtain ⟨h₁, h₂⟩ := grammarText_inj hd h
  refine ⟨h₁, fun v body => ?_⟩
  rw [← mem_rulesInOrder (ord := ord), ← mem_rulesInOrder (ord := ord'), h₂]

/-- C100, `_partial`, for both ways to print: grammars that are printed alike are the same if the outputs of the user's
types are neat.  Missing: other outputs, for which it is false in general (`c100_false`). -/
theorem c100_neat_partial {V T : Type} [DecidableEq V] {d : Prints V T} {style : Style} (hd : d.Neat style)
    {g g' : Grammar V T} {ord ord' : HashOrder} (h : grammarText d style ord g = grammarText d style ord' g') :
    SameGrammar g g' :=
  same_of_text hd.maps h

/-- C100, `_partial`, with `{:#?}`: that is so whatever the outputs of the terminals are, if these can be told apart. -/
theorem c100_pretty_partial {V T : Type} [DecidableEq V] {d : Prints V T} (hd : d.Told .pretty)
    (hv : ∀ v, Neat (d.var .pretty v)) {g g' : Grammar V T} {ord ord' : HashOrder}
    (h : grammarText d .pretty ord g = grammarText d .pretty ord' g') : SameGrammar g g' :=
  same_of_text (maps_pretty hd hv) h

variable {V T : Type} [DecidableEq V] [DecidableEq T] [TerminalEq T] [LawfulTerminalEq T] {g g' : Grammar V T}
  {tbl tbl' : Table V T} {d : Prints V T}

theorem parser_of_text {style : Style} (hd : d.Maps style) (hp : IsParser g tbl) (hp' : IsParser g' tbl')
    {ord ord' : HashOrder} (h : parserText d style ord tbl = parserText d style ord' tbl') (fuel : Nat)
    (input : List T) (fin : InputEnd) : parseTokens tbl fuel input fin = parseTokens tbl' fuel input fin := by
  obtain ⟨_, _, e⟩ := hp
  obtain ⟨_, _, e'⟩ := hp'
  obtain ⟨h₁, h₂⟩ := parserText_inj hd h
  exact parseTokens_of_text (slrNew_rowsOk e) (slrNew_rowsOk e') h₁ h₂ fuel input fin

/-- C101, `_partial`, for both ways to print: parsers that are printed alike do the same on every input, and whatever
happens to a lexer behind it, if the outputs of the user's types are neat.  Missing: other outputs, for which it is
false in general (`c101_false`). -/
theorem c101_neat_partial {style : Style} (hd : d.Neat style) (hp : IsParser g tbl) (hp' : IsParser g' tbl')
    {ord ord' : HashOrder} (h : parserText d style ord tbl = parserText d style ord' tbl') (fuel : Nat)
    (input : List T) (fin : InputEnd) : parseTokens tbl fuel input fin = parseTokens tbl' fuel input fin :=
  parser_of_text hd.maps hp hp' h fuel input fin

/-- C101, `_partial`, with `{:#?}`: that is so whatever the outputs of the terminals are, if these can be told apart.
Missing: outputs of variables that are not neat. -/
theorem c101_pretty_partial (hd : d.Told .pretty) (hv : ∀ v, Neat (d.var .pretty v)) (hp : IsParser g tbl)
    (hp' : IsParser g' tbl') {ord ord' : HashOrder}
    (h : parserText d .pretty ord tbl = parserText d .pretty ord' tbl') (fuel : Nat) (input : List T) (fin : InputEnd) :
    parseTokens tbl fuel input fin = parseTokens tbl' fuel input fin :=
  parser_of_text (maps_pretty hd hv) hp hp' h fuel input fin

/-! ## Concrete cases -/

theorem neatText_plain : ∀ (t x : Text) (k : Nat), (∀ c ∈ t, c.isDigit = true) →
    neatText (.plain, k) (t ++ x) = neatText (.plain, k) x
  | [], _, _, _ => rfl
  | c :: t, x, k, h => by
    have hc := h c (by simp)
    have : neatChar (.plain, k) c = some (.plain, k) := by
      have no : ∀ b : Char, b.isDigit = false → c ≠ b := by
        rintro b hb rfl
        rw [hb] at hc
        cases hc
      simp [neatChar, no]
    simp only [List.cons_append, neatText, this]
    exact neatText_plain t x k fun c hc => h c (by simp [hc])

/-- The types of examples/expr.rs meet the hypotheses in both ways to print. -/
theorem exprPrints_neat (style : Style) : exprPrints.Neat style := by
  refine ⟨exprPrints_told style, fun v => by cases v; cases style <;> decide, fun t => ?_⟩
  have digit : ∀ n, ∀ d ∈ Nat.toDigits 10 n, d.isDigit = true := fun n d hd =>
    Nat.isDigit_of_mem_toDigits (b := 10) (n := n) (by decide) (by decide) hd
  cases t with
  | mul => cases style <;> decide
  | plus => cases style <;> decide
  | val n =>
    cases style with
    | compact =>
      have : exprPrints.term .compact (.val n) = ['V', 'a', 'l', '('] ++ (Nat.toDigits 10 n ++ [')']) := by
        simp [exprPrints, Terminals.debug, debugTuple]
      rw [this, Neat]
      show neatText (.plain, 1) (Nat.toDigits 10 n ++ [')']) = _
      rw [neatText_plain _ _ _ (digit n)]
      rfl
    | pretty =>
      have hpad : ∀ t x : Text, (∀ c ∈ t, c.isDigit = true) → pad false (t ++ x) = t ++ pad false x := by
        intro t x ht
        induction t with
        | nil => rfl
        | cons c t ih =>
          have hc : (c == '\n') = false := by
            rw [beq_eq_false_iff_ne]
            rintro rfl
            exact absurd (ht '\n' (by simp)) (by decide)
          simp only [List.cons_append, pad, hc]
          rw [ih fun c hc => ht c (by simp [hc])]
      have hpad' : ∀ t x : Text, t ≠ [] → (∀ c ∈ t, c.isDigit = true) →
          pad true (t ++ x) = [' ', ' ', ' ', ' '] ++ (t ++ pad false x) := by
        intro t x hne ht
        cases t with
        | nil => exact absurd rfl hne
        | cons c t =>
          have hc : (c == '\n') = false := by
            rw [beq_eq_false_iff_ne]
            rintro rfl
            exact absurd (ht '\n' (by simp)) (by decide)
          simp only [List.cons_append, pad, hc, hpad t x fun c hc => ht c (by simp [hc]), List.nil_append]
      have : exprPrints.term .pretty (.val n) =
          ['V', 'a', 'l', '(', '\n', ' ', ' ', ' ', ' '] ++ (Nat.toDigits 10 n ++ [',', '\n', ')']) := by
        show debugTuple .pretty "Val".toList [Nat.toDigits 10 n] = _
        rw [tuple_pretty, hpad' _ _ Nat.toDigits_ne_nil (digit n)]
        simp [pad]
      rw [this, Neat]
      show neatText (.plain, 1) (Nat.toDigits 10 n ++ [',', '\n', ')']) = _
      rw [neatText_plain _ _ _ (digit n)]
      rfl

/-- Names without quotation marks can be told apart, and those of variables may be neat although those of terminals are
not. -/
example : bareNames.Told .pretty ∧ Neat "S".toList ∧ ¬ Neat pAndQ.toList := ⟨bareNames_told _, by decide, by decide⟩

/-- What is printed for `S → S ; | a | b`, here with `{:?}`. -/
example : parserText bareNames .compact .insertion (tableOf (listOf "a" "b")) =
    ("Slr { table: ParseTable { action: [{T(a): Shift { dest_state: 2 }, T(b): Shift { dest_state: 3 }}, " ++
      "{T(;): Shift { dest_state: 4 }}, {T(;): Reduce { variable: S, amount: 1 }, " ++
      "Eof: Accept { variable: S, amount: 1 }}, {T(;): Reduce { variable: S, amount: 1 }, " ++
      "Eof: Accept { variable: S, amount: 1 }}, {T(;): Reduce { variable: S, amount: 2 }, " ++
      "Eof: Accept { variable: S, amount: 2 }}], goto: [{S: 1}] } }").toList := by decide +kernel

/-- The same grammar in two orders. -/
example : grammarText bareNames .compact .insertion (listOf "a" "b") =
      "Grammar { start_variable: S, rules: {S: {[Variable(S), Terminal(;)], [Terminal(a)], [Terminal(b)]}} }".toList ∧
    grammarText bareNames .compact .reversed (listOf "a" "b") =
      "Grammar { start_variable: S, rules: {S: {[Terminal(b)], [Terminal(a)], [Variable(S), Terminal(;)]}} }".toList := by
  decide +kernel

end Pango.Props
