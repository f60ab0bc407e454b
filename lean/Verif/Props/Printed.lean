import Verif.Model.PrintedExample
import Verif.Proofs.Printed
import Verif.Props.Example
import Verif.Props.NfaDot

/-!
# C99: the printed tree is the tree

`resultText d style r` is what is printed for the result `r` of `parse` with `{:?}` (`.compact`) or `{:#?}`
(`.pretty`), if the user's types print themselves as `d`.
-/

namespace Pango.Props

open Pango Pango.Lex Pango.Parse Pango.Spec Pango.Example

/-- C99, the full claim: two results of a parser that are printed alike are alike, provided that the user's variables
and terminals can be told apart by what they print. -/
def PrintedTree : Prop :=
  ∀ (V T : Type) [DecidableEq V] [DecidableEq T] [TerminalEq T] [LawfulTerminalEq T] (g : Grammar V T) (tbl : Table V T)
    (d : Prints V T), Built g → IsParser g tbl → d.Told .compact → d.Told .pretty →
    ∀ (style : Style) fuel fuel' input input' r r', parseTokens tbl fuel input = .ok r →
      parseTokens tbl fuel' input' = .ok r' → resultText d style r = resultText d style r' → r = r'

/-! ## Counterexample -/

/-- Variables and terminals that print their names as they are. -/
def bareNames : Prints String String := ⟨fun _ s => s.toList, fun _ s => s.toList⟩

theorem bareNames_told (style : Style) : bareNames.Told style :=
  ⟨fun _ _ h => String.toList_inj.mp h, fun _ _ h => String.toList_inj.mp h⟩

/-- A name that looks like two nodes. -/
def twoNodes : String := "a), children: [] }, Node { symbol: Terminal(a"

/-- `S → S ; | a a | t`, where `t` is the terminal with that name. -/
def twoNodesGrammar : Grammar String String :=
  ⟨"S", [("S", [.var "S", .term ";"]), ("S", [.term "a", .term "a"]), ("S", [.term twoNodes])]⟩

theorem twoNodesGrammar_built : Built twoNodesGrammar :=
  ⟨[.setStart "S", .addRules "S" [[.var "S", .term ";"], [.term "a", .term "a"], [.term twoNodes]]], by decide⟩

theorem twoNodesGrammar_parser : IsParser twoNodesGrammar (tableOf twoNodesGrammar) :=
  ⟨100, .insertion, by decide +kernel⟩

/-- C99 does not hold for `{:?}`: the trees of `a a` and of the one token `t` are printed alike. -/
theorem c99_false : ¬ PrintedTree := by
  intro h
  have := h _ _ twoNodesGrammar _ bareNames twoNodesGrammar_built twoNodesGrammar_parser (bareNames_told _)
    (bareNames_told _) .compact 100 100 ["a", "a"] [twoNodes]
    (some (.mk (.var "S") [.mk (.term "a") [], .mk (.term "a") []]))
    (some (.mk (.var "S") [.mk (.term twoNodes) []])) (by decide +kernel) (by decide +kernel) (by decide +kernel)
  exact absurd this (by decide)

/-! ## What holds -/

/-- C99, `_partial`, with `{:#?}`, in full: results that are printed alike are alike, whatever the outputs of the user's
types are, if these can be told apart. -/
theorem c99_pretty_partial {V T : Type} {d : Prints V T} (hd : d.Told .pretty) (r r' : Option (Node V T)) :
    resultText d .pretty r = resultText d .pretty r' ↔ r = r' :=
  ⟨resultText_pretty_inj hd, fun h => h ▸ rfl⟩

/-- C99, `_partial`, with `{:?}`: results that are printed alike are alike if the outputs of the user's types can be told
apart in front of a right parenthesis.  Missing: outputs that cannot (`c99_false`). -/
theorem c99_compact_partial {V T : Type} {d : Prints V T} (hd : d.Reads) (r r' : Option (Node V T)) :
    resultText d .compact r = resultText d .compact r' ↔ r = r' :=
  ⟨resultText_compact_inj hd, fun h => h ▸ rfl⟩

/-- C99, `_partial`, with `{:?}`: that is so if the outputs can be told apart and the parentheses in each of them are
balanced, apart from those in quotation marks. -/
theorem c99_balanced_partial {V T : Type} {d : Prints V T} (hd : d.Told .compact)
    (hv : ∀ v, Balanced (d.var .compact v)) (ht : ∀ t, Balanced (d.term .compact t)) (r r' : Option (Node V T)) :
    resultText d .compact r = resultText d .compact r' ↔ r = r' :=
  c99_compact_partial ⟨reads_of_balanced hv hd.1, reads_of_balanced ht hd.2⟩ r r'

/-! ## The example -/

theorem digits_plain : ∀ n, ∀ c ∈ Nat.toDigits 10 n, c ≠ '(' ∧ c ≠ ')' ∧ c ≠ '"' ∧ c ≠ '\'' := by
  intro n c hc
  have := Nat.isDigit_of_mem_toDigits (b := 10) (n := n) (by decide) (by decide) hc
  refine ⟨?_, ?_, ?_, ?_⟩ <;> (rintro rfl; exact absurd this (by decide))

theorem readText_plain : ∀ (t x : Text) (k : Nat), (∀ c ∈ t, c ≠ '(' ∧ c ≠ ')' ∧ c ≠ '"' ∧ c ≠ '\'') →
    readText (.plain, k) (t ++ x) = readText (.plain, k) x
  | [], _, _, _ => rfl
  | c :: t, x, k, h => by
    obtain ⟨h1, h2, h3, h4⟩ := h c (by simp)
    simp only [List.cons_append, readText, readChar, h1, h2, h3, h4, if_false, false_or]
    exact readText_plain t x k fun c hc => h c (by simp [hc])

theorem exprPrints_told (style : Style) : exprPrints.Told style := by
  refine ⟨fun v v' _ => by cases v; cases v'; rfl, fun t t' h => ?_⟩
  cases style <;> cases t <;> cases t' <;> simp only [exprPrints, Terminals.debug, debugTuple] at h <;>
    first
    | rfl
    | (exfalso; revert h; simp; done)
    | skip
  case compact.val.val n m => exact congrArg _ (digits_inj (by simpa using h))
  case pretty.val.val n m =>
    have h := (tuple_inj (name := "Val".toList) (x := []) (x' := []) (v := Nat.toDigits 10 n) (v' := Nat.toDigits 10 m)
      (by simpa [debugTuple] using h)).1
    exact congrArg _ (digits_inj h)

theorem exprPrints_balanced (t : Terminals) : Balanced (exprPrints.term .compact t) := by
  cases t with
  | mul => decide
  | plus => decide
  | val n =>
    have : exprPrints.term .compact (.val n) = ['V', 'a', 'l', '('] ++ (Nat.toDigits 10 n ++ [')']) := by
      simp [exprPrints, Terminals.debug, debugTuple]
    rw [this, Balanced]
    show readText (.plain, 1) (Nat.toDigits 10 n ++ [')']) = _
    rw [readText_plain _ _ _ (digits_plain n)]
    rfl

/-- C99 for the program of examples/expr.rs, in full: with either way to print, two results are printed alike just if they
are alike. -/
theorem c99_example (style : Style) (r r' : Option (Node Variables Terminals)) :
    resultText exprPrints style r = resultText exprPrints style r' ↔ r = r' := by
  cases style with
  | compact =>
    exact c99_balanced_partial (exprPrints_told _) (fun v => by cases v; decide) exprPrints_balanced r r'
  | pretty => exact c99_pretty_partial (exprPrints_told _) r r'

theorem exprTree_text {w w' : List Char} {t : Node Variables Terminals} (h : ExprTree w t) (h' : ExprTree w' t) :
    w = w' := by
  have hd : ∀ {c c' : Char} {n : Nat}, (c, n) ∈ digits → (c', n) ∈ digits → c = c' := by
    intro c c' n h h'
    simp only [digits, List.mem_cons, Prod.mk.injEq, List.not_mem_nil, or_false] at h h'
    rcases h with h | h | h | h | h | h | h | h | h | h <;> obtain ⟨rfl, rfl⟩ := h <;> exact (by simpa using h' : c' = _).symm
  induction h generalizing w' with
  | digit hc =>
    cases h' with
    | digit hc' => rw [hd hc hc']
  | plus _ hc ih =>
    cases h' with
    | plus h₁ hc' => rw [ih h₁, hd hc hc']
  | mul _ hc ih =>
    cases h' with
    | mul h₁ hc' => rw [ih h₁, hd hc hc']

/-- What the program prints for the result of parsing the text, in the given way. -/
def ProgramPrints [Unicode] (style : Style) (text : List Char) (out : Text) : Prop :=
  ∃ p ord bound, ∀ fuel ≥ bound, ∃ r, exprMain p ord fuel text = .ok (.ok r) ∧ resultText exprPrints style r = out

/-- C99 for the program as a whole, for every text that is an expression and every other text: it prints the same for
both just if the other text begins with the expression and goes on, if it does, with a character that is neither a
digit nor an operator. -/
theorem c99_program [Unicode] (style : Style) {w text : List Char} {tree : Node Variables Terminals}
    (hw : ExprTree w tree) :
    (∃ out, ProgramPrints style w out ∧ ProgramPrints style text out) ↔ ∃ rest, text = w ++ rest ∧ Foreign rest := by
  obtain ⟨r, hr, hm⟩ := c53_program w
  obtain ⟨r', hr', hm'⟩ := c53_program text
  have prints : ∀ {t : List Char} {r : Option (Node Variables Terminals)}, (∀ p ord, (∃ bound, ∀ fuel ≥ bound,
      exprMain p ord fuel t = .ok (.ok r)) ∧ ∀ fuel, exprMain p ord fuel t ≠ .panic) → ∀ out,
      (ProgramPrints style t out ↔ resultText exprPrints style r = out) := by
    intro t r hm out
    constructor
    · rintro ⟨p, ord, bound, h⟩
      obtain ⟨⟨bound', h'⟩, -⟩ := hm p ord
      obtain ⟨r₁, h₁, h₂⟩ := h (max bound bound') (Nat.le_max_left ..)
      rw [h' _ (Nat.le_max_right ..)] at h₁
      cases h₁
      exact h₂
    · intro h
      obtain ⟨⟨bound', h'⟩, -⟩ := hm .debug .insertion
      exact ⟨_, _, bound', fun fuel hf => ⟨r, h' fuel hf, h⟩⟩
  simp only [prints hm, prints hm', exists_eq_left']
  rw [eq_comm, c99_example]
  have hsome : r = some tree := (hr tree).mpr ⟨w, [], by simp, hw, by simp [Foreign]⟩
  subst hsome
  rw [show (some tree = r') ↔ (r' = some tree) from eq_comm, hr']
  constructor
  · rintro ⟨w', rest, h1, h2, h3⟩
    exact ⟨rest, exprTree_text hw h2 ▸ h1, h3⟩
  · rintro ⟨rest, h1, h3⟩
    exact ⟨w, rest, h1, hw, h3⟩

/-! ## Concrete cases -/

/-- An expression, for `c99_program`: `3+4`. -/
example : ExprTree ['3', '+', '4']
    (.mk (.var .expr) [leaf (.val 4), leaf .plus, .mk (.var .expr) [leaf (.val 3)]]) :=
  .plus (w := ['3']) (.digit (by decide)) (by decide)

/-- What examples/expr.rs prints for the text `3`. -/
example : resultText exprPrints .pretty (some (.mk (.var .expr) [.mk (.term (.val 3)) []])) =
    "Ok(
    Cst {
        root: Node {
            symbol: Variable(
                Expr,
            ),
            children: [
                Node {
                    symbol: Terminal(
                        Val(
                            3,
                        ),
                    ),
                    children: [],
                },
            ],
        },
    },
)".toList := by decide +kernel

/-- The same on one line. -/
example : resultText exprPrints .compact (some (.mk (.var .expr) [.mk (.term (.val 3)) []])) =
    "Ok(Cst { root: Node { symbol: Variable(Expr), children: [Node { symbol: Terminal(Val(3)), children: [] }] } })".toList := by
  decide +kernel

/-- Names that are not quoted meet the hypothesis of `c99_pretty_partial`. -/
example : bareNames.Told .pretty := bareNames_told _

/-- The types of the example meet the hypotheses of `c99_balanced_partial`, hence that of `c99_compact_partial`. -/
example : exprPrints.Told .compact ∧ exprPrints.Reads :=
  ⟨exprPrints_told _, reads_of_balanced (fun v => by cases v; decide) (exprPrints_told _).1,
    reads_of_balanced exprPrints_balanced (exprPrints_told _).2⟩

end Pango.Props
