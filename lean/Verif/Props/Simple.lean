import Verif.Proofs.Simple
import Verif.Props.EndMarker

/-!
# C105: every simple grammar has a parser

If the next token always tells which rule to use, there is a parser (for the grammar with an end marker).
-/

namespace Pango.Props

open Pango Pango.Parse Pango.Spec

variable {V T : Type} [DecidableEq V] [DecidableEq T] {g : Grammar V T} {z : V} {e f : T}
variable [TerminalEq T] [LawfulTerminalEq T]

/-- C105.  A parser can be made for every simple grammar with an end marker, whatever the iteration order. -/
theorem c105_parser (hg : Built g) (hs : Simple g) (hn : NotIn g z e f) :
    (∃ tbl, IsParser (withEnd g z e f) tbl) ∧
    ∃ bound, ∀ fuel ≥ bound, ∀ ord : HashOrder, ∃ tbl, slrNew (withEnd g z e f) ord fuel = .ok tbl := by
  obtain ⟨h1, bound, h2⟩ := c86_table hg hs.noEps hn
  exact ⟨h1.2 hs.oneEntry, bound, fun fuel hf ord => (h2 fuel hf ord).2 hs.oneEntry⟩

omit [LawfulTerminalEq T] in
private theorem simple_first (hs : Simple g) (v : V) (β : Body V T) (h : (v, β) ∈ g.rules) :
    ∃ t, InFirst g [.var v] (.term t) := by
  obtain ⟨t, α, rfl⟩ := hs.begins v β h
  have h1 : Step g ([] ++ .var v :: []) ([] ++ (.term t :: α ++ [])) := .rule h
  exact ⟨t, α, .step .refl (by simpa using h1)⟩

/-- C105.  If every variable of the simple grammar can be reached, the parser returns on every input, after a number of
iterations that is linear in its length: the tree of the sentence of the grammar in front of the marker, and an error
if the input is not a sentence and the marker. -/
theorem c105_reads (hg : Built g) (hs : Simple g) (hreach : ∀ v β, (v, β) ∈ g.rules → Reachable g v) (hn : NotIn g z e f)
    {tbl : Table V T} (hp : IsParser (withEnd g z e f) tbl) {input : List T} (hi : ∀ t ∈ input, teq f t = false)
    {fuel : Nat} (hf : (2 * input.length + 1) * (g.rules.length + 4) < fuel) :
    ∃ r, parseTokens tbl fuel input = .ok r ∧ ∀ n, r = some n ↔
      ∃ w e' m, input = w ++ [e'] ∧ teq e e' = true ∧ ParseTree g m w ∧ n = .mk (.var z) [.mk (.term e') [], m] :=
  c86_reads hg hs.noEps hreach (simple_first hs) hn hp hi hf

omit [DecidableEq V] [DecidableEq T] in
private theorem simple_forest (hs : Simple g) {α : List (Sym V T)} {ns : List (Node V T)} {w : List T}
    (h : Forest g α ns w) {ns' : List (Node V T)} {w' : List T} (h' : Forest g α ns' w') (he : .eps ∉ α)
    {r r' : List T} (hw : w ++ r = w' ++ r') : ns = ns' ∧ w = w' := by
  induction h generalizing ns' w' r r' with
  | nil => cases h'; exact ⟨rfl, rfl⟩
  | eps _ _ => simp at he
  | term _ _ ih =>
    cases h' with
    | term _ h2 =>
      simp only [List.cons_append, List.cons.injEq] at hw
      obtain ⟨rfl, hw⟩ := hw
      obtain ⟨rfl, rfl⟩ := ih h2 (by simp_all) hw
      exact ⟨rfl, rfl⟩
  | @var v β α cs ns x w hr h1 _ ih1 ih2 =>
    cases h' with
    | @var _ β' _ cs' ns' x' w' hr' h3 h4 =>
      have hβ : β = β' := by
        obtain ⟨t, γ, rfl⟩ := hs.begins _ _ hr
        obtain ⟨t', γ', rfl⟩ := hs.begins _ _ hr'
        cases h1 with
        | @term _ u _ _ _ h5 _ =>
          cases h3 with
          | @term _ u' _ _ _ h6 _ =>
            simp only [List.cons_append, List.cons.injEq] at hw
            obtain ⟨rfl, _⟩ := hw
            have h7 := LawfulTerminalEq.trans _ _ _ h5 (LawfulTerminalEq.symm _ _ h6)
            rw [hs.differ _ _ _ _ _ hr hr' h7, hs.kinds _ _ _ _ _ _ hr (by simp) hr' (by simp) h7]
      subst hβ
      rw [List.append_assoc, List.append_assoc] at hw
      obtain ⟨rfl, rfl⟩ := ih1 h3 (hs.noEps _ _ hr) hw
      obtain ⟨rfl, rfl⟩ := ih2 h4 (by simp_all) (List.append_cancel_left hw)
      exact ⟨rfl, rfl⟩

omit [DecidableEq V] [DecidableEq T] in
/-- C105.  A sentence of a simple grammar has only one tree, and is not the beginning of another sentence. -/
theorem c105_unique (hs : Simple g) {m m' : Node V T} {w rest : List T} (h : ParseTree g m w)
    (h' : ParseTree g m' (w ++ rest)) : rest = [] ∧ m = m' := by
  obtain ⟨h1, h2⟩ := simple_forest hs h h' (by simp) (r := rest) (r' := []) (by simp)
  exact ⟨by simpa using h2, by simpa using h1⟩

/-! ## A grammar for which the claims say something -/

/-- Nested lists: `S → x | ( R` and `R → ) | x R | ( R R`. -/
def nestedLists : Grammar String String :=
  ⟨"S", [("S", [.term "x"]), ("S", [.term "(", .var "R"]), ("R", [.term ")"]), ("R", [.term "x", .var "R"]),
    ("R", [.term "(", .var "R", .var "R"])]⟩

theorem nestedLists_built : Built nestedLists :=
  ⟨[.setStart "S", .addRules "S" [[.term "x"], [.term "(", .var "R"]],
    .addRules "R" [[.term ")"], [.term "x", .var "R"], [.term "(", .var "R", .var "R"]]], by decide⟩

private theorem nestedLists_rules {v : String} {β : Body String String} (h : (v, β) ∈ nestedLists.rules) :
    v = "S" ∧ β = [.term "x"] ∨ v = "S" ∧ β = [.term "(", .var "R"] ∨ v = "R" ∧ β = [.term ")"] ∨
    v = "R" ∧ β = [.term "x", .var "R"] ∨ v = "R" ∧ β = [.term "(", .var "R", .var "R"] := by
  simpa [nestedLists] using h

theorem nestedLists_simple : Simple nestedLists where
  noEps v β h := by
    rcases nestedLists_rules h with ⟨_, rfl⟩ | ⟨_, rfl⟩ | ⟨_, rfl⟩ | ⟨_, rfl⟩ | ⟨_, rfl⟩ <;> simp
  begins v β h := by
    rcases nestedLists_rules h with ⟨_, rfl⟩ | ⟨_, rfl⟩ | ⟨_, rfl⟩ | ⟨_, rfl⟩ | ⟨_, rfl⟩ <;> exact ⟨_, _, rfl⟩
  differ v t α u β h h' ht := by
    have : t = u := by simpa [teq] using ht
    subst this
    rcases nestedLists_rules h with ⟨h1, h2⟩ | ⟨h1, h2⟩ | ⟨h1, h2⟩ | ⟨h1, h2⟩ | ⟨h1, h2⟩ <;>
      rcases nestedLists_rules h' with ⟨h3, h4⟩ | ⟨h3, h4⟩ | ⟨h3, h4⟩ | ⟨h3, h4⟩ | ⟨h3, h4⟩ <;> simp_all
  kinds _ _ _ _ _ _ _ _ _ _ ht := by simpa [teq] using ht

theorem nestedLists_notIn : NotIn nestedLists "Z" "$" "#" where
  head β h := by
    rcases nestedLists_rules h with ⟨h, _⟩ | ⟨h, _⟩ | ⟨h, _⟩ | ⟨h, _⟩ | ⟨h, _⟩ <;> exact absurd h (by decide)
  marker v β t h ht := by
    rcases nestedLists_rules h with ⟨_, rfl⟩ | ⟨_, rfl⟩ | ⟨_, rfl⟩ | ⟨_, rfl⟩ | ⟨_, rfl⟩ <;> simp at ht <;> subst ht <;> decide
  never v β t h ht := by
    rcases nestedLists_rules h with ⟨_, rfl⟩ | ⟨_, rfl⟩ | ⟨_, rfl⟩ | ⟨_, rfl⟩ | ⟨_, rfl⟩ <;> simp at ht <;> subst ht <;> decide
  differ := by decide

theorem nestedLists_reachable (v : String) (β : Body String String) (h : (v, β) ∈ nestedLists.rules) : Reachable nestedLists v := by
  rcases nestedLists_rules h with ⟨rfl, _⟩ | ⟨rfl, _⟩ | ⟨rfl, _⟩ | ⟨rfl, _⟩ | ⟨rfl, _⟩
  · exact .start
  · exact .start
  all_goals exact .step (h := "S") (β := [.term "(", .var "R"]) .start (by decide) (by decide)

example : ∃ tbl, IsParser (withEnd nestedLists "Z" "$" "#") tbl := (c105_parser nestedLists_built nestedLists_simple nestedLists_notIn).1

/-- A text with lists in a list. -/
example : ParseTree nestedLists
    (.mk (.var "S") [.mk (.var "R") [.mk (.var "R") [.mk (.term ")") []], .mk (.var "R") [.mk (.term ")") []],
      .mk (.term "(") []], .mk (.term "(") []]) ["(", "(", ")", ")"] := by
  have h1 : Forest nestedLists [.term ")"] [.mk (.term ")") []] [")"] := .term rfl .nil
  have h2 : Forest nestedLists [.var "R"] [.mk (.var "R") [.mk (.term ")") []]] [")"] := .var (by decide) h1 .nil
  have h3 : Forest nestedLists [.var "R", .var "R"]
      [.mk (.var "R") [.mk (.term ")") []], .mk (.var "R") [.mk (.term ")") []]] [")", ")"] := .var (by decide) h1 h2
  have h4 : Forest nestedLists [.term "(", .var "R", .var "R"]
      [.mk (.term "(") [], .mk (.var "R") [.mk (.term ")") []], .mk (.var "R") [.mk (.term ")") []]] ["(", ")", ")"] :=
    .term rfl h3
  have h5 : Forest nestedLists [.var "R"] _ ["(", ")", ")"] := .var (by decide) h4 .nil
  have h6 : Forest nestedLists [.term "(", .var "R"] _ ["(", "(", ")", ")"] := .term rfl h5
  exact .var (by decide) h6 .nil

/-- Without the condition that the bodies of a variable begin with different terminals there may be no parser. -/
example : ¬ OneEntryEach commonPrefix := by
  intro h
  have h1 : Viable commonPrefix [] ("S", ⟨[.term "a", .term "b"], 0⟩) :=
    .start (by decide) (fresh_iff.2 rfl)
  have h2 : Viable commonPrefix [] ("S", ⟨[.term "a", .term "c"], 0⟩) :=
    .start (by decide) (fresh_iff.2 rfl)
  have := (h [] _ _ _ _ (.shift h1 (reads_iff.2 rfl)) (.shift h2 (reads_iff.2 rfl)) rfl).1
  simp at this

end Pango.Props
