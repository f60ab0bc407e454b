import Verif.Proofs.Predictive
import Verif.Props.Simple

/-!
# C108: every LL(1) grammar without epsilon has a parser

If the next token always tells which rule to use, there is a parser (for the grammar with an end marker), even if it
does not stand in the rule itself.
-/

namespace Pango.Props

open Pango Pango.Parse Pango.Spec

variable {V T : Type} {g : Grammar V T} {z : V} {e f : T}
variable [TerminalEq T] [LawfulTerminalEq T]

section
variable [DecidableEq V] [DecidableEq T]

/-- C108.  A parser can be made for every LL(1) grammar without epsilon, with an end marker, whatever the iteration
order. -/
theorem c108_parser (hg : Built g) (hp : Predictive g) (hn : NotIn g z e f) :
    (∃ tbl, IsParser (withEnd g z e f) tbl) ∧
    ∃ bound, ∀ fuel ≥ bound, ∀ ord : HashOrder, ∃ tbl, slrNew (withEnd g z e f) ord fuel = .ok tbl := by
  obtain ⟨h1, bound, h2⟩ := c86_table hg hp.noEps hn
  have h3 := hp.oneEntry hg.wellFormed
  exact ⟨h1.2 h3, bound, fun fuel hf ord => (h2 fuel hf ord).2 h3⟩

/-- C108.  If every variable can be reached, the parser returns on every input, after a number of iterations that is
linear in its length: the tree of the sentence of the grammar in front of the marker, and an error if the input is not a
sentence and the marker. -/
theorem c108_reads (hg : Built g) (hp : Predictive g) (hreach : ∀ v β, (v, β) ∈ g.rules → Reachable g v)
    (hn : NotIn g z e f) {tbl : Table V T} (ht : IsParser (withEnd g z e f) tbl) {input : List T}
    (hi : ∀ t ∈ input, teq f t = false) {fuel : Nat} (hf : (2 * input.length + 1) * (g.rules.length + 4) < fuel) :
    ∃ r, parseTokens tbl fuel input = .ok r ∧ ∀ n, r = some n ↔
      ∃ w e' m, input = w ++ [e'] ∧ teq e e' = true ∧ ParseTree g m w ∧ n = .mk (.var z) [.mk (.term e') [], m] :=
  c86_reads hg hp.noEps hreach hp.first hn ht hi hf

end

omit [LawfulTerminalEq T] in
private theorem forest_begins (wf : Spec.WellFormed g) (he : EpsFree g) {α : List (Sym V T)} {ns : List (Node V T)}
    {w : List T} (h : Forest g α ns w) (hα : .eps ∉ α) (hne : α ≠ []) :
    ∃ t u w', w = u :: w' ∧ teq t u = true ∧ Starts g t α := by
  induction h with
  | nil => exact absurd rfl hne
  | eps _ _ => simp at hα
  | term ht _ _ => exact ⟨_, _, _, rfl, ht, .term⟩
  | var hr _ _ ih _ =>
    obtain ⟨t, u, w', rfl, h1, h2⟩ := ih (he _ _ hr) (wf.nonempty _ _ hr)
    exact ⟨t, u, _, rfl, h1, .inVar hr h2⟩

private theorem predictive_forest (wf : Spec.WellFormed g) (hp : Predictive g) {α : List (Sym V T)} {ns : List (Node V T)}
    {w : List T} (h : Forest g α ns w) {ns' : List (Node V T)} {w' : List T} (h' : Forest g α ns' w') (he : .eps ∉ α)
    {r r' : List T} (hw : w ++ r = w' ++ r') : ns = ns' ∧ w = w' := by
  induction h generalizing ns' w' r r' with
  | nil => cases h'; exact ⟨rfl, rfl⟩
  | eps _ _ => simp at he
  | term _ _ ih =>
    cases h' with
    | term _ h2 =>
      simp only [List.cons_append, List.cons.injEq] at hw
      obtain ⟨rfl, hw⟩ := hw
      obtain ⟨rfl, rfl⟩ := ih h2 (by simp_all) hw
      exact ⟨rfl, rfl⟩
  | @var v β α cs ns x w hr h1 _ ih1 ih2 =>
    cases h' with
    | @var _ β' _ cs' ns' x' w' hr' h3 h4 =>
      have hβ : β = β' := by
        obtain ⟨t, u, y, rfl, h5, h6⟩ := forest_begins wf hp.noEps h1 (hp.noEps _ _ hr) (wf.nonempty _ _ hr)
        obtain ⟨t', u', y', rfl, h7, h8⟩ := forest_begins wf hp.noEps h3 (hp.noEps _ _ hr') (wf.nonempty _ _ hr')
        simp only [List.cons_append, List.cons.injEq] at hw
        obtain ⟨rfl, _⟩ := hw
        exact hp.differ _ _ _ t t' hr hr' (derives_starts.2 h6) (derives_starts.2 h8)
          (LawfulTerminalEq.trans _ _ _ h5 (LawfulTerminalEq.symm _ _ h7))
      subst hβ
      rw [List.append_assoc, List.append_assoc] at hw
      obtain ⟨rfl, rfl⟩ := ih1 h3 (hp.noEps _ _ hr) hw
      obtain ⟨rfl, rfl⟩ := ih2 h4 (by simp_all) (List.append_cancel_left hw)
      exact ⟨rfl, rfl⟩

/-- C108.  A sentence of such a grammar has only one tree, and is not the beginning of another sentence. -/
theorem c108_unique [DecidableEq V] [DecidableEq T] (hg : Built g) (hp : Predictive g) {m m' : Node V T}
    {w rest : List T} (h : ParseTree g m w) (h' : ParseTree g m' (w ++ rest)) : rest = [] ∧ m = m' := by
  obtain ⟨h1, h2⟩ := predictive_forest hg.wellFormed hp h h' (by simp) (r := rest) (r' := []) (by simp)
  exact ⟨by simpa using h2, by simpa using h1⟩

/-- C108.  The simple grammars of C105 are LL(1). -/
theorem c108_simple (hs : Simple g) : Predictive g where
  noEps := hs.noEps
  first v β h := by
    obtain ⟨t, α, rfl⟩ := hs.begins v β h
    exact ⟨t, derives_starts.2 (.inVar h .term)⟩
  differ v α β t u h1 h2 h3 h4 ht := by
    obtain ⟨t', α', rfl⟩ := hs.begins v α h1
    obtain ⟨u', β', rfl⟩ := hs.begins v β h2
    cases derives_starts.1 h3
    cases derives_starts.1 h4
    rw [hs.differ _ _ _ _ _ h1 h2 ht, hs.kinds _ _ _ _ _ _ h1 (by simp) h2 (by simp) ht]
  kinds := hs.kinds

/-! ## A grammar for which the claims say something -/

/-- `P → do L`, `L → end | C , L`, `C → A | skip`, `A → x = n`: some bodies begin with variables. -/
def program : Grammar String String :=
  ⟨"P", [("P", [.term "do", .var "L"]), ("L", [.term "end"]), ("L", [.var "C", .term ",", .var "L"]), ("C", [.var "A"]),
    ("C", [.term "skip"]), ("A", [.term "x", .term "=", .term "n"])]⟩

theorem program_built : Built program :=
  ⟨[.setStart "P", .addRules "P" [[.term "do", .var "L"]], .addRules "L" [[.term "end"], [.var "C", .term ",", .var "L"]],
    .addRules "C" [[.var "A"], [.term "skip"]], .addRules "A" [[.term "x", .term "=", .term "n"]]], by decide⟩

private theorem program_rules {v : String} {β : Body String String} (h : (v, β) ∈ program.rules) :
    v = "P" ∧ β = [.term "do", .var "L"] ∨ v = "L" ∧ β = [.term "end"] ∨
    v = "L" ∧ β = [.var "C", .term ",", .var "L"] ∨ v = "C" ∧ β = [.var "A"] ∨ v = "C" ∧ β = [.term "skip"] ∨
    v = "A" ∧ β = [.term "x", .term "=", .term "n"] := by
  simpa [program] using h

private theorem program_noEps : EpsFree program := by
  intro v β h
  rcases program_rules h with ⟨_, rfl⟩ | ⟨_, rfl⟩ | ⟨_, rfl⟩ | ⟨_, rfl⟩ | ⟨_, rfl⟩ | ⟨_, rfl⟩ <;> simp

private theorem program_nullable {v : String} {β : Body String String} (h : (v, β) ∈ program.rules)
    (h' : Nullable program β) : False :=
  program_built.wellFormed.nonempty _ _ h
    (nonEps_nullable program_built.wellFormed.nonempty program_noEps (program_noEps _ _ h) h')

private theorem program_A {t : String} {α : List (Sym String String)} (h : Starts program t (.var "A" :: α)) : t = "x" := by
  cases h with
  | inVar h1 h2 =>
    rcases program_rules h1 with ⟨h3, rfl⟩ | ⟨h3, rfl⟩ | ⟨h3, rfl⟩ | ⟨h3, rfl⟩ | ⟨h3, rfl⟩ | ⟨h3, rfl⟩
    all_goals first | exact absurd h3 (by decide) | skip
    cases h2
    rfl
  | skip h1 h2 _ => exact (program_nullable h1 h2).elim

private theorem program_C {t : String} {α : List (Sym String String)} (h : Starts program t (.var "C" :: α)) :
    t = "x" ∨ t = "skip" := by
  cases h with
  | inVar h1 h2 =>
    rcases program_rules h1 with ⟨h3, rfl⟩ | ⟨h3, rfl⟩ | ⟨h3, rfl⟩ | ⟨h3, rfl⟩ | ⟨h3, rfl⟩ | ⟨h3, rfl⟩
    all_goals first | exact absurd h3 (by decide) | skip
    · exact .inl (program_A h2)
    · cases h2
      exact .inr rfl
  | skip h1 h2 _ => exact (program_nullable h1 h2).elim

theorem program_predictive : Predictive program where
  noEps := program_noEps
  first v β h := by
    have hA : Starts program "x" [.var "A"] := .inVar (β := [.term "x", .term "=", .term "n"]) (by decide) .term
    rcases program_rules h with ⟨rfl, rfl⟩ | ⟨rfl, rfl⟩ | ⟨rfl, rfl⟩ | ⟨rfl, rfl⟩ | ⟨rfl, rfl⟩ | ⟨rfl, rfl⟩
    · exact ⟨"do", derives_starts.2 (.inVar h .term)⟩
    · exact ⟨"end", derives_starts.2 (.inVar h .term)⟩
    · exact ⟨"end", derives_starts.2 (.inVar (β := [.term "end"]) (by decide) .term)⟩
    · exact ⟨"x", derives_starts.2 (.inVar h hA)⟩
    · exact ⟨"skip", derives_starts.2 (.inVar h .term)⟩
    · exact ⟨"x", derives_starts.2 (.inVar h .term)⟩
  differ v α β t u h1 h2 h3 h4 ht := by
    have : t = u := by simpa [teq] using ht
    subst this
    have h3 := derives_starts.1 h3
    have h4 := derives_starts.1 h4
    rcases program_rules h1 with ⟨a1, rfl⟩ | ⟨a1, rfl⟩ | ⟨a1, rfl⟩ | ⟨a1, rfl⟩ | ⟨a1, rfl⟩ | ⟨a1, rfl⟩ <;>
      rcases program_rules h2 with ⟨a2, rfl⟩ | ⟨a2, rfl⟩ | ⟨a2, rfl⟩ | ⟨a2, rfl⟩ | ⟨a2, rfl⟩ | ⟨a2, rfl⟩
    all_goals first | rfl | exact absurd (a1.symm.trans a2) (by decide) | skip
    · cases h3; rcases program_C h4 with h | h <;> exact absurd h (by decide)
    · cases h4; rcases program_C h3 with h | h <;> exact absurd h (by decide)
    · cases h4; exact absurd (program_A h3) (by decide)
    · cases h3; exact absurd (program_A h4) (by decide)
  kinds _ _ _ _ _ _ _ _ _ _ ht := by simpa [teq] using ht

theorem program_notIn : NotIn program "Z" "$" "#" where
  head β h := by
    rcases program_rules h with ⟨h, _⟩ | ⟨h, _⟩ | ⟨h, _⟩ | ⟨h, _⟩ | ⟨h, _⟩ | ⟨h, _⟩ <;> exact absurd h (by decide)
  marker v β t h ht := by
    rcases program_rules h with ⟨_, rfl⟩ | ⟨_, rfl⟩ | ⟨_, rfl⟩ | ⟨_, rfl⟩ | ⟨_, rfl⟩ | ⟨_, rfl⟩ <;> simp at ht <;>
      (try rcases ht with rfl | rfl | rfl) <;> subst_vars <;> decide
  never v β t h ht := by
    rcases program_rules h with ⟨_, rfl⟩ | ⟨_, rfl⟩ | ⟨_, rfl⟩ | ⟨_, rfl⟩ | ⟨_, rfl⟩ | ⟨_, rfl⟩ <;> simp at ht <;>
      (try rcases ht with rfl | rfl | rfl) <;> subst_vars <;> decide
  differ := by decide

example : ∃ tbl, IsParser (withEnd program "Z" "$" "#") tbl := (c108_parser program_built program_predictive program_notIn).1

/-- It is no simple grammar. -/
example : ¬ Simple program := by
  intro h
  obtain ⟨t, α, h⟩ := h.begins "C" [.var "A"] (by decide)
  cases h

theorem program_reachable (v : String) (β : Body String String) (h : (v, β) ∈ program.rules) : Reachable program v := by
  have hL : Reachable program "L" := .step (h := "P") (β := [.term "do", .var "L"]) .start (by decide) (by decide)
  have hC : Reachable program "C" := .step (β := [.var "C", .term ",", .var "L"]) hL (by decide) (by decide)
  rcases program_rules h with ⟨rfl, _⟩ | ⟨rfl, _⟩ | ⟨rfl, _⟩ | ⟨rfl, _⟩ | ⟨rfl, _⟩ | ⟨rfl, _⟩
  · exact .start
  · exact hL
  · exact hL
  · exact hC
  · exact hC
  · exact .step (β := [.var "A"]) hC (by decide) (by decide)

/-- The parser of programs returns on every input. -/
example (tbl : Table String String) (ht : IsParser (withEnd program "Z" "$" "#") tbl) (input : List String)
    (h : ∀ t ∈ input, teq "#" t = false) : ∃ r, parseTokens tbl ((2 * input.length + 1) * 10 + 1) input = .ok r := by
  obtain ⟨r, h, _⟩ := c108_reads program_built program_predictive program_reachable program_notIn ht h (Nat.lt_succ_self _)
  exact ⟨r, h⟩

/-- A program, which is not the beginning of another one. -/
example : (∃ m, ParseTree program m ["do", "end"]) ∧
    ∀ m t rest, ¬ ParseTree program m (["do", "end"] ++ t :: rest) := by
  have h1 : Forest program [.term "end"] _ ["end"] := .term rfl .nil
  have h2 : Forest program [.var "L"] _ ["end"] := .var (w := []) (by decide) h1 .nil
  have h3 : Forest program [.term "do", .var "L"] _ ["do", "end"] := .term rfl h2
  have h4 : Forest program [.var "P"] _ ["do", "end"] := .var (w := []) (by decide) h3 .nil
  exact ⟨⟨_, h4⟩, fun m t rest h => absurd (c108_unique program_built program_predictive h4 h).1 (by simp)⟩

/-- A left-recursive grammar is not LL(1). -/
example : ¬ Predictive listGrammar := by
  intro h
  exact h.noLoop listGrammar_built.wellFormed (v := "S") (u := "S") (β := [.term ";", .var "A"]) (by decide) .refl

end Pango.Props
