import Verif.Proofs.Cycle
import Verif.Props.Machine

/-!
# C40: exactly when parsing does not end
-/

namespace Pango.Props

open Pango Pango.Parse Pango.Spec

variable {V T : Type} [DecidableEq V] [DecidableEq T] [TerminalEq T] [LawfulTerminalEq T] {g : Grammar V T}
  {tbl : Table V T}

theorem parse_forever_iff (hg : Built g) (hp : IsParser g tbl) {input : List T} :
    (∀ fuel, parseTokens tbl fuel input = .diverge) ↔ ∀ n, ∃ y, Moves g n ⟨[], [], input⟩ y := by
  obtain ⟨accepts, _, _, h⟩ := c62_machine_partial hg hp
  have h1 : ∀ n, (∃ x, ShiftReduces g n (.start input) x) ↔ ∃ y, Moves g n ⟨[], [], input⟩ y := by
    intro n
    constructor
    · rintro ⟨x, hx⟩
      exact ⟨_, shiftReduces_iff.1 hx⟩
    · rintro ⟨y, hy⟩
      exact ⟨⟨y.syms, y.nodes, y.input⟩, shiftReduces_iff.2 hy⟩
  constructor
  · intro h2 n
    exact (h1 n).1 (((h n input).2.2.2).1 (h2 n))
  · intro h2 n
    exact ((h n input).2.2.2).2 ((h1 n).2 (h2 n))

/-- C40 for grammars without epsilon, exactly: parsing does not end if and only if the input begins with something that
stands for symbols `γ` and a variable `v` behind them, where `v` can come behind `γ` and derives itself by unit rules,
and the next token can follow `v`. -/
theorem c40_input_partial (hg : Built g) (hp : IsParser g tbl) (he : EpsFree g) (input : List T) :
    (∀ fuel, parseTokens tbl fuel input = .diverge) ↔
      ∃ v γ trees read u rest h i t, input = read ++ u :: rest ∧ Forest g (γ ++ [.var v]) trees read ∧
        Viable g γ (h, i) ∧ Reads i (.var v) ∧ UnitChain g v v ∧ InFollow g v (.term t) ∧ teq t u = true := by
  rw [parse_forever_iff hg hp, forever_iff hg.wellFormed he, spins_iff hg.wellFormed he]
  constructor
  · rintro ⟨v, γ, ns, read, u, rest, h, i, t, h1, h2, h3, h4, h5, h6, h7⟩
    exact ⟨v, γ, ns, read, u, rest, h, i, t, h1, h5, h3, h4, h2, inFollow_iff.2 h6, h7⟩
  · rintro ⟨v, γ, ns, read, u, rest, h, i, t, h1, h5, h3, h4, h2, h6, h7⟩
    exact ⟨v, γ, ns, read, u, rest, h, i, t, h1, h2, h3, h4, h5, inFollow_iff.1 h6, h7⟩

/-- C40 for grammars without epsilon in which every variable can be reached from the start variable: parsing ends after
a number of iterations that is linear in the length of the input.  A variable that derives itself would have led to a
conflict. -/
theorem c40_reachable_partial (hg : Built g) (hp : IsParser g tbl) (he : EpsFree g)
    (hreach : ∀ v β, (v, β) ∈ g.rules → Reachable g v) (input : List T) {fuel : Nat}
    (hf : (2 * input.length + 1) * (g.rules.length + 2) < fuel) : parseTokens tbl fuel input ≠ .diverge := by
  obtain ⟨c, follow, _, ok⟩ := hp.ok hg
  exact parse_stops hg.wellFormed ok he hreach (by simp) hf

/-- C46, exactly, for grammars without epsilon in which something can follow the start variable: sentences have only one
tree, unless the start variable derives itself by unit rules (and there are any sentences). -/
theorem c46_exact_partial (hg : Built g) (hp : IsParser g tbl) (he : EpsFree g)
    (hs : ∃ t, InFollow g g.start (.term t)) :
    (∀ input n m, ParseTree g n input → ParseTree g m input → n = m) ↔
      ¬ (UnitChain g g.start g.start ∧ ∃ n input, ParseTree g n input) := by
  constructor
  · rintro h ⟨hc, n, input, hn⟩
    obtain ⟨m, hm, hlt⟩ := hc.forest hn
    rw [h input n m hn hm] at hlt
    omega
  · intro h input n m hn hm
    exact c46_partial hg hp he (fun hc => h ⟨hc, n, input, hn⟩) hs hn hm

/-- C46 for grammars without epsilon in which something can follow the start variable, and every variable can be reached
from it. -/
theorem c46_reachable_partial (hg : Built g) (hp : IsParser g tbl) (he : EpsFree g)
    (hreach : ∀ v β, (v, β) ∈ g.rules → Reachable g v) (hs : ∃ t, InFollow g g.start (.term t)) {input : List T}
    {n m : Node V T} (hn : ParseTree g n input) (hm : ParseTree g m input) : n = m := by
  obtain ⟨c, follow, _, ok⟩ := hp.ok hg
  obtain ⟨t, ht⟩ := hs
  exact c46_partial hg hp he (no_cycle hg.wellFormed ok he hreach (inFollow_iff.1 ht)) ⟨t, ht⟩ hn hm

/-! ## Examples -/

/-- On `x a t` the parser of `S → x A`, `A → A | a`, `U → A t` does not end, as on everything that begins so. -/
example (rest : List String) (fuel : Nat) :
    parseTokens (tableOf unitCycle) fuel ("x" :: "a" :: "t" :: rest) = .diverge := by
  have he : EpsFree unitCycle := by
    intro h β hr
    simp only [unitCycle, List.mem_cons, Prod.mk.injEq, List.not_mem_nil, or_false] at hr
    rcases hr with ⟨_, rfl⟩ | ⟨_, rfl⟩ | ⟨_, rfl⟩ | ⟨_, rfl⟩ <;> simp
  refine (c40_input_partial unitCycle_built unitCycle_parser he _).2 ⟨"A", [.term "x"], _, ["x", "a"], "t", rest, "S",
    ⟨[.term "x", .var "A"], 1⟩, "t", rfl, .term rfl (.var (β := [.term "a"]) (x := ["a"]) (w := []) (by simp [unitCycle])
    (.term rfl .nil) .nil), ?_, ⟨[.term "x"], [], rfl, rfl⟩, .one (by simp [unitCycle]), ?_, rfl⟩ fuel
  · exact .read (γ := []) (i := ⟨[.term "x", .var "A"], 0⟩) (.start (by simp [unitCycle]) (fresh_plain (by simp)))
      (advanced_plain (i := ⟨[.term "x", .var "A"], 0⟩) (by simp) (pre := []) rfl rfl)
  · exact inFollow_iff.2 (.here (h := "U") (pre := []) (rest := [.term "t"]) (by simp [unitCycle]) .term)

/-- All variables of `goodGrammar` can be reached. -/
theorem goodGrammar_reachable : ∀ v β, (v, β) ∈ goodGrammar.rules → Reachable goodGrammar v := by
  intro v β hr
  simp only [goodGrammar, List.mem_cons, Prod.mk.injEq, List.not_mem_nil, or_false] at hr
  rcases hr with ⟨rfl, _⟩ | ⟨rfl, _⟩ | ⟨rfl, _⟩ | ⟨rfl, _⟩
  · exact .start
  · exact .start
  · exact .step .start (β := [.var "Q", .term ";"]) (by simp [goodGrammar]) (by simp)
  · exact .step .start (β := [.var "Q", .term ";"]) (by simp [goodGrammar]) (by simp)

/-- Its parsers end on every input. -/
example (input : List String) : parseTokens (tableOf goodGrammar) ((2 * input.length + 1) * 6 + 1) input ≠ .diverge :=
  c40_reachable_partial goodGrammar_built goodGrammar_parser goodGrammar_epsFree goodGrammar_reachable input
    (Nat.lt_succ_self _)

/-- Its sentences have one tree. -/
example (input : List String) (n m : Node String String) (hn : ParseTree goodGrammar n input)
    (hm : ParseTree goodGrammar m input) : n = m := by
  obtain ⟨t, ht⟩ := goodGrammar_follow _ _ (show ("P", [.var "Q", .term ";"]) ∈ goodGrammar.rules by simp [goodGrammar])
  exact c46_reachable_partial goodGrammar_built goodGrammar_parser goodGrammar_epsFree goodGrammar_reachable ⟨t, ht⟩ hn hm

/-- `S → S | a` and `U → S t` has a parser, and its sentence `a` has many trees. -/
def selfStart : Grammar String String :=
  ⟨"S", [("S", [.var "S"]), ("S", [.term "a"]), ("U", [.var "S", .term "t"])]⟩

example : ∃ n m : Node String String, ParseTree selfStart n ["a"] ∧ ParseTree selfStart m ["a"] ∧ n ≠ m := by
  have hp : IsParser selfStart (tableOf selfStart) := ⟨100, .insertion, by decide +kernel⟩
  have hb : Built selfStart :=
    ⟨[.setStart "S", .addRules "S" [[.var "S"], [.term "a"]], .addRules "U" [[.var "S", .term "t"]]], by decide⟩
  have he : EpsFree selfStart := by
    intro h β hr
    simp only [selfStart, List.mem_cons, Prod.mk.injEq, List.not_mem_nil, or_false] at hr
    rcases hr with ⟨_, rfl⟩ | ⟨_, rfl⟩ | ⟨_, rfl⟩ <;> simp
  have hs : ∃ t, InFollow selfStart selfStart.start (.term t) :=
    ⟨"t", inFollow_iff.2 (.here (h := "U") (pre := []) (rest := [.term "t"]) (by simp [selfStart]) .term)⟩
  have hc : UnitChain selfStart selfStart.start selfStart.start := .one (by simp [selfStart])
  have ht : ParseTree selfStart (.mk (.var "S") [.mk (.term "a") []]) ["a"] :=
    .var (β := [.term "a"]) (cs := [_]) (x := ["a"]) (w := []) (by simp [selfStart]) (.term rfl .nil) .nil
  have := mt (c46_exact_partial hb hp he hs).1 (fun h => h ⟨hc, _, _, ht⟩)
  obtain ⟨m, hm, hlt⟩ := hc.forest ht
  exact ⟨_, m, ht, hm, fun h => by rw [← h] at hlt; omega⟩

end Pango.Props
