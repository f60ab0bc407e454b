import Verif.Proofs.Hollow
import Verif.Proofs.Kinds
import Verif.Proofs.NodeEq
import Verif.Proofs.NoPanic
import Verif.Proofs.Plain
import Verif.Proofs.Terminate
import Verif.Proofs.Verdict
import Verif.Props.Table

/-!
# C36–C43, C45, C46: what a parser does

`parseTokens tbl fuel input` runs the parser `tbl` on the tokens, for at most `fuel` iterations of its loops.
-/

namespace Pango.Props

open Pango Pango.Parse Pango.Spec

/-- A parser for the grammar, as it is constructed under some iteration order. -/
def IsParser {V T : Type} [DecidableEq V] [DecidableEq T] [TerminalEq T] (g : Grammar V T) (tbl : Table V T) : Prop :=
  ∃ fuel ord, slrNew g ord fuel = .ok tbl

/-- The last child of the root, which is the first in the list, is a token. -/
def EndsInToken {V T : Type} (n : Node V T) : Prop :=
  ∃ v t cs, n = .mk (.var v) (.mk (.term t) [] :: cs)

/-! ## Full claims -/

/-- C36, the full claim: a returned tree is a parse tree of the input. -/
def C36 : Prop :=
  ∀ (V T : Type) [DecidableEq V] [DecidableEq T] [TerminalEq T] [LawfulTerminalEq T] (g : Grammar V T) (tbl : Table V T),
    Built g → IsParser g tbl → ∀ fuel input n, parseTokens tbl fuel input = .ok (some n) → ParseTree g n input

/-- C37, the full claim: every sentence is accepted with its tree. -/
def C37 : Prop :=
  ∀ (V T : Type) [DecidableEq V] [DecidableEq T] [TerminalEq T] [LawfulTerminalEq T] (g : Grammar V T) (tbl : Table V T),
    Built g → IsParser g tbl → ∀ input n, ParseTree g n input → ∃ fuel, parseTokens tbl fuel input = .ok (some n)

/-- C38, the full claim, for those sentences that are accepted if no rule contains an epsilon (`c37_partial`). -/
def C38 : Prop :=
  ∀ (V T : Type) [DecidableEq V] [DecidableEq T] [TerminalEq T] [LawfulTerminalEq T] (g : Grammar V T) (tbl : Table V T),
    Built g → IsParser g tbl → Followed g g.start → ∀ input n, ParseTree g n input → EndsInToken n →
      ∃ fuel, parseTokens tbl fuel input = .ok (some n)

/-- C39, the full claim: grammars whose start variable is in no body accept their sentences. -/
def C39 : Prop :=
  ∀ (V T : Type) [DecidableEq V] [DecidableEq T] [TerminalEq T] [LawfulTerminalEq T] (g : Grammar V T) (tbl : Table V T),
    Built g → IsParser g tbl → ¬ Occurs g g.start → ∀ input n, ParseTree g n input →
      ∃ fuel m, parseTokens tbl fuel input = .ok (some m)

/-- C40, the full claim: the parser ends on every input. -/
def C40 : Prop :=
  ∀ (V T : Type) [DecidableEq V] [DecidableEq T] [TerminalEq T] [LawfulTerminalEq T] (g : Grammar V T) (tbl : Table V T),
    Built g → IsParser g tbl → ∀ input, ∃ fuel, parseTokens tbl fuel input ≠ .diverge

/-- C41, the full claim: the parser panics on no input. -/
def C41 : Prop :=
  ∀ (V T : Type) [DecidableEq V] [DecidableEq T] [TerminalEq T] [LawfulTerminalEq T] (g : Grammar V T) (tbl : Table V T),
    Built g → IsParser g tbl → ∀ fuel input, parseTokens tbl fuel input ≠ .panic

/-- C42, the full claim: construction and results do not depend on the iteration order. -/
def C42 : Prop :=
  ∀ (V T : Type) [DecidableEq V] [DecidableEq T] [TerminalEq T] [LawfulTerminalEq T] (g : Grammar V T), Built g →
    ∃ bound, ∀ fuel ≥ bound, ∀ ord ord' : HashOrder,
      ((∃ tbl, slrNew g ord fuel = .ok tbl) ↔ ∃ tbl, slrNew g ord' fuel = .ok tbl) ∧
      ∀ tbl tbl', slrNew g ord fuel = .ok tbl → slrNew g ord' fuel = .ok tbl' →
        ∀ n input, parseTokens tbl n input = parseTokens tbl' n input

/-- C45, the full claim: the leaves of the tree are the input. -/
def C45 : Prop :=
  ∀ (V T : Type) [DecidableEq V] [DecidableEq T] [TerminalEq T] [LawfulTerminalEq T] (g : Grammar V T) (tbl : Table V T),
    Built g → IsParser g tbl → ∀ fuel input n, parseTokens tbl fuel input = .ok (some n) → tokens n = input

/-- C46, the full claim: a grammar with a parser is unambiguous. -/
def C46 : Prop :=
  ∀ (V T : Type) [DecidableEq V] [DecidableEq T] [TerminalEq T] [LawfulTerminalEq T] (g : Grammar V T) (tbl : Table V T),
    Built g → IsParser g tbl → ∀ input n m, ParseTree g n input → ParseTree g m input → n = m

/-! ## Counterexamples -/

/-- The parser constructed with the iteration order of insertion. -/
def tableOf (g : Grammar String String) (ord : HashOrder := .insertion) : Table String String :=
  match slrNew g ord 100 with
  | .ok t => t
  | _ => ⟨g.start, [], []⟩

private theorem parse_never {g : Grammar String String} {tbl : Table String String} {w : List String} {fuel k : Nat}
    {n : Node String String} {r : Outcome (Option (Node String String))} (h : parseTokens tbl k w = r)
    (hr : r ≠ .diverge) (hn : r ≠ .ok (some n)) : parseTokens tbl fuel w ≠ .ok (some n) := by
  intro h'
  rcases Nat.le_total k fuel with hle | hle
  · rcases parseTokens_mono (tbl := tbl) (fin := .ok ()) (w := w) hle with h1 | h1
    · exact hr (h.symm.trans h1)
    · exact hn (by rw [← h, h1, h'])
  · have := (parseTokens_mono (tbl := tbl) (fin := .ok ()) (w := w) hle).ok h'
    exact hn (by rw [← h, this])

/-- `S → ( S ) | x`. -/
def parens : Grammar String String := ⟨"S", [("S", [.term "(", .var "S", .term ")"]), ("S", [.term "x"])]⟩

theorem parens_built : Built parens :=
  ⟨[.setStart "S", .addRules "S" [[.term "(", .var "S", .term ")"], [.term "x"]]], by decide⟩

theorem parens_parser : IsParser parens (tableOf parens) := ⟨100, .insertion, by decide +kernel⟩

theorem parens_accepts : parseTokens (tableOf parens) 10 ["(", "x"] = .ok (some (.mk (.var "S") [.mk (.term "x") []])) := by
  decide +kernel

/-- C36 does not hold: the parser of `S → ( S ) | x` accepts `( x`. -/
theorem c36_false : ¬ C36 := by
  intro h
  have h1 := parseTree_tokens (h _ _ parens _ parens_built parens_parser _ _ _ parens_accepts)
  exact absurd h1 (by decide)

/-- C45 does not hold for the same reason. -/
theorem c45_false : ¬ C45 := by
  intro h
  exact absurd (h _ _ parens _ parens_built parens_parser _ _ _ parens_accepts) (by decide)

/-- `S → S ; A | A` and `A → x`. -/
def listGrammar : Grammar String String :=
  ⟨"S", [("S", [.var "S", .term ";", .var "A"]), ("S", [.var "A"]), ("A", [.term "x"])]⟩

theorem listGrammar_built : Built listGrammar :=
  ⟨[.setStart "S", .addRules "S" [[.var "S", .term ";", .var "A"], [.var "A"]], .addRules "A" [[.term "x"]]], by decide⟩

theorem listGrammar_parser : IsParser listGrammar (tableOf listGrammar) := ⟨100, .insertion, by decide +kernel⟩

/-- C37 does not hold: the parser of `S → S ; A | A` and `A → x` rejects `x`, because nothing can be reduced at the
end of the input. -/
theorem c37_false : ¬ C37 := by
  intro h
  have ht : ParseTree listGrammar (.mk (.var "S") [.mk (.var "A") [.mk (.term "x") []]]) ["x"] :=
    .var (β := [.var "A"]) (cs := [_]) (x := ["x"]) (w := []) (by decide)
      (.var (β := [.term "x"]) (cs := [_]) (x := ["x"]) (w := []) (by decide) (.term rfl .nil) .nil) .nil
  obtain ⟨fuel, h1⟩ := h _ _ listGrammar _ listGrammar_built listGrammar_parser _ _ ht
  exact parse_never (k := 10) (r := .ok none) (g := listGrammar) (by decide +kernel) (by simp) (by simp) h1

/-- `S → S A t | t` and `A → ε | a`. -/
def epsGrammar : Grammar String String :=
  ⟨"S", [("S", [.var "S", .var "A", .term "t"]), ("S", [.term "t"]), ("A", [.eps]), ("A", [.term "a"])]⟩

theorem epsGrammar_built : Built epsGrammar :=
  ⟨[.setStart "S", .addRules "S" [[.var "S", .var "A", .term "t"], [.term "t"]], .addRules "A" [[.eps], [.term "a"]]],
    by decide⟩

theorem epsGrammar_parser : IsParser epsGrammar (tableOf epsGrammar) := ⟨100, .insertion, by decide +kernel⟩

/-- A sentence that uses the epsilon rule. -/
theorem epsGrammar_tree : ParseTree epsGrammar (.mk (.var "S") [.mk (.term "t") [], .mk (.var "A") [],
    .mk (.var "S") [.mk (.term "t") []]]) ["t", "t"] :=
  .var (β := [.var "S", .var "A", .term "t"]) (cs := [_, _, _]) (x := ["t", "t"]) (w := []) (by decide)
    (.var (β := [.term "t"]) (cs := [_]) (x := ["t"]) (by decide) (.term rfl .nil)
      (.var (β := [.eps]) (cs := []) (x := []) (by decide) (.eps .nil) (.term rfl .nil))) .nil

/-- C38 does not hold: the parser of `S → S A t | t` and `A → ε | a` rejects `t t`, because the reduction of `A → ε`
takes a node from the stack. -/
theorem c38_false : ¬ C38 := by
  intro h
  have ht := epsGrammar_tree
  obtain ⟨fuel, h1⟩ := h _ _ epsGrammar _ epsGrammar_built epsGrammar_parser
    ⟨"S", [], .var "A", [.term "t"], by decide⟩ _ _ ht ⟨_, _, _, rfl⟩
  exact parse_never (k := 10) (r := .ok none) (g := epsGrammar) (by decide +kernel) (by simp) (by simp) h1

/-- `S → a`. -/
def tiny : Grammar String String := ⟨"S", [("S", [.term "a"])]⟩

theorem tiny_built : Built tiny := ⟨[.setStart "S", .addRules "S" [[.term "a"]]], by decide⟩

theorem tiny_parser : IsParser tiny (tableOf tiny) := ⟨100, .insertion, by decide +kernel⟩

theorem tiny_start : ¬ Occurs tiny tiny.start := by
  rintro ⟨h, β, hr, hm⟩
  simp only [tiny, List.mem_cons, List.not_mem_nil, or_false, Prod.mk.injEq] at hr
  rw [hr.2] at hm
  simp at hm

/-- `S → x A`, `A → A | a` and `U → A t`. -/
def unitCycle : Grammar String String :=
  ⟨"S", [("S", [.term "x", .var "A"]), ("A", [.var "A"]), ("A", [.term "a"]), ("U", [.var "A", .term "t"])]⟩

theorem unitCycle_built : Built unitCycle :=
  ⟨[.setStart "S", .addRules "S" [[.term "x", .var "A"]], .addRules "A" [[.var "A"], [.term "a"]],
    .addRules "U" [[.var "A", .term "t"]]], by decide⟩

theorem unitCycle_parser : IsParser unitCycle (tableOf unitCycle) := ⟨100, .insertion, by decide +kernel⟩

private theorem unitCycle_table : tableOf unitCycle = ⟨"S",
    [[(some "x", .shift 1)], [(some "a", .shift 3)], [(some "t", .reduce "A" 1)], [(some "t", .reduce "A" 1)]],
    [[], [("A", 2)]]⟩ := by decide +kernel

private theorem unitCycle_loop (n : Nat) (A X B : Node String String) :
    parseLoop (tableOf unitCycle) (.ok ()) n ["t"] [⟨A, 2⟩, ⟨X, 1⟩, ⟨B, 0⟩] 2 = .diverge := by
  induction n generalizing A with
  | zero => rfl
  | succ n ih =>
    have h : parseLoop (tableOf unitCycle) (.ok ()) (n + 1) ["t"] [⟨A, 2⟩, ⟨X, 1⟩, ⟨B, 0⟩] 2 =
        parseLoop (tableOf unitCycle) (.ok ()) n ["t"] [⟨.mk (.var "A") [A], 2⟩, ⟨X, 1⟩, ⟨B, 0⟩] 2 := by
      rw [unitCycle_table]; rfl
    rw [h, ih]

/-- C40 does not hold: the parser of `S → x A`, `A → A | a` and `U → A t` does not end on `x a t`. -/
theorem c40_false : ¬ C40 := by
  intro h
  obtain ⟨fuel, h1⟩ := h _ _ unitCycle _ unitCycle_built unitCycle_parser ["x", "a", "t"]
  apply h1
  have h2 : parseTokens (tableOf unitCycle) (fuel + 3) ["x", "a", "t"] = .diverge := by
    have h : parseTokens (tableOf unitCycle) (fuel + 3) ["x", "a", "t"] =
        parseLoop (tableOf unitCycle) (.ok ()) fuel ["t"] [⟨.mk (.var "A") [.mk (.term "a") []], 2⟩,
          ⟨.mk (.term "x") [], 1⟩, ⟨.mk (.var "S") [], 0⟩] 2 := by
      rw [unitCycle_table]; rfl
    rw [h, unitCycle_loop]
  rcases parseTokens_mono (tbl := tableOf unitCycle) (fin := .ok ()) (w := ["x", "a", "t"]) (n := fuel)
    (n' := fuel + 3) (by omega) with h3 | h3
  · exact h3
  · rw [h3, h2]

/-- `S → a S | b`. -/
def rightRec : Grammar String String := ⟨"S", [("S", [.term "a", .var "S"]), ("S", [.term "b"])]⟩

theorem rightRec_built : Built rightRec :=
  ⟨[.setStart "S", .addRules "S" [[.term "a", .var "S"], [.term "b"]]], by decide⟩

theorem rightRec_parser : IsParser rightRec (tableOf rightRec) := ⟨100, .insertion, by decide +kernel⟩

/-- C41 does not hold: the parser of `S → a S | b` panics on `a b`, because the last state has no row in the table. -/
theorem c41_false : ¬ C41 := by
  intro h
  exact h _ _ rightRec _ rightRec_built rightRec_parser 10 ["a", "b"] (by decide +kernel)

/-- `S → a`, `X → B ε`, `B → C` and `C → S`. -/
def emptyFollow : Grammar String String :=
  ⟨"S", [("S", [.term "a"]), ("X", [.var "B", .eps]), ("B", [.var "C"]), ("C", [.var "S"])]⟩

theorem emptyFollow_built : Built emptyFollow :=
  ⟨[.setStart "S", .addRules "S" [[.term "a"]], .addRules "X" [[.var "B", .eps]], .addRules "B" [[.var "C"]],
    .addRules "C" [[.var "S"]]], by decide⟩

/-- Insertion order, but the dependencies between follow sets are iterated backwards. -/
def dependenciesReversed : HashOrder :=
  ⟨fun now _ l => if now = [1, 0, 2, 0] then l.reverse else l, fun now _ l => by
    split
    · exact List.reverse_perm l
    · exact .refl l⟩

/-- C42 does not hold: for `S → a`, `X → B ε`, `B → C` and `C → S` it depends on the iteration order whether the start
variable gets a (then empty) follow set, and without it nothing is accepted. -/
theorem c42_false : ¬ C42 := by
  intro h
  obtain ⟨bound, h⟩ := h _ _ emptyFollow emptyFollow_built
  have h1 : slrNew emptyFollow .insertion 100 = .ok (tableOf emptyFollow) := by decide +kernel
  have h2 : slrNew emptyFollow dependenciesReversed 100 = .ok (tableOf emptyFollow dependenciesReversed) := by
    decide +kernel
  have h3 := (h (bound + 100) (by omega) .insertion dependenciesReversed).2 _ _
    ((slrNew_mono (by omega)).ok h1) ((slrNew_mono (by omega)).ok h2) 10 ["a"]
  exact absurd h3 (by decide +kernel)

/-- `S → A | B`, `A → C`, `B → C` and `C → c`. -/
def ambiguous : Grammar String String :=
  ⟨"S", [("S", [.var "A"]), ("S", [.var "B"]), ("A", [.var "C"]), ("B", [.var "C"]), ("C", [.term "c"])]⟩

theorem ambiguous_built : Built ambiguous :=
  ⟨[.setStart "S", .addRules "S" [[.var "A"], [.var "B"]], .addRules "A" [[.var "C"]], .addRules "B" [[.var "C"]],
    .addRules "C" [[.term "c"]]], by decide⟩

theorem ambiguous_parser : IsParser ambiguous (tableOf ambiguous) := ⟨100, .insertion, by decide +kernel⟩

/-- C46 does not hold: `S → A | B`, `A → C`, `B → C` and `C → c` has a parser. -/
theorem c46_false : ¬ C46 := by
  intro h
  have ht : ∀ X : String, ("S", [.var X]) ∈ ambiguous.rules → (X, [.var "C"]) ∈ ambiguous.rules →
      ParseTree ambiguous (.mk (.var "S") [.mk (.var X) [.mk (.var "C") [.mk (.term "c") []]]]) ["c"] := by
    intro X h1 h2
    exact .var (β := [.var X]) (cs := [_]) (x := ["c"]) (w := []) h1
      (.var (β := [.var "C"]) (cs := [_]) (x := ["c"]) (w := []) h2
        (.var (β := [.term "c"]) (cs := [_]) (x := ["c"]) (w := []) (by decide) (.term rfl .nil) .nil) .nil) .nil
  have := h _ _ ambiguous _ ambiguous_built ambiguous_parser _ _ _ (ht "A" (by decide) (by decide))
    (ht "B" (by decide) (by decide))
  exact absurd this (by decide)

/-! ## What holds -/

variable {V T : Type} [DecidableEq V] [DecidableEq T] [TerminalEq T] [LawfulTerminalEq T] {g : Grammar V T}
  {tbl : Table V T}

theorem IsParser.ok (hp : IsParser g tbl) (hg : Built g) :
    ∃ c follow, FollowOk g follow ∧ SlrOk g c (Entry g follow) tbl := by
  obtain ⟨fuel, ord, h⟩ := hp
  obtain ⟨c, follow, h1, h2, _⟩ := slrNew_ok hg.wellFormed h
  exact ⟨c, follow, h1, h2⟩

omit [DecidableEq V] [DecidableEq T] [LawfulTerminalEq T] in
theorem endsInToken_iff {β : Body V T} {cs : List (Node V T)} {w : List T} (hf : Forest g β cs w)
    (he : Sym.eps ∉ β) : EndsInToken (.mk (.var g.start) cs.reverse) ↔ ∃ β' t, β = β' ++ [.term t] := by
  rcases List.eq_nil_or_concat β with rfl | ⟨β', x, rfl⟩
  · cases hf
    simp [EndsInToken]
  · rw [List.concat_eq_append] at hf he ⊢
    obtain ⟨n1, n2, w1, w2, rfl, rfl, _, h2⟩ := forest_split hf
    constructor
    · rintro ⟨v, t, ds, h⟩
      simp only [List.reverse_append, Node.mk.injEq] at h
      cases h2 with
      | eps _ => simp at he
      | term _ _ => exact ⟨β', _, rfl⟩
      | var _ _ h3 =>
        cases h3
        simp at h
    · rintro ⟨β'', t, h⟩
      obtain ⟨_, h3⟩ := List.append_inj' h rfl
      cases h3
      cases h2 with
      | @term _ u _ _ _ _ h3 =>
        cases h3
        exact ⟨g.start, u, n1.reverse, by simp⟩

/-- C36 for grammars without epsilon: a returned tree is a parse tree of the end of the input. -/
theorem c36_suffix_partial (hg : Built g) (hp : IsParser g tbl) (he : EpsFree g) {fuel : Nat} {input : List T}
    {n : Node V T} (h : parseTokens tbl fuel input = .ok (some n)) :
    ∃ skipped w, input = skipped ++ w ∧ ParseTree g n w := by
  obtain ⟨c, follow, _, ok⟩ := hp.ok hg
  obtain ⟨γ, ns, pre, u, β, cs, t, h1, _, _, h2, h3, h4, _, _⟩ := parse_sound hg.wellFormed ok he h
  exact ⟨pre, u, h1, parseTree_iff.2 ⟨_, cs, h2, h3, h4⟩⟩

/-- C36 for grammars without epsilon in which the start variable can not begin inside of anything. -/
theorem c36_whole_partial (hg : Built g) (hp : IsParser g tbl) (he : EpsFree g) (hi : ¬ Inside g g.start) {fuel : Nat}
    {input : List T} {n : Node V T} (h : parseTokens tbl fuel input = .ok (some n)) : ParseTree g n input := by
  obtain ⟨c, follow, _, ok⟩ := hp.ok hg
  obtain ⟨γ, ns, pre, u, β, cs, t, h1, h5, h6, h2, h3, h4, _, _⟩ := parse_sound hg.wellFormed ok he h
  obtain rfl := source_start he h6 hi
  cases h5
  rw [h1]
  exact parseTree_iff.2 ⟨_, cs, h2, h3, h4⟩

/-- C37 for grammars in which the start variable is surely followed: a tree that does not use rules with epsilon,
and whose last child is a token, is returned. -/
theorem c37_partial (hg : Built g) (hp : IsParser g tbl) (hs : SurelyFollowed g g.start) {input : List T} {n : Node V T}
    (ht : ParseTree (dropEps g) n input) (hn : EndsInToken n) :
    ∃ bound, ∀ fuel ≥ bound, parseTokens tbl fuel input = .ok (some n) := by
  obtain ⟨c, follow, fo, ok⟩ := hp.ok hg
  have hentry : Entry g follow := fo.surely hs
  obtain ⟨β, cs, h1, rfl, h2⟩ := parseTree_iff.1 ht
  obtain ⟨h3, h4⟩ := mem_dropEps.1 h1
  obtain ⟨β', t, rfl⟩ := (endsInToken_iff h2 h4).1 hn
  obtain ⟨k, h5⟩ := parse_complete hg.wellFormed ok hentry h3 (fun hm => h4 (by simp [hm])) h2
  refine ⟨k + 1, fun fuel hf => ?_⟩
  have h6 := h5 (fuel - (k + 1))
  rw [show fuel - (k + 1) + 1 + k = fuel by omega] at h6
  exact h6

/-- C36 and C37 together: for grammars without epsilon, in which the start variable is surely followed but can not
begin inside of anything, the returned trees are exactly the parse trees of the input whose last child is a token. -/
theorem c37_exact_partial (hg : Built g) (hp : IsParser g tbl) (he : EpsFree g) (hs : SurelyFollowed g g.start)
    (hi : ¬ Inside g g.start) {input : List T} {n : Node V T} :
    (∃ fuel, parseTokens tbl fuel input = .ok (some n)) ↔ ParseTree g n input ∧ EndsInToken n := by
  constructor
  · rintro ⟨fuel, h⟩
    refine ⟨c36_whole_partial hg hp he hi h, ?_⟩
    obtain ⟨c, follow, _, ok⟩ := hp.ok hg
    obtain ⟨γ, ns, pre, u, β, cs, t, h1, h5, h6, h2, rfl, h4, _, _⟩ := parse_sound hg.wellFormed ok he h
    exact (endsInToken_iff h4 (he _ _ h2)).2 ⟨β, t, rfl⟩
  · rintro ⟨h1, h2⟩
    obtain ⟨bound, h3⟩ := c37_partial hg hp hs ((forest_dropEps he).2 h1) h2
    exact ⟨bound, h3 bound (Nat.le_refl _)⟩

/-- The same without the last condition: a returned tree belongs to the end of the input, and what comes before must be
something that can stand in front of the start variable. -/
theorem c37_all_partial (hg : Built g) (hp : IsParser g tbl) (he : EpsFree g) (hs : SurelyFollowed g g.start)
    {input : List T} {n : Node V T} :
    (∃ fuel, parseTokens tbl fuel input = .ok (some n)) ↔
      ∃ γ trees skipped w, input = skipped ++ w ∧ ParseTree g n w ∧ EndsInToken n ∧ Forest g γ trees skipped ∧
        (γ = [] ∨ ∃ h i, Viable g γ (h, i) ∧ Reads i (.var g.start)) := by
  obtain ⟨c, follow, fo, ok⟩ := hp.ok hg
  have hentry : Entry g follow := fo.surely hs
  rw [parse_exact hg.wellFormed ok he]
  constructor
  · rintro ⟨_, γ, ns, pre, u, β, cs, t, h1, h2, h3, h4, rfl, h6⟩
    refine ⟨γ, ns, pre, u, h1, parseTree_iff.2 ⟨_, cs, h4, rfl, h6⟩, (endsInToken_iff h6 (he _ _ h4)).2 ⟨β, t, rfl⟩, h2, ?_⟩
    rcases h3 with ⟨h, _⟩ | h
    · exact .inl h
    · exact .inr h
  · rintro ⟨γ, ns, pre, u, h1, h2, h3, h4, h5⟩
    obtain ⟨β, cs, h6, rfl, h7⟩ := parseTree_iff.1 h2
    obtain ⟨β', t, rfl⟩ := (endsInToken_iff h7 (he _ _ h6)).1 h3
    refine ⟨hentry, γ, ns, pre, u, β', cs, t, h1, h4, ?_, h6, rfl, h7⟩
    rcases h5 with h | h
    · exact .inl ⟨h, rfl⟩
    · exact .inr h

/-- C38 for sentences whose trees do not use the rules with epsilon: the presence of such rules does not disturb. -/
theorem c38_unused_partial (hg : Built g) (hp : IsParser g tbl) (hs : SurelyFollowed g g.start) {input : List T}
    {n : Node V T} (ht : ParseTree (dropEps g) n input) (hn : EndsInToken n) :
    ∃ fuel, parseTokens tbl fuel input = .ok (some n) := by
  obtain ⟨bound, h⟩ := c37_partial hg hp hs ht hn
  exact ⟨bound, h bound (Nat.le_refl _)⟩

/-- C38 is false for every grammar and every sentence with tokens: a tree in which a variable is empty, the only use of
a rule whose body is just epsilon, is never returned. -/
theorem c38_never_returned (hg : Built g) (hp : IsParser g tbl) {input : List T} {n : Node V T} (hi : input ≠ [])
    (ht : ParseTree g n input) (he : HasEmpty n) (fuel : Nat) : parseTokens tbl fuel input ≠ .ok (some n) := by
  obtain ⟨fuel', ord, h⟩ := hp
  obtain ⟨c, follow, _, ok, huniq⟩ := slrNew_ok hg.wellFormed h
  cases input with
  | nil => exact absurd rfl hi
  | cons u w => exact parse_hollow hg.wellFormed ok huniq ht he

/-- A parse tree that is returned for some tokens uses no rule with epsilon, and its last child is a token. -/
theorem c38_returned (hg : Built g) (hp : IsParser g tbl) {input : List T} {n : Node V T} (hi : input ≠ [])
    (ht : ParseTree g n input) {fuel : Nat} (h : parseTokens tbl fuel input = .ok (some n)) :
    ParseTree (dropEps g) n input ∧ EndsInToken n := by
  obtain ⟨fuel', ord, h'⟩ := hp
  obtain ⟨c, follow, _, ok, huniq⟩ := slrNew_ok hg.wellFormed h'
  cases input with
  | nil => exact absurd rfl hi
  | cons u w =>
    obtain ⟨h1, t, cs, rfl⟩ := parse_plain hg.wellFormed ok huniq ht h
    exact ⟨h1, _, _, _, rfl⟩

/-- C37 and C38 for every grammar whose start variable is surely followed, with epsilons or without: of all the parse
trees of some tokens exactly those are returned that use no rule with epsilon and whose last child is a token. -/
theorem c38_exact_partial (hg : Built g) (hp : IsParser g tbl) (hs : SurelyFollowed g g.start) {input : List T}
    {n : Node V T} (hi : input ≠ []) (ht : ParseTree g n input) :
    (∃ fuel, parseTokens tbl fuel input = .ok (some n)) ↔ ParseTree (dropEps g) n input ∧ EndsInToken n :=
  ⟨fun ⟨_, h⟩ => c38_returned hg hp hi ht h, fun ⟨h1, h2⟩ => c38_unused_partial hg hp hs h1 h2⟩

/-- C39 is false in the strongest sense: if the start variable is in no body, nothing is accepted. -/
theorem c39_nothing_accepted (hg : Built g) (hp : IsParser g tbl) (hs : ¬ Occurs g g.start) (fuel : Nat)
    (input : List T) (n : Node V T) : parseTokens tbl fuel input ≠ .ok (some n) := by
  intro h
  obtain ⟨c, follow, fo, ok⟩ := hp.ok hg
  obtain ⟨_, _, _, _, _, _, _, _, h1, _⟩ := parseTokens_some ok h
  exact hs (fo.entered _ h1).occurs

/-- C39 does not hold: `a` is not accepted by the parser of `S → a`. -/
theorem c39_false : ¬ C39 := by
  intro h
  have ht : ParseTree tiny (.mk (.var "S") [.mk (.term "a") []]) ["a"] :=
    .var (β := [.term "a"]) (cs := [_]) (x := ["a"]) (w := []) (by decide) (.term rfl .nil) .nil
  obtain ⟨fuel, m, h1⟩ := h _ _ tiny _ tiny_built tiny_parser tiny_start _ _ ht
  exact c39_nothing_accepted tiny_built tiny_parser tiny_start fuel _ m h1

/-- C40 for grammars in which no variable derives itself by unit rules, and no body is just an epsilon: the parser ends
after a number of iterations that is linear in the length of the input. -/
theorem c40_partial (hg : Built g) (hp : IsParser g tbl) (hno : ∀ v, ¬ UnitChain g v v)
    (heps : ∀ h, (h, [.eps]) ∉ g.rules) (input : List T) {fuel : Nat}
    (hf : (2 * input.length + 1) * (g.rules.length + 2) < fuel) : parseTokens tbl fuel input ≠ .diverge := by
  obtain ⟨c, follow, _, ok⟩ := hp.ok hg
  exact parse_terminates hg.wellFormed ok hno heps (by simp) hf

/-- C41 for grammars without epsilon, in which every variable has terminals in its FIRST and FOLLOW sets and some rule
of the start variable contains a variable: no input makes the parser panic. -/
theorem c41_partial (hg : Built g) (hp : IsParser g tbl) (he : EpsFree g)
    (hfirst : ∀ v β, (v, β) ∈ g.rules → ∃ t, InFirst g [.var v] (.term t))
    (hfollow : ∀ v β, (v, β) ∈ g.rules → ∃ t, InFollow g v (.term t))
    (hvar : ∃ β v, (g.start, β) ∈ g.rules ∧ .var v ∈ β) (fuel : Nat) (input : List T) :
    parseTokens tbl fuel input ≠ .panic := by
  obtain ⟨c, follow, _, ok⟩ := hp.ok hg
  refine parse_no_panic hg.wellFormed ok he (fun v β hr => ?_) (fun v β hr => ?_) hvar (by simp)
  · obtain ⟨t, ht⟩ := hfirst v β hr
    exact ⟨t, derives_starts.1 ht⟩
  · obtain ⟨t, ht⟩ := hfollow v β hr
    exact ⟨t, inFollow_iff.1 ht⟩

omit [DecidableEq T] [TerminalEq T] [LawfulTerminalEq T] in
private theorem entry_iff {follow follow' : List (V × List (Sym V T))} (fo : FollowOk g follow)
    (fo' : FollowOk g follow')
    (hd : SurelyFollowed g g.start ∨ ¬ Followable g g.start) :
    Entry g follow = Entry g follow' := by
  apply propext
  rcases hd with h | h
  · exact ⟨fun _ => fo'.surely h, fun _ => fo.surely h⟩
  · exact ⟨fun h' => absurd (fo.entered _ h').followable h, fun h' => absurd (fo'.entered _ h').followable h⟩

/-- C42 for grammars in which the start variable is surely followed, or nothing can stand behind it: whether there is a parser
does not depend on the iteration order. -/
theorem c42_construction_partial (hg : Built g)
    (hd : SurelyFollowed g g.start ∨ ¬ Followable g g.start) :
    ∃ bound, ∀ fuel ≥ bound, ∀ ord ord' : HashOrder, (∃ tbl, slrNew g ord fuel = .ok tbl) →
      ∃ tbl, slrNew g ord' fuel = .ok tbl := by
  refine ⟨tableFuel g, fun fuel hf ord ord' ⟨tbl, ht⟩ => ?_⟩
  obtain ⟨c, follow, _, fo, h⟩ := slrNew_iff hg.wellFormed ord hf
  obtain ⟨c', follow', _, fo', h'⟩ := slrNew_iff hg.wellFormed ord' hf
  have he := entry_iff fo fo' hd
  rcases h with ⟨h, _⟩ | ⟨_, h⟩
  · rcases h' with ⟨_, tbl', h', _⟩ | ⟨h', _⟩
    · exact ⟨tbl', h'⟩
    · rw [← he] at h'
      exact absurd h h'
  · rw [ht] at h
    cases h

/-- C42 for such grammars: what one parser returns, every other parser returns after the same number of iterations,
unless it panics. -/
theorem c42_result_partial (hg : Built g) {tbl' : Table V T} (hp : IsParser g tbl) (hp' : IsParser g tbl')
    (hd : SurelyFollowed g g.start ∨ ¬ Followable g g.start) {fuel : Nat} {input : List T}
    {r : Option (Node V T)} (h : parseTokens tbl fuel input = .ok r) :
    parseTokens tbl' fuel input = .ok r ∨ parseTokens tbl' fuel input = .panic := by
  obtain ⟨c, follow, fo, ok⟩ := hp.ok hg
  obtain ⟨c', follow', fo', ok'⟩ := hp'.ok hg
  rw [← entry_iff fo fo' hd] at ok'
  exact parse_agree ok ok' h

/-- C42 for grammars that moreover are as in C41: all parsers do exactly the same. -/
theorem c42_equal_partial (hg : Built g) {tbl' : Table V T} (hp : IsParser g tbl) (hp' : IsParser g tbl')
    (he : EpsFree g) (hfirst : ∀ v β, (v, β) ∈ g.rules → ∃ t, InFirst g [.var v] (.term t))
    (hfollow : ∀ v β, (v, β) ∈ g.rules → ∃ t, InFollow g v (.term t))
    (hvar : ∃ β v, (g.start, β) ∈ g.rules ∧ .var v ∈ β) (fuel : Nat) (input : List T) :
    parseTokens tbl fuel input = parseTokens tbl' fuel input := by
  have hd : SurelyFollowed g g.start ∨ ¬ Followable g g.start := by
    obtain ⟨β, hβ⟩ := hg.wellFormed.start
    exact .inl (.inl (hfollow _ _ hβ))
  have h1 := c41_partial hg hp he hfirst hfollow hvar fuel input
  have h2 := c41_partial hg hp' he hfirst hfollow hvar fuel input
  cases h : parseTokens tbl fuel input with
  | panic => exact absurd h h1
  | ok r =>
    rcases c42_result_partial hg hp hp' hd h with h' | h'
    · rw [h']
    · exact absurd h' h2
  | diverge =>
    cases h' : parseTokens tbl' fuel input with
    | panic => exact absurd h' h2
    | diverge => rfl
    | ok r =>
      rcases c42_result_partial hg hp' hp hd h' with h3 | h3
      · rw [h] at h3; cases h3
      · rw [h] at h3; cases h3

omit [DecidableEq T] in
/-- C43: replacing tokens by others of the same kinds changes only the tokens at the leaves; this holds for every
table. -/
theorem c43_kinds (tbl : Table V T) (fuel : Nat) {v w : List T} (h : SameTokens v w) :
    SameResult (parseTokens tbl fuel v) (parseTokens tbl fuel w) := by
  have h0 : SameStack [(⟨.mk (.var tbl.start) [], 0⟩ : ParseNode V T)] [⟨.mk (.var tbl.start) [], 0⟩] :=
    ⟨rfl, .node .nil .nil⟩
  exact parseLoop_same h h0

/-- Tokens with a payload, of which only the kind is compared. -/
inductive NumToken where
  | num (value : Nat)
  | semi
  deriving DecidableEq

instance : TerminalEq NumToken :=
  ⟨fun | .num _, .num _ => true | .semi, .semi => true | _, _ => false⟩

/-- `S → S number ; | number ;` on `1 ; 2 ;` and on `8 ; 9 ;`. -/
example : SameTokens [NumToken.num 1, .semi, .num 2, .semi] [.num 8, .semi, .num 9, .semi] ∧
    (slrNew (⟨"S", [("S", [.var "S", .term (.num 0), .term .semi]), ("S", [.term (.num 0), .term .semi])]⟩ :
        Grammar String NumToken) .insertion 100 >>= fun tbl => parseTokens tbl 10 [.num 8, .semi, .num 9, .semi]) =
      .ok (some (.mk (.var "S") [.mk (.term .semi) [], .mk (.term (.num 9)) [],
        .mk (.var "S") [.mk (.term .semi) [], .mk (.term (.num 8)) []]])) :=
  ⟨.cons rfl (.cons rfl (.cons rfl (.cons rfl .nil))), by decide +kernel⟩

/-- C45 for all grammars: the leaves of a returned tree, read from right to left, are the end of the input. -/
theorem c45_suffix_partial (hg : Built g) (hp : IsParser g tbl) {fuel : Nat} {input : List T} {n : Node V T}
    (h : parseTokens tbl fuel input = .ok (some n)) : ∃ skipped, input = skipped ++ tokens n := by
  obtain ⟨c, follow, _, ok⟩ := hp.ok hg
  exact parse_tokens_suffix ok h

/-- C45 for grammars without epsilon in which the start variable can not begin inside of anything. -/
theorem c45_whole_partial (hg : Built g) (hp : IsParser g tbl) (he : EpsFree g) (hi : ¬ Inside g g.start) {fuel : Nat}
    {input : List T} {n : Node V T} (h : parseTokens tbl fuel input = .ok (some n)) : tokens n = input :=
  parseTree_tokens (c36_whole_partial hg hp he hi h)

/-- C46 for grammars without epsilon in which the start variable does not derive itself by unit rules, if something can
follow the start variable. -/
theorem c46_partial (hg : Built g) (hp : IsParser g tbl) (he : EpsFree g) (hno : ¬ UnitChain g g.start g.start)
    (hs : ∃ t, InFollow g g.start (.term t)) {input : List T} {n m : Node V T} (hn : ParseTree g n input)
    (hm : ParseTree g m input) : n = m := by
  obtain ⟨c, follow, fo, ok⟩ := hp.ok hg
  obtain ⟨t, ht⟩ := hs
  obtain ⟨β1, cs1, h1, rfl, h2⟩ := parseTree_iff.1 hn
  obtain ⟨β2, cs2, h3, rfl, h4⟩ := parseTree_iff.1 hm
  rw [unambiguous hg.wellFormed ok he hno (.inl ⟨rfl, rfl⟩) (inFollow_iff.1 ht) h1 h2 h3 h4]

/-- C46 for trees without epsilon rules whose last child is a token, if the start variable is surely followed. -/
theorem c46_token_partial (hg : Built g) (hp : IsParser g tbl) (hs : SurelyFollowed g g.start) {input : List T}
    {n m : Node V T} (hn : ParseTree (dropEps g) n input) (hm : ParseTree (dropEps g) m input) (hn' : EndsInToken n)
    (hm' : EndsInToken m) : n = m := by
  obtain ⟨b1, h1⟩ := c37_partial hg hp hs hn hn'
  obtain ⟨b2, h2⟩ := c37_partial hg hp hs hm hm'
  have h3 := h1 (b1 + b2) (by omega)
  rw [h2 (b1 + b2) (by omega)] at h3
  cases h3
  rfl

/-! ## Examples -/

theorem goodGrammar_parser : IsParser goodGrammar (tableOf goodGrammar) := ⟨100, .insertion, by decide +kernel⟩

private theorem goodGrammar_rule {h : String} {β : Body String String} (hr : (h, β) ∈ goodGrammar.rules) :
    (h = "P" ∧ β = [.var "P", .var "Q", .term ";"]) ∨ (h = "P" ∧ β = [.var "Q", .term ";"]) ∨
      (h = "Q" ∧ β = [.term "x"]) ∨ (h = "Q" ∧ β = [.term "(", .var "Q", .term ")"]) := by
  simpa [goodGrammar] using hr

/-- The grammar meets the hypotheses of the theorems for grammars without epsilon. -/
theorem goodGrammar_epsFree : EpsFree goodGrammar := by
  intro h β hr
  rcases goodGrammar_rule hr with ⟨_, rfl⟩ | ⟨_, rfl⟩ | ⟨_, rfl⟩ | ⟨_, rfl⟩ <;> decide

theorem goodGrammar_followed : Followed goodGrammar goodGrammar.start := ⟨"P", [], .var "Q", [.term ";"], by decide⟩

theorem goodGrammar_not_inside : ¬ Inside goodGrammar goodGrammar.start := by
  have h : ∀ v, Inside goodGrammar v → v = "Q" := by
    intro v hv
    induction hv with
    | @behind h v x pre post hr =>
      rcases goodGrammar_rule hr with ⟨_, hb⟩ | ⟨_, hb⟩ | ⟨_, hb⟩ | ⟨_, hb⟩ <;>
        simp only [List.cons.injEq] at hb <;> have hv := hb.2 <;>
        rcases pre with _ | ⟨a, _ | ⟨b, _ | ⟨c, pre⟩⟩⟩ <;> simp at hv
      · exact hv.1
      · exact hv.1
    | @front h v post hr _ ih =>
      subst ih
      rcases goodGrammar_rule hr with ⟨h, hb⟩ | ⟨h, hb⟩ | ⟨_, hb⟩ | ⟨_, hb⟩
      · exact absurd h (by decide)
      · exact absurd h (by decide)
      · simp at hb
      · simp at hb
  intro hi
  exact absurd (h _ hi) (by decide)

theorem goodGrammar_no_unit (v w : String) : ¬ UnitChain goodGrammar v w := by
  have h : ∀ h v, (h, [.var v]) ∉ goodGrammar.rules := by
    intro h v hr
    rcases goodGrammar_rule hr with ⟨_, hb⟩ | ⟨_, hb⟩ | ⟨_, hb⟩ | ⟨_, hb⟩ <;> simp at hb
  intro hc
  cases hc with
  | one hr => exact h _ _ hr
  | step hr _ => exact h _ _ hr

theorem goodGrammar_first : ∀ v β, (v, β) ∈ goodGrammar.rules → ∃ t, InFirst goodGrammar [.var v] (.term t) := by
  have hq : InFirst goodGrammar [.var "Q"] (.term "x") :=
    ⟨[], .step .refl (.rule (x := []) (y := []) (β := [.term "x"]) (by decide))⟩
  have hp : InFirst goodGrammar [.var "P"] (.term "x") :=
    ⟨[.term ";"], .step (.step .refl (.rule (x := []) (y := []) (β := [.var "Q", .term ";"]) (by decide)))
      (.rule (x := []) (y := [.term ";"]) (β := [.term "x"]) (by decide))⟩
  intro v β hr
  rcases goodGrammar_rule hr with ⟨rfl, _⟩ | ⟨rfl, _⟩ | ⟨rfl, _⟩ | ⟨rfl, _⟩
  · exact ⟨_, hp⟩
  · exact ⟨_, hp⟩
  · exact ⟨_, hq⟩
  · exact ⟨_, hq⟩

theorem goodGrammar_follow : ∀ v β, (v, β) ∈ goodGrammar.rules → ∃ t, InFollow goodGrammar v (.term t) := by
  have hq : InFollow goodGrammar "Q" (.term ";") :=
    ⟨"P", [], [], .step .refl (.rule (x := []) (y := []) (β := [.var "Q", .term ";"]) (by decide))⟩
  have hp : InFollow goodGrammar "P" (.term "x") :=
    ⟨"P", [], [.term ";"], .step (.step .refl (.rule (x := []) (y := []) (β := [.var "P", .var "Q", .term ";"]) (by decide)))
      (.rule (x := [.var "P"]) (y := [.term ";"]) (β := [.term "x"]) (by decide))⟩
  intro v β hr
  rcases goodGrammar_rule hr with ⟨rfl, _⟩ | ⟨rfl, _⟩ | ⟨rfl, _⟩ | ⟨rfl, _⟩
  · exact ⟨_, hp⟩
  · exact ⟨_, hp⟩
  · exact ⟨_, hq⟩
  · exact ⟨_, hq⟩

theorem goodGrammar_var : ∃ β v, (goodGrammar.start, β) ∈ goodGrammar.rules ∧ .var v ∈ β :=
  ⟨[.var "Q", .term ";"], "Q", by decide, by decide⟩

/-- `x ; ( x ) ;` is parsed. -/
example : parseTokens (tableOf goodGrammar) 100 ["x", ";", "(", "x", ")", ";"] = .ok (some (.mk (.var "P")
    [.mk (.term ";") [], .mk (.var "Q") [.mk (.term ")") [], .mk (.var "Q") [.mk (.term "x") []], .mk (.term "(") []],
      .mk (.var "P") [.mk (.term ";") [], .mk (.var "Q") [.mk (.term "x") []]]])) := by
  decide +kernel

/-- `c37_exact_partial` for `x ;`, whose tree ends in a token. -/
example : ∃ fuel, parseTokens (tableOf goodGrammar) fuel ["x", ";"] = .ok (some (.mk (.var "P")
    [.mk (.term ";") [], .mk (.var "Q") [.mk (.term "x") []]])) :=
  (c37_exact_partial goodGrammar_built goodGrammar_parser goodGrammar_epsFree goodGrammar_followed.surely
    goodGrammar_not_inside).2
    ⟨.var (β := [.var "Q", .term ";"]) (cs := [_, _]) (x := ["x", ";"]) (w := []) (by decide)
      (.var (β := [.term "x"]) (cs := [_]) (x := ["x"]) (by decide) (.term rfl .nil) (.term rfl .nil)) .nil, _, _, _, rfl⟩

/-- No input makes this parser panic, and it ends on every input. -/
example (input : List String) : ∃ fuel r, parseTokens (tableOf goodGrammar) fuel input = .ok r := by
  have h1 := c41_partial goodGrammar_built goodGrammar_parser goodGrammar_epsFree goodGrammar_first goodGrammar_follow
    goodGrammar_var ((2 * input.length + 1) * (goodGrammar.rules.length + 2) + 1) input
  have h2 := c40_partial goodGrammar_built goodGrammar_parser (fun v => goodGrammar_no_unit v v)
    (fun h hr => goodGrammar_epsFree _ _ hr (by simp)) input (Nat.lt_add_one _)
  generalize (2 * input.length + 1) * (goodGrammar.rules.length + 2) + 1 = n at h1 h2
  cases h : parseTokens (tableOf goodGrammar) n input with
  | ok r => exact ⟨n, r, h⟩
  | panic => exact absurd h h1
  | diverge => exact absurd h h2

/-- All parsers of this grammar do the same. -/
example (tbl : Table String String) (h : IsParser goodGrammar tbl) (fuel : Nat) (input : List String) :
    parseTokens tbl fuel input = parseTokens (tableOf goodGrammar) fuel input :=
  c42_equal_partial goodGrammar_built h goodGrammar_parser goodGrammar_epsFree goodGrammar_first goodGrammar_follow
    goodGrammar_var fuel input

/-- The sentences of this grammar have one tree each. -/
example (input : List String) (n m : Node String String) (hn : ParseTree goodGrammar n input)
    (hm : ParseTree goodGrammar m input) : n = m :=
  c46_partial goodGrammar_built goodGrammar_parser goodGrammar_epsFree (goodGrammar_no_unit _ _)
    (goodGrammar_follow _ [.var "Q", .term ";"] (by decide)) hn hm

/-- `c38_unused_partial` for `t`, in a grammar with an epsilon rule. -/
example : ∃ fuel, parseTokens (tableOf epsGrammar) fuel ["t"] = .ok (some (.mk (.var "S") [.mk (.term "t") []])) :=
  c38_unused_partial epsGrammar_built epsGrammar_parser (.inr (.inl ⟨"S", [], .var "A", [.term "t"], by decide⟩))
    (.var (β := [.term "t"]) (cs := [_]) (x := ["t"]) (w := []) (by decide) (.term rfl .nil) .nil) ⟨_, _, _, rfl⟩

/-- `c38_never_returned` for `t t`. -/
example (fuel : Nat) : parseTokens (tableOf epsGrammar) fuel ["t", "t"] ≠ .ok (some (.mk (.var "S") [.mk (.term "t") [],
    .mk (.var "A") [], .mk (.var "S") [.mk (.term "t") []]])) :=
  c38_never_returned epsGrammar_built epsGrammar_parser (by simp) epsGrammar_tree
    (.child (n := .mk (.var "A") []) (by simp) .here) fuel

/-- `S → S ε t | t`. -/
def midEps : Grammar String String := ⟨"S", [("S", [.var "S", .eps, .term "t"]), ("S", [.term "t"])]⟩

theorem midEps_built : Built midEps :=
  ⟨[.setStart "S", .addRules "S" [[.var "S", .eps, .term "t"], [.term "t"]]], by decide⟩

theorem midEps_parser : IsParser midEps (tableOf midEps) := ⟨100, .insertion, by decide +kernel⟩

/-- `c38_exact_partial` for `S → S ε t | t`: the tree of `t` is returned, that of `t t` uses the rule with epsilon and is
not, although no variable in it is empty. -/
example : (∃ fuel, parseTokens (tableOf midEps) fuel ["t"] = .ok (some (.mk (.var "S") [.mk (.term "t") []]))) ∧
    ∀ fuel, parseTokens (tableOf midEps) fuel ["t", "t"] ≠
      .ok (some (.mk (.var "S") [.mk (.term "t") [], .mk (.var "S") [.mk (.term "t") []]])) := by
  have hs : SurelyFollowed midEps midEps.start := .inr (.inl ⟨"S", [], .eps, [.term "t"], by decide⟩)
  constructor
  · exact (c38_exact_partial midEps_built midEps_parser hs (by simp)
      (.var (β := [.term "t"]) (cs := [_]) (x := ["t"]) (w := []) (by decide) (.term rfl .nil) .nil)).2
      ⟨.var (β := [.term "t"]) (cs := [_]) (x := ["t"]) (w := []) (by decide) (.term rfl .nil) .nil, _, _, _, rfl⟩
  · intro fuel h
    obtain ⟨h1, _⟩ := (c38_exact_partial midEps_built midEps_parser hs (by simp)
      (.var (β := [.var "S", .eps, .term "t"]) (cs := [_, _]) (x := ["t", "t"]) (w := []) (by decide)
        (.var (β := [.term "t"]) (cs := [_]) (x := ["t"]) (by decide) (.term rfl .nil) (.eps (.term rfl .nil))) .nil)).1
      ⟨fuel, h⟩
    obtain ⟨β, cs, hr, h2, h3⟩ := parseTree_iff.1 h1
    have h4 : β = [.term "t"] := by simpa [dropEps, midEps] using hr
    subst h4
    have h5 := congrArg List.length (Node.mk.inj h2).2
    have h6 : cs.length = 1 := forest_count h3
    simp [h6] at h5

/-- Without tokens the theorem does not hold: of `S → ε | S`, `X → S b` the node at the bottom of the stack is part of
the tree that is returned for the empty input. -/
example : (slrNew (⟨"S", [("S", [.eps]), ("S", [.var "S"]), ("X", [.var "S", .term "b"])]⟩ : Grammar String String)
    .insertion 100 >>= fun tbl => parseTokens tbl 10 []) = .ok (some (.mk (.var "S") [.mk (.var "S") []])) := by
  decide +kernel

/-- `c36_suffix_partial` and `c45_suffix_partial` for `( x`, which is accepted. -/
example : parseTokens (tableOf parens) 10 ["(", "x"] = .ok (some (.mk (.var "S") [.mk (.term "x") []])) :=
  parens_accepts

end Pango.Props
