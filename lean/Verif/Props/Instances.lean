import Verif.Props.Orders
import Verif.Props.EndMarker
import Verif.Props.Reads
import Verif.Props.FirstWork
import Verif.Props.Rewrite
import Verif.Props.Lossless
import Verif.Props.StaysEnded
import Verif.Props.Pointers
import Verif.Props.Blowup
import Verif.Props.Panics
import Verif.Props.Dot
import Verif.Props.NfaDot
import Verif.Props.Escapes
import Verif.Props.RegexError
import Verif.Props.RuleOrder
import Verif.Props.TextMachine
import Verif.Props.PeekIter
import Verif.Props.StackSize

/-!
# Concrete cases

Theorems applied to concrete grammars, lexers and patterns, where the theorem stands before the case in its own file.
-/

namespace Pango.Props

section Grammars

open Pango Pango.Parse Pango.Spec

/-! ## C32, C35, C42: building -/

/-- The automaton of a grammar with an empty rule can be built. -/
example : ∃ bound, ∀ fuel ≥ bound, ∀ ord : HashOrder, ∃ c, Cfsm.fromGrammar exampleGrammar ord fuel = .ok c ∧
    c.states.map CState.id = List.range c.states.length := by
  obtain ⟨bound, h⟩ := c32_construction exampleGrammar_built
  exact ⟨bound, fun fuel hf ord => (h fuel hf ord).imp fun c hc => ⟨hc.1, hc.2.2.2.1⟩⟩

/-- No two actions clash in `goodGrammar`, as it has a parser. -/
example : ¬ ∃ γ t t' a a', teq t t' = true ∧ SlrAction goodGrammar γ (some t) a ∧
    SlrAction goodGrammar γ (some t') a' ∧ a ≠ a' := by
  obtain ⟨fuel, ord, h⟩ := goodGrammar_parser
  exact c35_no_conflict_partial goodGrammar_built fuel ord _ h

/-- Neither does it need two entries for the same terminal. -/
example : ∃ accepts : Prop, ∀ γ p p' k k', Needs goodGrammar accepts γ p k → Needs goodGrammar accepts γ p' k' →
    keyEq k k' = true → p = p' ∧ k = k' := by
  obtain ⟨bound, h⟩ := c35_exact_partial goodGrammar_built
  obtain ⟨fuel, ord, hn⟩ := goodGrammar_parser
  obtain ⟨accepts, _, _, _, h1⟩ := h (max bound fuel) (Nat.le_max_left _ _) ord
  exact ⟨accepts, h1.1 ⟨_, (slrNew_mono (Nat.le_max_right _ _)).ok hn⟩⟩

/-- `goodGrammar` has a parser for all iteration orders. -/
example : ∃ bound, ∀ fuel ≥ bound, ∀ ord : HashOrder, ∃ tbl, slrNew goodGrammar ord fuel = .ok tbl := by
  obtain ⟨bound, h⟩ := c42_construction_partial goodGrammar_built (.inl goodGrammar_followed.surely)
  obtain ⟨n, ord, hn⟩ := goodGrammar_parser
  exact ⟨max bound n, fun fuel hf ord' => h fuel (by omega) ord ord'
    ⟨_, (slrNew_mono (by omega)).ok hn⟩⟩

/-- All parsers of `goodGrammar` do the same. -/
example (tbl : Table String String) (hp : IsParser goodGrammar tbl) (fuel : Nat) (input : List String) :
    SameButPanic (parseTokens (tableOf goodGrammar) fuel input) (parseTokens tbl fuel input) :=
  c42_same_partial goodGrammar_built goodGrammar_parser hp (.inl goodGrammar_followed.surely) fuel input

/-- In some order the parser of `goodGrammar` accepts behind the start variable, if its table then has no two entries
for one place, and otherwise there is none. -/
example : ∃ bound, ∃ ord : HashOrder, ∀ fuel ≥ bound,
    (Fits goodGrammar True ∧ ∃ tbl, slrNew goodGrammar ord fuel = .ok tbl ∧ Agrees goodGrammar tbl True) ∨
    (¬ Fits goodGrammar True ∧ slrNew goodGrammar ord fuel = .panic) :=
  c42_machines goodGrammar_built True (fun _ => .behind goodGrammar_followed) fun h => absurd trivial h

/-! ## C36, C37, C45, C46: trees -/

/-- The tree of `x ;`. -/
def smallTree : Node String String := .mk (.var "P") [.mk (.term ";") [], .mk (.var "Q") [.mk (.term "x") []]]

theorem smallTree_tree : ParseTree goodGrammar smallTree ["x", ";"] :=
  .var (β := [.var "Q", .term ";"]) (cs := [_, _]) (x := ["x", ";"]) (w := []) (by decide)
    (.var (β := [.term "x"]) (cs := [_]) (x := ["x"]) (by decide) (.term rfl .nil) (.term rfl .nil)) .nil

theorem smallTree_parsed : parseTokens (tableOf goodGrammar) 20 ["x", ";"] = .ok (some smallTree) := by decide +kernel

theorem smallTree_ends : EndsInToken smallTree := ⟨_, _, _, rfl⟩

/-- `goodGrammar` without its rules with epsilon, of which it has none. -/
theorem smallTree_dropEps : ParseTree (dropEps goodGrammar) smallTree ["x", ";"] :=
  .var (β := [.var "Q", .term ";"]) (cs := [_, _]) (x := ["x", ";"]) (w := []) (by decide)
    (.var (β := [.term "x"]) (cs := [_]) (x := ["x"]) (by decide) (.term rfl .nil) (.term rfl .nil)) .nil

example : ∃ skipped w, ["x", ";"] = skipped ++ w ∧ ParseTree goodGrammar smallTree w :=
  c36_suffix_partial goodGrammar_built goodGrammar_parser goodGrammar_epsFree smallTree_parsed

example : ParseTree goodGrammar smallTree ["x", ";"] :=
  c36_whole_partial goodGrammar_built goodGrammar_parser goodGrammar_epsFree goodGrammar_not_inside smallTree_parsed

/-- `( x` is accepted by the parser of `S → ( S ) | x`, with the tree of its end. -/
example : ∃ n, (∃ skipped w, ["(", "x"] = skipped ++ w ∧ ParseTree parens n w) ∧ tokens n ≠ ["(", "x"] :=
  ⟨_, c36_suffix_partial parens_built parens_parser parens_epsFree parens_accepts, by decide⟩

example : ∃ bound, ∀ fuel ≥ bound, parseTokens (tableOf goodGrammar) fuel ["x", ";"] = .ok (some smallTree) :=
  c37_partial goodGrammar_built goodGrammar_parser goodGrammar_followed.surely smallTree_dropEps smallTree_ends

example : ∃ fuel, parseTokens (tableOf goodGrammar) fuel ["x", ";"] = .ok (some smallTree) :=
  (c37_all_partial goodGrammar_built goodGrammar_parser goodGrammar_epsFree goodGrammar_followed.surely).2
    ⟨[], [], [], _, rfl, smallTree_tree, smallTree_ends, .nil, .inl rfl⟩

/-- The returned trees of `goodGrammar` are parse trees, so nothing can stand in front of its start variable. -/
example : ¬ StartsLater goodGrammar := fun h =>
  (c36_exact_partial goodGrammar_built goodGrammar_parser goodGrammar_epsFree goodGrammar_followed.surely).1
    (fun _ _ _ hn => c36_whole_partial goodGrammar_built goodGrammar_parser goodGrammar_epsFree goodGrammar_not_inside hn)
    ⟨h, _, _, smallTree_tree, smallTree_ends⟩

/-- And their leaves are the input. -/
example (fuel : Nat) (input : List String) (n : Node String String)
    (h : parseTokens (tableOf goodGrammar) fuel input = .ok (some n)) : tokens n = input :=
  (c45_exact_partial goodGrammar_built goodGrammar_parser goodGrammar_epsFree goodGrammar_followed.surely).2
    (fun hl => (c36_exact_partial goodGrammar_built goodGrammar_parser goodGrammar_epsFree goodGrammar_followed.surely).1
      (fun _ _ _ hn => c36_whole_partial goodGrammar_built goodGrammar_parser goodGrammar_epsFree goodGrammar_not_inside hn)
      hl) fuel input n h

/-- Not all trees of `S → S ; A | A`, `A → x` are returned, as `x` ends in `A`. -/
example : ¬ ∀ input n, ParseTree listGrammar n input →
    ∃ fuel, parseTokens (tableOf listGrammar) fuel input = .ok (some n) := by
  intro h
  have hs : SurelyFollowed listGrammar listGrammar.start :=
    Followed.surely ⟨"S", [], .term ";", [.var "A"], by decide⟩
  obtain ⟨_, _, _, he⟩ := (c37_iff_partial listGrammar_built listGrammar_parser list_epsFree hs).1 h ["x"]
    (.mk (.var "S") [.mk (.var "A") [.mk (.term "x") []]])
    (.var (β := [.var "A"]) (cs := [_]) (x := ["x"]) (w := []) (by decide)
      (.var (β := [.term "x"]) (cs := [_]) (x := ["x"]) (w := []) (by decide) (.term rfl .nil) .nil) .nil)
  simp at he

example : ∃ skipped, ["x", ";"] = skipped ++ tokens smallTree :=
  c45_suffix_partial goodGrammar_built goodGrammar_parser smallTree_parsed

example : tokens smallTree = ["x", ";"] :=
  c45_whole_partial goodGrammar_built goodGrammar_parser goodGrammar_epsFree goodGrammar_not_inside smallTree_parsed

example (n : Node String String) (h : ParseTree (dropEps goodGrammar) n ["x", ";"]) (hn : EndsInToken n) :
    n = smallTree :=
  c46_token_partial goodGrammar_built goodGrammar_parser goodGrammar_followed.surely h smallTree_dropEps hn smallTree_ends

/-! ## C39, C41, C56, C59, C63, C75, C77, C81, C82, C86 -/

/-- `S → a d | c` accepts nothing. -/
example (fuel : Nat) (input : List String) (n : Node String String) :
    parseTokens (tableOf deadEnd) fuel input ≠ .ok (some n) :=
  c39_nothing_accepted deadEnd_built deadEnd_parser (by rintro ⟨h, β, hr, hv⟩; revert hv; simp [deadEnd] at hr; rcases hr with ⟨_, rfl⟩ | ⟨_, rfl⟩ <;> simp [deadEnd]) fuel input n

/-- What breaks when the parser of `S → a S | b` panics on `a b`. -/
example : ∃ accepts, Agrees rightRec (tableOf rightRec) accepts ∧ ∃ k < 10, ∃ x : Config String String,
    ShiftReduces rightRec k (.start ["a", "b"]) x := by
  obtain ⟨accepts, h1, k, hk, x, h2, _⟩ := c41_panics_partial (fuel := 10) (input := ["a", "b"]) rightRec_built
    rightRec_parser (by decide +kernel)
  exact ⟨accepts, h1, k, hk, x, h2⟩

/-- The same rules in the other order. -/
def goodGrammarTurned : Grammar String String :=
  ⟨"P", [("Q", [.term "(", .var "Q", .term ")"]), ("Q", [.term "x"]), ("P", [.var "Q", .term ";"]),
    ("P", [.var "P", .var "Q", .term ";"])]⟩

example : ∃ tbl, IsParser goodGrammarTurned tbl ∧ ∀ fuel input,
    SameButPanic (parseTokens (tableOf goodGrammar) fuel input) (parseTokens tbl fuel input) :=
  c59_order_partial goodGrammar_built
    ⟨[.setStart "P", .addRules "Q" [[.term "(", .var "Q", .term ")"], [.term "x"]],
      .addRules "P" [[.var "Q", .term ";"], [.var "P", .var "Q", .term ";"]]], by decide⟩ rfl
    (by intro r; simp only [goodGrammar, goodGrammarTurned, List.mem_cons, List.not_mem_nil, or_false]; grind)
    goodGrammar_parser

/-- After `x x` the parser of `goodGrammar` stops, whatever follows. -/
example (more : List String) : parseTokens (tableOf goodGrammar) 31 (["x", "x"] ++ more) = .ok none ∨
    parseTokens (tableOf goodGrammar) 31 (["x", "x"] ++ more) = .panic :=
  c63_partial goodGrammar_built goodGrammar_parser goodGrammar_epsFree goodGrammar_reachable goodGrammar_productive
    goodGrammar_no_xx more (.ok ()) (by decide)

/-- The memory of `goodGrammar` with something else in it: the table can be built, and no parse reads anything else. -/
example (fuel : Nat) (input : List String) (fin : InputEnd) :
    slrTableP (layOut goodGrammar) (addresses goodGrammar) (fun _ s => firstPlace goodGrammar s) .insertion .reversed 100
      ≠ .fault ∧ parseTokensP (layOut goodGrammar) 4 goodTableP fuel input fin ≠ .fault := by
  have hl := layOut_lies (g := goodGrammar)
  have hf := layOut_places (g := goodGrammar)
  refine ⟨(c75_build goodGrammar_built hl hf (fun _ _ h => h) .insertion .reversed 100).1, ?_⟩
  exact c75_no_fault goodGrammar_built hl hf (fun _ _ h => h) .insertion .reversed 100 goodTableP_eq (fun _ _ h => h) rfl
    fuel input fin

/-- The bound for the automaton of `S → a S | b`, with one item set per state and three symbols. -/
example : rightRecursiveCfsm.states.length ≤ (3 + 1) ^ (2 * rightRecursiveCfsm.states.length) := by
  have h := c77_bound_partial rightRecursive_built rightRecursive_cfsm
    (sets := rightRecursiveCfsm.states.map CState.items)
    (fun s hs => ⟨_, List.mem_map.2 ⟨s, hs, rfl⟩, fun _ => Iff.rfl⟩) (symbols := [Sym.term "a", .var "S", .term "b"])
    (by
      intro v β hr x hx
      simp only [rightRecursive, List.mem_cons, Prod.mk.injEq, List.not_mem_nil, or_false] at hr
      rcases hr with ⟨_, rfl⟩ | ⟨_, rfl⟩ <;> simp at hx ⊢ <;> grind)
  simpa using h

/-- The number of bodies for `exampleGrammar` is 11 with any larger number of iterations. -/
example (more : Nat) (hm : 50 ≤ more) : exampleGrammar.followCount .reversed more = 11 := by
  have h : exampleGrammar.followSet .reversed 50 = .ok [("B", [.term "b", .term "c"]), ("S", [.term "b", .term "c"]),
      ("A", [.term "c"])] := by decide
  rw [c81_final exampleGrammar .reversed 50 _ h more hm]
  decide +kernel

/-- The stack on `x ; x ;` holds at most five nodes. -/
example (fuel : Nat) (rest : List String) (stack : List (ParseNode String String))
    (h : (rest, stack) ∈ parseStacks (tableOf goodGrammar) fuel ["x", ";", "x", ";"]) : stack.length ≤ 5 := by
  have := c82_height goodGrammar_built goodGrammar_parser h
  simp at this
  omega

/-- The calls for `listWithEnd`, and what its parser accepts. -/
example : (runCalls [.setStart "S", .addRules "S" [[.var "S", .term ";", .var "A"], [.var "A"]],
      .addRules "A" [[.term "x"]], .setStart "Z", .addRules "Z" [[.var "S", .term "$"], [.var "Z", .term "#"]]]).build =
    .ok (Spec.withEnd listGrammar "Z" "$" "#") := by
  have h := c86_build (z := "Z") (e := "$") (f := "#") (g := listGrammar)
    (calls := [.setStart "S", .addRules "S" [[.var "S", .term ";", .var "A"], [.var "A"]], .addRules "A" [[.term "x"]]])
    (by decide) (by simp [listGrammar])
  exact h

example (n : Node String String) : (∃ fuel, parseTokens (tableOf listWithEnd) fuel ["x", "$"] = .ok (some n)) ↔
    ∃ w e' m, ["x", "$"] = w ++ [e'] ∧ teq "$" e' = true ∧ ParseTree listGrammar m w ∧
      n = .mk (.var "Z") [.mk (.term e') [], m] :=
  c86_accepts listGrammar_built list_epsFree list_notIn listWithEnd_parser (by simp; decide)

/-- More rules that cannot be reached change nothing. -/
example : (∃ bound, ∀ fuel ≥ bound, ∀ ord ord' : HashOrder,
      (∃ tbl, slrNew sums ord fuel = .ok tbl) ↔ ∃ tbl, slrNew sumsAndU ord' fuel = .ok tbl) ∧
    (∀ fuel input r, parseTokens (tableOf sums) fuel input = .ok r →
      parseTokens (tableOf sumsAndU) fuel input = .ok r ∨ parseTokens (tableOf sumsAndU) fuel input = .panic) ∧
    ∃ tbl', IsParser sumsAndU tbl' ∧ ∀ fuel input,
      SameButPanic (parseTokens (tableOf sums) fuel input) (parseTokens tbl' fuel input) := by
  have hg : Built sums := ⟨[.setStart "S", .addRules "S" [[.var "S", .term "+", .term "n"], [.term "n"]]], by decide⟩
  have hg' : Built sumsAndU := ⟨[.setStart "S", .addRules "U" [[.term "(", .var "U", .term ")"]],
    .addRules "S" [[.term "n"]], .addRules "U" [[.term "x"]], .addRules "S" [[.var "S", .term "+", .term "n"]]],
    by decide⟩
  have hs : SurelyFollowed sums sums.start := Followed.surely ⟨"S", [], .term "+", [.term "n"], by decide⟩
  obtain ⟨hf, hd⟩ := c59_separate_partial sums_same sums_separate sumsAndU_separate (.inl hs)
  have hp : IsParser sums (tableOf sums) := ⟨100, .insertion, by decide +kernel⟩
  have hp' : IsParser sumsAndU (tableOf sumsAndU) := ⟨100, .insertion, by decide +kernel⟩
  exact ⟨c59_construction_partial hg hg' sums_same hf hd,
    fun _ _ _ hr => c59_result_partial hg hg' sums_same hf hd hp hp' hr,
    c59_orders_partial hg hg' sums_same hf (fun _ => hs)
      (fun _ => .behind ⟨"S", [], .term "+", [.term "n"], by decide⟩) hp⟩

end Grammars

section Lexers

open Pango Pango.Lex Pango.Spec Pango.Parse
open Pango.Regex (Expr)

variable [Unicode]

/-! ## C18, C23, C66, C80: lexers -/

/-- The tokens of `words` are those of maximal munch. -/
example (input : List Char) (ts : List (Tok Nat)) (h : Tokens words input ts) :
    IsTokenization (taken wordsTrees) [("a+".toList, List.length), ("=".toList, fun _ => 100),
      ("==".toList, fun _ => 200)] input ts :=
  (c23_exact_partial _ _ _ _ words_for).2 words_ahead input ts h

/-- The rules `a` and `abc` lose nothing, although they put back. -/
example (input : List Char) (ts : List (Tok Nat)) (h : Tokens early input ts) :
    (ts.map Tok.source).flatten ++ input.drop (endOf 0 ts) = input :=
  (c18_lossless_partial early_for early_lossless input ts h).2

example (input : List Char) (ts us : List (Tok Nat)) (h : FirstTokens early input ts)
    (hu : Tokens early (input.drop (endOf 0 ts)) us) : Tokens early input (ts ++ us.map (later (endOf 0 ts))) :=
  c66_lossless_join_partial early_for early_lossless input ts us h hu

example (input : List Char) (ts us : List (Tok Nat)) (h : FirstTokens words input ts)
    (hu : Tokens words (input.drop (endOf 0 ts)) us) : Tokens words input (ts ++ us.map (later (endOf 0 ts))) :=
  c66_join_partial words_for words_kept input ts us h hu

/-- A lexer that puts nothing back puts back at most no character. -/
example (input : List Char) (as : List (Option (Tok Nat))) (n : Nat) (h : CallsRead words input as n) :
    n ≤ 2 * input.length :=
  c80_kept_partial words_for words_kept input as n h

/-! ## C44, C49: parsing text -/

/-- What is behind the last token of `x;?` matches no pattern. -/
example : ∃ ts rest, Tokens semis "x;?".toList ts ∧ (ts.map Tok.source).flatten ++ rest = "x;?".toList ∧
    NoMatch (languages semisTrees) rest := by
  obtain ⟨ts, rest, h1, h2, h3, _⟩ := c44_rest_partial goodGrammar_built goodGrammar_parser semis_for
    (literals_regular semis_literals) (literals_oneLookahead semis_literals) semis_parses
  exact ⟨ts, rest, h1, h2, h3⟩

example : ∃ ts, Tokens semis "x;?".toList ts ∧ ∃ fuel,
    parseTokens (tableOf goodGrammar) fuel (ts.map Tok.kind) = .ok (some smallTree) :=
  c44_tokens_partial goodGrammar_built goodGrammar_parser semis semis_parses

example : ∃ ts rest, Tokens semis "x;?".toList ts ∧ (ts.map Tok.source).flatten ++ rest = "x;?".toList ∧
    NoMatch (taken semisTrees) rest := by
  obtain ⟨ts, rest, h1, h2, h3, _⟩ := c44_ahead_partial goodGrammar_built goodGrammar_parser semis_for
    (looksOneAhead_of semis_for (literals_regular semis_literals) (literals_oneLookahead semis_literals)) semis_parses
  exact ⟨ts, rest, h1, h2, h3⟩

/-- Parsing text with `goodGrammar` never panics. -/
example (input : List Char) : ¬ Panics semis (tableOf goodGrammar) input :=
  (c49_trim_partial goodGrammar_built goodGrammar_parser goodGrammar_trim semis_for input).1

end Lexers

end Pango.Props
