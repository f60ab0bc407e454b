import Verif.Spec.Asking
import Verif.Proofs.ParseEffects
import Verif.Props.ErrorAt
import Verif.Props.TextMachine

/-!
# C83: the parser asks for no token too many
-/

namespace Pango.Props

open Pango Pango.Lex Pango.Fsm Pango.Parse Pango.Spec

variable [Unicode] {V T W : Type} [DecidableEq V] [TerminalEq T] {tbl : Table V T}

/-- C83: `Slr::parse` calls `Lexer::next` as long as its result is not settled, and no longer; what the functions of the
user do in these calls is all that happens to the world, and the result is that of the tokens returned.  For all
tables, lexers and functions with effects, whatever they do. -/
theorem c83_on_demand (l : Lexer (Lex.Action W T)) (sim fuel : Nat) (input : List Char) (world : W)
    (outcome : Outcome (Option (Node V T) × W)) :
    parseTextE l tbl sim fuel input world = outcome ↔
      OnDemand (nfaMachine l.nfa sim) l.tokens tbl fuel (InputIter.new input) world outcome := by
  have hrun := lexParseLoopE_runs (m := nfaMachine l.nfa sim) (gs := l.tokens) (tbl := tbl) fuel none
    (InputIter.new input) [⟨.mk (.var tbl.start) [], 0⟩] 0 world
  constructor
  · rintro rfl
    unfold parseTextE
    revert hrun
    generalize lexParseLoopE (nfaMachine l.nfa sim) l.tokens tbl fuel none (InputIter.new input)
      [⟨.mk (.var tbl.start) [], 0⟩] 0 world = o
    intro hrun
    cases hrun with
    | settled h1 h2 h3 => exact .settled ⟨h1, h2⟩ h3
    | ended h1 h2 h3 h4 => exact .ended ⟨h1, h2⟩ h3 h4
    | panic h1 h2 h3 h4 => exact .panic ⟨h1, h2⟩ h3 h4
    | diverge h1 h2 h3 h4 => exact .diverge ⟨h1, h2⟩ h3 h4
  · intro h
    refine hrun.unique ?_
    cases h with
    | settled h1 h3 => exact .settled h1.1 h1.2 h3
    | ended h1 h3 h4 => exact .ended h1.1 h1.2 h3 h4
    | panic h1 h3 h4 => exact .panic h1.1 h1.2 h3 h4
    | diverge h1 h3 h4 => exact .diverge h1.1 h1.2 h3 h4

omit [Unicode] in
/-- After any tokens the parser either asks for another one or its result is settled. -/
theorem c83_or (fuel : Nat) (kinds : List T) :
    AsksAfter tbl fuel kinds ∧ (¬ ∃ result, Settles tbl fuel kinds result) ∨
      ¬ AsksAfter tbl fuel kinds ∧ ∃ result, Settles tbl fuel kinds result := by
  rcases loop_settled_or_asks (tbl := tbl) fuel kinds [⟨.mk (.var tbl.start) [], 0⟩] 0 with ⟨res, h⟩ | h
  · exact .inr ⟨fun ha => LoopAsks.not_settled ha res h, res, h⟩
  · exact .inl ⟨h, fun ⟨res, hr⟩ => LoopAsks.not_settled h res hr⟩

/-- C83 for functions without effects: the outcome is that of `Model/LexParse.lean`, and the world stays as it is. -/
theorem c83_pure (l : Lexer T) (sim fuel : Nat) (input : List Char) (world : W) :
    parseTextE ⟨l.nfa, l.tokens.map fun g => (g.1, fun source world => .ok (g.2 source, world))⟩ tbl sim fuel input world =
      withWorld world (parseText l tbl sim fuel input) :=
  lexParseLoopE_pure fuel none _ _ _ world

/-! ## Errors -/

/-- C83 at the level of the grammar: the functions are called up to the first token that cannot be right, and not after
it.  Here every variable has to be used and to stand for something, and there are no epsilons. -/
theorem c83_error [DecidableEq T] [LawfulTerminalEq T] {g : Grammar V T} (hg : Built g) (hp : IsParser g tbl)
    (ht : Trim g) (hprod : Productive g) (l : Lexer (Lex.Action W T)) {sim fuel : Nat} {input : List Char}
    {world world' : W} {toks : List (Tok T)} {last : Tok T} {it : InputIter}
    (hcalls : lexCallsE (nfaMachine l.nfa sim) l.tokens (toks ++ [last]).length (InputIter.new input) world =
      .ok (((toks ++ [last]).map some, it), world'))
    (hright : BeginsSentence g (toks.map Tok.kind)) (hwrong : ¬ BeginsSentence g ((toks ++ [last]).map Tok.kind))
    (hf : (2 * toks.length + 3) * (g.rules.length + 2) < fuel) :
    parseTextE l tbl sim fuel input world = .ok (none, world') := by
  have hlen : ∀ k : List T, k.length ≤ toks.length + 1 → (2 * k.length + 1) * (g.rules.length + 2) < fuel := fun k hk =>
    Nat.lt_of_le_of_lt (Nat.mul_le_mul_right _ (by omega)) hf
  refine (c83_on_demand l sim fuel input world _).2 (.settled (result := .ok none) ⟨hcalls, fun k hk => ?_⟩ ?_)
  · -- the tokens before the last one begin a sentence
    have hk' : k ≤ toks.length := by simp at hk; omega
    rw [List.take_append_of_le_length hk']
    have hb : BeginsSentence g ((toks.take k).map Tok.kind) := by
      obtain ⟨rest, n, hn⟩ := hright
      refine ⟨(toks.drop k).map Tok.kind ++ rest, n, ?_⟩
      rwa [← List.append_assoc, ← List.map_append, List.take_append_drop]
    rcases c83_or (tbl := tbl) fuel ((toks.take k).map Tok.kind) with h | ⟨_, res, h⟩
    · exact h.1
    · have h1 := h [] .diverge
      have h2 := h [] (.ok ())
      rw [List.append_nil] at h1 h2
      rw [(c63_exact_partial hg hp ht.epsFree ht.reachable hprod _).2 hb fuel] at h1
      rw [← h1] at h2
      refine absurd h2 (c40_reachable_partial hg hp ht.epsFree ht.reachable _ (hlen _ ?_))
      simp; omega
  · -- all of them do not
    have h0 := c63_trim_partial hg hp ht hprod hwrong (fuel := fuel) [] .diverge (by simp) (hlen _ (by simp))
    rcases c83_or (tbl := tbl) fuel ((toks ++ [last]).map Tok.kind) with h | ⟨_, res, h⟩
    · rw [List.append_nil, h.1.2] at h0
      cases h0
    · rw [h] at h0
      subst h0
      exact h

/-! ## Instances -/

/-- The lexer with the rules `x` and `;`, whose functions write down that they are called. -/
def notingSemis : Lexer (Lex.Action (List String) String) :=
  ⟨semis.nfa, semis.tokens.map fun g => (g.1, fun source log => .ok (g.2 source, log ++ [g.2 source]))⟩

/-- On `xx;x;` the second `x` is wrong: the functions are called for it and for the token before, and not for the other
three. -/
example : parseTextE notingSemis (tableOf goodGrammar) 10 35 "xx;x;".toList ["before"] =
    .ok (none, ["before", "x", "x"]) := by
  have hwrong : ¬ BeginsSentence goodGrammar (([⟨"x", ['x'], (0, 1)⟩] ++ [⟨"x", ['x'], (1, 2)⟩] : List (Tok String)).map
      Tok.kind) := by
    intro h
    have h1 := (c63_exact_partial goodGrammar_built goodGrammar_parser goodGrammar_epsFree goodGrammar_reachable
      goodGrammar_productive _).2 h 10
    exact absurd h1 (by decide +kernel)
  have hright : BeginsSentence goodGrammar (([⟨"x", ['x'], (0, 1)⟩] : List (Tok String)).map Tok.kind) :=
    ⟨[";"], _, .var (β := [.var "Q", .term ";"]) (x := ["x", ";"]) (w := []) (by simp [goodGrammar])
      (.var (β := [.term "x"]) (x := ["x"]) (w := [";"]) (by simp [goodGrammar]) (.term rfl .nil) (.term rfl .nil)) .nil⟩
  exact c83_error goodGrammar_built goodGrammar_parser goodGrammar_trim goodGrammar_productive notingSemis
    (toks := [⟨"x", ['x'], (0, 1)⟩]) (last := ⟨"x", ['x'], (1, 2)⟩) (by with_unfolding_all rfl) hright hwrong
    (by simp [goodGrammar])

/-- On `x;` all calls are made, also the one that returns `None`. -/
example : parseTextE notingSemis (tableOf goodGrammar) 10 35 "x;".toList [] =
    .ok (some (.mk (.var "P") [.mk (.term ";") [], .mk (.var "Q") [.mk (.term "x") []]]), ["x", ";"]) := by
  have h1 : parseTokens (tableOf goodGrammar) 35 ["x", ";"] =
      .ok (some (.mk (.var "P") [.mk (.term ";") [], .mk (.var "Q") [.mk (.term "x") []]])) := by decide +kernel
  have h2 := (c83_on_demand (tbl := tableOf goodGrammar) notingSemis 10 35 "x;".toList [] _).2
    (.ended (toks := [⟨"x", ['x'], (0, 1)⟩, ⟨";", [';'], (1, 2)⟩]) (it' := ⟨[], [], (2, 0), [], []⟩)
      (it'' := ⟨[], [], (2, 0), [], []⟩) (world' := ["x", ";"]) (world'' := ["x", ";"])
      ⟨by with_unfolding_all rfl, fun k hk => ?_⟩ ⟨by decide +kernel, by decide +kernel⟩ (by with_unfolding_all rfl))
  · rw [h2]
    simp only [List.map_cons, List.map_nil, h1, withWorld]
  · simp at hk
    match k, hk with
    | 0, _ => exact ⟨by decide +kernel, by decide +kernel⟩
    | 1, _ => exact ⟨by decide +kernel, by decide +kernel⟩

end Pango.Props
