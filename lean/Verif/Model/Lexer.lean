import Verif.Model.Nfa

/-!
# Lexer (`pango-lexer/src/lexer`)

`Lexer` is generic in the finite-state machine (`Fsm: Simulatable`); the model is generic in the same
way (`Machine`) and `nfaMachine` is the instance every `LexerGenerator` produces.
-/

namespace Pango.Lex

open Pango.Regex Pango.Fsm

/-- The methods of the simulator the lexer calls (fsm/traits.rs:5-43): `to_simulator`, `can_feed`,
`feed`, `is_accepting` and `get_current_final_states` (increasing order). -/
structure Machine (σ : Type) where
  start : Outcome σ
  canFeed : σ → Char → Outcome Bool
  feed : σ → Char → Outcome (σ × Bool)
  isAccepting : σ → Outcome Bool
  finals : σ → List Nat

/-- The NFA as a machine.  `fuel` bounds the epsilon closures.  The implementations of the traits at
fsm/nfa/sim.rs:117-220. -/
def nfaMachine [Unicode] (nfa : Nfa) (fuel : Nat) : Machine (List Run) where
  start := nfa.initRuns fuel
  canFeed := nfa.canFeed
  feed := nfa.feed fuel
  isAccepting := nfa.isAccepting
  finals := nfa.currentFinals

/-- `InputIter` with its `InputIterToken` (lexer/input.rs:7-24). -/
structure InputIter where
  iter : List (Nat × Char)
  source : List Char
  pos : Nat × Nat
  suffix : List (Nat × Char)
  prev : List (Nat × Char)
  deriving Repr, DecidableEq

/-- `InputIter::new` (lexer/input.rs:65-72). -/
def InputIter.new (input : List Char) : InputIter := ⟨enumFrom 0 input, [], (0, 0), [], []⟩

/-- `InputIter::next` (lexer/input.rs:50-60). -/
def InputIter.next (it : InputIter) : Option Char × InputIter :=
  match it.prev with
  | (pos, ch) :: r => (some ch, { it with prev := r, suffix := it.suffix ++ [(pos, ch)] })
  | [] =>
    match it.iter with
    | (pos, ch) :: r => (some ch, { it with iter := r, suffix := it.suffix ++ [(pos, ch)] })
    | [] => (none, it)

/-- `consume_token` (lexer/input.rs:76-87): the token that was built, and the iterator. -/
def InputIter.consumeToken (it : InputIter) : (List Char × (Nat × Nat)) × InputIter :=
  ((it.source, it.pos), { it with prev := it.suffix, suffix := [], source := [], pos := (it.pos.2, 0) })

/-- `accept_suffix` (lexer/input.rs:96-110). -/
def InputIter.acceptSuffix (it : InputIter) : InputIter :=
  { it with
    source := it.source ++ it.suffix.map Prod.snd
    suffix := []
    pos := (it.pos.1, (match it.suffix.getLast? with
      | some (pos, _) => pos
      | none => 0) + 1) }

/-- `Token` (lexer/mod.rs:41-49). -/
structure Tok (K : Type) where
  kind : K
  source : List Char
  pos : Nat × Nat
  deriving Repr, DecidableEq

/-- `BTreeMap<StateId, TokenKindGenerator<TokenKind>>` (lexer/mod.rs:22, 32-37): an association list.
Generators are functions of the source; a `Unit` generator ignores it.  `Model/Effects.lean` has generators with
side effects and panics (`FnMut`). -/
abbrev Generators (K : Type) := List (Nat × (List Char → K))

/-- `tokens.get_mut(&final_state)`.  lexer/mod.rs:98-101. -/
def Generators.get {K : Type} (gs : Generators K) (s : Nat) : Option (List Char → K) :=
  (gs.find? (fun g => g.1 == s)).map Prod.snd

variable {σ K : Type}

/-- `Token::from_input_iter_token(self.iter.consume_token(), token_kind)` (lexer/mod.rs:53-58,
76-78). -/
def takeToken (it : InputIter) (kind : K) : Tok K × InputIter :=
  let ((source, pos), it) := it.consumeToken
  (⟨kind, source, pos⟩, it)

/-- What is read and not consumed plus what is unread.  The fields `prev` and `iter` of lexer/input.rs:7-17; a measure,
not in the code. -/
def InputIter.pending (it : InputIter) : Nat := it.prev.length + it.iter.length

theorem InputIter.pending_next {it it' : InputIter} {c : Char} (h : it.next = (some c, it')) :
    it'.pending < it.pending := by
  unfold InputIter.next at h
  split at h
  · cases h; simp_all [InputIter.pending]
  · split at h
    · cases h; simp_all [InputIter.pending]
    · cases h

theorem InputIter.pending_accept (it : InputIter) : it.acceptSuffix.pending = it.pending := rfl

/-- The `while let` loop of `Lexer::next` and what follows it (lexer/mod.rs:72-119). -/
def lexLoop (m : Machine σ) (gs : Generators K) (sim : σ) (kind : Option K) (it : InputIter) :
    Outcome (Option (Tok K) × InputIter) :=
  match _h : it.next with
  | (some ch, it') =>
    match m.canFeed sim ch with
    | .ok false =>
      .ok (match kind with
        | some k => let (t, it) := takeToken it' k; (some t, it)
        | none => (none, it'))
    | .ok true =>
      match m.feed sim ch with
      | .ok (sim, true) =>
        match m.finals sim with
        | [] => .panic
        | f :: _ =>
          match gs.get f with
          | none => .panic
          | some gen => lexLoop m gs sim (some (gen it'.acceptSuffix.source)) it'.acceptSuffix
      | .ok (sim, false) => lexLoop m gs sim kind it'
      | .panic => .panic
      | .diverge => .diverge
    | .panic => .panic
    | .diverge => .diverge
  | (none, it') =>
    match m.isAccepting sim with
    | .ok true =>
      .ok (match kind with
        | some k => let (t, it) := takeToken it' k; (some t, it)
        | none => (none, it'))
    | .ok false => .ok (none, it')
    | .panic => .panic
    | .diverge => .diverge
termination_by it.pending
decreasing_by
  · rw [InputIter.pending_accept]; exact InputIter.pending_next _h
  · exact InputIter.pending_next _h

/-- `Lexer::next` (lexer/mod.rs:68-120). -/
def lexNext (m : Machine σ) (gs : Generators K) (it : InputIter) :
    Outcome (Option (Tok K) × InputIter) := do
  let sim ← m.start
  lexLoop m gs sim none it

/-- Repeated calls of `Lexer::next` until the first `None`, at most `n` of them: the tokens and the iterator at the
end.  `diverge` if no `None` came.  The `next` is that of lexer/mod.rs:68-120; the loop is that of a user, such as
pango-lexer/examples/ab.rs:23-25. -/
def lexAll (m : Machine σ) (gs : Generators K) : Nat → InputIter → Outcome (List (Tok K) × InputIter)
  | 0, _ => .diverge
  | n + 1, it => do
    match ← lexNext m gs it with
    | (none, it) => pure ([], it)
    | (some t, it) =>
      let (ts, it) ← lexAll m gs n it
      pure (t :: ts, it)

/-- `n` calls of `Lexer::next` in a row, whatever they return (lexer/mod.rs:68-120): the answers and the
iterator at the end. -/
def lexCalls (m : Machine σ) (gs : Generators K) :
    Nat → InputIter → Outcome (List (Option (Tok K)) × InputIter)
  | 0, it => .ok ([], it)
  | n + 1, it => do
    let (a, it) ← lexNext m gs it
    let (as, it) ← lexCalls m gs n it
    pure (a :: as, it)

/-- `LexerGenerator` (lexer/mod.rs:131-134). -/
structure LexerGenerator (K : Type) where
  compiler : Compiler
  tokens : Generators K

/-- `LexerGenerator::new` (lexer/mod.rs:137-149). -/
def LexerGenerator.new : LexerGenerator K := ⟨Compiler.new, []⟩

/-- `add_token` (lexer/mod.rs:212-226); `with_token`, `with_token_unit` and `with_token_map`
(161-205) only wrap it.  The key is a new state, so `insert` appends. -/
def LexerGenerator.addToken (p : Profile) (g : LexerGenerator K) (pattern : List Char)
    (gen : List Char → K) : Outcome (Except (List ParseError) (LexerGenerator K)) := do
  let (fin, c) := g.compiler.newFinal
  match ← parse p pattern with
  | .error es => pure (.error es)
  | .ok e =>
    let c ← c.addExpression e
    pure (.ok ⟨c, g.tokens ++ [(fin, gen)]⟩)

/-- Adding several tokens in order, stopping at the first error.  The calls of a user of lexer/mod.rs:161-227, joined
with `?`, as at pango-lexer/examples/ab.rs:13-21. -/
def LexerGenerator.addTokens (p : Profile) (g : LexerGenerator K) :
    List (List Char × (List Char → K)) → Outcome (Except (List ParseError) (LexerGenerator K))
  | [] => .ok (.ok g)
  | (pattern, gen) :: rules => do
    match ← g.addToken p pattern gen with
    | .error es => pure (.error es)
    | .ok g => g.addTokens p rules

/-- `Lexer` (lexer/mod.rs:12-23) without its input iterator. -/
structure Lexer (K : Type) where
  nfa : Nfa
  tokens : Generators K

/-- `tokenize` (lexer/mod.rs:229-236) without the input, which only creates the iterator. -/
def LexerGenerator.build (g : LexerGenerator K) : Outcome (Lexer K) := do
  let nfa ← g.compiler.nfa.build
  pure ⟨nfa, g.tokens⟩

/-- `Lexer::builder()`, one `with_token*` per rule, `tokenize`.  lexer/mod.rs:125-127, 161-227 and 229-236. -/
def buildLexer (p : Profile) (rules : List (List Char × (List Char → K))) :
    Outcome (Except (List ParseError) (Lexer K)) := do
  match ← (LexerGenerator.new : LexerGenerator K).addTokens p rules with
  | .error es => pure (.error es)
  | .ok g =>
    let l ← g.build
    pure (.ok l)

end Pango.Lex
