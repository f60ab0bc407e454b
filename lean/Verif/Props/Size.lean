import Verif.Props.Tokenizer
import Verif.Props.RegexParser
import Verif.Model.Lexer

/-!
# C78: the size of the automaton of a lexer
-/

namespace Pango.Props

open Pango Pango.Regex Pango.Fsm Pango.Lex Pango.Spec

/-- Specification: the number of transitions of an automaton, one for each state, input and destination. -/
def transitionCount (nfa : Nfa) : Nat := (nfa.states.map fun s => (s.transitions.map fun t => t.2.length).sum).sum

/-- Specification: the number of characters of the patterns, where an empty pattern counts as one. -/
def textSize {K : Type} (rules : List (List Char × (List Char → K))) : Nat :=
  (rules.map fun r => max 1 r.1.length).sum

/-! ## What compiling adds -/

mutual
/-- The states made for a tree. -/
def treeStates : Expr → Nat
  | .concat es => seqStates es
  | .empty => 0
  | .alt l r => treeStates l + treeStates r
  | .lit _ q => if q.isSome then 1 else 0
  | .group e q => treeStates e + if q.isSome then 1 else 0
/-- The states made for a sequence. -/
def seqStates : List Expr → Nat
  | [] => 0
  | [e] => treeStates e
  | e :: es => treeStates e + 1 + seqStates es
end

mutual
/-- The transitions made for a tree. -/
def treeEdges : Expr → Nat
  | .concat es => seqEdges es
  | .empty => 1
  | .alt l r => treeEdges l + treeEdges r
  | .lit _ q => if q.isSome then 3 else 1
  | .group e q => treeEdges e + if q.isSome then 2 else 0
/-- The transitions made for a sequence. -/
def seqEdges : List Expr → Nat
  | [] => 0
  | e :: es => treeEdges e + seqEdges es
end

theorem setInsert_length_le {α : Type} [DecidableEq α] (a : α) (l : List α) :
    (setInsert a l).length ≤ l.length + 1 := by
  unfold setInsert
  split <;> simp

theorem insertTransition_count (i : Input) (d : Nat) (l : List (Input × List Nat)) :
    ((insertTransition i d l).map fun t => t.2.length).sum ≤ (l.map fun t => t.2.length).sum + 1 := by
  induction l with
  | nil => simp [insertTransition]
  | cons t l ih =>
    obtain ⟨j, ds⟩ := t
    unfold insertTransition
    split
    · have := setInsert_length_le d ds
      simp only [List.map_cons, List.sum_cons]
      omega
    · simp only [List.map_cons, List.sum_cons]
      omega

theorem updateState_count {id : Nat} {i : Input} {d : Nat} : ∀ {l l' : List NState},
    updateState id (fun s => { s with transitions := insertTransition i d s.transitions }) l = some l' →
    l'.length = l.length ∧ (l'.map fun s => (s.transitions.map fun t => t.2.length).sum).sum ≤
      (l.map fun s => (s.transitions.map fun t => t.2.length).sum).sum + 1 := by
  intro l
  induction l with
  | nil => intro l' h; simp [updateState] at h
  | cons s l ih =>
    intro l' h
    unfold updateState at h
    split at h
    · cases h
      have := insertTransition_count i d s.transitions
      refine ⟨rfl, ?_⟩
      simp only [List.map_cons, List.sum_cons]
      omega
    · obtain ⟨l1, h1, rfl⟩ := Option.map_eq_some_iff.1 h
      obtain ⟨h2, h3⟩ := ih h1
      refine ⟨by simp [h2], ?_⟩
      simp only [List.map_cons, List.sum_cons]
      omega

/-- The automaton has grown by at most so many states and transitions. -/
def Within (nfa nfa' : Nfa) (states edges : Nat) : Prop :=
  nfa'.states.length ≤ nfa.states.length + states ∧ transitionCount nfa' ≤ transitionCount nfa + edges

theorem addTransition_within {nfa nfa' : Nfa} {s d : Nat} {i : Input} (h : nfa.addTransition s d i = .ok nfa') :
    Within nfa nfa' 0 1 := by
  unfold Nfa.addTransition at h
  split at h
  · rename_i l hl
    cases h
    obtain ⟨h1, h2⟩ := updateState_count hl
    exact ⟨by simp only; omega, h2⟩
  · cases h

theorem addState_within (nfa : Nfa) (fin : Bool) : Within nfa (nfa.addState fin).2 1 0 := by
  refine ⟨by simp [Nfa.addState], ?_⟩
  simp [transitionCount, Nfa.addState]

theorem Within.trans {a b c : Nfa} {n m n' m' : Nat} (h : Within a b n m) (h' : Within b c n' m') :
    Within a c (n + n') (m + m') :=
  ⟨by have := h.1; have := h'.1; omega, by have := h.2; have := h'.2; omega⟩

theorem Within.of_eq {a b : Nfa} {n m n' m' : Nat} (h : Within a b n m) (hn : n = n') (hm : m = m') :
    Within a b n' m' := hn ▸ hm ▸ h

theorem insertQuantifierState_within {nfa nfa' : Nfa} {q : Quant} {s d x : Nat}
    (h : insertQuantifierState nfa q s d = .ok (x, nfa')) : Within nfa nfa' 1 2 := by
  simp only [insertQuantifierState, Nfa.addQuantifiedState, Outcome.bind_eq_ok] at h
  obtain ⟨⟨x1, n1⟩, ⟨n2, h1, h2⟩, n3, h3, h4⟩ := h
  cases h2
  cases h4
  exact (((addState_within nfa false).trans (addTransition_within h1)).trans (addTransition_within h3))

mutual

theorem compileExpr_within : ∀ (e : Expr) {s t : Nat} {nfa nfa' : Nfa}, compileExpr e s t nfa = .ok nfa' →
    Within nfa nfa' (treeStates e) (treeEdges e)
  | .concat es, s, t, nfa, nfa', h => by
    rw [compileExpr] at h
    rw [treeStates, treeEdges]
    exact compileConcat_within es h
  | .empty, s, t, nfa, nfa', h => by
    rw [compileExpr] at h
    rw [treeStates, treeEdges]
    exact addTransition_within h
  | .alt l r, s, t, nfa, nfa', h => by
    rw [compileExpr, Outcome.bind_eq_ok] at h
    obtain ⟨n1, h1, h2⟩ := h
    rw [treeStates, treeEdges]
    exact (compileExpr_within l h1).trans (compileExpr_within r h2)
  | .lit l none, s, t, nfa, nfa', h => by
    rw [compileExpr] at h
    rw [treeStates, treeEdges]
    exact addTransition_within h
  | .lit l (some q), s, t, nfa, nfa', h => by
    rw [compileExpr, Outcome.bind_eq_ok] at h
    obtain ⟨⟨x, n1⟩, h1, h2⟩ := h
    rw [treeStates, treeEdges]
    exact (insertQuantifierState_within h1).trans (addTransition_within h2)
  | .group e none, s, t, nfa, nfa', h => by
    rw [compileExpr] at h
    rw [treeStates, treeEdges]
    exact compileExpr_within e h
  | .group e (some q), s, t, nfa, nfa', h => by
    rw [compileExpr, Outcome.bind_eq_ok] at h
    obtain ⟨⟨x, n1⟩, h1, h2⟩ := h
    rw [treeStates, treeEdges]
    exact ((insertQuantifierState_within h1).trans (compileExpr_within e h2)).of_eq
      (by simp; omega) (by simp; omega)

theorem compileConcat_within : ∀ (es : List Expr) {s t : Nat} {nfa nfa' : Nfa}, compileConcat es s t nfa = .ok nfa' →
    Within nfa nfa' (seqStates es) (seqEdges es)
  | [], s, t, nfa, nfa', h => by
    rw [compileConcat] at h
    cases h
  | [e], s, t, nfa, nfa', h => by
    rw [compileConcat] at h
    rw [seqStates, seqEdges, seqEdges]
    exact compileExpr_within e h
  | e :: e' :: es, s, t, nfa, nfa', h => by
    rw [compileConcat] at h
    · simp only [Outcome.bind_eq_ok] at h
      obtain ⟨n1, h1, h2⟩ := h
      rw [seqStates, seqEdges]
      · exact (((addState_within nfa false).trans (compileExpr_within e h1)).trans
          (compileConcat_within (e' :: es) h2)).of_eq (by omega) (by omega)
      · simp
    · simp

end

/-! ## The size of a tree -/

theorem optQuantifier_length {q : Option Quant} {ks : List TokenKind} (h : OptQuantifier q ks) :
    ks.length = if q.isSome then 1 else 0 := by
  cases h <;> rfl

theorem matchItem_length {r : Relaxed} {l : Lit} {ks : List TokenKind} (h : MatchItem r l ks) : 1 ≤ ks.length := by
  cases h <;> simp

theorem seqStates_cons (e : Expr) (es : List Expr) (h : es ≠ []) :
    seqStates (e :: es) = treeStates e + 1 + seqStates es := by
  cases es with
  | nil => exact absurd rfl h
  | cons e' es => rw [seqStates]; simp

theorem seqTree_states (es : List Expr) : treeStates (seqTree es) = seqStates es := by
  match es with
  | [] => rw [seqTree, treeStates]; simp
  | [e] => rw [seqTree, seqStates]
  | e :: e' :: es => rw [seqTree, treeStates]; simp

theorem seqTree_edges (es : List Expr) : treeEdges (seqTree es) = seqEdges es := by
  match es with
  | [] => rw [seqTree, treeEdges]; simp
  | [e] => rw [seqTree, seqEdges, seqEdges, Nat.add_zero]
  | e :: e' :: es => rw [seqTree, treeEdges]; simp

mutual

theorem expression_size {r : Relaxed} : ∀ {e : Expr} {ks : List TokenKind}, Expression r e ks →
    treeStates e ≤ ks.length - 1 ∧ 2 * treeEdges e ≤ 3 * ks.length
  | _, _, .sub h => by
    rw [seqTree_states, seqTree_edges]
    have := subExpression_size h
    exact ⟨this.1, this.2.1⟩
  | _, _, .alt h h' => by
    have h1 := subExpression_size h
    have h2 := expression_size h'
    rw [treeStates, treeEdges, seqTree_states, seqTree_edges]
    simp only [List.length_append, List.length_cons]
    omega

theorem subExpression_size {r : Relaxed} : ∀ {es : List Expr} {ks : List TokenKind}, SubExpression r es ks →
    seqStates es ≤ ks.length - 1 ∧ 2 * seqEdges es ≤ 3 * ks.length ∧ (es ≠ [] → 1 ≤ ks.length)
  | _, _, .none _ => by simp [seqStates, seqEdges]
  | _, _, .one h => by
    have h1 := item_size h
    rw [seqStates, seqEdges, seqEdges]
    exact ⟨by omega, by omega, fun _ => by omega⟩
  | _, _, @SubExpression.more _ e es ks ks' h h' => by
    have h1 := item_size h
    have h2 := subExpression_size h'
    rw [seqEdges]
    simp only [List.length_append]
    by_cases hes : es = []
    · subst hes
      rw [seqStates]
      exact ⟨by omega, by omega, fun _ => by omega⟩
    · rw [seqStates_cons e es hes]
      have := h2.2.2 hes
      exact ⟨by omega, by omega, fun _ => by omega⟩

theorem item_size {r : Relaxed} : ∀ {e : Expr} {ks : List TokenKind}, SubExpressionItem r e ks →
    treeStates e + 1 ≤ ks.length ∧ 2 * treeEdges e ≤ 3 * ks.length
  | _, _, .mtch hl hq => by
    have h1 := matchItem_length hl
    have h2 := optQuantifier_length hq
    rw [treeStates, treeEdges]
    simp only [List.length_append, h2]
    split <;> omega
  | _, _, .group h hq => by
    have h1 := expression_size h
    have h2 := optQuantifier_length hq
    rw [treeStates, treeEdges]
    simp only [List.length_append, List.length_cons, h2]
    split <;> omega

end

theorem tiles_length : ∀ {toks : List Token} {a b : Nat}, Tiles a b toks → a + toks.length ≤ b := by
  intro toks
  induction toks with
  | nil => intro a b h; simp only [Tiles] at h; simp; omega
  | cons t toks ih =>
    intro a b h
    simp only [Tiles] at h
    have := ih h.2.2
    simp only [List.length_cons]
    omega

theorem scan_length (p : Profile) (input : List Char) : (scan p input).toks.length ≤ input.length := by
  rcases c01_spans_tile_partial p input with ⟨_, h | ⟨init, last, h1, h2, h3, _⟩⟩ | ⟨_, m, h1, h2⟩
  · have := tiles_length h
    omega
  · have := tiles_length h2
    rw [h1, List.length_append, List.length_singleton]
    omega
  · have := tiles_length h2
    omega

theorem parse_size {p : Profile} {input : List Char} {e : Expr} (h : parse p input = .ok (.ok e)) :
    treeStates e + 1 ≤ max 1 input.length ∧ 2 * treeEdges e ≤ 3 * max 1 input.length := by
  obtain ⟨used, rest, h1, _, h2, _⟩ := c06_accepts_partial p input e h
  have h3 := scan_length p input
  have h4 : used.length ≤ input.length := by
    have := congrArg List.length h1
    simp only [Scan.kinds, List.length_map, List.length_append] at this
    omega
  rcases h2 with ⟨rfl, _⟩ | h2
  · rw [treeStates, treeEdges]
    omega
  · have := expression_size h2
    omega

/-! ## The lexer -/

theorem addTokens_within {K : Type} {p : Profile} : ∀ {rules : List (List Char × (List Char → K))}
    {g g' : LexerGenerator K}, g.addTokens p rules = .ok (.ok g') →
    g'.compiler.nfa.states.length ≤ g.compiler.nfa.states.length + textSize rules ∧
    2 * transitionCount g'.compiler.nfa ≤ 2 * transitionCount g.compiler.nfa + 3 * textSize rules := by
  intro rules
  induction rules with
  | nil =>
    intro g g' h
    simp only [LexerGenerator.addTokens, Outcome.ok.injEq, Except.ok.injEq] at h
    subst h
    exact ⟨by omega, by omega⟩
  | cons r rules ih =>
    intro g g' h
    obtain ⟨pattern, gen⟩ := r
    rw [LexerGenerator.addTokens, Outcome.bind_eq_ok] at h
    obtain ⟨x, h1, h2⟩ := h
    cases x with
    | error es => simp at h2
    | ok g1 =>
      simp only at h2
      obtain ⟨h3, h4⟩ := ih h2
      simp only [LexerGenerator.addToken, Compiler.newFinal, Outcome.bind_eq_ok] at h1
      obtain ⟨y, h5, h6⟩ := h1
      cases y with
      | error es => simp at h6
      | ok e =>
        simp only [Compiler.addExpression, Outcome.bind_eq_ok] at h6
        obtain ⟨c, ⟨nfa, h7, h8⟩, h9⟩ := h6
        cases h8
        cases h9
        obtain ⟨h10, h11⟩ := (addState_within g.compiler.nfa true).trans (compileExpr_within e h7)
        have h12 := parse_size h5
        simp only [textSize, List.map_cons, List.sum_cons] at h3 h4 ⊢
        omega

/-- C78.  The automaton of a lexer has at most two states more than the patterns have characters, and at most three
transitions for every two characters, where an empty pattern counts as one character.  In particular it does not
grow with the numbers in bounds. -/
theorem c78_size {K : Type} (p : Profile) (rules : List (List Char × (List Char → K))) (l : Lexer K)
    (h : buildLexer p rules = .ok (.ok l)) :
    l.nfa.states.length ≤ textSize rules + 2 ∧ 2 * transitionCount l.nfa ≤ 3 * textSize rules := by
  rw [buildLexer, Outcome.bind_eq_ok] at h
  obtain ⟨x, h1, h2⟩ := h
  cases x with
  | error es => simp at h2
  | ok g =>
    obtain ⟨h3, h4⟩ := addTokens_within h1
    simp only [LexerGenerator.build, Outcome.bind_eq_ok] at h2
    obtain ⟨l', ⟨nfa, h5, h6⟩, h7⟩ := h2
    cases h6
    cases h7
    have h8 : nfa = g.compiler.nfa := by
      unfold Nfa.build at h5
      dsimp only at h5
      split at h5
      · cases h5
      · split at h5
        · cases h5
        · cases h5
          rfl
    subst h8
    have h9 : transitionCount (LexerGenerator.new (K := K)).compiler.nfa = 0 := rfl
    have h10 : (LexerGenerator.new (K := K)).compiler.nfa.states.length = 2 := rfl
    simp only
    omega

/-- The automaton of a lexer has exactly so many states and transitions. -/
def hasSize (rules : List (List Char × (List Char → Nat))) (states transitions : Nat) : Bool :=
  match buildLexer .debug rules with
  | .ok (.ok l) => l.nfa.states.length == states && transitionCount l.nfa == transitions
  | _ => false

/-- The hypothesis is met, and the bound on the states is reached: `a*b+` and the empty pattern. -/
example : hasSize [("a*b+".toList, fun _ => 0), ([], fun _ => 1)] 7 7 = true ∧
    textSize (K := Nat) [("a*b+".toList, fun _ => 0), ([], fun _ => 1)] = 5 := by decide +kernel

/-- A large bound costs nothing. -/
example : hasSize [("a{4294967295}".toList, fun _ => 0)] 4 3 = true := by decide +kernel

end Pango.Props
