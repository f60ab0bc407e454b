import Verif.Props.Bar
import Verif.Spec.Kinds

/-!
# C95: the functions of the rules decide the kinds of tokens, and nothing else
-/

namespace Pango.Props

open Pango Pango.Lex Pango.Fsm Pango.Regex Pango.Spec

variable {K K' : Type} {p : Profile}

/-- What comes of building: an automaton, an error, a panic. -/
def outcomeOf (r : Outcome (Except (List ParseError) (Lexer K))) : Outcome (Except (List ParseError) Nfa) :=
  match r with
  | .ok (.ok l) => .ok (.ok l.nfa)
  | .ok (.error es) => .ok (.error es)
  | .panic => .panic
  | .diverge => .diverge

theorem addTokens_compiler {rules : List (List Char × (List Char → K))} {rules' : List (List Char × (List Char → K'))}
    (h : rules.map Prod.fst = rules'.map Prod.fst) (g : LexerGenerator K) (g' : LexerGenerator K')
    (hg : g.compiler = g'.compiler) :
    (∃ r r', g.addTokens p rules = .ok (.ok r) ∧ g'.addTokens p rules' = .ok (.ok r') ∧ r.compiler = r'.compiler) ∨
    (∃ es, g.addTokens p rules = .ok (.error es) ∧ g'.addTokens p rules' = .ok (.error es)) ∨
    (g.addTokens p rules = .panic ∧ g'.addTokens p rules' = .panic) ∨
    (g.addTokens p rules = .diverge ∧ g'.addTokens p rules' = .diverge) := by
  induction rules generalizing rules' g g' with
  | nil =>
    cases rules' with
    | nil => exact .inl ⟨g, g', rfl, rfl, hg⟩
    | cons r rs => cases h
  | cons r rs ih =>
    cases rules' with
    | nil => cases h
    | cons r' rs' =>
      obtain ⟨a, f⟩ := r
      obtain ⟨a', f'⟩ := r'
      simp only [List.map_cons, List.cons.injEq] at h
      obtain ⟨rfl, h⟩ := h
      simp only [LexerGenerator.addTokens, LexerGenerator.addToken, hg]
      generalize g'.compiler.newFinal = fc
      obtain ⟨fin, c⟩ := fc
      simp only
      cases hp : parse p a with
      | panic => exact .inr (.inr (.inl ⟨rfl, rfl⟩))
      | diverge => exact .inr (.inr (.inr ⟨rfl, rfl⟩))
      | ok r =>
        cases r with
        | error es => exact .inr (.inl ⟨es, rfl, rfl⟩)
        | ok e =>
          cases hc : c.addExpression e with
          | panic => exact .inr (.inr (.inl ⟨by simp [bind, Outcome.bind, hc], by simp [bind, Outcome.bind, hc]⟩))
          | diverge => exact .inr (.inr (.inr ⟨by simp [bind, Outcome.bind, hc], by simp [bind, Outcome.bind, hc]⟩))
          | ok c' =>
            simp only [bind, Outcome.bind, hc, pure]
            exact ih h _ _ rfl

/-- Whether a lexer is built depends only on the patterns, and so do the errors and the automaton. -/
theorem c95_built (rules : List (List Char × (List Char → K))) (rules' : List (List Char × (List Char → K')))
    (h : rules.map Prod.fst = rules'.map Prod.fst) :
    outcomeOf (buildLexer p rules) = outcomeOf (buildLexer p rules') := by
  rcases addTokens_compiler (p := p) h .new .new rfl with
    ⟨r, r', h1, h2, h3⟩ | ⟨es, h1, h2⟩ | ⟨h1, h2⟩ | ⟨h1, h2⟩
  · simp only [buildLexer, LexerGenerator.build, h1, h2, bind, Outcome.bind, h3]
    cases r'.compiler.nfa.build <;> rfl
  all_goals simp [buildLexer, h1, h2, bind, Outcome.bind, outcomeOf, pure]

variable [Unicode]

omit [Unicode] in
theorem call_kinds {rules : List (List Char × (List Char → K))} {rules' : List (List Char × (List Char → K'))}
    (h : rules.map Prod.fst = rules'.map Prod.fst) {ms : List (List Char → Prop)} {Live : List Char → Prop}
    {sc sc' : Scanner} {a : Option (Tok K)} (hc : Call ms Live (kindAt rules) sc a sc') :
    ∃ a', Call ms Live (kindAt rules') sc a' sc' ∧ SameButKind rules rules' a a' := by
  have other : ∀ {i src k}, kindAt rules i src = some k → ∃ q f f', rules[i]? = some (q, f) ∧ rules'[i]? = some (q, f') ∧
      k = f src ∧ kindAt rules' i src = some (f' src) := by
    intro i src k hk
    simp only [kindAt, Option.map_eq_some_iff] at hk
    obtain ⟨⟨q, f⟩, h1, h2⟩ := hk
    have h3 := congrArg (fun l => l[i]?) h
    simp only [List.getElem?_map, h1, Option.map_some] at h3
    obtain ⟨⟨q', f'⟩, h4, h5⟩ := Option.map_eq_some_iff.1 h3.symm
    simp only at h5
    subst h5
    exact ⟨q', f, f', h1, h4, h2.symm, by simp [kindAt, h4]⟩
  cases hc with
  | token h1 h2 h3 h4 h5 h6 =>
    obtain ⟨q, f, f', h7, h8, rfl, h9⟩ := other h6
    exact ⟨_, .token h1 h2 h3 h4 h5 h9, .some h7 h8⟩
  | last h1 h2 h3 h4 =>
    obtain ⟨q, f, f', h7, h8, rfl, h9⟩ := other h4
    exact ⟨_, .last h1 h2 h3 h9, .some h7 h8⟩
  | nothing h1 h2 h3 h4 => exact ⟨_, .nothing h1 h2 h3 h4, .none⟩
  | over h1 h2 => exact ⟨_, .over h1 h2, .none⟩

omit [Unicode] in
theorem calls_kinds {rules : List (List Char × (List Char → K))} {rules' : List (List Char × (List Char → K'))}
    (h : rules.map Prod.fst = rules'.map Prod.fst) {ms : List (List Char → Prop)} {Live Ends : List Char → Prop}
    {sc : Scanner} {as : List (Option (Tok K))} (hc : Calls ms Live Ends (kindAt rules) sc as) :
    ∃ as', Calls ms Live Ends (kindAt rules') sc as' ∧ Pairwise₂ (SameButKind rules rules') as as' := by
  induction hc with
  | done => exact ⟨[], .done, .nil⟩
  | next he hc _ ih =>
    obtain ⟨a', h1, h2⟩ := call_kinds h hc
    obtain ⟨as', h3, h4⟩ := ih
    exact ⟨a' :: as', .next he h1 h3, .cons h2 h4⟩

/-- C95: two lexers with the same patterns return tokens with the same sources at the same places, or none, call by
call; the kind of each is what the function of the same rule makes of the source.  A call of the one returns if and only
if the call of the other does. -/
theorem c95_calls (rules : List (List Char × (List Char → K))) (rules' : List (List Char × (List Char → K')))
    (h : rules.map Prod.fst = rules'.map Prod.fst) (l : Lexer K) (l' : Lexer K')
    (hl : buildLexer p rules = .ok (.ok l)) (hl' : buildLexer p rules' = .ok (.ok l')) (input : List Char) :
    (∀ as, CallsReturn l input as →
      ∃ as', CallsReturn l' input as' ∧ Pairwise₂ (SameButKind rules rules') as as') ∧
    ∀ n, (∃ as, as.length = n ∧ CallsReturn l input as) ↔ ∃ as', as'.length = n ∧ CallsReturn l' input as' := by
  obtain ⟨es, bt⟩ := buildLexer_built hl
  have lf : LexerFor p rules es l := ⟨hl, bt.parsed⟩
  have lf' : LexerFor p rules' es l' := ⟨hl', by
    have h1 := congrArg (List.map (parse p)) h
    simp only [List.map_map] at h1
    have h2 := bt.parsed
    exact h1.symm.trans h2⟩
  have len : ∀ {A B : Type} {R : A → B → Prop} {x y}, Pairwise₂ R x y → x.length = y.length := by
    intro A B R x y h
    induction h with
    | nil => rfl
    | cons _ _ ih => simp [ih]
  refine ⟨fun as ha => ?_, fun n => ?_⟩
  · obtain ⟨as', h1, h2⟩ := calls_kinds h ((c23_calls_partial p rules es l lf input _ as).1 ha).2
    exact ⟨as', (c23_calls_partial p rules' es l' lf' input _ as').2 ⟨rfl, h1⟩, h2⟩
  · constructor
    · rintro ⟨as, rfl, ha⟩
      obtain ⟨as', h1, h2⟩ := calls_kinds h ((c23_calls_partial p rules es l lf input _ as).1 ha).2
      exact ⟨as', (len h2).symm, (c23_calls_partial p rules' es l' lf' input _ as').2 ⟨rfl, h1⟩⟩
    · rintro ⟨as, rfl, ha⟩
      obtain ⟨as', h1, h2⟩ := calls_kinds h.symm ((c23_calls_partial p rules' es l' lf' input _ as).1 ha).2
      exact ⟨as', (len h2).symm, (c23_calls_partial p rules es l lf input _ as').2 ⟨rfl, h1⟩⟩

/-! ## The theorems apply -/

/-- The patterns of `threeRules`, with other functions. -/
def otherRules : List (List Char × (List Char → Bool)) :=
  [("x".toList, fun _ => false), ("b|c".toList, fun _ => true), ("d+".toList, fun s => s.length == 2)]

/-- Their lexer. -/
def otherLexer : Lexer Bool :=
  ⟨threeRules.nfa, [(2, fun _ => false), (3, fun _ => true), (4, fun s => s.length == 2)]⟩

/-- `ddxc` is read alike, and the last token, which is of the second rule, is `true` for the one lexer and `1` for the
other. -/
example : buildLexer .debug otherRules = .ok (.ok otherLexer) ∧
    ∃ as, CallsReturn otherLexer "ddxc".toList as ∧ as = [some ⟨true, ['d', 'd'], (0, 2)⟩,
      some ⟨false, ['x'], (2, 3)⟩, some ⟨true, ['c'], (3, 4)⟩] := by
  refine ⟨rfl, ?_⟩
  obtain ⟨as, h1, h2⟩ := (c95_calls (p := .debug) [("x".toList, fun _ => 0), ("b|c".toList, List.length), ("d+".toList, List.length)]
    otherRules rfl threeRules otherLexer rfl rfl "ddxc".toList).1 [some ⟨2, ['d', 'd'], (0, 2)⟩, some ⟨0, ['x'], (2, 3)⟩,
      some ⟨1, ['c'], (3, 4)⟩] ⟨12, _, by with_unfolding_all rfl⟩
  refine ⟨as, h1, h1.unique (as' := [some ⟨true, ['d', 'd'], (0, 2)⟩, some ⟨false, ['x'], (2, 3)⟩,
    some ⟨true, ['c'], (3, 4)⟩]) ⟨12, _, by with_unfolding_all rfl⟩ ?_⟩
  cases h2 with
  | cons _ h2 => cases h2 with
    | cons _ h2 => cases h2 with
      | cons _ h2 => cases h2; rfl

/-- A bad pattern is reported alike. -/
example : outcomeOf (buildLexer .debug [("a".toList, fun _ => 1), ("*".toList, fun _ => 2)]) =
    outcomeOf (buildLexer .debug [("a".toList, fun _ => 'x'), ("*".toList, fun _ => 'y')]) :=
  c95_built _ _ rfl

end Pango.Props
