import Verif.Props.Compile

/-!
# C55: building a lexer from rules
-/

namespace Pango.Props

open Pango Pango.Fsm Pango.Regex Pango.Lex Pango.Spec

/-- C55 as stated: a lexer is built if every pattern parses, and otherwise the errors of the first pattern that
does not parse are returned. -/
def BuildsOrReports : Prop :=
  ∀ (K : Type) (p : Profile) (rules : List (List Char × (List Char → K))),
    ((∀ r ∈ rules, ∃ e, parse p r.1 = .ok (.ok e)) → ∃ l, buildLexer p rules = .ok (.ok l)) ∧
    ∀ (pre post : List (List Char × (List Char → K))) (r : List Char × (List Char → K)),
      rules = pre ++ r :: post → (∀ r' ∈ pre, ∃ e, parse p r'.1 = .ok (.ok e)) →
      (¬ ∃ e, parse p r.1 = .ok (.ok e)) →
      ∃ es, parse p r.1 = .ok (.error es) ∧ buildLexer p rules = .ok (.error es)

/-- C55 is false: the pattern `()` parses and crashes the builder, also in front of a pattern that does not
parse. -/
theorem c55_false : ¬ BuildsOrReports := by
  intro h
  obtain ⟨l, hl⟩ := (h Unit .debug [(['(', ')'], fun _ => ())]).1
    (by
      intro r hr
      rw [List.mem_singleton.1 hr]
      exact ⟨.group (.concat []) none, rfl⟩)
  have : buildLexer .debug [(['(', ')'], fun _ => ())] = (.panic : Outcome (Except _ (Lexer Unit))) := rfl
  rw [this] at hl
  cases hl

/-- The pattern parses and no sequence in it is empty. -/
def Usable (p : Profile) (pattern : List Char) : Prop :=
  ∃ e, parse p pattern = .ok (.ok e) ∧ ¬ HasEmptySeq e

/-- The parser crashes on the pattern, or the pattern has an empty sequence. -/
def Crashing (p : Profile) (pattern : List Char) : Prop :=
  parse p pattern = .panic ∨ ∃ e, parse p pattern = .ok (.ok e) ∧ HasEmptySeq e

theorem addToken_rejected {K : Type} {p : Profile} (g : LexerGenerator K) {pattern : List Char}
    {es : List ParseError} (gen : List Char → K) (hp : parse p pattern = .ok (.error es)) :
    g.addToken p pattern gen = .ok (.error es) := by
  simp [LexerGenerator.addToken, hp]

theorem addToken_panics {K : Type} {p : Profile} (g : LexerGenerator K) {pattern : List Char}
    (gen : List Char → K) (hp : parse p pattern = .panic) : g.addToken p pattern gen = .panic := by
  simp [LexerGenerator.addToken, hp]

theorem addTokens_usable {K : Type} {p : Profile} {rules : List (List Char × (List Char → K))} :
    ∀ {g : LexerGenerator K} {rs : List (Fr × Nat)}, GoodGenerator g rs →
    (∀ r ∈ rules, Usable p r.1) →
    ∃ g' rs', GoodGenerator g' rs' ∧ g.addTokens p rules = .ok (.ok g') ∧
      ∀ more, g.addTokens p (rules ++ more) = g'.addTokens p more := by
  induction rules with
  | nil => exact fun {g rs} hg _ => ⟨g, rs, hg, rfl, fun _ => rfl⟩
  | cons r rules ih =>
    intro g rs hg h
    obtain ⟨e, hp, he⟩ := h r (by simp)
    obtain ⟨g1, fr, h1, gg, _⟩ := (addToken_good hg r.2 hp).1 he
    obtain ⟨g', rs', h2, h3, h4⟩ := ih gg fun r' hr' => h r' (by simp [hr'])
    refine ⟨g', rs', h2, ?_, fun more => ?_⟩
    · simp only [LexerGenerator.addTokens, h1, Outcome.bind_ok]
      exact h3
    · simp only [List.cons_append, LexerGenerator.addTokens, h1, Outcome.bind_ok]
      exact h4 more

/-- C55, the part that holds.  Every pattern is usable, is rejected with one error, or crashes.  If all patterns
are usable then a lexer is built.  Otherwise the first pattern that is not usable decides: if the parser rejects it
then its errors are returned, and if it crashes then so does the builder; the rules behind it do not matter.
Missing: crashing patterns are not reported as errors, for which the claim is false. -/
theorem c55_partial {K : Type} (p : Profile) (rules : List (List Char × (List Char → K))) :
    (∀ pattern, Usable p pattern ∨ (∃ err, parse p pattern = .ok (.error [err])) ∨ Crashing p pattern) ∧
    ((∀ r ∈ rules, Usable p r.1) → ∃ l, buildLexer p rules = .ok (.ok l)) ∧
    ∀ pre r post, rules = pre ++ r :: post → (∀ r' ∈ pre, Usable p r'.1) →
      (∀ es, parse p r.1 = .ok (.error es) → buildLexer p rules = .ok (.error es)) ∧
      (Crashing p r.1 → buildLexer p rules = .panic) := by
  refine ⟨fun pattern => ?_, fun h => ?_, ?_⟩
  · rcases c05_total_partial p pattern with ⟨e, h⟩ | h | ⟨h, _⟩
    · by_cases he : HasEmptySeq e
      · exact .inr (.inr (.inr ⟨e, h, he⟩))
      · exact .inl ⟨e, h, he⟩
    · exact .inr (.inl h)
    · exact .inr (.inr (.inl h))
  · obtain ⟨g', rs', h2, h3, _⟩ := addTokens_usable goodGenerator_new h
    refine ⟨⟨g'.compiler.nfa, g'.tokens⟩, ?_⟩
    simp [buildLexer, h3, LexerGenerator.build, build_ok h2.bundle.wf]
  · rintro pre ⟨pattern, gen⟩ post rfl h
    obtain ⟨g', rs', h2, _, h4⟩ := addTokens_usable goodGenerator_new h
    simp only [buildLexer, h4, LexerGenerator.addTokens]
    constructor
    · intro es hp
      simp [addToken_rejected g' gen hp]
    · rintro (hp | ⟨e, hp, he⟩)
      · simp [addToken_panics g' gen hp]
      · simp [(addToken_good h2 gen hp).2 he]

/-- Two usable patterns, one that is rejected, and two that crash. -/
example : Usable .debug ['a', '+'] ∧ Usable .debug ['b', '?'] ∧
    (∃ err, parse .debug ['+'] = .ok (.error [err])) ∧ Crashing .debug ['(', ')'] ∧
    Crashing .debug "a{4294967296}".toList := by
  refine ⟨⟨.lit (.mtch 'a') (some .plus), rfl, ?_⟩, ⟨.lit (.mtch 'b') (some .questionMark), rfl, ?_⟩, ⟨_, rfl⟩,
    .inr ⟨.group (.concat []) none, rfl, ?_⟩, .inl parse_overflow⟩ <;>
    simp [HasEmptySeq, AnyEmptySeq]

end Pango.Props
