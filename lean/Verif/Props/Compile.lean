import Verif.Proofs.Build
import Verif.Model.Lexer
import Verif.Props.RegexParser

/-!
# C07, C09: compiling patterns
-/

namespace Pango.Props

open Pango Pango.Fsm Pango.Regex Pango.Lex Pango.Spec

/-! ## C07 -/

/-- C07 as stated: whatever rules were added before, adding a token whose pattern parses does not
crash. -/
def CompilesAccepted : Prop :=
  ∀ (K : Type) (p : Profile) (rules : List (List Char × (List Char → K))) (g : LexerGenerator K)
    (pattern : List Char) (gen : List Char → K) (e : Expr),
    (LexerGenerator.new : LexerGenerator K).addTokens p rules = .ok (.ok g) →
    parse p pattern = .ok (.ok e) →
    ∃ g', g.addToken p pattern gen = .ok (.ok g')

/-- C07 is false: `()` is accepted by the parser and crashes the compiler. -/
theorem c07_false : ¬ CompilesAccepted := by
  intro h
  obtain ⟨g', hg⟩ := h Unit .debug [] LexerGenerator.new ['(', ')'] (fun _ => ()) _ rfl
    (show parse .debug ['(', ')'] = .ok (.ok (.group (.concat []) none)) from rfl)
  have : (LexerGenerator.new : LexerGenerator Unit).addToken .debug ['(', ')'] (fun _ => ()) =
      .panic := rfl
  rw [this] at hg
  cases hg

/-- What a generator looks like after some tokens were added. -/
structure GoodGenerator {K : Type} (g : LexerGenerator K) (rs : List (Fr × Nat)) : Prop where
  bundle : Bundle g.compiler.nfa rs
  two : 2 ≤ g.compiler.nfa.states.length
  tokens : g.tokens.map Prod.fst = rs.map Prod.snd

theorem goodGenerator_new {K : Type} : GoodGenerator (LexerGenerator.new : LexerGenerator K) [] :=
  ⟨bundle_new, Nat.le_refl 2, rfl⟩

theorem addToken_good {K : Type} {p : Profile} {g : LexerGenerator K} {rs : List (Fr × Nat)}
    (h : GoodGenerator g rs) {pattern : List Char} {e : Expr} (gen : List Char → K)
    (hp : parse p pattern = .ok (.ok e)) :
    (¬ HasEmptySeq e → ∃ g' fr, g.addToken p pattern gen = .ok (.ok g') ∧
      GoodGenerator g' (rs ++ [(fr, g.compiler.nfa.states.length)]) ∧
      fr = (frag e 0 g.compiler.nfa.states.length (g.compiler.nfa.states.length + 1)).1 ∧
      g'.tokens = g.tokens ++ [(g.compiler.nfa.states.length, gen)] ∧
      g'.compiler.nfa.states.length =
        (frag e 0 g.compiler.nfa.states.length (g.compiler.nfa.states.length + 1)).2) ∧
    (HasEmptySeq e → g.addToken p pattern gen = .panic) := by
  obtain ⟨w, st, ed, fi⟩ := h.bundle.addState
  have hlen := length_addState g.compiler.nfa true
  have h2 := h.two
  have key : g.addToken p pattern gen =
      (compileExpr e (g.compiler.nfa.addState true).2.start g.compiler.nfa.states.length
        (g.compiler.nfa.addState true).2 >>= fun nfa =>
        .ok (.ok ⟨⟨nfa, g.compiler.nfa.states.length⟩,
          g.tokens ++ [(g.compiler.nfa.states.length, gen)]⟩)) := by
    simp only [LexerGenerator.addToken, Compiler.newFinal, Compiler.addExpression, hp, Outcome.bind_ok,
      Outcome.pure_eq]
    rw [show (g.compiler.nfa.addState true).1 = g.compiler.nfa.states.length from rfl]
    generalize compileExpr e (g.compiler.nfa.addState true).2.start g.compiler.nfa.states.length
        (g.compiler.nfa.addState true).2 = r
    cases r <;> rfl
  constructor
  · intro he
    obtain ⟨n1, e1, b1⟩ := bundle_extend (f := g.compiler.nfa.states.length) w st ed h.bundle.shape
      (by
        rw [← List.cons_append]
        refine List.nodup_append.2 ⟨h.bundle.nodup, by simp, ?_⟩
        intro x hx y hy hxy
        rw [List.mem_singleton.1 hy] at hxy
        rcases List.mem_cons.1 hx with rfl | hx
        · omega
        · have := h.bundle.lt x hx; omega)
      (fun x hx => by rw [hlen]; have := h.bundle.lt x hx; omega) fi
      h.bundle.two (by rw [hlen]; omega) (by rw [hlen]; omega) he
    rw [hlen] at b1
    have hl1 : n1.states.length =
        (frag e 0 g.compiler.nfa.states.length (g.compiler.nfa.states.length + 1)).2 := by
      rw [st] at e1
      have := compileExpr_length w he (by omega) (by omega) e1
      rwa [hlen] at this
    have hle : g.compiler.nfa.states.length + 1 ≤ n1.states.length := by
      obtain ⟨n2, e2, w2, l2, _, _, _, fr2⟩ := compileExpr_spec e 0 g.compiler.nfa.states.length
        (g.compiler.nfa.addState true).2 w he (by omega) (by omega)
      rw [st, e2] at e1
      cases e1
      have := fr2.le
      omega
    refine ⟨_, _, by rw [key, e1]; rfl, ⟨b1, ?_, ?_⟩, rfl, rfl, hl1⟩
    · show 2 ≤ n1.states.length
      omega
    · simp [h.tokens]
  · intro he
    rw [key, compileExpr_panics e he _ _ _ w w.start (by omega)]
    rfl

theorem addTokens_good {K : Type} {p : Profile} {rules : List (List Char × (List Char → K))} :
    ∀ {g g' : LexerGenerator K} {rs : List (Fr × Nat)}, GoodGenerator g rs →
    g.addTokens p rules = .ok (.ok g') →
    ∃ es : List Expr, rules.map (fun r => parse p r.1) = es.map (fun e => .ok (.ok e)) ∧
      (∀ e ∈ es, ¬ HasEmptySeq e) ∧
      GoodGenerator g' (rs ++ fragTrees g.compiler.nfa.states.length es) ∧
      g'.tokens.map Prod.snd = g.tokens.map Prod.snd ++ rules.map Prod.snd := by
  induction rules with
  | nil =>
    intro g g' rs hg h
    simp only [LexerGenerator.addTokens, Outcome.ok.injEq, Except.ok.injEq] at h
    subst h
    exact ⟨[], rfl, by simp, by simpa [fragTrees] using hg, by simp⟩
  | cons r rules ih =>
    intro g g' rs hg h
    obtain ⟨pattern, gen⟩ := r
    simp only [LexerGenerator.addTokens, Outcome.bind_eq_ok] at h
    obtain ⟨x, hx, h⟩ := h
    cases x with
    | error es => simp at h
    | ok g1 =>
      simp only at h
      have hp : ∃ e, parse p pattern = .ok (.ok e) := by
        unfold LexerGenerator.addToken at hx
        simp only [Outcome.bind_eq_ok] at hx
        obtain ⟨y, hy, hx⟩ := hx
        cases y with
        | error es => simp at hx
        | ok e => exact ⟨e, hy⟩
      obtain ⟨e, hp⟩ := hp
      obtain ⟨k1, k2⟩ := addToken_good hg gen hp
      by_cases he : HasEmptySeq e
      · rw [k2 he] at hx; cases hx
      · obtain ⟨g2, fr, e2, gg, hfr, ht, hl⟩ := k1 he
        rw [e2] at hx
        cases hx
        obtain ⟨es, h1, h2, h3, h4⟩ := ih gg h
        refine ⟨e :: es, by simp [hp, h1], ?_, ?_, ?_⟩
        · intro x hx
          rcases List.mem_cons.1 hx with rfl | hx
          · exact he
          · exact h2 x hx
        · rw [hl] at h3
          subst hfr
          simpa [fragTrees] using h3
        · rw [h4, ht]
          simp

/-- The part of C07 that holds, which says exactly when adding a token crashes: whatever tokens were
added before, a token with a pattern that parses is added, unless the tree has a sequence without
items (`()`, `a||b`, ...) in which case the program panics.  Missing: those patterns. -/
theorem c07_compiles_partial {K : Type} (p : Profile)
    (rules : List (List Char × (List Char → K))) (g : LexerGenerator K)
    (hg : (LexerGenerator.new : LexerGenerator K).addTokens p rules = .ok (.ok g))
    (pattern : List Char) (gen : List Char → K) (e : Expr) (hp : parse p pattern = .ok (.ok e)) :
    (¬ HasEmptySeq e → ∃ g', g.addToken p pattern gen = .ok (.ok g')) ∧
    (HasEmptySeq e → g.addToken p pattern gen = .panic) := by
  obtain ⟨_, _, _, hgg, _⟩ := addTokens_good goodGenerator_new hg
  obtain ⟨h1, h2⟩ := addToken_good hgg gen hp
  exact ⟨fun he => (h1 he).elim fun g' ⟨_, h, _⟩ => ⟨g', h⟩, h2⟩

/-- A generator with one rule, a second pattern that parses without an empty sequence and one with. -/
example : ∃ g : LexerGenerator Nat,
    (LexerGenerator.new : LexerGenerator Nat).addTokens .debug [(['a'], List.length)] = .ok (.ok g) ∧
    (∃ e, parse .debug ['a', '|', 'b'] = .ok (.ok e) ∧ ¬ HasEmptySeq e) ∧
    (∃ e, parse .debug ['a', '|', '|', 'b'] = .ok (.ok e) ∧ HasEmptySeq e) :=
  ⟨_, rfl, ⟨.alt (.lit (.mtch 'a') none) (.lit (.mtch 'b') none), rfl, by simp [HasEmptySeq]⟩,
    ⟨.alt (.lit (.mtch 'a') none) (.alt (.concat []) (.lit (.mtch 'b') none)), rfl,
      by simp [HasEmptySeq]⟩⟩

/-! ## C09 -/

/-- The automaton is well formed: state ids are unique, the start state and the target of every
transition exist. -/
structure WellFormed (nfa : Nfa) : Prop where
  unique : (nfa.states.map NState.id).Nodup
  start : ∃ s ∈ nfa.states, s.id = nfa.start
  targets : ∀ s ∈ nfa.states, ∀ t ∈ s.transitions, ∀ d ∈ t.2, ∃ s' ∈ nfa.states, s'.id = d

theorem wellFormed_of_wf {nfa : Nfa} (h : Wf nfa) : WellFormed nfa where
  unique := by rw [h.ids]; exact List.nodup_range
  start := by
    have : nfa.start ∈ nfa.states.map NState.id := by rw [h.ids]; exact List.mem_range.2 h.start
    obtain ⟨s, h1, h2⟩ := List.mem_map.1 this
    exact ⟨s, h1, h2⟩
  targets := by
    intro s hs t ht d hd
    have : d ∈ nfa.states.map NState.id := by
      rw [h.ids]; exact List.mem_range.2 (h.targets s hs t ht d hd)
    obtain ⟨s, h1, h2⟩ := List.mem_map.1 this
    exact ⟨s, h1, h2⟩

theorem bundle_finals {nfa : Nfa} {rs : List (Fr × Nat)} (b : Bundle nfa rs) (k : Nat) :
    (∃ s ∈ nfa.states, s.id = k ∧ s.fin = true) ↔ k = 1 ∨ k ∈ rs.map Prod.snd := by
  have hk := b.finals k
  constructor
  · rintro ⟨s, h1, rfl, h3⟩
    have : nfa.IsFinal s.id := by
      simp [Nfa.IsFinal, Nfa.fins, (b.wf.mem_at h1).1, h3]
    rcases hk.1 this with h | ⟨r, hr, h⟩
    · exact .inl h
    · exact .inr (List.mem_map.2 ⟨r, hr, h.symm⟩)
  · intro h
    have hf : nfa.IsFinal k := by
      refine hk.2 ?_
      rcases h with h | h
      · exact .inl h
      · obtain ⟨r, hr, h⟩ := List.mem_map.1 h
        exact .inr ⟨r, hr, h.symm⟩
    simp only [Nfa.IsFinal, Nfa.fins, List.getElem?_map, Option.map_eq_some_iff] at hf
    obtain ⟨s, h1, h2⟩ := hf
    exact ⟨s, List.mem_of_getElem? h1, b.wf.id_at h1, h2⟩

/-- C09, for the compiler: compiling any list of trees without empty sequences, each up to a new final
state, works, the checks of `build` pass, the automaton is well formed, and its final states are state 1
(which `Compiler::new` makes) and the ones made for the trees, which are all different. -/
theorem c09_well_formed (es : List Expr) (hes : ∀ e ∈ es, ¬ HasEmptySeq e) :
    ∃ c fs, compileTrees Compiler.new es = .ok (c, fs) ∧ fs.length = es.length ∧ fs.Nodup ∧
      c.nfa.build = .ok c.nfa ∧ WellFormed c.nfa ∧
      ∀ k, (∃ s ∈ c.nfa.states, s.id = k ∧ s.fin = true) ↔ k = 1 ∨ k ∈ fs := by
  obtain ⟨c, h1, h2, b⟩ := compileTrees_bundle hes
  refine ⟨c, _, h1, ?_, ?_, h2, wellFormed_of_wf b.wf, bundle_finals b⟩
  · have : ∀ n (es : List Expr), ((fragTrees n es).map Prod.snd).length = es.length := by
      intro n es
      induction es generalizing n with
      | nil => rfl
      | cons e es ih =>
        have := ih (frag e 0 n (n + 1)).2
        simp only [fragTrees, List.map_cons, List.length_cons, this]
    exact this 2 es
  · have hn := (List.nodup_cons.1 b.nodup).2
    have : ∀ rs : List (Fr × Nat), (rs.flatMap (fun r => r.2 :: r.1.inner)).Nodup →
        (rs.map Prod.snd).Nodup := by
      intro rs
      induction rs with
      | nil => simp
      | cons r rs ih =>
        intro h
        simp only [List.flatMap_cons, List.nodup_append] at h
        refine List.nodup_cons.2 ⟨fun hm => ?_, ih h.2.1⟩
        obtain ⟨r', hr', he⟩ := List.mem_map.1 hm
        exact h.2.2 r.2 (by simp) r.2 (List.mem_flatMap.2 ⟨r', hr', by simp [he]⟩) rfl
    exact this _ hn

/-- C09, for one tree (`Nfa::from`). -/
theorem c09_single_well_formed (e : Expr) (he : ¬ HasEmptySeq e) :
    ∃ nfa, nfaOfAst e = .ok nfa ∧ WellFormed nfa ∧
      ∀ k, (∃ s ∈ nfa.states, s.id = k ∧ s.fin = true) ↔ k = 1 := by
  obtain ⟨nfa, h1, b⟩ := nfaOfAst_bundle he
  exact ⟨nfa, h1, wellFormed_of_wf b.wf, fun k => by rw [bundle_finals b]; simp⟩

/-- C09, for lexers: every lexer that the builder makes has a well-formed automaton, and its final
states are state 1 and the ones in the token table, one for each rule in order. -/
theorem c09_lexer_well_formed {K : Type} (p : Profile) (rules : List (List Char × (List Char → K)))
    (g : LexerGenerator K)
    (hg : (LexerGenerator.new : LexerGenerator K).addTokens p rules = .ok (.ok g)) :
    g.build = .ok ⟨g.compiler.nfa, g.tokens⟩ ∧ WellFormed g.compiler.nfa ∧
      g.tokens.map Prod.snd = rules.map Prod.snd ∧
      ∀ k, (∃ s ∈ g.compiler.nfa.states, s.id = k ∧ s.fin = true) ↔
        k = 1 ∨ k ∈ g.tokens.map Prod.fst := by
  obtain ⟨es, _, _, h3, h4⟩ := addTokens_good goodGenerator_new hg
  refine ⟨?_, wellFormed_of_wf h3.bundle.wf, h4, fun k => ?_⟩
  · simp [LexerGenerator.build, build_ok h3.bundle.wf]
  · rw [h3.tokens]
    exact bundle_finals h3.bundle k

/-- C09, the check that `build` makes, for arbitrary states: it returns the automaton unchanged if the start
state and every target of a transition are states, and panics otherwise. -/
theorem c09_build_checks (nfa : Nfa) :
    (((∃ s ∈ nfa.states, s.id = nfa.start) ∧
        ∀ s ∈ nfa.states, ∀ l ds, (l, ds) ∈ s.transitions → ∀ d ∈ ds, ∃ s' ∈ nfa.states, s'.id = d) →
      nfa.build = .ok nfa) ∧
    (¬ ((∃ s ∈ nfa.states, s.id = nfa.start) ∧
        ∀ s ∈ nfa.states, ∀ l ds, (l, ds) ∈ s.transitions → ∀ d ∈ ds, ∃ s' ∈ nfa.states, s'.id = d) →
      nfa.build = .panic) := by
  have h1 : (nfa.states.map NState.id).contains nfa.start = true ↔
      ∃ s ∈ nfa.states, s.id = nfa.start := by simp
  have h2 : (nfa.states.flatMap (fun s => s.transitions.flatMap Prod.snd)).all
        (fun d => (nfa.states.map NState.id).contains d) = true ↔
      ∀ s ∈ nfa.states, ∀ l ds, (l, ds) ∈ s.transitions → ∀ d ∈ ds, ∃ s' ∈ nfa.states, s'.id = d := by
    simp only [List.all_eq_true, List.mem_flatMap, List.contains_iff_mem, List.mem_map]
    constructor
    · exact fun h s hs l ds ht d hd => h d ⟨s, hs, (l, ds), ht, hd⟩
    · rintro h d ⟨s, hs, ⟨l, ds⟩, ht, hd⟩
      exact h s hs l ds ht d hd
  rw [← h1, ← h2]
  unfold Nfa.build
  constructor
  · rintro ⟨h3, h4⟩
    simp only [h3, h4]
    rfl
  · intro h
    by_cases h4 : (nfa.states.flatMap (fun s => s.transitions.flatMap Prod.snd)).all
        (fun d => (nfa.states.map NState.id).contains d) = true
    · have h3 : (nfa.states.map NState.id).contains nfa.start = false :=
        Bool.eq_false_iff.2 fun h3 => h ⟨h3, h4⟩
      simp only [h3, h4]
      rfl
    · simp only [Bool.eq_false_iff.2 h4]
      rfl

/-- Both happen: a loop, a start state that is missing, and a target that is missing. -/
example : (⟨0, [⟨0, true, [(.eps, [0])]⟩]⟩ : Nfa).build = .ok ⟨0, [⟨0, true, [(.eps, [0])]⟩]⟩ ∧
    (⟨1, [⟨0, true, []⟩]⟩ : Nfa).build = .panic ∧
    (⟨0, [⟨0, true, [(.eps, [0, 1])]⟩]⟩ : Nfa).build = .panic := by decide

/-- No destination set is empty, in any automaton of the builder; `c12_can_feed_iff_survivor` asks for
this. -/
theorem c09_builder_no_empty_targets {K : Type} (p : Profile)
    (rules : List (List Char × (List Char → K))) (g : LexerGenerator K)
    (hg : (LexerGenerator.new : LexerGenerator K).addTokens p rules = .ok (.ok g)) :
    ∀ s ∈ g.compiler.nfa.states, ∀ t ∈ s.transitions, t.2 ≠ [] := by
  obtain ⟨es, _, _, h3, _⟩ := addTokens_good goodGenerator_new hg
  exact h3.bundle.wf.nonempty

/-- Two rules with nested repetitions. -/
example : ∃ es : List Expr, es.length = 2 ∧ ∀ e ∈ es, ¬ HasEmptySeq e :=
  ⟨[.group (.concat [.lit (.mtch 'a') (some .plus), .empty]) (some (.range 2 3)),
    .alt (.lit (.mtch 'a') none) .empty], rfl, by simp [HasEmptySeq, AnyEmptySeq]⟩

example : ∃ g : LexerGenerator Nat,
    (LexerGenerator.new : LexerGenerator Nat).addTokens .release
      [(['a', '*'], List.length), (['a'], fun _ => 0)] = .ok (.ok g) := ⟨_, rfl⟩

end Pango.Props
