import Verif.Proofs.ContextFree
import Verif.Props.EndMarker

/-!
# C103: grammars describe the context-free languages

Context-free grammars, derivations and languages are those of Mathlib.
-/

namespace Pango.Props

open Pango Pango.Parse Pango.Spec

variable {V T : Type}

section

variable {g : Grammar V T}

private theorem first_cfg {α : List (Sym V T)} {t : T} :
    InFirst g α (.term t) ↔ ∃ β, (asCfg g).Derives (symbols α) (.terminal t :: β) := by
  constructor
  · rintro ⟨β, h⟩
    exact ⟨symbols β, asCfg_of_derives h⟩
  · rintro ⟨β, h⟩
    exact ⟨β.map symOf, derives_asCfg.2 h⟩

private theorem first_eps_cfg {α : List (Sym V T)} : InFirst g α .eps ↔ (asCfg g).Derives (symbols α) [] :=
  derives_asCfg (u := [])

private theorem symbols_follow (α β : List (Sym V T)) (v : V) (t : T) :
    symbols (α ++ .var v :: .term t :: β) = symbols α ++ .nonterminal v :: .terminal t :: symbols β := by
  simp [symbols_append, symbols]

private theorem follow_cfg {v : V} {t : T} :
    InFollow g v (.term t) ↔ ∃ w α β, (asCfg g).Derives [.nonterminal w] (α ++ .nonterminal v :: .terminal t :: β) := by
  constructor
  · rintro ⟨w, α, β, h⟩
    exact ⟨w, symbols α, symbols β, symbols_follow α β v t ▸ asCfg_of_derives h⟩
  · rintro ⟨w, α, β, h⟩
    refine ⟨w, List.map symOf α, List.map symOf β, ?_⟩
    have h1 : List.map symOf (α ++ .nonterminal v :: .terminal t :: β : List (Symbol T V)) =
        List.map symOf α ++ .var v :: .term t :: List.map symOf β := by
      simp [symOf]
    exact h1 ▸ derives_asCfg.2 h

end

variable [DecidableEq T]

section

variable [DecidableEq V] {g : Grammar V T}

/-- C103, FIRST: of a variable, the terminals at the beginning of what is derived from it, and epsilon if it derives
the empty string. -/
theorem c103_first (hg : Built g) :
    ∃ bound, ∀ fuel ≥ bound, ∀ (ord : HashOrder) (v : V), Defined g v →
      ∃ r, g.first ord fuel v = .ok r ∧
        (∀ t, .term t ∈ r ↔ ∃ β, (asCfg g).Derives [.nonterminal v] (.terminal t :: β)) ∧
        (.eps ∈ r ↔ (asCfg g).Derives [.nonterminal v] []) ∧ ∀ w, .var w ∉ r := by
  obtain ⟨bound, h⟩ := c28_first_of_variable hg
  refine ⟨bound, fun fuel hf ord v hv => ?_⟩
  obtain ⟨r, h1, h2⟩ := h fuel hf ord v hv
  exact ⟨r, h1, fun t => (h2 _).trans first_cfg, (h2 _).trans first_eps_cfg, fun w hw => (h2 _).1 hw⟩

/-- C103, FOLLOW: the terminals behind the variable in what is derived from a variable. -/
theorem c103_follow (hg : Built g) :
    ∃ bound, ∀ fuel ≥ bound, ∀ ord : HashOrder, ∃ r, g.followSet ord fuel = .ok r ∧ ∀ v t,
      .term t ∈ (mapGet r v).getD [] ↔
        ∃ w α β, (asCfg g).Derives [.nonterminal w] (α ++ .nonterminal v :: .terminal t :: β) := by
  obtain ⟨bound, h⟩ := c29_follow hg
  refine ⟨bound, fun fuel hf ord => ?_⟩
  obtain ⟨r, h1, h2⟩ := h fuel hf ord
  exact ⟨r, h1, fun v t => (h2 _ _).trans follow_cfg⟩

variable [TerminalEq T] [LawfulTerminalEq T] {tbl : Table V T}

/-- C103, the trees that are returned: the tokens at the leaves are a word of the language, and the end of the input. -/
theorem c103_suffix (hg : Built g) (hp : IsParser g tbl) (he : EpsFree g) {fuel : Nat} {input : List T}
    {n : Node V T} (h : parseTokens tbl fuel input = .ok (some n)) :
    ∃ skipped w, input = skipped ++ w ∧ tokens n = w ∧ ∃ u ∈ (asCfg g).language, SameTokens u w := by
  obtain ⟨skipped, w, h1, h2⟩ := c36_suffix_partial hg hp he h
  exact ⟨skipped, w, h1, parseTree_tokens h2, sentence_iff.1 ⟨n, h2⟩⟩

/-- C103, the language of a parser: for grammars with the shape of C37, the inputs that are accepted are the words of the
language. -/
theorem c103_language (hg : Built g) (hp : IsParser g tbl) (he : EpsFree g)
    (hs : Followable g g.start) (hi : ¬ Inside g g.start)
    (hb : ∀ β, (g.start, β) ∈ g.rules → ∃ β' t, β = β' ++ [.term t])
    (hreach : ∀ v β, (v, β) ∈ g.rules → Reachable g v) (hprod : Productive g) (input : List T) :
    (∃ fuel n, parseTokens tbl fuel input = .ok (some n)) ↔ ∃ u ∈ (asCfg g).language, SameTokens u input := by
  rw [← sentence_iff, exists_comm]
  exact exists_congr fun n => (c37_language_partial hg hp he hreach hprod).2 ⟨hs, hi, hb⟩ input n

/-- C103, with an end marker as in C86: for every grammar, a parser accepts just the words of the language that are
followed by the marker. -/
theorem c103_reads {z : V} {e f : T} (hg : Built g) (he : EpsFree g) (hn : NotIn g z e f)
    (hp : IsParser (withEnd g z e f) tbl) {w : List T} (hw : ∀ t ∈ w, teq f t = false) :
    (∃ fuel n, parseTokens tbl fuel (w ++ [e]) = .ok (some n)) ↔ ∃ u ∈ (asCfg g).language, SameTokens u w := by
  rw [← sentence_iff, exists_comm]
  have hdiffer := hn.differ
  have hfe : teq f e = false := by
    cases h : teq f e with
    | false => rfl
    | true =>
      rw [LawfulTerminalEq.symm _ _ h] at hdiffer
      cases hdiffer
  have hi : ∀ t ∈ w ++ [e], teq f t = false := by
    intro t ht
    rcases List.mem_append.1 ht with h | h
    · exact hw t h
    · obtain rfl := List.mem_singleton.1 h
      exact hfe
  constructor
  · rintro ⟨n, h⟩
    obtain ⟨w', e', m, h1, _, h3, _⟩ := (c86_accepts hg he hn hp hi).1 h
    obtain ⟨rfl, _⟩ := List.append_inj' h1 rfl
    exact ⟨m, h3⟩
  · rintro ⟨m, h⟩
    exact ⟨_, (c86_accepts hg he hn hp hi).2 ⟨w, e, m, rfl, LawfulTerminalEq.refl e, h, rfl⟩⟩

end

/-! ## Every context-free language -/

section

variable (G : ContextFreeGrammar T)

/-- The nonterminals in a string. -/
private def nonterminals : List (Symbol T G.NT) → List G.NT
  | [] => []
  | .terminal _ :: u => nonterminals u
  | .nonterminal v :: u => v :: nonterminals u

omit [DecidableEq T] in
private theorem mem_nonterminals {v : G.NT} {u : List (Symbol T G.NT)} :
    v ∈ nonterminals G u ↔ .nonterminal v ∈ u := by
  induction u with
  | nil => simp [nonterminals]
  | cons x u ih => cases x <;> simp [nonterminals, ih]

/-- The rules of the grammar, and for every variable the rule that replaces it with itself. -/
private noncomputable def callsOf : List (BuilderCall G.NT T) :=
  .setStart G.initial :: .addRule G.initial [.var G.initial] ::
    (G.rules.toList.flatMap fun r => .addRule r.input (r.output.map symOf) ::
      (nonterminals G r.output).map fun v => .addRule v [.var v])

omit [DecidableEq T] in
private theorem added_callsOf {v : G.NT} {body : Body G.NT T} (h : Added (callsOf G) v body) :
    body = [.var v] ∨ ∃ r ∈ G.rules, r.input = v ∧ symbols body = r.output ∧
      (body = r.output.map symOf ∨ body = [.eps]) := by
  obtain ⟨b, h1, h2⟩ := h
  have h3 : BuilderCall.addRule v b ∈ callsOf G := by
    rcases h1 with h1 | ⟨bs, h1, _⟩
    · exact h1
    · simp [callsOf] at h1
  simp only [callsOf, List.mem_cons, reduceCtorEq, false_or, BuilderCall.addRule.injEq, List.mem_flatMap,
    Finset.mem_toList, List.mem_map] at h3
  rcases h3 with ⟨rfl, rfl⟩ | ⟨r, hr, ⟨rfl, rfl⟩ | ⟨_, _, rfl, rfl⟩⟩
  · left
    simpa using h2
  · right
    refine ⟨r, hr, rfl, ?_⟩
    cases ho : r.output with
    | nil =>
      rw [ho] at h2
      simp at h2
      subst h2
      exact ⟨rfl, .inr rfl⟩
    | cons x u =>
      rw [ho] at h2
      simp only [List.map_cons, List.isEmpty_cons, Bool.false_eq_true, if_false] at h2
      subst h2
      exact ⟨symbols_symOf (x :: u), .inl rfl⟩
  · left
    simpa using h2

omit [DecidableEq T] in
private theorem callsOf_added {r : ContextFreeRule T G.NT} (hr : r ∈ G.rules) :
    ∃ body, Added (callsOf G) r.input body ∧ symbols body = r.output := by
  have h : BuilderCall.addRule r.input (r.output.map symOf) ∈ callsOf G := by
    simp only [callsOf, List.mem_cons, List.mem_flatMap, Finset.mem_toList]
    exact .inr (.inr ⟨r, hr, .inl rfl⟩)
  refine ⟨_, ⟨_, .inl h, rfl⟩, ?_⟩
  cases ho : r.output with
  | nil => rfl
  | cons x u => exact symbols_symOf (x :: u)

omit [DecidableEq T] in
private theorem callsOf_start : lastStart (callsOf G) = some G.initial := by
  have h : ∀ l : List (BuilderCall G.NT T), (∀ c ∈ l, ∃ v b, c = .addRule v b) → lastStart l = none := by
    intro l hl
    induction l with
    | nil => rfl
    | cons c l ih =>
      obtain ⟨v, b, rfl⟩ := hl c (by simp)
      exact ih fun c hc => hl c (by simp [hc])
  simp only [callsOf, lastStart]
  rw [h]
  · rfl
  · intro c hc
    simp only [List.mem_flatMap, List.mem_cons, List.mem_map] at hc
    obtain ⟨r, _, rfl | ⟨v, _, rfl⟩⟩ := hc
    · exact ⟨_, _, rfl⟩
    · exact ⟨_, _, rfl⟩

omit [DecidableEq T] in
private theorem callsOf_hasRule {v : G.NT} (h : Used (callsOf G) v) : HasRule (callsOf G) v := by
  have start : HasRule (callsOf G) G.initial := ⟨_, [.var G.initial], .inl (by simp [callsOf]), rfl⟩
  rcases h with h | ⟨hd, body, h1, h2⟩
  · rw [callsOf_start] at h
    cases h
    exact start
  · rcases added_callsOf G h1 with rfl | ⟨r, hr, _, _, rfl | rfl⟩
    · simp at h2
      subst h2
      exact ⟨_, h1⟩
    · have h3 : .nonterminal v ∈ r.output := by
        obtain ⟨x, hx, h4⟩ := List.mem_map.1 h2
        cases x with
        | terminal t => cases h4
        | nonterminal w => cases h4; exact hx
      exact ⟨_, _, .inl (by
        simp only [callsOf, List.mem_cons, List.mem_flatMap, List.mem_map, Finset.mem_toList]
        exact .inr (.inr ⟨r, hr, .inr ⟨v, (mem_nonterminals G).2 h3, rfl⟩⟩)), rfl⟩
    · simp at h2

end

/-- C103, one half: for every context-free grammar there is a grammar that can be built, with the same language. -/
theorem c103_every (G : ContextFreeGrammar T) :
    ∃ (V : Type) (_ : DecidableEq V) (g : Grammar V T), Built g ∧ (asCfg g).language = G.language := by
  classical
  refine ⟨G.NT, inferInstance, ?_⟩
  rcases c26_build (callsOf G) with ⟨_, h | ⟨v, h1, h2⟩⟩ | ⟨g, h1, _, h3, _, h5⟩
  · rw [callsOf_start] at h
    cases h
  · exact absurd (callsOf_hasRule G h1) h2
  refine ⟨g, ⟨_, h1⟩, ?_⟩
  have hstart : g.start = G.initial := by
    rw [callsOf_start] at h3
    exact (Option.some.inj h3).symm
  have fwd : ∀ {u v : List (Symbol T G.NT)}, (asCfg g).Produces u v → G.Derives u v := by
    rintro u v ⟨r, hr, hw⟩
    obtain ⟨β, h6, h7⟩ := mem_asCfg.1 hr
    rcases added_callsOf G ((h5 _ _).1 h6) with rfl | ⟨r', hr', h8, h9, _⟩
    · obtain ⟨p, q, rfl, rfl⟩ := ContextFreeRule.rewrites_iff.1 hw
      rw [← h7]
      exact Relation.ReflTransGen.refl
    · have h10 : r' = r := by
        cases r
        cases r'
        cases h8
        cases h7
        cases h9
        rfl
      subst h10
      exact .single ⟨_, hr', hw⟩
  have back : ∀ {u v : List (Symbol T G.NT)}, G.Produces u v → (asCfg g).Produces u v := by
    rintro u v ⟨r, hr, hw⟩
    obtain ⟨body, h6, h7⟩ := callsOf_added G hr
    exact ⟨r, mem_asCfg.2 ⟨body, (h5 _ _).2 h6, h7⟩, hw⟩
  ext w
  constructor
  · intro h
    have h6 : ∀ {u v : List (Symbol T G.NT)}, (asCfg g).Derives u v → G.Derives u v := by
      intro u v h
      induction h with
      | refl => exact Relation.ReflTransGen.refl
      | tail _ hs ih => exact ih.trans (fwd hs)
    have h7 : G.Derives [.nonterminal g.start] (w.map .terminal) := h6 h
    rw [hstart] at h7
    exact h7
  · intro h
    have h6 : ∀ {u v : List (Symbol T G.NT)}, G.Derives u v → (asCfg g).Derives u v := by
      intro u v h
      induction h with
      | refl => exact Relation.ReflTransGen.refl
      | tail _ hs ih => exact Relation.ReflTransGen.tail ih (back hs)
    have h7 : (asCfg g).Derives [.nonterminal G.initial] (w.map .terminal) := h6 h
    rw [← hstart] at h7
    exact h7

variable [TerminalEq T]

omit [DecidableEq T] in
/-- C103, which strings of tokens have a tree: those of the kinds of a word of the language. -/
theorem c103_sentences {g : Grammar V T} {w : List T} :
    (∃ n, ParseTree g n w) ↔ ∃ u ∈ (asCfg g).language, SameTokens u w := sentence_iff

/-- C103.  If tokens are the same only if they are equal, the languages of the grammars that can be built are the
context-free languages. -/
theorem c103_context_free (hT : ∀ t u : T, teq t u = true ↔ t = u) (L : Language T) :
    L.IsContextFree ↔
      ∃ (V : Type) (_ : DecidableEq V) (g : Grammar V T), Built g ∧ ∀ w, w ∈ L ↔ ∃ n, ParseTree g n w := by
  have same : ∀ {u w : List T}, SameTokens u w ↔ u = w := by
    intro u w
    constructor
    · intro h
      induction h with
      | nil => rfl
      | cons ht _ ih => rw [(hT _ _).1 ht, ih]
    · rintro rfl
      induction u with
      | nil => exact .nil
      | cons t u ih => exact .cons ((hT t t).2 rfl) ih
  have lang : ∀ {V : Type} {g : Grammar V T} {w : List T}, (∃ n, ParseTree g n w) ↔ w ∈ (asCfg g).language := by
    intro V g w
    rw [sentence_iff]
    constructor
    · rintro ⟨u, h1, h2⟩
      rwa [← same.1 h2]
    · intro h
      exact ⟨w, h, same.2 rfl⟩
  constructor
  · rintro ⟨G, rfl⟩
    obtain ⟨V, hV, g, h1, h2⟩ := c103_every G
    exact ⟨V, hV, g, h1, fun w => by rw [lang, h2]⟩
  · rintro ⟨V, _, g, _, h⟩
    refine ⟨asCfg g, ?_⟩
    ext w
    rw [h, lang]

/-! ## The hypotheses are met by non-trivial cases -/

/-- `S ⇒ A ⇒ x` in `S → S ; A | A`, `A → x`. -/
theorem list_word : ["x"] ∈ (asCfg listGrammar).language := by
  have h1 : (asCfg listGrammar).Produces [.nonterminal "S"] [.nonterminal "A"] :=
    ⟨⟨"S", [.nonterminal "A"]⟩, mem_asCfg.2 ⟨[.var "A"], by decide, rfl⟩, .head []⟩
  have h2 : (asCfg listGrammar).Produces [.nonterminal "A"] [.terminal "x"] :=
    ⟨⟨"A", [.terminal "x"]⟩, mem_asCfg.2 ⟨[.term "x"], by decide, rfl⟩, .head []⟩
  exact (Relation.ReflTransGen.single h1).tail h2

/-- So it has a tree, and the parser with the marker returns one. -/
example : (∃ n, ParseTree listGrammar n ["x"]) ∧
    ∃ fuel n, parseTokens (tableOf listWithEnd) fuel ["x", "$"] = .ok (some n) :=
  ⟨c103_sentences.2 ⟨_, list_word, .cons rfl .nil⟩,
    (c103_reads listGrammar_built list_epsFree list_notIn listWithEnd_parser (w := ["x"]) (by decide)).2
      ⟨_, list_word, .cons rfl .nil⟩⟩

/-- A grammar with an epsilon. -/
example : Built exampleGrammar ∧ Defined exampleGrammar "A" ∧ (asCfg exampleGrammar).Derives [.nonterminal "A"] [] := by
  have hA : (asCfg exampleGrammar).Produces [.nonterminal "A"] [.nonterminal "B", .nonterminal "B"] :=
    ⟨⟨"A", _⟩, mem_asCfg.2 ⟨[.var "B", .var "B"], by decide, rfl⟩, .head []⟩
  have hB : ∀ u, (asCfg exampleGrammar).Produces (.nonterminal "B" :: u) u := fun u =>
    ⟨⟨"B", []⟩, mem_asCfg.2 ⟨[.eps], by decide, rfl⟩, .head u⟩
  exact ⟨exampleGrammar_built, ⟨[.var "B", .var "B"], by decide⟩, ((Relation.ReflTransGen.single hA).tail (hB _)).tail (hB _)⟩

/-- All inputs of a parser without a marker. -/
example (input : List String) : (∃ fuel n, parseTokens (tableOf goodGrammar) fuel input = .ok (some n)) ↔
    ∃ u ∈ (asCfg goodGrammar).language, SameTokens u input := by
  refine c103_language goodGrammar_built goodGrammar_parser goodGrammar_epsFree
    (.behind goodGrammar_followed) goodGrammar_not_inside ?_ goodGrammar_reachable goodGrammar_productive input
  intro β hr
  simp only [goodGrammar, List.mem_cons, Prod.mk.injEq, List.not_mem_nil, or_false] at hr
  rcases hr with ⟨_, rfl⟩ | ⟨_, rfl⟩ | ⟨h, _⟩ | ⟨h, _⟩
  · exact ⟨[.var "P", .var "Q"], ";", rfl⟩
  · exact ⟨[.var "Q"], ";", rfl⟩
  · exact absurd h (by decide)
  · exact absurd h (by decide)

example : (∀ t u : String, teq t u = true ↔ t = u) ∧ (asCfg listGrammar).language.IsContextFree :=
  ⟨by simp [teq], _, rfl⟩

end Pango.Props
