import Verif.Proofs.Choice
import Verif.Props.EndMarker
import Verif.Props.RegularTokens

/-!
# C129: a choice between grammars

Some grammars without common variables are the alternatives of one more variable.
-/

namespace Pango.Props

open Pango Pango.Parse Pango.Spec

variable {V T : Type} [DecidableEq V] [DecidableEq T] {g : Grammar V T} {gs : List (Grammar V T)}

/-- C129, the grammar can be built. -/
theorem c129_grammar (hne : gs ≠ []) (hb : ∀ a ∈ gs, Built a) {z : V} (hz : ∀ a ∈ gs, ∀ β, (z, β) ∉ a.rules)
    (hap : ∀ a ∈ gs, ∀ b ∈ gs, ∀ v β γ, (v, β) ∈ a.rules → (v, γ) ∈ b.rules → a = b) :
    ∃ g : Grammar V T, Built g ∧ g.start = z ∧ Choice g gs := by
  let rules : List (V × Body V T) := (gs.flatMap fun a => a.rules) ++ gs.map fun a => (z, [.var a.start])
  have hr : ∀ v β, (v, β) ∈ rules ↔ (∃ a ∈ gs, (v, β) ∈ a.rules) ∨ v = z ∧ ∃ a ∈ gs, β = [.var a.start] := by
    intro v β
    simp only [rules, List.mem_append, List.mem_flatMap, List.mem_map, Prod.mk.injEq]
    constructor
    · rintro (h | ⟨a, h1, rfl, rfl⟩)
      · exact .inl h
      · exact .inr ⟨rfl, a, h1, rfl⟩
    · rintro (h | ⟨rfl, a, h1, rfl⟩)
      · exact .inl h
      · exact .inr ⟨a, h1, rfl, rfl⟩
  obtain ⟨g, h1, rfl, h3⟩ := built_rules z rules
    (by
      cases gs with
      | nil => exact absurd rfl hne
      | cons a gs => exact ⟨_, (hr _ _).2 (.inr ⟨rfl, a, by simp, rfl⟩)⟩)
    (by
      intro v β w h h'
      rcases (hr _ _).1 h with ⟨a, ha, h⟩ | ⟨_, a, ha, rfl⟩
      · obtain ⟨γ, h1⟩ := (hb a ha).wellFormed.closed _ _ _ h h'
        exact ⟨γ, (hr _ _).2 (.inl ⟨a, ha, h1⟩)⟩
      · simp at h'
        subst h'
        obtain ⟨γ, h1⟩ := (hb a ha).wellFormed.start
        exact ⟨γ, (hr _ _).2 (.inl ⟨a, ha, h1⟩)⟩)
    (by
      intro v β h
      rcases (hr _ _).1 h with ⟨a, ha, h⟩ | ⟨_, a, ha, rfl⟩
      · exact (hb a ha).wellFormed.nonempty _ _ h
      · simp)
  exact ⟨g, h1, rfl, fun v β => (h3 v β).trans (hr v β), hz, hap⟩

variable [TerminalEq T] [LawfulTerminalEq T] {z : V} {e f : T}

omit [DecidableEq V] [DecidableEq T] [LawfulTerminalEq T] in
private theorem notIn_choice (hc : Choice g gs) (hn : NotIn g z e f) {a : Grammar V T} (ha : a ∈ gs) : NotIn a z e f where
  head β h := hn.head β (hc.sub ha _ h)
  marker h β t h1 := hn.marker h β t (hc.sub ha _ h1)
  never h β t h1 := hn.never h β t (hc.sub ha _ h1)
  differ := hn.differ

/-- C129.  With an end marker there is a parser for the choice exactly if there is one for every grammar, and no
terminals of one kind begin sentences of two of them. -/
theorem c129_parser (hb : ∀ a ∈ gs, Built a) (he : ∀ a ∈ gs, EpsFree a) (hg : Built g) (hc : Choice g gs)
    (hn : NotIn g z e f) :
    (∃ tbl, IsParser (withEnd g z e f) tbl) ↔ (∀ a ∈ gs, ∃ tbl, IsParser (withEnd a z e f) tbl) ∧
      ∀ a ∈ gs, ∀ b ∈ gs, a ≠ b → ∀ t u, InFirst a [.var a.start] (.term t) → InFirst b [.var b.start] (.term u) →
        teq t u = false := by
  rw [(c86_table hg (hc.epsFree he) hn).1, choice_oneEntry hc (fun a ha => (hb a ha).wellFormed) he]
  refine and_congr (forall_congr' fun a => forall_congr' fun ha => ?_) ?_
  · exact (c86_table (hb a ha) (he a ha) (notIn_choice hc hn ha)).1.symm
  · simp only [InFirst, derives_starts]

omit [DecidableEq V] [DecidableEq T] [LawfulTerminalEq T] in
/-- C129, the trees are those of the grammars, below one more node. -/
theorem c129_trees (wf : ∀ a ∈ gs, Spec.WellFormed a) (hc : Choice g gs) {n : Node V T} {w : List T} :
    ParseTree g n w ↔ ∃ a ∈ gs, ∃ m, ParseTree a m w ∧ n = .mk (.var g.start) [m] := by
  have one : ∀ {a : Grammar V T}, a ∈ gs → ∀ v, .var v ∈ [(.var a.start : Sym V T)] → ∃ γ, (v, γ) ∈ a.rules := by
    intro a ha v hv
    simp at hv
    subst hv
    exact (wf a ha).start
  constructor
  · intro h
    cases h with
    | @var _ β _ cs _ x w hr h1 h2 =>
      cases h2
      rcases (hc.rules _ _).1 hr with ⟨a, ha, h⟩ | ⟨_, a, ha, rfl⟩
      · exact absurd h (hc.fresh a ha _)
      · have h1' := (forest_choice hc wf ha (one ha)).1 h1
        cases h1' with
        | @var _ _ _ _ _ _ _ hr' h3 h4 =>
          cases h4
          exact ⟨a, ha, _, by rw [List.append_nil]; exact .var hr' h3 .nil, rfl⟩
  · rintro ⟨a, ha, m, h, rfl⟩
    have := Forest.var (g := g) (v := g.start) (β := [.var a.start]) (α := []) (ns := []) (w := []) (cs := [m])
      ((hc.rules _ _).2 (.inr ⟨rfl, a, ha, rfl⟩)) ((forest_choice hc wf ha (one ha)).2 h) .nil
    simpa [ParseTree] using this

/-- C129, what the parser accepts: the sentences of all the grammars, each with the tree of its grammar. -/
theorem c129_accepts (hb : ∀ a ∈ gs, Built a) (he : ∀ a ∈ gs, EpsFree a) (hg : Built g) (hc : Choice g gs)
    (hn : NotIn g z e f) {tbl : Table V T} (hp : IsParser (withEnd g z e f) tbl) {input : List T}
    (hi : ∀ t ∈ input, teq f t = false) {n : Node V T} :
    (∃ fuel, parseTokens tbl fuel input = .ok (some n)) ↔
      ∃ a ∈ gs, ∃ w e' m, input = w ++ [e'] ∧ teq e e' = true ∧ ParseTree a m w ∧
        n = .mk (.var z) [.mk (.term e') [], .mk (.var g.start) [m]] := by
  rw [c86_accepts hg (hc.epsFree he) hn hp hi]
  have wf : ∀ a ∈ gs, Spec.WellFormed a := fun a ha => (hb a ha).wellFormed
  constructor
  · rintro ⟨w, e', m, rfl, h1, h2, rfl⟩
    obtain ⟨a, ha, m, h3, rfl⟩ := (c129_trees wf hc).1 h2
    exact ⟨a, ha, w, e', m, rfl, h1, h3, rfl⟩
  · rintro ⟨a, ha, w, e', m, rfl, h1, h2, rfl⟩
    exact ⟨w, e', _, rfl, h1, (c129_trees wf hc).2 ⟨a, ha, m, h2, rfl⟩, rfl⟩

/-- C129, the parser returns on every input if every variable of the grammars can be reached and has a FIRST set. -/
theorem c129_reads (hb : ∀ a ∈ gs, Built a) (he : ∀ a ∈ gs, EpsFree a)
    (hreach : ∀ a ∈ gs, ∀ v β, (v, β) ∈ a.rules → Reachable a v)
    (hfirst : ∀ a ∈ gs, ∀ v β, (v, β) ∈ a.rules → ∃ t, InFirst a [.var v] (.term t)) (hg : Built g) (hc : Choice g gs)
    (hn : NotIn g z e f) {tbl : Table V T} (hp : IsParser (withEnd g z e f) tbl) {input : List T}
    (hi : ∀ t ∈ input, teq f t = false) {fuel : Nat} (hf : (2 * input.length + 1) * (g.rules.length + 4) < fuel) :
    ∃ r, parseTokens tbl fuel input = .ok r ∧ ∀ n, r = some n ↔
      ∃ a ∈ gs, ∃ w e' m, input = w ++ [e'] ∧ teq e e' = true ∧ ParseTree a m w ∧
        n = .mk (.var z) [.mk (.term e') [], .mk (.var g.start) [m]] := by
  have wf : ∀ a ∈ gs, Spec.WellFormed a := fun a ha => (hb a ha).wellFormed
  have top : ∀ a ∈ gs, (g.start, [.var a.start]) ∈ g.rules := fun a ha => (hc.rules _ _).2 (.inr ⟨rfl, a, ha, rfl⟩)
  have first : ∀ a ∈ gs, ∀ v β, (v, β) ∈ a.rules → ∃ t, Starts g t [.var v] := by
    intro a ha v β h
    obtain ⟨t, h1⟩ := hfirst a ha v β h
    exact ⟨t, (derives_starts.1 h1).mono (hc.sub ha)⟩
  obtain ⟨r, h1, h2⟩ := c86_reads hg (hc.epsFree he)
    (by
      intro v β h
      rcases (hc.rules _ _).1 h with ⟨a, ha, h1⟩ | ⟨rfl, _⟩
      · have := hreach a ha _ _ h1
        clear h h1
        induction this with
        | start => exact .step .start (top a ha) (by simp)
        | step _ hr hm ih => exact .step ih (hc.sub ha _ hr) hm
      · exact .start)
    (by
      intro v β h
      rcases (hc.rules _ _).1 h with ⟨a, ha, h⟩ | ⟨rfl, a, ha, _⟩
      · obtain ⟨t, h⟩ := first a ha v β h
        exact ⟨t, derives_starts.2 h⟩
      · obtain ⟨β, h⟩ := (wf a ha).start
        obtain ⟨t, h⟩ := first a ha _ β h
        exact ⟨t, derives_starts.2 (.inVar (top a ha) h)⟩)
    hn hp hi hf
  refine ⟨r, h1, fun n => ?_⟩
  rw [h2, ← c86_accepts hg (hc.epsFree he) hn hp hi, c129_accepts hb he hg hc hn hp hi]

/-- C129, the first token says which of the grammars it is. -/
theorem c129_first (hb : ∀ a ∈ gs, Built a) (he : ∀ a ∈ gs, EpsFree a) (hg : Built g) (hc : Choice g gs)
    (hn : NotIn g z e f) {tbl : Table V T} (hp : IsParser (withEnd g z e f) tbl) {a b : Grammar V T} (ha : a ∈ gs)
    (hb' : b ∈ gs) {t u : T} {w x : List T} {m n : Node V T} (h1 : ParseTree a m (t :: w)) (h2 : ParseTree b n (u :: x))
    (htu : teq t u = true) : a = b := by
  have h := ((c129_parser hb he hg hc hn).1 ⟨tbl, hp⟩).2 a ha b hb'
  refine Classical.byContradiction fun hab => ?_
  have first : ∀ {a : Grammar V T}, a ∈ gs → ∀ {m : Node V T} {t : T} {w : List T}, ParseTree a m (t :: w) →
      ∃ t', teq t' t = true ∧ InFirst a [.var a.start] (.term t') := by
    intro a ha m t w h
    obtain ⟨t', u, r, h3, h4, h5⟩ := forest_starts (hb a ha).wellFormed ((forest_dropEps (he a ha)).2 h) (by simp) (by simp)
    cases h3
    exact ⟨t', h4, derives_starts.2 h5⟩
  obtain ⟨t', h3, h4⟩ := first ha h1
  obtain ⟨u', h5, h6⟩ := first hb' h2
  have h7 := h hab t' u' h4 h6
  rw [LawfulTerminalEq.trans _ _ _ (LawfulTerminalEq.trans _ _ _ h3 htu) (LawfulTerminalEq.symm _ _ h5)] at h7
  cases h7

/-! ## Examples -/

/-- `E → E + n | n`. -/
def eithers1 : Grammar String String := ⟨"E", [("E", [.var "E", .term "+", .term "n"]), ("E", [.term "n"])]⟩

/-- `P → p P | q`. -/
def eithers2 : Grammar String String := ⟨"P", [("P", [.term "p", .var "P"]), ("P", [.term "q"])]⟩

/-- `Q → n q`. -/
def eithers3 : Grammar String String := ⟨"Q", [("Q", [.term "n", .term "q"])]⟩

/-- `S → E | P`, with the rules above. -/
def either12 : Grammar String String :=
  ⟨"S", eithers1.rules ++ eithers2.rules ++ [("S", [.var "E"]), ("S", [.var "P"])]⟩

/-- `S → E | Q`, with the rules above. -/
def either13 : Grammar String String :=
  ⟨"S", eithers1.rules ++ eithers3.rules ++ [("S", [.var "E"]), ("S", [.var "Q"])]⟩

private theorem built_of {g : Grammar String String}
    (h : (runCalls (.setStart g.start :: g.rules.map fun r => .addRule r.1 r.2)).build = .ok g) : Built g := ⟨_, h⟩

private theorem eithers_built : Built eithers1 ∧ Built eithers2 ∧ Built eithers3 ∧ Built either12 ∧ Built either13 :=
  ⟨built_of (by rfl), built_of (by rfl), built_of (by rfl), built_of (by rfl), built_of (by rfl)⟩

private theorem eithers_epsFree : EpsFree eithers1 ∧ EpsFree eithers2 ∧ EpsFree eithers3 := by
  refine ⟨?_, ?_, ?_⟩ <;> intro v β h <;> simp [eithers1, eithers2, eithers3] at h
  · rcases h with ⟨_, rfl⟩ | ⟨_, rfl⟩ <;> simp
  · rcases h with ⟨_, rfl⟩ | ⟨_, rfl⟩ <;> simp
  · rcases h with ⟨_, rfl⟩; simp

private theorem either12_choice : Choice either12 [eithers1, eithers2] where
  rules v β := by
    simp [either12, eithers1, eithers2]
    constructor
    · rintro (h | h | h | h | h | h) <;> simp [h]
    · rintro (((h | h) | h | h) | ⟨h1, h2 | h2⟩) <;> simp_all
  fresh a ha β h := by
    simp at ha
    rcases ha with rfl | rfl <;> simp [either12, eithers1, eithers2] at h
  apart a ha b hb v β γ h1 h2 := by
    simp at ha hb
    rcases ha with rfl | rfl <;> rcases hb with rfl | rfl <;> simp [eithers1, eithers2] at h1 h2 ⊢ <;>
      rcases h1 with ⟨rfl, _⟩ | ⟨rfl, _⟩ <;> simp at h2

private theorem either13_choice : Choice either13 [eithers1, eithers3] where
  rules v β := by
    simp [either13, eithers1, eithers3]
    constructor
    · rintro (h | h | h | h | h) <;> simp [h]
    · rintro (((h | h) | h) | ⟨h1, h2 | h2⟩) <;> simp_all
  fresh a ha β h := by
    simp at ha
    rcases ha with rfl | rfl <;> simp [either13, eithers1, eithers3] at h
  apart a ha b hb v β γ h1 h2 := by
    simp at ha hb
    rcases ha with rfl | rfl <;> rcases hb with rfl | rfl <;> simp [eithers1, eithers3] at h1 h2 ⊢
    · rcases h1 with ⟨rfl, _⟩ | ⟨rfl, _⟩ <;> simp at h2
    · rcases h2 with ⟨rfl, _⟩ | ⟨rfl, _⟩ <;> simp at h1

private theorem either_notIn : NotIn either12 "Z" "$" "#" ∧ NotIn either13 "Z" "$" "#" := by
  constructor
  · refine ⟨?_, ?_, ?_, by decide⟩
    · intro β h; simp [either12, eithers1, eithers2] at h
    all_goals
      intro h β t hr ht
      simp [either12, eithers1, eithers2] at hr
      rcases hr with ⟨_, rfl⟩ | ⟨_, rfl⟩ | ⟨_, rfl⟩ | ⟨_, rfl⟩ | ⟨_, rfl⟩ | ⟨_, rfl⟩ <;> simp at ht <;>
        (try rcases ht with rfl | rfl) <;> decide
  · refine ⟨?_, ?_, ?_, by decide⟩
    · intro β h; simp [either13, eithers1, eithers3] at h
    all_goals
      intro h β t hr ht
      simp [either13, eithers1, eithers3] at hr
      rcases hr with ⟨_, rfl⟩ | ⟨_, rfl⟩ | ⟨_, rfl⟩ | ⟨_, rfl⟩ | ⟨_, rfl⟩ <;> simp at ht <;>
        (try rcases ht with rfl | rfl) <;> decide

private theorem either12_parser : ∃ tbl, IsParser (withEnd either12 "Z" "$" "#") tbl :=
  ⟨tableOf (withEnd either12 "Z" "$" "#"), 100, .insertion, by decide +kernel⟩

/-- There is a parser for sums and for `p ... p q`, so that there is one for each of them. -/
example : (∃ tbl, IsParser (withEnd eithers1 "Z" "$" "#") tbl) ∧ ∃ tbl, IsParser (withEnd eithers2 "Z" "$" "#") tbl := by
  have := ((c129_parser (gs := [eithers1, eithers2]) (by simp [eithers_built]) (by simp [eithers_epsFree])
    eithers_built.2.2.2.1 either12_choice either_notIn.1).1 either12_parser).1
  exact ⟨this _ (by simp), this _ (by simp)⟩

/-- There are parsers for sums and for `n q`, but there is none for the choice between them: both begin with `n`. -/
example : (∃ tbl, IsParser (withEnd eithers1 "Z" "$" "#") tbl) ∧ (∃ tbl, IsParser (withEnd eithers3 "Z" "$" "#") tbl) ∧
    ¬ ∃ tbl, IsParser (withEnd either13 "Z" "$" "#") tbl := by
  refine ⟨⟨tableOf (withEnd eithers1 "Z" "$" "#"), 100, .insertion, by decide +kernel⟩,
    ⟨tableOf (withEnd eithers3 "Z" "$" "#"), 100, .insertion, by decide +kernel⟩, fun h => ?_⟩
  have := ((c129_parser (gs := [eithers1, eithers3]) (by simp [eithers_built]) (by simp [eithers_epsFree])
    eithers_built.2.2.2.2 either13_choice either_notIn.2).1 h).2 eithers1 (by simp) eithers3 (by simp)
    (by simp [eithers1, eithers3]) "n" "n"
    (derives_starts.2 (.inVar (β := [.term "n"]) (by decide) .term))
    (derives_starts.2 (.inVar (β := [.term "n", .term "q"]) (by decide) .term))
  exact absurd this (by decide)

private theorem eithers2_tree : ParseTree eithers2 (.mk (.var "P") [.mk (.var "P") [.mk (.term "q") []], .mk (.term "p") []])
    ["p", "q"] := by
  have h1 : Forest eithers2 [.term "q"] [.mk (.term "q") []] ["q"] := .term rfl .nil
  have h2 : Forest eithers2 [.var "P"] [.mk (.var "P") [.mk (.term "q") []]] ["q"] :=
    .var (x := ["q"]) (by decide) h1 .nil
  have h3 : Forest eithers2 [.term "p", .var "P"] [.mk (.term "p") [], .mk (.var "P") [.mk (.term "q") []]] ["p", "q"] :=
    .term rfl h2
  exact .var (x := ["p", "q"]) (w := []) (by decide) h3 .nil

/-- The parser for the choice returns the tree of `p q`, below one more node. -/
example : ∃ tbl fuel, parseTokens tbl fuel ["p", "q", "$"] = .ok (some (.mk (.var "Z") [.mk (.term "$") [],
    .mk (.var "S") [.mk (.var "P") [.mk (.var "P") [.mk (.term "q") []], .mk (.term "p") []]]])) := by
  obtain ⟨tbl, hp⟩ := either12_parser
  obtain ⟨fuel, h⟩ := (c129_accepts (gs := [eithers1, eithers2]) (by simp [eithers_built]) (by simp [eithers_epsFree])
    eithers_built.2.2.2.1 either12_choice either_notIn.1 hp (by decide)).2
    ⟨eithers2, by simp, ["p", "q"], "$", _, rfl, by decide, eithers2_tree, rfl⟩
  exact ⟨tbl, fuel, h⟩

/-- Whatever the input, the parser says whether it is a sum or `p ... p q`. -/
example (input : List String) (h : ∀ t ∈ input, teq "#" t = false) : ∃ (tbl : Table String String) (r : _),
    parseTokens tbl ((2 * input.length + 1) * 10 + 1) input = .ok r ∧ ∀ n, r = some n ↔
      ∃ a ∈ [eithers1, eithers2], ∃ w e' m, input = w ++ [e'] ∧ teq "$" e' = true ∧ ParseTree a m w ∧
        n = .mk (.var "Z") [.mk (.term e') [], .mk (.var "S") [m]] := by
  obtain ⟨tbl, hp⟩ := either12_parser
  refine ⟨tbl, c129_reads (by simp [eithers_built]) (by simp [eithers_epsFree]) ?_ ?_
    eithers_built.2.2.2.1 either12_choice either_notIn.1 hp h (Nat.lt_succ_self _)⟩
  all_goals
    intro a ha v β hr
    simp at ha
    rcases ha with rfl | rfl <;> simp [eithers1, eithers2] at hr <;> obtain rfl : v = _ := by rcases hr with h | h <;> exact h.1
  · exact .start
  · exact .start
  · exact ⟨"n", derives_starts.2 (.inVar (β := [.term "n"]) (by decide) .term)⟩
  · exact ⟨"p", derives_starts.2 (.inVar (β := [.term "p", .var "P"]) (by decide) .term)⟩

/-- No sum begins with `p`. -/
example {t : String} {w : List String} {m : Node String String} (h : ParseTree eithers1 m (t :: w)) : t ≠ "p" := by
  rintro rfl
  obtain ⟨tbl, hp⟩ := either12_parser
  have := c129_first (gs := [eithers1, eithers2]) (by simp [eithers_built]) (by simp [eithers_epsFree])
    eithers_built.2.2.2.1 either12_choice either_notIn.1 hp (by simp) (by simp) h eithers2_tree (by decide)
  simp [eithers1, eithers2] at this

example : ∃ g, Built g ∧ g.start = "S" ∧ Choice g [eithers1, eithers2] :=
  c129_grammar (by simp) (by simp [eithers_built]) (fun a ha => either12_choice.fresh a ha) either12_choice.apart

end Pango.Props
