import Verif.Proofs.Named
import Verif.Props.RegularTokens
import Verif.Props.Table

/-!
# C109: a variable for every terminal

The table is refused for some grammars that are SLR(1) in the sense of the textbook, such as `S → a b | a c` (see C35).
With a variable for every terminal there is a parser for exactly the textbook's grammars.
-/

namespace Pango.Props

open Pango Pango.Parse Pango.Spec

variable {V T : Type} {g : Grammar V T} {H : Grammar (V ⊕ T) T}

section
variable [DecidableEq V] [DecidableEq T]

/-- C109, the grammar can be built. -/
theorem c109_grammar (hg : Built g) :
    ∃ H : Grammar (V ⊕ T) T, Built H ∧ H.start = .inl g.start ∧ ∀ v β, (v, β) ∈ H.rules ↔ NamedRule g v β := by
  have hw := hg.wellFormed
  let rules : List ((V ⊕ T) × Body (V ⊕ T) T) :=
    (g.rules.map fun r => (.inl r.1, r.2.map nameSym)) ++
    g.rules.flatMap fun r => r.2.filterMap fun
      | .term t => some (.inr t, [.term t])
      | _ => none
  have hr : ∀ v β, (v, β) ∈ rules ↔ NamedRule g v β := by
    intro v β
    constructor
    · intro h
      rcases List.mem_append.1 h with h | h
      · obtain ⟨⟨v, b⟩, h1, h2⟩ := List.mem_map.1 h
        cases h2
        exact .rule h1
      · obtain ⟨⟨v, b⟩, h1, h2⟩ := List.mem_flatMap.1 h
        obtain ⟨x, h3, h4⟩ := List.mem_filterMap.1 h2
        cases x with
        | term t => cases h4; exact .terminal h1 h3
        | var v => cases h4
        | eps => cases h4
    · intro h
      cases h with
      | rule h => exact List.mem_append_left _ (List.mem_map.2 ⟨_, h, rfl⟩)
      | terminal h h' => exact List.mem_append_right _ (List.mem_flatMap.2 ⟨_, h, List.mem_filterMap.2 ⟨_, h', rfl⟩⟩)
  obtain ⟨H, h1, h2, h3⟩ := built_rules (Sum.inl g.start) rules
    (by obtain ⟨β, h⟩ := hw.start; exact ⟨_, (hr _ _).2 (.rule h)⟩)
    (by
      intro v β w h h'
      cases (hr _ _).1 h with
      | rule h1 =>
        obtain ⟨x, h2, h3⟩ := List.mem_map.1 h'
        cases w with
        | inl u =>
          rw [nameSym_var h3] at h2
          obtain ⟨γ, h4⟩ := hw.closed _ _ _ h1 h2
          exact ⟨_, (hr _ _).2 (.rule h4)⟩
        | inr t =>
          rw [nameSym_name h3] at h2
          exact ⟨_, (hr _ _).2 (.terminal h1 h2)⟩
      | terminal _ _ => simp at h')
    (by
      intro v β h
      cases (hr _ _).1 h with
      | rule h1 => simpa using hw.nonempty _ _ h1
      | terminal _ _ => simp)
  exact ⟨H, h1, h2, fun v β => (h3 v β).trans (hr v β)⟩

variable [TerminalEq T] [LawfulTerminalEq T]

/-- C109.  With an end marker and a variable for every terminal, a parser can be made for exactly those grammars without
epsilon that are SLR(1), whatever the iteration order. -/
theorem c109_parser (hg : Built g) (he : EpsFree g) (hk : OneOfEachKind g) (hH : Built H) (hs : H.start = .inl g.start)
    (hr : ∀ v β, (v, β) ∈ H.rules ↔ NamedRule g v β) {z : V ⊕ T} {e f : T} (hn : NotIn H z e f) :
    ((∃ tbl, IsParser (withEnd H z e f) tbl) ↔ SlrGrammar g) ∧
    ∃ bound, ∀ fuel ≥ bound, ∀ ord : HashOrder, (∃ tbl, slrNew (withEnd H z e f) ord fuel = .ok tbl) ↔ SlrGrammar g := by
  have hN : NamedTerms g H := ⟨hs, hr⟩
  have h1 := named_oneEntry hN he hg.wellFormed hk
  obtain ⟨h2, bound, h3⟩ := c86_table hH (hN.epsFree he) hn
  exact ⟨h2.trans h1, bound, fun fuel hf ord => (h3 fuel hf ord).trans h1⟩

/-- C109.  No grammar is lost: one that has a parser is SLR(1). -/
theorem c109_more (hg : Built g) (he : EpsFree g) {z : V} {e f : T} (hn : NotIn g z e f) {tbl : Table V T}
    (hp : IsParser (withEnd g z e f) tbl) : SlrGrammar g := by
  have h := (c86_table hg he hn).1.1 ⟨_, hp⟩
  intro γ k k' m m' h1 h2 hkk
  cases h1 with
  | shift a1 a2 =>
    cases h2 with
    | shift _ _ => rfl
    | reduce b1 b2 b3 =>
      cases (h _ _ _ _ _ (.shift a1 a2) (.reduce b1 b2 b3) hkk).1
      obtain ⟨pre, post, h3, h4⟩ := a2
      rw [b2, h3] at h4
      simp at h4
    | reduceEnd _ _ _ => simp [keyEq] at hkk
    | accept _ => simp [keyEq] at hkk
  | reduce a1 a2 a3 =>
    cases h2 with
    | shift b1 b2 =>
      cases (h _ _ _ _ _ (.reduce a1 a2 a3) (.shift b1 b2) hkk).1
      obtain ⟨pre, post, h3, h4⟩ := b2
      rw [a2, h3] at h4
      simp at h4
    | reduce b1 b2 b3 =>
      cases (h _ _ _ _ _ (.reduce a1 a2 a3) (.reduce b1 b2 b3) hkk).1
      rfl
    | reduceEnd _ _ _ => simp [keyEq] at hkk
    | accept _ => simp [keyEq] at hkk
  | reduceEnd a1 a2 a3 =>
    cases h2 with
    | shift _ _ => simp [keyEq] at hkk
    | reduce _ _ _ => simp [keyEq] at hkk
    | reduceEnd b1 b2 b3 =>
      cases (h _ _ _ _ _ (.reduceEnd a1 a2 a3) (.reduceEnd b1 b2 b3) hkk).1
      rfl
    | accept b1 => cases (h _ _ _ _ _ (.reduceEnd a1 a2 a3) (.accept b1) hkk).1
  | accept a1 =>
    cases h2 with
    | shift _ _ => simp [keyEq] at hkk
    | reduce _ _ _ => simp [keyEq] at hkk
    | reduceEnd b1 b2 b3 => cases (h _ _ _ _ _ (.accept a1) (.reduceEnd b1 b2 b3) hkk).1
    | accept _ => rfl

end

/-! ## The trees -/

private theorem unnames_eq (ns : List (Node (V ⊕ T) T)) : unnames ns = ns.map unname := by
  induction ns with
  | nil => simp [unnames]
  | cons n ns ih => simp [unnames, ih]

section
variable [TerminalEq T]

private theorem forest_named (hr : ∀ v β, (v, β) ∈ H.rules ↔ NamedRule g v β) {X : List (Sym (V ⊕ T) T)}
    {ns : List (Node (V ⊕ T) T)} {w : List T} (h : Forest H X ns w) :
    ∀ α, X = α.map nameSym → Forest g α (ns.map unname) w := by
  induction h with
  | nil =>
    intro α h
    obtain rfl := List.map_eq_nil_iff.1 h.symm
    exact .nil
  | eps _ ih =>
    intro α h
    obtain ⟨x, α', rfl, h1, rfl⟩ := List.map_eq_cons_iff.1 h.symm
    rw [nameSym_eps h1]
    exact .eps (ih _ rfl)
  | term _ _ _ =>
    intro α h
    obtain ⟨x, α', rfl, h1, rfl⟩ := List.map_eq_cons_iff.1 h.symm
    exact absurd h1 nameSym_term
  | var hrule h2 _ ih1 ih2 =>
    intro α h
    obtain ⟨x, α', rfl, h1, rfl⟩ := List.map_eq_cons_iff.1 h.symm
    cases (hr _ _).1 hrule with
    | rule h3 =>
      rw [nameSym_var h1, List.map_cons, unname, unnames_eq, List.map_reverse]
      exact .var h3 (ih1 _ rfl) (ih2 _ rfl)
    | terminal _ _ =>
      rw [nameSym_name h1]
      cases h2 with
      | term h4 h5 =>
        cases h5
        simp only [List.map_cons, List.reverse_cons, List.reverse_nil, List.nil_append, unname]
        exact .term h4 (ih2 _ rfl)

private theorem named_forest (hr : ∀ v β, (v, β) ∈ H.rules ↔ NamedRule g v β) {α : List (Sym V T)} {ms : List (Node V T)}
    {w : List T} (h : Forest g α ms w) (hα : ∀ t, .term t ∈ α → HasTerm g t) :
    ∃ ns, ns.map unname = ms ∧ Forest H (α.map nameSym) ns w := by
  induction h with
  | nil => exact ⟨[], rfl, .nil⟩
  | eps _ ih =>
    obtain ⟨ns, h1, h2⟩ := ih fun t ht => hα t (by simp [ht])
    exact ⟨ns, h1, .eps h2⟩
  | @term t u α ns w ht _ ih =>
    obtain ⟨ns, rfl, h2⟩ := ih fun t ht => hα t (by simp [ht])
    obtain ⟨v, β, h3, h4⟩ := hα t (by simp)
    have h5 : Forest H [.term t] [.mk (.term u) []] [u] := .term ht .nil
    exact ⟨.mk (.var (.inr t)) [.mk (.term u) []] :: ns, by simp [unname], .var ((hr _ _).2 (.terminal h3 h4)) h5 h2⟩
  | var hrule _ _ ih1 ih2 =>
    obtain ⟨cs, rfl, h1⟩ := ih1 fun t ht => ⟨_, _, hrule, ht⟩
    obtain ⟨ns, rfl, h2⟩ := ih2 fun t ht => hα t (by simp [ht])
    exact ⟨_, by simp [unname, unnames_eq], .var ((hr _ _).2 (.rule hrule)) h1 h2⟩

/-- C109.  The trees of the new grammar are those of the old one, and one node more above each leaf. -/
theorem c109_trees (hs : H.start = .inl g.start) (hr : ∀ v β, (v, β) ∈ H.rules ↔ NamedRule g v β) (m : Node V T)
    (w : List T) : ParseTree g m w ↔ ∃ n, ParseTree H n w ∧ unname n = m := by
  constructor
  · intro h
    obtain ⟨ns, h1, h2⟩ := named_forest hr h (by simp)
    obtain ⟨n, rfl, rfl⟩ := List.map_eq_singleton_iff.1 h1
    exact ⟨n, by rw [ParseTree, hs]; exact h2, rfl⟩
  · rintro ⟨n, h, rfl⟩
    rw [ParseTree, hs] at h
    exact forest_named hr h [.var g.start] rfl

end

/-- C109.  If every variable of the old grammar can be reached and has a FIRST set, the parser returns on every input,
after a number of iterations that is linear in its length: a tree of the old grammar, with one node more above each leaf,
for a sentence and the end marker, and otherwise an error. -/
theorem c109_reads [DecidableEq V] [DecidableEq T] [TerminalEq T] [LawfulTerminalEq T] (hg : Built g) (he : EpsFree g)
    (hreach : ∀ v β, (v, β) ∈ g.rules → Reachable g v)
    (hfirst : ∀ v β, (v, β) ∈ g.rules → ∃ t, InFirst g [.var v] (.term t))
    (hH : Built H) (hs : H.start = .inl g.start) (hr : ∀ v β, (v, β) ∈ H.rules ↔ NamedRule g v β) {z : V ⊕ T} {e f : T}
    (hn : NotIn H z e f) {tbl : Table (V ⊕ T) T} (hp : IsParser (withEnd H z e f) tbl) {input : List T}
    (hin : ∀ t ∈ input, teq f t = false) {fuel : Nat} (hfuel : (2 * input.length + 1) * (H.rules.length + 4) < fuel) :
    ∃ r, parseTokens tbl fuel input = .ok r ∧
      (∀ n, r = some n → ∃ w e' n', input = w ++ [e'] ∧ teq e e' = true ∧ n = .mk (.var z) [.mk (.term e') [], n'] ∧
        ParseTree g (unname n') w) ∧
      (∀ w e' m, input = w ++ [e'] → teq e e' = true → ParseTree g m w →
        ∃ n', r = some (.mk (.var z) [.mk (.term e') [], n']) ∧ unname n' = m) := by
  have hN : NamedTerms g H := ⟨hs, hr⟩
  have reach : ∀ {v}, Reachable g v → Reachable H (.inl v) := by
    intro v h
    induction h with
    | start => rw [← hs]; exact .start
    | step _ h1 h2 ih => exact .step ih ((hr _ _).2 (.rule h1)) (List.mem_map.2 ⟨_, h2, rfl⟩)
  obtain ⟨r, h1, h2⟩ := c86_reads hH (hN.epsFree he)
    (by
      intro v β h
      cases (hr _ _).1 h with
      | rule h1 => exact reach (hreach _ _ h1)
      | terminal h1 h2 => exact .step (reach (hreach _ _ h1)) ((hr _ _).2 (.rule h1)) (List.mem_map.2 ⟨_, h2, rfl⟩))
    (by
      intro v β h
      cases (hr _ _).1 h with
      | @rule v _ h1 =>
        obtain ⟨t, h2⟩ := hfirst _ _ h1
        exact ⟨t, derives_starts.2 (named_starts hN he hg.wellFormed (α := [.var v]) (derives_starts.1 h2) (by simp))⟩
      | terminal h1 h2 => exact ⟨_, derives_starts.2 (.inVar h .term)⟩) hn hp hin hfuel
  refine ⟨r, h1, ?_, ?_⟩
  · rintro n rfl
    obtain ⟨w, e', n', h3, h4, h5, rfl⟩ := (h2 n).1 rfl
    exact ⟨w, e', n', h3, h4, rfl, (c109_trees hs hr _ w).2 ⟨n', h5, rfl⟩⟩
  · intro w e' m h3 h4 h5
    obtain ⟨n', h6, h7⟩ := (c109_trees hs hr m w).1 h5
    exact ⟨n', (h2 _).2 ⟨w, e', n', h3, h4, h6, rfl⟩, h7⟩

/-! ## A grammar for which the claims say something -/

/-- `S → A B | A C`, `A → a`, `B → b`, `C → c`: the grammar `S → a b | a c` with a variable for every terminal. -/
def namedPrefix : Grammar (String ⊕ String) String :=
  ⟨.inl "S", [(.inl "S", [.var (.inr "a"), .var (.inr "b")]), (.inl "S", [.var (.inr "a"), .var (.inr "c")]),
    (.inr "a", [.term "a"]), (.inr "b", [.term "b"]), (.inr "c", [.term "c"])]⟩

theorem namedPrefix_built : Built namedPrefix :=
  ⟨[.setStart (.inl "S"), .addRules (.inl "S") [[.var (.inr "a"), .var (.inr "b")], [.var (.inr "a"), .var (.inr "c")]],
    .addRules (.inr "a") [[.term "a"]], .addRules (.inr "b") [[.term "b"]], .addRules (.inr "c") [[.term "c"]]], by decide⟩

private theorem prefix_rule {v : String} {β : Body String String} (h : (v, β) ∈ commonPrefix.rules) :
    v = "S" ∧ (β = [.term "a", .term "b"] ∨ β = [.term "a", .term "c"]) := by
  have : v = "S" ∧ β = [.term "a", .term "b"] ∨ v = "S" ∧ β = [.term "a", .term "c"] := by simpa [commonPrefix] using h
  rcases this with ⟨h1, h2⟩ | ⟨h1, h2⟩
  · exact ⟨h1, .inl h2⟩
  · exact ⟨h1, .inr h2⟩

theorem namedPrefix_rules (v : String ⊕ String) (β : Body (String ⊕ String) String) :
    (v, β) ∈ namedPrefix.rules ↔ NamedRule commonPrefix v β := by
  have r1 : ("S", [.term "a", .term "b"]) ∈ commonPrefix.rules := by decide
  have r2 : ("S", [.term "a", .term "c"]) ∈ commonPrefix.rules := by decide
  constructor
  · intro h
    simp only [namedPrefix, List.mem_cons, Prod.mk.injEq, List.not_mem_nil, or_false] at h
    rcases h with ⟨rfl, rfl⟩ | ⟨rfl, rfl⟩ | ⟨rfl, rfl⟩ | ⟨rfl, rfl⟩ | ⟨rfl, rfl⟩
    · exact .rule r1
    · exact .rule r2
    · exact .terminal r1 (by simp)
    · exact .terminal r1 (by simp)
    · exact .terminal r2 (by simp)
  · intro h
    cases h with
    | rule h => obtain ⟨rfl, rfl | rfl⟩ := prefix_rule h <;> simp [namedPrefix, nameSym]
    | terminal h h' =>
      obtain ⟨rfl, rfl | rfl⟩ := prefix_rule h <;> simp at h' <;> rcases h' with rfl | rfl <;> simp [namedPrefix]

theorem namedPrefix_notIn : NotIn namedPrefix (.inl "Z") "$" "#" where
  head β h := by simp [namedPrefix] at h
  marker v β t h ht := by
    simp only [namedPrefix, List.mem_cons, Prod.mk.injEq, List.not_mem_nil, or_false] at h
    rcases h with ⟨_, rfl⟩ | ⟨_, rfl⟩ | ⟨_, rfl⟩ | ⟨_, rfl⟩ | ⟨_, rfl⟩ <;> simp at ht <;> subst ht <;> decide
  never v β t h ht := by
    simp only [namedPrefix, List.mem_cons, Prod.mk.injEq, List.not_mem_nil, or_false] at h
    rcases h with ⟨_, rfl⟩ | ⟨_, rfl⟩ | ⟨_, rfl⟩ | ⟨_, rfl⟩ | ⟨_, rfl⟩ <;> simp at ht <;> subst ht <;> decide
  differ := by decide

theorem prefix_epsFree : EpsFree commonPrefix := by
  intro v β h
  obtain ⟨_, rfl | rfl⟩ := prefix_rule h <;> simp

theorem prefix_built : Built commonPrefix :=
  ⟨[.setStart "S", .addRules "S" [[.term "a", .term "b"], [.term "a", .term "c"]]], by decide⟩

/-- The parser made for it. -/
def namedTable : Table (String ⊕ String) String :=
  match slrNew (withEnd namedPrefix (.inl "Z") "$" "#") .insertion 100 with
  | .ok t => t
  | _ => ⟨.inl "Z", [], []⟩

/-- `S → a b | a c` is SLR(1), and has a parser with variables for the terminals; it has none without (see C35). -/
example : SlrGrammar commonPrefix ∧ (∃ tbl, IsParser (withEnd namedPrefix (.inl "Z") "$" "#") tbl) ∧
    ¬ OneEntryEach commonPrefix := by
  have h : ∃ tbl, IsParser (withEnd namedPrefix (.inl "Z") "$" "#") tbl :=
    ⟨namedTable, 100, .insertion, by decide +kernel⟩
  refine ⟨(c109_parser prefix_built prefix_epsFree (fun _ _ _ _ _ _ _ _ _ _ ht => by simpa [teq] using ht)
    namedPrefix_built rfl namedPrefix_rules namedPrefix_notIn).1.1 h, h, fun h => ?_⟩
  have h1 : Viable commonPrefix [] ("S", ⟨[.term "a", .term "b"], 0⟩) := .start (by decide) (fresh_iff.2 rfl)
  have h2 : Viable commonPrefix [] ("S", ⟨[.term "a", .term "c"], 0⟩) := .start (by decide) (fresh_iff.2 rfl)
  have := (h [] _ _ _ _ (.shift h1 (reads_iff.2 rfl)) (.shift h2 (reads_iff.2 rfl)) rfl).1
  simp at this

/-- The tree of `a c`, and the tree that the parser makes. -/
example : parseTokens namedTable 100 ["a", "c", "$"] =
    .ok (some (.mk (.var (.inl "Z")) [.mk (.term "$") [],
      .mk (.var (.inl "S")) [.mk (.var (.inr "c")) [.mk (.term "c") []], .mk (.var (.inr "a")) [.mk (.term "a") []]]])) := by
  decide +kernel

example : unname (.mk (.var (.inl "S")) [.mk (.var (.inr "c")) [.mk (.term "c") []], .mk (.var (.inr "a")) [.mk (.term "a") []]]) =
    (.mk (.var "S") [.mk (.term "c") [], .mk (.term "a") []] : Node String String) := by
  simp [unname, unnames]

/-- A grammar that is not SLR(1): `S → a | S S`. -/
example (g : Grammar String String) (hr : ("S", [.term "a"]) ∈ g.rules) (hr' : ("S", [.var "S", .var "S"]) ∈ g.rules)
    (hs : g.start = "S") : ¬ SlrGrammar g := by
  intro h
  have v1 : Viable g [] ("S", ⟨[.var "S", .var "S"], 0⟩) := by
    have := Viable.start (g := g) (hs ▸ hr') (fresh_iff.2 rfl)
    rw [hs] at this
    exact this
  have v2 : Viable g [.var "S"] ("S", ⟨[.var "S", .var "S"], 1⟩) := .read v1 (advanced_iff.2 ⟨rfl, rfl⟩)
  have v3 : Viable g [.var "S", .var "S"] ("S", ⟨[.var "S", .var "S"], 2⟩) := .read v2 (advanced_iff.2 ⟨rfl, rfl⟩)
  have v4 : Viable g [.var "S"] ("S", ⟨[.var "S", .var "S"], 0⟩) :=
    .expand v2 (reads_iff.2 rfl) hr' (fresh_iff.2 rfl)
  have v5 : Viable g [.var "S", .var "S"] ("S", ⟨[.var "S", .var "S"], 1⟩) := .read v4 (advanced_iff.2 ⟨rfl, rfl⟩)
  have v6 : Viable g [.var "S", .var "S"] ("S", ⟨[.term "a"], 0⟩) := .expand v5 (reads_iff.2 rfl) hr (fresh_iff.2 rfl)
  have hf : InFollow g "S" (.term "a") := inFollow_iff.2 (.here (pre := []) hr' (.inVar hr .term))
  cases h _ _ _ _ _ (.shift v6 (reads_iff.2 rfl)) (.reduce v3 rfl hf) rfl

end Pango.Props
