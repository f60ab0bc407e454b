import Verif.Proofs.Cycle
import Verif.Props.ErrorAt
import Verif.Props.Machine

/-!
# C36, C37, C45: for which grammars the claims hold
-/

namespace Pango.Props

open Pango Pango.Parse Pango.Spec

variable {V T : Type} [DecidableEq V] [DecidableEq T] [TerminalEq T] [LawfulTerminalEq T] {g : Grammar V T}
  {tbl : Table V T}

/-- Some tokens can stand in front of the start variable, inside of another one. -/
def StartsLater (g : Grammar V T) : Prop :=
  ∃ γ trees skipped h i, Forest g γ trees skipped ∧ skipped ≠ [] ∧ Viable g γ (h, i) ∧ Reads i (.var g.start)

/-- C36, exactly, for grammars without epsilon whose start variable is surely followed: returned trees are
parse trees of the input for all inputs if and only if no tokens can stand in front of the start variable, or no parse
tree ends in a token. -/
theorem c36_exact_partial (hg : Built g) (hp : IsParser g tbl) (he : EpsFree g) (hs : SurelyFollowed g g.start) :
    (∀ fuel input n, parseTokens tbl fuel input = .ok (some n) → ParseTree g n input) ↔
      ¬ (StartsLater g ∧ ∃ n w, ParseTree g n w ∧ EndsInToken n) := by
  constructor
  · rintro h ⟨⟨γ, trees, skipped, hd, i, h1, h2, h3, h4⟩, n, w, h5, h6⟩
    obtain ⟨fuel, h7⟩ := (c37_all_partial hg hp he hs).2 ⟨γ, trees, skipped, w, rfl, h5, h6, h1, .inr ⟨hd, i, h3, h4⟩⟩
    have h8 := parseTree_tokens (h _ _ _ h7)
    rw [parseTree_tokens h5] at h8
    exact h2 (List.self_eq_append_left.1 h8)
  · intro h fuel input n hn
    obtain ⟨γ, trees, skipped, w, rfl, h1, h2, h3, h4⟩ := (c37_all_partial hg hp he hs).1 ⟨fuel, hn⟩
    have h5 : skipped = [] := by
      apply Classical.byContradiction
      intro hne
      rcases h4 with rfl | ⟨hd, i, h4, h5⟩
      · cases h3
        exact hne rfl
      · exact h ⟨⟨γ, trees, skipped, hd, i, h3, hne, h4, h5⟩, n, w, h1, h2⟩
    subst h5
    exact h1

/-- C45, exactly, for the same grammars: under the same condition the leaves are the input. -/
theorem c45_exact_partial (hg : Built g) (hp : IsParser g tbl) (he : EpsFree g) (hs : SurelyFollowed g g.start) :
    (∀ fuel input n, parseTokens tbl fuel input = .ok (some n) → tokens n = input) ↔
      ¬ (StartsLater g ∧ ∃ n w, ParseTree g n w ∧ EndsInToken n) := by
  rw [← c36_exact_partial hg hp he hs]
  constructor
  · intro h fuel input n hn
    obtain ⟨skipped, w, rfl, h1⟩ := c36_suffix_partial hg hp he hn
    have h2 := h _ _ _ hn
    rw [parseTree_tokens h1] at h2
    rw [← h2]
    exact h1
  · intro h fuel input n hn
    exact parseTree_tokens (h _ _ _ hn)

/-- C37, exactly, for the same grammars: all parse trees are returned if and only if all parse trees end in a token. -/
theorem c37_iff_partial (hg : Built g) (hp : IsParser g tbl) (he : EpsFree g) (hs : SurelyFollowed g g.start) :
    (∀ input n, ParseTree g n input → ∃ fuel, parseTokens tbl fuel input = .ok (some n)) ↔
      ∀ input n, ParseTree g n input → EndsInToken n := by
  constructor
  · intro h input n hn
    obtain ⟨_, _, _, _, _, _, h2, _, _⟩ := (c37_all_partial hg hp he hs).1 (h input n hn)
    exact h2
  · intro h input n hn
    exact (c37_all_partial hg hp he hs).2 ⟨[], [], [], input, rfl, hn, h input n hn, .nil, .inl rfl⟩

omit [LawfulTerminalEq T] in
theorem forest_first (hg : Built g) (he : EpsFree g) {α : List (Sym V T)} {ns : List (Node V T)} {w : List T}
    (h : Forest g α ns w) (hα : Sym.eps ∉ α) (hne : α ≠ []) : ∃ t, Starts g t α := by
  induction h with
  | nil => exact absurd rfl hne
  | eps => simp at hα
  | term => exact ⟨_, .term⟩
  | var hr _ _ ih _ =>
    obtain ⟨t, ht⟩ := ih (he _ _ hr) (hg.wellFormed.nonempty _ _ hr)
    exact ⟨t, .inVar hr ht⟩

omit [LawfulTerminalEq T] in
theorem forest_nonempty (hg : Built g) (he : EpsFree g) {α : List (Sym V T)} {ns : List (Node V T)} {w : List T}
    (h : Forest g α ns w) (hα : Sym.eps ∉ α) (hne : α ≠ []) : w ≠ [] := by
  induction h with
  | nil => exact absurd rfl hne
  | eps => simp at hα
  | term => simp
  | @var v β cs x α ns w hr _ _ ih _ =>
    have := ih (he _ _ hr) (hg.wellFormed.nonempty _ _ hr)
    simp [this]

omit [TerminalEq T] [LawfulTerminalEq T] in
/-- The symbols that are read are symbols of bodies. -/
theorem viable_symbols (hg : Built g) (he : EpsFree g) {γ : List (Sym V T)} {p : V × Item V T} (h : Viable g γ p) :
    ∀ x ∈ γ, x ≠ .eps ∧ ∀ v, x = .var v → ∃ β, (v, β) ∈ g.rules := by
  induction h with
  | start => simp
  | expand _ _ _ _ ih => exact ih
  | @read γ hd i j x hv ha ih =>
    intro y hy
    rcases List.mem_append.1 hy with hy | hy
    · exact ih y hy
    · obtain rfl := List.mem_singleton.1 hy
      obtain ⟨_, pre, k, post, h1, _⟩ := ha
      have hr := (Viable_ok hv).rule
      have hm : y ∈ i.body := by rw [h1]; simp
      refine ⟨fun h => he _ _ hr (h ▸ hm), ?_⟩
      rintro v rfl
      exact hg.wellFormed.closed _ _ _ hr hm

/-- If all variables can be reached, the start variable begins inside of something exactly if tokens can stand in front
of it. -/
theorem startsLater_iff (hg : Built g) (he : EpsFree g) (hreach : ∀ v β, (v, β) ∈ g.rules → Reachable g v)
    (hprod : Productive g) : StartsLater g ↔ Inside g g.start := by
  constructor
  · rintro ⟨γ, trees, skipped, h, i, h1, h2, h3, h4⟩
    apply Classical.byContradiction
    intro hn
    obtain rfl := source_start he (.inr ⟨h, i, h3, h4⟩) hn
    cases h1
    exact h2 rfl
  · intro h
    have main : ∀ {v}, Inside g v → ∃ γ h i, γ ≠ [] ∧ Viable g γ (h, i) ∧ Reads i (.var v) := by
      intro v hv
      induction hv with
      | @behind h v x pre post hr =>
        have he' := he _ _ hr
        obtain ⟨γ, hs⟩ := reachable_source he (hreach _ _ hr)
        have h1 : Viable g γ (h, ⟨x :: (pre ++ .var v :: post), 0⟩) := by
          rcases hs with ⟨rfl, rfl⟩ | ⟨h', i, hv, hrd⟩
          · exact .start hr (fresh_plain he')
          · exact .expand hv hrd hr (fresh_plain he')
        have h2 := viable_run h1 he' (α := x :: pre) (pre := []) (post := .var v :: post) rfl rfl
        exact ⟨_, _, _, by simp, h2, x :: pre, post, rfl, by simp⟩
      | @front h v post hr _ ih =>
        obtain ⟨γ, h', i, h1, h2, h3⟩ := ih
        exact ⟨γ, _, _, h1, .expand h2 h3 hr (fresh_plain (he _ _ hr)), [], post, rfl, rfl⟩
    obtain ⟨γ, h, i, h1, h2, h3⟩ := main h
    have hγ : ∀ x ∈ γ, x ≠ .eps ∧ ∀ v, x = .var v → ∃ β, (v, β) ∈ g.rules := viable_symbols hg he h2
    obtain ⟨ns, w, h4⟩ := productive_all hprod LawfulTerminalEq.refl (α := γ) fun v hv => (hγ _ hv).2 v rfl
    exact ⟨γ, ns, w, h, i, h4, forest_nonempty hg he h4 (fun hm => (hγ _ hm).1 rfl) h1, h2, h3⟩

omit [LawfulTerminalEq T] in
/-- If all variables stand for something, what can stand behind the start variable follows it. -/
theorem surelyFollowed_of (hg : Built g) (he : EpsFree g) (hprod : Productive g) (h : Followable g g.start) :
    SurelyFollowed g g.start := by
  have main : ∀ {v}, Followable g v → ∃ t, Fol g t v := by
    intro v hv
    induction hv with
    | behind h =>
      obtain ⟨h, pre, x, post, hr⟩ := h
      cases x with
      | term t => exact ⟨t, .here hr .term⟩
      | eps => exact absurd (by simp) (he _ _ hr)
      | var w =>
        obtain ⟨β, hβ⟩ := hg.wellFormed.closed _ _ w hr (by simp)
        obtain ⟨n, u, h1⟩ := hprod _ _ hβ
        obtain ⟨t, h2⟩ := forest_first hg he h1 (by simp) (by simp)
        exact ⟨t, .here hr (starts_append (α := [.var w]).2 (.inl h2))⟩
    | last hr _ ih =>
      obtain ⟨t, ht⟩ := ih
      exact ⟨t, .up hr .nil ht⟩
  obtain ⟨t, ht⟩ := main h
  exact .inl ⟨t, inFollow_iff.2 ht⟩

/-- Exactly the grammars whose language the parser reads, among those without epsilon in which all variables can be
reached and stand for something: something can stand behind the start variable, it can not begin inside of anything,
and its rules end in terminals. -/
theorem c37_language_partial (hg : Built g) (hp : IsParser g tbl) (he : EpsFree g)
    (hreach : ∀ v β, (v, β) ∈ g.rules → Reachable g v) (hprod : Productive g) :
    (∀ input n, (∃ fuel, parseTokens tbl fuel input = .ok (some n)) ↔ ParseTree g n input) ↔
      Followable g g.start ∧ ¬ Inside g g.start ∧ ∀ β, (g.start, β) ∈ g.rules → ∃ β' t, β = β' ++ [.term t] := by
  have trees : ∀ β, (g.start, β) ∈ g.rules → ∃ cs w, Forest g β cs w ∧
      ParseTree g (.mk (.var g.start) cs.reverse) w := by
    intro β hr
    obtain ⟨cs, w, h⟩ := productive_all hprod LawfulTerminalEq.refl (α := β) fun v hv =>
      hg.wellFormed.closed _ _ _ hr hv
    exact ⟨cs, w, h, parseTree_iff.2 ⟨β, cs, hr, rfl, h⟩⟩
  constructor
  · intro h
    have hf : Followable g g.start := by
      apply Classical.byContradiction
      intro hn
      obtain ⟨β, hr⟩ := hg.wellFormed.start
      obtain ⟨cs, w, _, h1⟩ := trees β hr
      obtain ⟨fuel, h2⟩ := (h _ _).2 h1
      exact c39_unfollowed hg hp hn fuel _ _ h2
    have hs := surelyFollowed_of hg he hprod hf
    refine ⟨hf, ?_⟩
    have h1 : ∀ β, (g.start, β) ∈ g.rules → ∃ β' t, β = β' ++ [.term t] := by
      intro β hr
      obtain ⟨cs, w, h1, h2⟩ := trees β hr
      exact (endsInToken_iff h1 (he _ _ hr)).1
        ((c37_iff_partial hg hp he hs).1 (fun input n hn => (h input n).2 hn) _ _ h2)
    refine ⟨fun hi => ?_, h1⟩
    obtain ⟨β, hr⟩ := hg.wellFormed.start
    obtain ⟨cs, w, h2, h3⟩ := trees β hr
    exact (c36_exact_partial hg hp he hs).1 (fun fuel input n hn => (h input n).1 ⟨fuel, hn⟩)
      ⟨(startsLater_iff hg he hreach hprod).2 hi, _, _, h3, (endsInToken_iff h2 (he _ _ hr)).2 (h1 β hr)⟩
  · rintro ⟨hf, hi, h1⟩ input n
    have hs := surelyFollowed_of hg he hprod hf
    refine ⟨fun ⟨fuel, hn⟩ => c36_whole_partial hg hp he hi hn, fun hn => (c37_iff_partial hg hp he hs).2 ?_ _ _ hn⟩
    intro input n hn
    obtain ⟨β, cs, hr, rfl, h2⟩ := parseTree_iff.1 hn
    exact (endsInToken_iff h2 (he _ _ hr)).2 (h1 β hr)

/-! ## Instances -/

/-- The parser of `P → P Q ; | Q ;`, `Q → x | ( Q )` reads exactly its language. -/
example (input : List String) (n : Node String String) :
    (∃ fuel, parseTokens (tableOf goodGrammar) fuel input = .ok (some n)) ↔ ParseTree goodGrammar n input := by
  refine (c37_language_partial goodGrammar_built goodGrammar_parser goodGrammar_epsFree goodGrammar_reachable
    goodGrammar_productive).2 ⟨.behind goodGrammar_followed, goodGrammar_not_inside, ?_⟩ input n
  intro β hr
  simp only [goodGrammar, List.mem_cons, Prod.mk.injEq, List.not_mem_nil, or_false] at hr
  rcases hr with ⟨_, rfl⟩ | ⟨_, rfl⟩ | ⟨h, _⟩ | ⟨h, _⟩
  · exact ⟨[.var "P", .var "Q"], ";", rfl⟩
  · exact ⟨[.var "Q"], ";", rfl⟩
  · exact absurd h (by decide)
  · exact absurd h (by decide)

theorem parens_epsFree : EpsFree parens := by
  intro h β hr
  simp only [parens, List.mem_cons, Prod.mk.injEq, List.not_mem_nil, or_false] at hr
  rcases hr with ⟨_, rfl⟩ | ⟨_, rfl⟩ <;> decide

theorem parens_followed : Followed parens parens.start := ⟨"S", [.term "("], .term ")", [], by decide⟩

theorem parens_reachable : ∀ v β, (v, β) ∈ parens.rules → Reachable parens v := by
  intro v β hr
  simp only [parens, List.mem_cons, Prod.mk.injEq, List.not_mem_nil, or_false] at hr
  rcases hr with ⟨rfl, _⟩ | ⟨rfl, _⟩ <;> exact .start

theorem parens_productive : Productive parens := by
  have hx : Forest parens [.var "S"] [.mk (.var "S") [.mk (.term "x") []]] ["x"] :=
    .var (β := [.term "x"]) (cs := [_]) (x := ["x"]) (w := []) (by decide) (.term rfl .nil) .nil
  intro v β hr
  simp only [parens, List.mem_cons, Prod.mk.injEq, List.not_mem_nil, or_false] at hr
  rcases hr with ⟨rfl, _⟩ | ⟨rfl, _⟩ <;> exact ⟨_, _, hx⟩

/-- That of `S → ( S ) | x` meets the hypotheses too, and does not, since `S` begins inside of `S`. -/
example : ¬ ∀ input n, (∃ fuel, parseTokens (tableOf parens) fuel input = .ok (some n)) ↔ ParseTree parens n input := by
  intro h
  exact ((c37_language_partial parens_built parens_parser parens_epsFree parens_reachable parens_productive).1 h).2.1
    (.behind (h := "S") (x := .term "(") (pre := []) (post := [.term ")"]) (by decide))

/-- For it tokens can stand in front of the start variable, and a parse tree ends in a token. -/
example : SurelyFollowed parens parens.start ∧ StartsLater parens ∧ ∃ n w, ParseTree parens n w ∧ EndsInToken n :=
  ⟨parens_followed.surely,
    (startsLater_iff parens_built parens_epsFree parens_reachable parens_productive).2
      (.behind (h := "S") (x := .term "(") (pre := []) (post := [.term ")"]) (by decide)),
    .mk (.var "S") [.mk (.term "x") []], ["x"],
    .var (β := [.term "x"]) (cs := [_]) (x := ["x"]) (w := []) (by decide) (.term rfl .nil) .nil, _, _, _, rfl⟩

end Pango.Props
