import Verif.Props.Announced

/-!
# C135: what becomes of parsers when tokens are merged or inputs are put behind each other
-/

namespace Pango.Props

open Pango Pango.Parse Pango.Spec

variable {g : Grammar String String} {p q : Nat}

private theorem joined_parser {s t : String} {α₁ α₂ : List (Sym String String)} (hst : s ≠ t)
    (hj : Joined g p q (.term s :: α₁) (.term t :: α₂)) (hp : 0 < p) (hq : 0 < q) (he : EpsFree g)
    (hn : NotIn g "Z" "$" "#") : ∃ tbl, IsParser (withEnd g "Z" "$" "#") tbl := by
  obtain ⟨p, rfl⟩ : ∃ k, p = k + 1 := ⟨p - 1, by omega⟩
  obtain ⟨q, rfl⟩ : ∃ k, q = k + 1 := ⟨q - 1, by omega⟩
  refine (c108_parser hj.built (c108_simple ⟨he, ?_, ?_, ?_⟩) hn).1
  · intro v β h
    rcases (hj.rules _ _).1 h with ⟨_, rfl | rfl⟩ | h | h
    · exact ⟨_, _, rfl⟩
    · exact ⟨_, _, rfl⟩
    · rcases mem_countRules.1 h with ⟨rfl, rfl⟩ | ⟨rfl, rfl | rfl⟩
      · exact ⟨_, _, rfl⟩
      · exact ⟨_, _, rfl⟩
      · exact ⟨_, _, List.replicate_succ⟩
    · rcases mem_countRules.1 h with ⟨rfl, rfl⟩ | ⟨rfl, rfl | rfl⟩
      · exact ⟨_, _, rfl⟩
      · exact ⟨_, _, rfl⟩
      · exact ⟨_, _, List.replicate_succ⟩
  · intro v t α u β h1 h2 ht
    have ht := str_teq ht
    subst ht
    replace h1 := (hj.rules _ _).1 h1
    replace h2 := (hj.rules _ _).1 h2
    simp only [mem_countRules, List.replicate_succ, List.cons.injEq, Sym.term.injEq] at h1 h2
    grind
  · intro v β t w γ u _ _ _ _ ht
    exact str_teq ht

/-! ## Two kinds of tokens become one -/

/-- C135.  There is a grammar with a parser so that, if two of the kinds of its tokens are made one, no grammar for what
becomes of its sentences has a parser, although there are such grammars. -/
theorem c135_merged (hp : 0 < p) (hpq : p < q) : ∃ g₁ : Grammar String String, Built g₁ ∧ EpsFree g₁ ∧
    (∀ w, (∃ m, ParseTree g₁ m w) ↔ ∃ n, 1 ≤ n ∧
      (w = "c" :: (List.replicate n "a" ++ List.replicate (p * n) "b") ∨
        w = "d" :: (List.replicate n "a" ++ List.replicate (q * n) "b"))) ∧
    (∃ tbl, IsParser (withEnd g₁ "Z" "$" "#") tbl) ∧
    (∃ g, Built g ∧ EpsFree g ∧ NotIn g "Z" "$" "#" ∧ ∀ w, (∃ m, ParseTree g m w) ↔
      ∃ u, (∃ m, ParseTree g₁ m u) ∧ w = u.map fun t => if t = "d" then "c" else t) ∧
    ∀ (g : Grammar String String) (z e f : String), Built g → EpsFree g → NotIn g z e f →
      (∀ w, (∃ m, ParseTree g m w) ↔ ∃ u, (∃ m, ParseTree g₁ m u) ∧ w = u.map fun t => if t = "d" then "c" else t) →
      ¬ ∃ tbl, IsParser (withEnd g z e f) tbl := by
  have hq : 0 < q := by omega
  obtain ⟨g₁, b1, e1, _, l1, t1⟩ := c134_front hp hq
  have same : ∀ w, (∃ u, (∃ m, ParseTree g₁ m u) ∧ w = u.map fun t => if t = "d" then "c" else t) ↔
      ∃ n, 1 ≤ n ∧ (w = "c" :: (List.replicate n "a" ++ List.replicate (p * n) "b") ∨
        w = "c" :: (List.replicate n "a" ++ List.replicate (q * n) "b")) := by
    intro w
    constructor
    · rintro ⟨u, h, rfl⟩
      obtain ⟨n, h1, rfl | rfl⟩ := (l1 _).1 h
      · exact ⟨n, h1, .inl (by simp)⟩
      · exact ⟨n, h1, .inr (by simp)⟩
    · rintro ⟨n, h1, rfl | rfl⟩
      · exact ⟨_, (l1 _).2 ⟨n, h1, .inl rfl⟩, by simp⟩
      · exact ⟨_, (l1 _).2 ⟨n, h1, .inr rfl⟩, by simp⟩
  refine ⟨g₁, b1, e1, l1, t1, ?_, ?_⟩
  · obtain ⟨g, hj⟩ := joined (p := p) (q := q) (β₁ := [.term "c", .var "P"]) (β₂ := [.term "c", .var "Q"]) hp hq (by simp)
      (by simp) (by simp)
    obtain ⟨he, _, hn⟩ := joined_terms hj (by simp) (by simp) (by simp)
    have hm := joined_means hj hp hq
    refine ⟨g, hj.built, he, hn, fun w => ?_⟩
    rw [same, joined_tree hj, forest_token_var, forest_token_var]
    simp only [(hm _).1, (hm _).2]
    constructor
    · rintro (⟨u, rfl, n, h1, rfl⟩ | ⟨u, rfl, n, h1, rfl⟩)
      · exact ⟨n, h1, .inl rfl⟩
      · exact ⟨n, h1, .inr rfl⟩
    · rintro ⟨n, h1, rfl | rfl⟩
      · exact .inl ⟨_, rfl, n, h1, rfl⟩
      · exact .inr ⟨_, rfl, n, h1, rfl⟩
  · intro g z e f hg he hn h
    refine no_parser_behind hg he hn (a := "a") (b := "b") hp hpq ["c"] fun n i hn1 => ?_
    rw [h, same]
    simp only [List.cons_append, List.nil_append, List.cons.injEq, true_and]
    constructor
    · rintro ⟨k, hk, h | h⟩
      · obtain ⟨rfl, rfl⟩ := counts_alike h
        exact .inl rfl
      · obtain ⟨rfl, rfl⟩ := counts_alike h
        exact .inr rfl
    · rintro (rfl | rfl)
      · exact ⟨n, hn1, .inl rfl⟩
      · exact ⟨n, hn1, .inr rfl⟩

/-! ## One input behind another -/

/-- `C → C c | c`. -/
def someC : Grammar String String := ⟨"C", [("C", [.var "C", .term "c"]), ("C", [.term "c"])]⟩

theorem someC_built : Built someC :=
  ⟨[.setStart "C", .addRules "C" [[.var "C", .term "c"], [.term "c"]]], by decide⟩

theorem someC_parser : IsParser (withEnd someC "Z" "$" "#") (tableOf (withEnd someC "Z" "$" "#")) :=
  ⟨100, .insertion, by decide +kernel⟩

private theorem someC_tokens {α : List (Sym String String)} {ns : List (Node String String)} {w : List String}
    (h : Forest someC α ns w) (hα : ∀ t, .term t ∈ α → t = "c") (he : .eps ∉ α) :
    (∀ t ∈ w, t = "c") ∧ α.length ≤ w.length := by
  induction h with
  | nil => simp
  | eps _ _ => simp at he
  | term ht _ ih =>
    obtain ⟨h1, h2⟩ := ih (fun t ht => hα t (List.mem_cons_of_mem _ ht)) (fun h => he (List.mem_cons_of_mem _ h))
    have h3 := hα _ (List.mem_cons_self ..)
    rw [str_teq ht] at h3
    refine ⟨fun t ht => ?_, by simpa using h2⟩
    rcases List.mem_cons.1 ht with rfl | ht
    · exact h3
    · exact h1 t ht
  | var hr _ _ ih1 ih2 =>
    obtain ⟨h1, h2⟩ := ih2 (fun t ht => hα t (List.mem_cons_of_mem _ ht)) (fun h => he (List.mem_cons_of_mem _ h))
    simp only [someC, List.mem_cons, Prod.mk.injEq, List.not_mem_nil, or_false] at hr
    have h3 := ih1 (by rcases hr with ⟨_, rfl⟩ | ⟨_, rfl⟩ <;> simp) (by rcases hr with ⟨_, rfl⟩ | ⟨_, rfl⟩ <;> simp)
    have h4 : 1 ≤ _ := Nat.le_trans (by rcases hr with ⟨_, rfl⟩ | ⟨_, rfl⟩ <;> simp) h3.2
    refine ⟨fun t ht => ?_, by simp only [List.length_cons, List.length_append]; omega⟩
    rcases List.mem_append.1 ht with ht | ht
    · exact h3.1 t ht
    · exact h1 t ht

theorem someC_language (w : List String) : (∃ m, ParseTree someC m w) ↔ ∃ k, w = List.replicate (k + 1) "c" := by
  constructor
  · rintro ⟨m, h⟩
    obtain ⟨h1, h2⟩ := someC_tokens h (by simp) (by simp)
    simp only [List.length_cons, List.length_nil] at h2
    exact ⟨w.length - 1, by rw [Nat.sub_add_cancel h2]; exact List.eq_replicate_iff.2 ⟨rfl, h1⟩⟩
  · rintro ⟨k, rfl⟩
    induction k with
    | zero =>
      exact ⟨_, .var (w := []) (β := [.term "c"]) (by simp [someC]) (.term (LawfulTerminalEq.refl "c") .nil) .nil⟩
    | succ k ih =>
      obtain ⟨m, h⟩ := ih
      have h1 := Forest.var (w := []) (v := "C") (β := [.var "C", .term "c"]) (by simp [someC])
        (forest_append h (.term (LawfulTerminalEq.refl "c") .nil)) .nil
      rw [List.append_nil, ← List.replicate_succ'] at h1
      exact ⟨_, h1⟩

private theorem counts_head {n i : Nat} : (List.replicate n "a" ++ List.replicate i "b").head? ≠ some "c" := by
  cases n with
  | zero => cases i <;> simp [List.replicate_succ]
  | succ n => simp [List.replicate_succ]

/-- C135.  There are two grammars with parsers so that no grammar for the inputs that are a sentence of the one and then
a sentence of the other has a parser, although there are such grammars. -/
theorem c135_behind (hp : 0 < p) (hpq : p < q) : ∃ g₁ g₂ : Grammar String String,
    (∀ w, (∃ m, ParseTree g₁ m w) ↔ ∃ k, w = List.replicate (k + 1) "c") ∧
    (∀ w, (∃ m, ParseTree g₂ m w) ↔ ∃ n, 1 ≤ n ∧
      (w = "c" :: (List.replicate n "a" ++ List.replicate (p * n) "b") ∨
        w = List.replicate n "a" ++ List.replicate (q * n) "b")) ∧
    (∃ tbl, IsParser (withEnd g₁ "Z" "$" "#") tbl) ∧ (∃ tbl, IsParser (withEnd g₂ "Z" "$" "#") tbl) ∧
    (∃ g, Built g ∧ EpsFree g ∧ NotIn g "Z" "$" "#" ∧ ∀ w, (∃ m, ParseTree g m w) ↔
      ∃ x y, w = x ++ y ∧ (∃ m, ParseTree g₁ m x) ∧ ∃ m, ParseTree g₂ m y) ∧
    ∀ (g : Grammar String String) (z e f : String), Built g → EpsFree g → NotIn g z e f →
      (∀ w, (∃ m, ParseTree g m w) ↔ ∃ x y, w = x ++ y ∧ (∃ m, ParseTree g₁ m x) ∧ ∃ m, ParseTree g₂ m y) →
      ¬ ∃ tbl, IsParser (withEnd g z e f) tbl := by
  have hq : 0 < q := by omega
  obtain ⟨g₂, hj⟩ := joined (p := p) (q := q) (β₁ := [.term "c", .var "P"]) (β₂ := [.term "a", .var "U"]) hp hq (by simp)
    (by simp) (by simp)
  obtain ⟨e2, h2, n2⟩ := joined_terms hj (by simp) (by simp) (by simp)
  have hm := joined_means hj hp hq
  have hU : ∀ w, (∃ ns, Forest g₂ [.term "a", .var "U"] ns w) ↔ ∃ m, Forest g₂ [.var "Q"] [m] w := by
    intro w
    constructor
    · rintro ⟨ns, h⟩
      have := Forest.var (w := []) ((hj.rules "Q" _).2 (.inr (.inr (mem_countRules.2 (.inl ⟨rfl, rfl⟩))))) h .nil
      exact ⟨_, by simpa using this⟩
    · rintro ⟨m, h⟩
      generalize hα : [Sym.var "Q"] = α at h
      generalize [m] = ns at h
      cases h with
      | nil => simp at hα
      | eps _ => simp at hα
      | term _ _ => simp at hα
      | var hr h1 h3 =>
        simp only [List.cons.injEq, Sym.var.injEq] at hα
        obtain ⟨rfl, rfl⟩ := hα
        cases h3
        rcases (hj.rules _ _).1 hr with ⟨h, _⟩ | h | h
        · simp at h
        · rcases mem_countRules.1 h with ⟨h, _⟩ | ⟨h, _⟩ <;> simp at h
        · rcases mem_countRules.1 h with ⟨_, rfl⟩ | ⟨h, _⟩
          · exact ⟨_, by simpa using h1⟩
          · simp at h
  have l2 : ∀ w, (∃ m, ParseTree g₂ m w) ↔ ∃ n, 1 ≤ n ∧
      (w = "c" :: (List.replicate n "a" ++ List.replicate (p * n) "b") ∨
        w = List.replicate n "a" ++ List.replicate (q * n) "b") := by
    intro w
    rw [joined_tree hj, forest_token_var, hU]
    simp only [(hm _).1, (hm _).2]
    constructor
    · rintro (⟨u, rfl, n, h1, rfl⟩ | ⟨n, h1, rfl⟩)
      · exact ⟨n, h1, .inl rfl⟩
      · exact ⟨n, h1, .inr rfl⟩
    · rintro ⟨n, h1, rfl | rfl⟩
      · exact .inl ⟨_, rfl, n, h1, rfl⟩
      · exact .inr ⟨n, h1, rfl⟩
  refine ⟨someC, g₂, someC_language, l2, ⟨_, someC_parser⟩, joined_parser (by decide) hj hp hq e2 n2, ?_, ?_⟩
  · have hr : ∀ v β, (v, β) ∈ ("T", [Sym.var "C", .var "S"]) :: (someC.rules ++ g₂.rules) ↔
        v = "T" ∧ β = [.var "C", .var "S"] ∨ (v, β) ∈ someC.rules ∨ (v, β) ∈ g₂.rules := by
      intro v β
      simp only [List.mem_cons, Prod.mk.injEq, List.mem_append]
    have d1 : ∀ v β, (v, β) ∈ someC.rules → v = "C" := fun v β h => by simp [someC] at h; grind
    have d2 : ∀ v β, (v, β) ∈ g₂.rules → v = "S" ∨ v = "P" ∨ v = "R" ∨ v = "Q" ∨ v = "U" := fun v β h => by
      rcases (hj.rules _ _).1 h with ⟨h, _⟩ | h | h
      · simp [h]
      · rcases mem_countRules.1 h with ⟨h, _⟩ | ⟨h, _⟩ <;> simp [h]
      · rcases mem_countRules.1 h with ⟨h, _⟩ | ⟨h, _⟩ <;> simp [h]
    have s2 := hj.start
    obtain ⟨g, hg, hs, h⟩ := built_rules "T" (("T", [Sym.var "C", .var "S"]) :: (someC.rules ++ g₂.rules))
      ⟨_, (hr _ _).2 (.inl ⟨rfl, rfl⟩)⟩
      (by
        intro v β w h hw
        rcases (hr _ _).1 h with ⟨_, rfl⟩ | h | h
        · simp at hw
          rcases hw with rfl | rfl
          · exact ⟨[.term "c"], (hr _ _).2 (.inr (.inl (by simp [someC])))⟩
          · obtain ⟨γ, h1⟩ := hj.built.wellFormed.start
            rw [s2] at h1
            exact ⟨γ, (hr _ _).2 (.inr (.inr h1))⟩
        · obtain ⟨γ, h1⟩ := someC_built.wellFormed.closed _ _ _ h hw
          exact ⟨γ, (hr _ _).2 (.inr (.inl h1))⟩
        · obtain ⟨γ, h1⟩ := hj.built.wellFormed.closed _ _ _ h hw
          exact ⟨γ, (hr _ _).2 (.inr (.inr h1))⟩)
      (by
        intro v β h
        rcases (hr _ _).1 h with ⟨_, rfl⟩ | h | h
        · simp
        · exact someC_built.wellFormed.nonempty _ _ h
        · exact hj.built.wellFormed.nonempty _ _ h)
    have hr' : ∀ v β, (v, β) ∈ g.rules ↔
        v = "T" ∧ β = [.var "C", .var "S"] ∨ (v, β) ∈ someC.rules ∨ (v, β) ∈ g₂.rules := fun v β => (h v β).trans (hr v β)
    have hterm : ∀ v β t, (v, β) ∈ g.rules → .term t ∈ β → t = "a" ∨ t = "b" ∨ t = "c" ∨ t = "d" := by
      intro v β t h ht
      rcases (hr' _ _).1 h with ⟨_, rfl⟩ | h | h
      · simp at ht
      · simp [someC] at h
        rcases h with ⟨_, rfl⟩ | ⟨_, rfl⟩ <;> simp at ht <;> simp [ht]
      · exact h2 v β t h ht
    refine ⟨g, hg, ?_, ⟨?_, ?_, ?_, by decide⟩, fun w => ⟨?_, ?_⟩⟩
    · intro v β h
      rcases (hr' _ _).1 h with ⟨_, rfl⟩ | h | h
      · simp
      · simp [someC] at h
        rcases h with ⟨_, rfl⟩ | ⟨_, rfl⟩ <;> simp
      · exact e2 _ _ h
    · intro β h
      rcases (hr' _ _).1 h with ⟨h, _⟩ | h | h
      · simp at h
      · exact absurd (d1 _ _ h) (by decide)
      · exact n2.head _ h
    · intro v β t h ht
      rcases hterm v β t h ht with rfl | rfl | rfl | rfl <;> decide
    · intro v β t h ht
      rcases hterm v β t h ht with rfl | rfl | rfl | rfl <;> decide
    · rintro ⟨m, h⟩
      obtain ⟨β, cs, h1, _, h3⟩ := parseTree_iff.1 h
      rw [hs] at h1
      rcases (hr' _ _).1 h1 with ⟨_, rfl⟩ | h | h
      · obtain ⟨n1, n2, x, y, _, rfl, k1, k2⟩ := forest_split (α := [Sym.var "C"]) (β := [Sym.var "S"]) h3
        have k3 := forest_within_rules (g' := someC) (fun v => v = "C") (fun v β hv h => by
          subst hv
          rcases (hr' _ _).1 h with ⟨h, _⟩ | h | h
          · simp at h
          · refine ⟨h, fun w hw => ?_⟩
            obtain ⟨γ, h1⟩ := someC_built.wellFormed.closed _ _ _ h hw
            exact d1 _ _ h1
          · exact absurd (d2 _ _ h) (by decide)) k1 (by simp)
        have k4 := forest_within_rules (g' := g₂) (fun v => ∃ γ, (v, γ) ∈ g₂.rules) (fun v β hv h => by
          obtain ⟨γ, hv⟩ := hv
          rcases (hr' _ _).1 h with ⟨h, _⟩ | h | h
          · subst h
            exact absurd (d2 _ _ hv) (by decide)
          · have := d1 _ _ h
            subst this
            exact absurd (d2 _ _ hv) (by decide)
          · exact ⟨h, fun w hw => hj.built.wellFormed.closed _ _ _ h hw⟩) k2 (by
            intro v hv
            simp at hv
            subst hv
            have := hj.built.wellFormed.start
            rwa [s2] at this)
        have single : ∀ {g : Grammar String String} {v : String} {ns : List (Node String String)} {w : List String},
            Forest g [.var v] ns w → ∃ m, Forest g [.var v] [m] w := by
          intro g v ns w h
          cases h with
          | @var _ _ _ _ _ _ _ hr h1 h3 =>
            cases h3
            exact ⟨_, .var hr h1 .nil⟩
        refine ⟨x, y, rfl, single k3, ?_⟩
        unfold ParseTree
        rw [s2]
        exact single k4
      · exact absurd (d1 _ _ h) (by decide)
      · exact absurd (d2 _ _ h) (by decide)
    · rintro ⟨x, y, rfl, ⟨m1, k1⟩, m2, k2⟩
      unfold ParseTree at k2
      rw [s2] at k2
      refine ⟨_, parseTree_iff.2 ⟨[.var "C", .var "S"], _, ?_, rfl, forest_append
        (forest_mono (fun ⟨v, β⟩ h => (hr' _ _).2 (.inr (.inl h))) k1)
        (forest_mono (fun ⟨v, β⟩ h => (hr' _ _).2 (.inr (.inr h))) k2)⟩⟩
      rw [hs]
      exact (hr' _ _).2 (.inl ⟨rfl, rfl⟩)
  · intro g z e f hg he hn h
    refine no_parser_behind hg he hn (a := "a") (b := "b") hp hpq (List.replicate 2 "c") fun n i hn1 => ?_
    rw [h]
    simp only [someC_language, l2]
    constructor
    · rintro ⟨x, y, h1, ⟨k, rfl⟩, m, hm, rfl | rfl⟩
      · rw [show List.replicate (k + 1) "c" ++ "c" :: (List.replicate m "a" ++ List.replicate (p * m) "b") =
          List.replicate (k + 2) "c" ++ (List.replicate m "a" ++ List.replicate (p * m) "b") from by
            simp [List.replicate_succ']] at h1
        obtain ⟨rfl, rfl⟩ := counts_alike (replicate_alike counts_head counts_head h1).2
        exact .inl rfl
      · obtain ⟨rfl, rfl⟩ := counts_alike (replicate_alike counts_head counts_head h1).2
        exact .inr rfl
    · rintro (rfl | rfl)
      · exact ⟨List.replicate 1 "c", _, rfl, ⟨0, rfl⟩, n, hn1, .inl rfl⟩
      · exact ⟨List.replicate 2 "c", _, rfl, ⟨1, rfl⟩, n, hn1, .inr rfl⟩

/-! ## Several inputs behind each other -/

/-- `S → D | D P | Q`, `D → c`, `P → a R`, `R → a R b | b`, `Q → a U`, `U → a U b b | b b`. -/
def oneOrTwo : Grammar String String :=
  ⟨"S", [("S", [.var "D"]), ("S", [.var "D", .var "P"]), ("S", [.var "Q"]), ("D", [.term "c"])] ++
    (countRules 1 "P" "R" ++ countRules 2 "Q" "U")⟩

theorem oneOrTwo_built : Built oneOrTwo :=
  ⟨[.setStart "S", .addRules "S" [[.var "D"], [.var "D", .var "P"], [.var "Q"]], .addRules "D" [[.term "c"]],
    .addRules "P" [[.term "a", .var "R"]], .addRules "R" [[.term "a", .var "R", .term "b"], [.term "b"]],
    .addRules "Q" [[.term "a", .var "U"]],
    .addRules "U" [[.term "a", .var "U", .term "b", .term "b"], [.term "b", .term "b"]]], by decide⟩

theorem oneOrTwo_parser : IsParser (withEnd oneOrTwo "Z" "$" "#") (tableOf (withEnd oneOrTwo "Z" "$" "#")) :=
  ⟨100, .insertion, by decide +kernel⟩

private theorem mem_oneOrTwo {v : String} {β : Body String String} : (v, β) ∈ oneOrTwo.rules ↔
    v = "S" ∧ (β = [.var "D"] ∨ β = [.var "D", .var "P"] ∨ β = [.var "Q"]) ∨ v = "D" ∧ β = [.term "c"] ∨
      (v, β) ∈ countRules 1 "P" "R" ∨ (v, β) ∈ countRules 2 "Q" "U" := by
  simp only [oneOrTwo, List.mem_append, List.mem_cons, Prod.mk.injEq, List.not_mem_nil, or_false]
  grind

private theorem oneOrTwo_means (w : List String) :
    ((∃ ns, Forest oneOrTwo [.var "D"] ns w) ↔ w = ["c"]) ∧
    ((∃ ns, Forest oneOrTwo [.var "P"] ns w) ↔ ∃ n, 1 ≤ n ∧ w = List.replicate n "a" ++ List.replicate (1 * n) "b") ∧
    ((∃ ns, Forest oneOrTwo [.var "Q"] ns w) ↔ ∃ n, 1 ≤ n ∧ w = List.replicate n "a" ++ List.replicate (2 * n) "b") := by
  obtain ⟨g₁, _, _, s1, r1, l1, _⟩ := c130_each (p := 1) (s := "P") (r := "R") (by decide) (by decide) (by decide) (by decide)
  obtain ⟨g₂, _, _, s2, r2, l2, _⟩ := c130_each (p := 2) (s := "Q") (r := "U") (by decide) (by decide) (by decide) (by decide)
  have single : ∀ {g : Grammar String String} {v : String} {w : List String},
      (∃ ns, Forest g [.var v] ns w) ↔ ∃ m, Forest g [.var v] [m] w := by
    intro g v w
    constructor
    · rintro ⟨ns, h⟩
      cases h with
      | @var _ _ _ _ _ _ _ hr h1 h3 =>
        cases h3
        exact ⟨_, .var hr h1 .nil⟩
    · rintro ⟨m, h⟩
      exact ⟨_, h⟩
  refine ⟨⟨?_, ?_⟩, ?_, ?_⟩
  · rintro ⟨ns, h⟩
    cases h with
    | @var _ β _ _ _ _ _ hr h1 h3 =>
      cases h3
      rcases mem_oneOrTwo.1 hr with ⟨h, _⟩ | ⟨_, rfl⟩ | h | h
      · simp at h
      · cases h1 with
        | term ht h4 =>
          cases h4
          simp [str_teq ht]
      · rcases mem_countRules.1 h with ⟨h, _⟩ | ⟨h, _⟩ <;> simp at h
      · rcases mem_countRules.1 h with ⟨h, _⟩ | ⟨h, _⟩ <;> simp at h
  · rintro rfl
    exact ⟨_, .var (w := []) (mem_oneOrTwo.2 (.inr (.inl ⟨rfl, rfl⟩))) (.term (LawfulTerminalEq.refl "c") .nil) .nil⟩
  · rw [single, ← l1 w]
    unfold ParseTree
    rw [s1]
    refine exists_congr fun m => ⟨fun h => forest_within_rules (fun v => v = "P" ∨ v = "R") ?_ h (by simp),
      forest_mono fun ⟨v, β⟩ h => mem_oneOrTwo.2 (.inr (.inr (.inl ((r1 _ _).1 h))))⟩
    intro v β hv h
    rcases mem_oneOrTwo.1 h with ⟨rfl, _⟩ | ⟨rfl, _⟩ | h | h
    · simp at hv
    · simp at hv
    · refine ⟨(r1 _ _).2 h, fun w hw => ?_⟩
      rcases mem_countRules.1 h with ⟨rfl, rfl⟩ | ⟨rfl, rfl | rfl⟩ <;> simp [List.mem_replicate] at hw <;> simp [hw]
    · rcases mem_countRules.1 h with ⟨rfl, _⟩ | ⟨rfl, _⟩ <;> simp at hv
  · rw [single, ← l2 w]
    unfold ParseTree
    rw [s2]
    refine exists_congr fun m => ⟨fun h => forest_within_rules (fun v => v = "Q" ∨ v = "U") ?_ h (by simp),
      forest_mono fun ⟨v, β⟩ h => mem_oneOrTwo.2 (.inr (.inr (.inr ((r2 _ _).1 h))))⟩
    intro v β hv h
    rcases mem_oneOrTwo.1 h with ⟨rfl, _⟩ | ⟨rfl, _⟩ | h | h
    · simp at hv
    · simp at hv
    · rcases mem_countRules.1 h with ⟨rfl, _⟩ | ⟨rfl, _⟩ <;> simp at hv
    · refine ⟨(r2 _ _).2 h, fun w hw => ?_⟩
      rcases mem_countRules.1 h with ⟨rfl, rfl⟩ | ⟨rfl, rfl | rfl⟩ <;> simp [List.mem_replicate] at hw <;> simp [hw]

theorem oneOrTwo_language (w : List String) : (∃ m, ParseTree oneOrTwo m w) ↔ w = ["c"] ∨ ∃ n, 1 ≤ n ∧
    (w = "c" :: (List.replicate n "a" ++ List.replicate n "b") ∨
      w = List.replicate n "a" ++ List.replicate (2 * n) "b") := by
  have hm := oneOrTwo_means
  simp only [Nat.one_mul] at hm
  constructor
  · rintro ⟨m, h⟩
    obtain ⟨β, cs, h1, _, h2⟩ := parseTree_iff.1 h
    rcases mem_oneOrTwo.1 h1 with ⟨_, rfl | rfl | rfl⟩ | ⟨h, _⟩ | h | h
    · exact .inl ((hm _).1.1 ⟨_, h2⟩)
    · obtain ⟨n1, n2, x, y, _, rfl, k1, k2⟩ := forest_split (α := [Sym.var "D"]) (β := [Sym.var "P"]) h2
      obtain rfl := (hm _).1.1 ⟨_, k1⟩
      obtain ⟨n, hn, rfl⟩ := (hm _).2.1.1 ⟨_, k2⟩
      exact .inr ⟨n, hn, .inl rfl⟩
    · obtain ⟨n, hn, rfl⟩ := (hm _).2.2.1 ⟨_, h2⟩
      exact .inr ⟨n, hn, .inr rfl⟩
    · simp [oneOrTwo] at h
    · rcases mem_countRules.1 h with ⟨h, _⟩ | ⟨h, _⟩ <;> simp [oneOrTwo] at h
    · rcases mem_countRules.1 h with ⟨h, _⟩ | ⟨h, _⟩ <;> simp [oneOrTwo] at h
  · rintro (rfl | ⟨n, hn, rfl | rfl⟩)
    · obtain ⟨ns, h⟩ := (hm _).1.2 rfl
      exact ⟨_, parseTree_iff.2 ⟨_, _, mem_oneOrTwo.2 (.inl ⟨rfl, .inl rfl⟩), rfl, h⟩⟩
    · obtain ⟨ns, h⟩ := (hm ["c"]).1.2 rfl
      obtain ⟨ms, h'⟩ := (hm _).2.1.2 ⟨n, hn, rfl⟩
      exact ⟨_, parseTree_iff.2 ⟨_, _, mem_oneOrTwo.2 (.inl ⟨rfl, .inr (.inl rfl)⟩), rfl, forest_append h h'⟩⟩
    · obtain ⟨ns, h⟩ := (hm _).2.2.2 ⟨n, hn, rfl⟩
      exact ⟨_, parseTree_iff.2 ⟨_, _, mem_oneOrTwo.2 (.inl ⟨rfl, .inr (.inr rfl)⟩), rfl, h⟩⟩

private theorem counts_rest {m n i j : Nat} {r : List String} (hj : 1 ≤ j) (hr : r.head? ≠ some "b")
    (h : List.replicate m "a" ++ (List.replicate j "b" ++ r) = List.replicate n "a" ++ List.replicate i "b") :
    n = m ∧ i = j := by
  obtain ⟨j, rfl⟩ : ∃ k, j = k + 1 := ⟨j - 1, by omega⟩
  obtain ⟨h1, h2⟩ := replicate_alike (by simp [List.replicate_succ]) (by cases i <;> simp [List.replicate_succ]) h
  have h3 := replicate_alike (s' := []) hr (by simp) (by simpa using h2)
  exact ⟨h1.symm, h3.1.symm⟩

/-- C135.  There is a grammar with a parser so that no grammar for one or more of its sentences behind each other has a
parser, although there are such grammars. -/
theorem c135_list : ∃ g₁ : Grammar String String, Built g₁ ∧ EpsFree g₁ ∧ (∃ tbl, IsParser (withEnd g₁ "Z" "$" "#") tbl) ∧
    (∃ g, Built g ∧ EpsFree g ∧ NotIn g "Z" "$" "#" ∧ ∀ w, (∃ m, ParseTree g m w) ↔
      ∃ ws : List (List String), ws ≠ [] ∧ (∀ x ∈ ws, ∃ m, ParseTree g₁ m x) ∧ w = ws.flatten) ∧
    ∀ (g : Grammar String String) (z e f : String), Built g → EpsFree g → NotIn g z e f →
      (∀ w, (∃ m, ParseTree g m w) ↔
        ∃ ws : List (List String), ws ≠ [] ∧ (∀ x ∈ ws, ∃ m, ParseTree g₁ m x) ∧ w = ws.flatten) →
      ¬ ∃ tbl, IsParser (withEnd g z e f) tbl := by
  have he : EpsFree oneOrTwo := by
    intro v β h
    rcases mem_oneOrTwo.1 h with ⟨_, rfl | rfl | rfl⟩ | ⟨_, rfl⟩ | h | h
    · simp
    · simp
    · simp
    · simp
    · rcases mem_countRules.1 h with ⟨rfl, rfl⟩ | ⟨rfl, rfl | rfl⟩ <;> simp
    · rcases mem_countRules.1 h with ⟨rfl, rfl⟩ | ⟨rfl, rfl | rfl⟩ <;> simp
  refine ⟨oneOrTwo, oneOrTwo_built, he, ⟨_, oneOrTwo_parser⟩, ?_, ?_⟩
  · let g : Grammar String String :=
      ⟨"T", [("T", [.var "T", .var "S"]), ("T", [.var "S"])] ++ oneOrTwo.rules⟩
    have hr : ∀ v β, (v, β) ∈ g.rules ↔
        v = "T" ∧ (β = [.var "T", .var "S"] ∨ β = [.var "S"]) ∨ (v, β) ∈ oneOrTwo.rules := by
      intro v β
      simp only [g, List.mem_append, List.mem_cons, Prod.mk.injEq, List.not_mem_nil, or_false]
      grind
    have noT : ∀ β, ("T", β) ∉ oneOrTwo.rules := by
      intro β h
      rcases mem_oneOrTwo.1 h with ⟨h, _⟩ | ⟨h, _⟩ | h | h
      · simp at h
      · simp at h
      · rcases mem_countRules.1 h with ⟨h, _⟩ | ⟨h, _⟩ <;> simp at h
      · rcases mem_countRules.1 h with ⟨h, _⟩ | ⟨h, _⟩ <;> simp at h
    have inner : ∀ {ns : List (Node String String)} {w : List String}, Forest g [.var "S"] ns w →
        ∃ m, ParseTree oneOrTwo m w := by
      intro ns w h
      have h1 := forest_within_rules (g' := oneOrTwo) (fun v => v ≠ "T") (fun v β hv h => by
        rcases (hr _ _).1 h with ⟨h, _⟩ | h
        · exact absurd h hv
        · refine ⟨h, fun w hw => ?_⟩
          obtain ⟨γ, h1⟩ := oneOrTwo_built.wellFormed.closed _ _ _ h hw
          rintro rfl
          exact noT _ h1) h (by simp)
      cases h1 with
      | @var _ _ _ _ _ _ _ hr h1 h3 =>
        cases h3
        exact ⟨_, .var hr h1 .nil⟩
    have hterm : ∀ r ∈ g.rules, ∀ s ∈ r.2, ∀ t, s = .term t → t = "a" ∨ t = "b" ∨ t = "c" := by
      have : ∀ r ∈ g.rules, ∀ s ∈ r.2, (match s with | .term t => decide (t = "a" ∨ t = "b" ∨ t = "c") | _ => true) = true := by
        decide +kernel
      rintro r h s hs t rfl
      exact of_decide_eq_true (this r h _ hs)
    refine ⟨g, ⟨[.setStart "T", .addRules "T" [[.var "T", .var "S"], [.var "S"]],
      .addRules "S" [[.var "D"], [.var "D", .var "P"], [.var "Q"]], .addRules "D" [[.term "c"]],
      .addRules "P" [[.term "a", .var "R"]], .addRules "R" [[.term "a", .var "R", .term "b"], [.term "b"]],
      .addRules "Q" [[.term "a", .var "U"]],
      .addRules "U" [[.term "a", .var "U", .term "b", .term "b"], [.term "b", .term "b"]]], by decide⟩, ?_,
      ⟨?_, ?_, ?_, by decide⟩, fun w => ⟨?_, ?_⟩⟩
    · intro v β h
      rcases (hr _ _).1 h with ⟨_, rfl | rfl⟩ | h
      · simp
      · simp
      · exact he _ _ h
    · intro β h
      have : ∀ r ∈ g.rules, r.1 ≠ "Z" := by decide +kernel
      exact this _ h rfl
    · intro v β t h ht
      rcases hterm _ h _ ht t rfl with rfl | rfl | rfl <;> decide
    · intro v β t h ht
      rcases hterm _ h _ ht t rfl with rfl | rfl | rfl <;> decide
    · have key : ∀ {α : List (Sym String String)} {ns : List (Node String String)} {w : List String}, Forest g α ns w →
          α = [.var "T"] ∨ α = [.var "T", .var "S"] →
          ∃ ws : List (List String), ws ≠ [] ∧ (∀ x ∈ ws, ∃ m, ParseTree oneOrTwo m x) ∧ w = ws.flatten := by
        intro α ns w h
        induction h with
        | nil => simp
        | eps _ _ => simp
        | term _ _ _ => simp
        | @var v β α cs ns x w h1 h2 h3 ih1 ih2 =>
          intro hα
          have hv : v = "T" := by rcases hα with hα | hα <;> simp at hα <;> exact hα.1
          subst hv
          have first : ∃ ws : List (List String), ws ≠ [] ∧ (∀ x ∈ ws, ∃ m, ParseTree oneOrTwo m x) ∧ x = ws.flatten := by
            rcases (hr _ _).1 h1 with ⟨_, rfl | rfl⟩ | h
            · exact ih1 (.inr rfl)
            · exact ⟨[x], by simp, by simpa using inner h2, by simp⟩
            · exact absurd h (noT _)
          rcases hα with hα | hα
          · simp only [List.cons.injEq, true_and] at hα
            subst hα
            cases h3
            rw [List.append_nil]
            exact first
          · simp only [List.cons.injEq, true_and] at hα
            subst hα
            obtain ⟨ws, k1, k2, rfl⟩ := first
            refine ⟨ws ++ [w], by simp, ?_, by simp⟩
            intro y hy
            rcases List.mem_append.1 hy with hy | hy
            · exact k2 y hy
            · rw [List.mem_singleton.1 hy]
              exact inner h3
      rintro ⟨m, h⟩
      exact key h (.inl rfl)
    · rintro ⟨ws, h1, h2, rfl⟩
      have outer : ∀ {x : List String}, (∃ m, ParseTree oneOrTwo m x) → ∃ m, Forest g [.var "S"] [m] x := by
        rintro x ⟨m, h⟩
        exact ⟨m, forest_mono (fun ⟨v, β⟩ h => (hr _ _).2 (.inr h)) h⟩
      obtain ⟨ws, x, rfl⟩ := (List.eq_nil_or_concat ws).resolve_left h1
      clear h1
      rw [List.concat_eq_append] at h2 ⊢
      generalize hk : ws.length = k
      induction k generalizing ws x with
      | zero =>
        obtain rfl := List.length_eq_zero_iff.1 hk
        obtain ⟨m, h⟩ := outer (h2 x (by simp))
        refine ⟨_, parseTree_iff.2 ⟨[.var "S"], [m], (hr _ _).2 (.inl ⟨rfl, .inr rfl⟩), rfl, ?_⟩⟩
        simpa using h
      | succ k ih =>
        obtain ⟨ws, y, rfl⟩ := (List.eq_nil_or_concat ws).resolve_left (by rintro rfl; simp at hk)
        rw [List.concat_eq_append] at h2 hk ⊢
        obtain ⟨m, h⟩ := ih ws y (fun z hz => h2 z (List.mem_append_left _ hz)) (by simpa using hk)
        obtain ⟨m', h'⟩ := outer (h2 x (by simp))
        refine ⟨_, parseTree_iff.2 ⟨[.var "T", .var "S"], [m, m'], (hr _ _).2 (.inl ⟨rfl, .inl rfl⟩), rfl, ?_⟩⟩
        have := forest_append h h'
        rw [List.flatten_append (L₂ := [x])]
        simpa using this
  · intro g z e f hg hge hn h
    have head : ∀ ws : List (List String), (∀ x ∈ ws, ∃ m, ParseTree oneOrTwo m x) → ws.flatten.head? ≠ some "b" := by
      intro ws hw
      cases ws with
      | nil => simp
      | cons x ws =>
        rcases (oneOrTwo_language _).1 (hw x (by simp)) with rfl | ⟨n, hn, rfl | rfl⟩
        · simp
        · simp
        · obtain ⟨n, rfl⟩ : ∃ k, n = k + 1 := ⟨n - 1, by omega⟩
          simp [List.replicate_succ]
    refine no_parser_behind hg hge hn (a := "a") (b := "b") (p := 1) (q := 2) (by decide) (by decide) ["c"] fun n i hn1 => ?_
    rw [h]
    constructor
    · rintro ⟨ws, _, h2, h3⟩
      cases ws with
      | nil => simp at h3
      | cons x ws =>
        have hw : ∀ y ∈ ws, ∃ m, ParseTree oneOrTwo m y := fun y hy => h2 y (List.mem_cons_of_mem _ hy)
        rcases (oneOrTwo_language _).1 (h2 x (by simp)) with rfl | ⟨m, hm, rfl | rfl⟩
        · simp only [List.flatten_cons, List.cons_append, List.nil_append, List.cons.injEq, true_and] at h3
          cases ws with
          | nil =>
            obtain ⟨n, rfl⟩ : ∃ k, n = k + 1 := ⟨n - 1, by omega⟩
            simp [List.replicate_succ] at h3
          | cons y ws =>
            have hw' : ∀ y ∈ ws, ∃ m, ParseTree oneOrTwo m y := fun y hy => hw y (List.mem_cons_of_mem _ hy)
            obtain ⟨n, rfl⟩ : ∃ k, n = k + 1 := ⟨n - 1, by omega⟩
            rcases (oneOrTwo_language _).1 (hw y (by simp)) with rfl | ⟨m, hm, rfl | rfl⟩
            · simp [List.replicate_succ] at h3
            · simp [List.replicate_succ] at h3
            · simp only [List.flatten_cons, List.append_assoc] at h3
              obtain ⟨k1, k2⟩ := counts_rest (by omega) (head ws hw') h3.symm
              omega
        · simp only [List.flatten_cons, List.cons_append, List.nil_append, List.cons.injEq, true_and, List.append_assoc] at h3
          obtain ⟨k1, k2⟩ := counts_rest hm (head ws hw) h3.symm
          omega
        · obtain ⟨m, rfl⟩ : ∃ k, m = k + 1 := ⟨m - 1, by omega⟩
          simp [List.replicate_succ] at h3
    · rintro (rfl | rfl)
      · refine ⟨["c" :: (List.replicate n "a" ++ List.replicate n "b")], by simp, ?_, by simp⟩
        simp only [List.mem_singleton, forall_eq]
        exact (oneOrTwo_language _).2 (.inr ⟨n, hn1, .inl rfl⟩)
      · refine ⟨[["c"], List.replicate n "a" ++ List.replicate (2 * n) "b"], by simp, ?_, by simp⟩
        intro x hx
        simp only [List.mem_cons, List.not_mem_nil, or_false] at hx
        rcases hx with rfl | rfl
        · exact (oneOrTwo_language _).2 (.inl rfl)
        · exact (oneOrTwo_language _).2 (.inr ⟨n, hn1, .inr rfl⟩)

/-- As many `b` as `a` behind `c`, or twice as many without it: with some `c` in front there is no parser any more. -/
example : ∃ g₂ g : Grammar String String, (∃ tbl, IsParser (withEnd someC "Z" "$" "#") tbl) ∧
    (∃ tbl, IsParser (withEnd g₂ "Z" "$" "#") tbl) ∧ (∃ m, ParseTree someC m ["c", "c"]) ∧
    (∃ m, ParseTree g₂ m ["c", "a", "b"]) ∧ (∃ m, ParseTree g₂ m ["a", "b", "b"]) ∧
    (∃ m, ParseTree g m ["c", "c", "a", "b"]) ∧ (∃ m, ParseTree g m ["c", "c", "a", "b", "b"]) ∧
    ¬ ∃ tbl, IsParser (withEnd g "Z" "$" "#") tbl := by
  obtain ⟨g₁, g₂, l1, l2, _, t2, ⟨g, hg, he, hn, hl⟩, h⟩ := c135_behind (p := 1) (q := 2) (by decide) (by decide)
  have a1 := (l2 ["c", "a", "b"]).2 ⟨1, by decide, .inl rfl⟩
  have a2 := (l2 ["a", "b", "b"]).2 ⟨1, by decide, .inr rfl⟩
  exact ⟨g₂, g, ⟨_, someC_parser⟩, t2, (someC_language _).2 ⟨1, rfl⟩, a1, a2,
    (hl _).2 ⟨["c"], _, rfl, (l1 _).2 ⟨0, rfl⟩, a1⟩, (hl _).2 ⟨["c", "c"], _, rfl, (l1 _).2 ⟨1, rfl⟩, a2⟩,
    h g _ _ _ hg he hn hl⟩

/-- With `d` made `c`: there is no parser any more. -/
example : ∃ g₁ g : Grammar String String, (∃ tbl, IsParser (withEnd g₁ "Z" "$" "#") tbl) ∧
    (∃ m, ParseTree g₁ m ["d", "a", "b", "b"]) ∧ (∃ m, ParseTree g m ["c", "a", "b", "b"]) ∧
    ¬ ∃ tbl, IsParser (withEnd g "Z" "$" "#") tbl := by
  obtain ⟨g₁, _, _, l1, t1, ⟨g, hg, he, hn, hl⟩, h⟩ := c135_merged (p := 1) (q := 2) (by decide) (by decide)
  have a1 := (l1 ["d", "a", "b", "b"]).2 ⟨1, by decide, .inr rfl⟩
  exact ⟨g₁, g, t1, a1, (hl _).2 ⟨_, a1, rfl⟩, h g _ _ _ hg he hn hl⟩

end Pango.Props
