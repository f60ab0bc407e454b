import Verif.Proofs.FragWays
import Verif.Proofs.Scanned

/-!
# Lexers whose rules are read in one way only hold few runs
-/

namespace Pango.Fsm

open Pango Pango.Regex Pango.Spec

section

variable [Unicode] {nfa : Nfa} {rs : List (Fr × Nat)}

theorem Bundle.edge_ne (b : Bundle nfa rs) {x y : Nat} {i : Input} (h : nfa.HasEdge x i y) : y ≠ 0 := by
  obtain ⟨r, hr, he⟩ := (b.edges _ _ _).1 h
  rcases Fr.edge_target (b.shape r hr) he with rfl | h1
  · exact b.final_ne hr
  · rintro rfl
    exact (b.ok hr).s_out h1

private theorem Bundle.quiets_kept (b : Bundle nfa rs) : ∀ p κ u d κ1, Quiets rs κ p → CStep nfa.HasEdge p κ u d κ1 →
    Quiets rs κ1 d :=
  fun _ _ _ _ _ hq hs => hq.path b (.single hs)

/-- One rank for all fragments: the start state is on top. -/
theorem Bundle.tame_rules (b : Bundle nfa rs) (clean : Clean nfa) (nn : ∀ r ∈ rs, r.1.NonNull)
    (ow : ∀ r ∈ rs, r.1.LoopsOneWay) :
    ∃ rk H, (∀ x, rk x ≤ H) ∧ Tame nfa (fun p κ => Quiets rs κ p) rk := by
  obtain ⟨H, hH⟩ : ∃ H, ∀ r ∈ rs, r.1.height ≤ H := by
    generalize rs = l
    induction l with
    | nil => exact ⟨0, by simp⟩
    | cons r l ih =>
      obtain ⟨H, hH⟩ := ih
      refine ⟨max r.1.height H, fun r' hr' => ?_⟩
      rcases List.mem_cons.1 hr' with rfl | hr'
      · exact Nat.le_max_left _ _
      · exact Nat.le_trans (hH r' hr') (Nat.le_max_right _ _)
  have each : ∀ r : Fr × Nat, ∃ rk : Nat → Nat, r ∈ rs → r.1.Ranks rk ∧ rk 0 = H ∧ rk r.2 = 0 ∧ ∀ p, rk p ≤ H := by
    intro r
    by_cases hr : r ∈ rs
    · obtain ⟨rk, h⟩ := Fr.exists_ranks (fr := r.1) H 0 (b.ok hr) (Ne.symm (b.final_ne hr)) (by have := hH r hr; omega)
      exact ⟨rk, fun _ => h⟩
    · exact ⟨fun _ => 0, fun h => absurd h hr⟩
  obtain ⟨f, hf⟩ := Classical.axiomOfChoice each
  have whole : ∀ x : Nat, ∃ n, n ≤ H ∧ (x = 0 → n = H) ∧ ∀ r ∈ rs, x ∈ r.2 :: r.1.inner → n = f r x := by
    intro x
    by_cases hx : ∃ r ∈ rs, x ∈ r.2 :: r.1.inner
    · obtain ⟨r, hr, hx⟩ := hx
      refine ⟨f r x, (hf r hr).2.2.2 x, ?_, fun r' hr' hx' => ?_⟩
      · rintro rfl
        exact (hf r hr).2.1
      · rw [b.unique hr hr' hx hx']
    · exact ⟨H, Nat.le_refl _, fun _ => rfl, fun r hr h => absurd ⟨r, hr, h⟩ hx⟩
  obtain ⟨rk, hrk⟩ := Classical.axiomOfChoice whole
  have ranks : ∀ r ∈ rs, r.1.Ranks rk := by
    intro r hr
    refine (hf r hr).1.congr (b.shape r hr) fun p hp => ?_
    rcases hp with rfl | rfl | hp
    · rw [(hf r hr).2.1, (hrk 0).2.1 rfl]
    · exact ((hrk r.2).2.2 r hr (by simp)).symm
    · exact ((hrk p).2.2 r hr (by simp [hp])).symm
  refine ⟨rk, H, fun x => (hrk x).1, b.wf, clean, b.quiets_kept, fun x i y h => ?_, ?_⟩
  · obtain ⟨r, hr, he⟩ := (b.edges _ _ _).1 h
    exact (ranks r hr).le (b.shape r hr) he
  · intro c p κ i d i' d' hq f1 f2 l1 l2
    obtain ⟨r, hr, he⟩ := (b.edges _ _ _).1 f1.1
    have hp : p ∈ r.1.inner := by
      rcases Fr.edge_source (b.shape r hr) he with rfl | h
      · exact absurd f1.2 (Nat.ne_of_lt ((ranks r hr).start (b.ok hr) he))
      · exact h
    exact Fr.flat_unique (Q := fun p κ => Quiets rs κ p) (fun p κ d κ1 => b.quiets_kept p κ [] d κ1) (b.ok hr)
      (b.closed hr) (nn r hr) (fun x i y h => (b.edges x i y).2 ⟨r, hr, h⟩) (fun p κ h => h _ hr) (ranks r hr) (ow r hr)
      p hp κ i d i' d' hq f1 f2 l1 l2

/-- Once the start state has been left there is one way to go on only. -/
theorem Bundle.tame_later (b : Bundle nfa rs) (clean : Clean nfa) (nn : ∀ r ∈ rs, r.1.NonNull)
    (ow : ∀ r ∈ rs, r.1.OneWay fun _ => False) : Tame nfa (fun p κ => Quiets rs κ p ∧ p ≠ 0) fun _ => 0 := by
  have flat : Flat nfa.HasEdge (fun _ => 0) = nfa.HasEdge := by
    funext x i y
    exact propext ⟨And.left, fun h => ⟨h, rfl⟩⟩
  have kept : ∀ p κ u d κ1, Quiets rs κ p ∧ p ≠ 0 → CStep nfa.HasEdge p κ u d κ1 → Quiets rs κ1 d ∧ d ≠ 0 := by
    intro p κ u d κ1 hq hs
    refine ⟨b.quiets_kept p κ u d κ1 hq.1 hs, ?_⟩
    cases hs with
    | char h _ => exact b.edge_ne h
    | eps h => exact b.edge_ne h
    | quant h _ => exact b.edge_ne h
  refine ⟨b.wf, clean, kept, fun _ _ _ _ => Nat.le_refl _, ?_⟩
  rw [flat]
  intro c p κ i d i' d' hq f1 f2 l1 l2
  obtain ⟨r, hr, he⟩ := (b.edges _ _ _).1 f1
  obtain ⟨u1, _⟩ := Fr.leads_unique (c := c) (Q := fun p κ => Quiets rs κ p ∧ p ≠ 0)
    (fun p κ d κ1 => kept p κ [] d κ1) (b.ok hr) (b.closed hr) (nn r hr) (fun x i y h => (b.edges x i y).2 ⟨r, hr, h⟩)
    (fun p κ h => h.1 _ hr)
    (fun κ _ hc => by
      obtain ⟨i, d, h, _⟩ := hc.leads
      exact b.final_no_edge hr h) (ow r hr)
  rcases Fr.edge_source (b.shape r hr) he with rfl | h
  · exact absurd rfl hq.2
  · exact u1 p h κ i d i' d' hq f1 f2 l1 l2

/-- The number of steps does not matter. -/
theorem Bundle.fed_at (b : Bundle nfa rs) (nn : ∀ r ∈ rs, r.1.NonNull) {fuel : Nat} {v : List Char} {runs : List Run}
    (h : Fed nfa fuel v runs) :
    ∃ runs0 last, nfa.initRuns (simFuel nfa rs) = .ok runs0 ∧ runs0.length ≤ simFuel nfa rs ∧ Tracks nfa runs0 [] ∧
      nfa.feedAll (simFuel nfa rs) runs0 none v = .ok (runs, last) := by
  obtain ⟨runs0, h3, h4⟩ := b.initRuns (Nat.le_refl (simFuel nfa rs))
  obtain ⟨runs', last', h5, _, _⟩ := b.feedAll nn (Nat.le_refl _) v (last := none) h4 (by simp)
  have h6 := ((Fed.init h3).feedAll h5 (by simp)).1
  have e := Fed.unique (fed_mono (Nat.le_max_left fuel (simFuel nfa rs)) h)
    (fed_mono (Nat.le_max_right fuel (simFuel nfa rs)) (by simpa using h6))
  rw [← e] at h5
  refine ⟨runs0, last', h3, ?_, h4, h5⟩
  simp only [Nfa.initRuns, Outcome.bind_eq_ok] at h3
  obtain ⟨ids, e1, e2⟩ := h3
  cases e2
  have := worklist_length e1
  simp only [List.length_singleton] at this
  rw [List.length_map]
  omega

theorem Bundle.fed_polynomial (b : Bundle nfa rs) (clean : Clean nfa) (nn : ∀ r ∈ rs, r.1.NonNull)
    (ow : ∀ r ∈ rs, r.1.LoopsOneWay) :
    ∃ c k, ∀ fuel v runs, Fed nfa fuel v runs → runs.length ≤ c * (v.length + 1) ^ k := by
  obtain ⟨rk, R, hR, t⟩ := b.tame_rules clean nn ow
  refine ⟨simFuel nfa rs * (1 + nfa.degree * simFuel nfa rs) * (1 + simFuel nfa rs * nfa.degree) ^ R, R,
    fun fuel v runs h => ?_⟩
  obtain ⟨runs0, last, _, init, h4, h5⟩ := b.fed_at nn h
  refine Nat.le_trans (t.feedAll_length hR (fun r hr => ⟨h4.lt b hr, h4.sorted r hr, h4.quiet b hr⟩) h5) ?_
  rw [Nat.mul_assoc _ (_ ^ R), ← Nat.mul_pow]
  refine Nat.mul_le_mul (Nat.mul_le_mul_right _ init) (Nat.pow_le_pow_left ?_ _)
  rw [Nat.add_mul, Nat.mul_add (simFuel nfa rs * nfa.degree)]
  omega

theorem Bundle.fed_constant (b : Bundle nfa rs) (clean : Clean nfa) (nn : ∀ r ∈ rs, r.1.NonNull)
    (ow : ∀ r ∈ rs, r.1.OneWay fun _ => False) :
    ∃ c, ∀ fuel v runs, Fed nfa fuel v runs → runs.length ≤ c := by
  have t := b.tame_later clean nn ow
  refine ⟨simFuel nfa rs * (1 + nfa.degree * simFuel nfa rs) * (1 + nfa.degree * simFuel nfa rs), fun fuel v runs h => ?_⟩
  obtain ⟨runs0, last, h3, init, h4, h5⟩ := b.fed_at nn h
  cases v with
  | nil =>
    cases h5
    exact Nat.le_trans init (Nat.le_trans (Nat.le_mul_of_pos_right _ (by omega)) (Nat.le_mul_of_pos_right _ (by omega)))
  | cons c v =>
    simp only [Nfa.feedAll, Outcome.bind_eq_ok] at h5
    obtain ⟨⟨runs1, acc⟩, h6, h7⟩ := h5
    have h8 := feedRuns_moves (feed_ok h6).1
    have e1 : runs1.length ≤ runs0.length * (1 + nfa.degree * simFuel nfa rs) := by
      rw [h8]
      refine Nat.le_trans (flatMap_length_le (k := simFuel nfa rs) fun a _ => closureOf_length _ _) ?_
      have e1 : (runs0.flatMap (movesOf nfa c)).length ≤ runs0.length * nfa.degree :=
        flatMap_length_le fun a _ => movesOf_length c a
      refine Nat.le_trans (Nat.mul_le_mul_right _ e1) ?_
      rw [Nat.mul_assoc]
      exact Nat.mul_le_mul_left _ (by omega)
    have e2 : ∀ s ∈ runs1, Proper nfa (fun p κ => Quiets rs κ p ∧ p ≠ 0) s := by
      intro s hs
      rw [h8] at hs
      obtain ⟨r', hr', hs⟩ := List.mem_flatMap.1 hs
      obtain ⟨r, hr, hr'⟩ := List.mem_flatMap.1 hr'
      obtain ⟨l, d, he, hl, rfl⟩ := mem_movesOf b.wf hr'
      obtain ⟨_, k2, k3⟩ := r.take_eps (h4.sorted r hr) d
      have k4 : Proper nfa (fun p κ => Quiets rs κ p ∧ p ≠ 0) (r.takeTransition d false) :=
        ⟨(b.wf.edge_lt he).2, k2, k3 ▸ b.quiets_kept _ _ _ _ _ (h4.quiet b hr) (.char he hl), b.edge_ne he⟩
      exact k4.ride t ((closureOf_spec b.wf _ k4.lt).2 s hs)
    have e3 := t.feedAll_length (R := 0) (fun _ => Nat.le_refl _) e2 h7
    rw [Nat.pow_zero, Nat.mul_one] at e3
    exact Nat.le_trans e3 (Nat.mul_le_mul_right _ (Nat.le_trans e1 (Nat.mul_le_mul_right _ init)))

end

/-! ## Lexers -/

theorem Compiler.newFinal_clean {c : Compiler} (h : Clean c.nfa) : Clean c.newFinal.2.nfa := h.addState true

end Pango.Fsm

namespace Pango.Lex

open Pango Pango.Fsm Pango.Regex Pango.Spec

variable {K : Type} {p : Profile}

theorem addTokens_clean {rules : List (List Char × (List Char → K))} : ∀ {g g' : LexerGenerator K},
    Clean g.compiler.nfa → g.addTokens p rules = .ok (.ok g') → Clean g'.compiler.nfa := by
  induction rules with
  | nil =>
    intro g g' h h1
    cases h1
    exact h
  | cons r rules ih =>
    intro g g' h h1
    obtain ⟨pattern, gen⟩ := r
    simp only [LexerGenerator.addTokens, Outcome.bind_eq_ok] at h1
    obtain ⟨x, h2, h3⟩ := h1
    cases x with
    | error es => cases h3
    | ok g1 =>
      refine ih ?_ h3
      simp only [LexerGenerator.addToken, Outcome.bind_eq_ok] at h2
      obtain ⟨y, _, h4⟩ := h2
      cases y with
      | error es => cases h4
      | ok e =>
        simp only [Compiler.addExpression, Outcome.bind_eq_ok] at h4
        obtain ⟨c, ⟨n1, h5, h6⟩, h7⟩ := h4
        cases h6
        cases h7
        exact Clean.expr (Compiler.newFinal_clean h) h5

/-- No edge is twice in the automaton of a lexer. -/
theorem buildLexer_clean {rules : List (List Char × (List Char → K))} {l : Lexer K}
    (h : buildLexer p rules = .ok (.ok l)) : Clean l.nfa := by
  simp only [buildLexer, Outcome.bind_eq_ok] at h
  obtain ⟨x, hx, h⟩ := h
  cases x with
  | error es => simp at h
  | ok g =>
    have hc : Clean g.compiler.nfa := by
      refine addTokens_clean ?_ hx
      intro s hs
      simp [LexerGenerator.new, Compiler.new, Nfa.new, Nfa.addState] at hs
      rcases hs with rfl | rfl <;> simp
    simp only [LexerGenerator.build, Outcome.bind_eq_ok] at h
    obtain ⟨l', ⟨n, h1, h2⟩, h3⟩ := h
    cases h2
    cases h3
    have h4 : n = g.compiler.nfa := by
      revert h1
      simp only [Nfa.build]
      split
      · exact fun h3 => nomatch h3
      · split
        · exact fun h3 => nomatch h3
        · exact fun h3 => (Outcome.ok.inj h3).symm
    exact h4 ▸ hc

section

variable [Unicode] {rules : List (List Char × (List Char → K))} {l : Lexer K} {es : List Expr}

/-- If repetitions can be read in one way only there are polynomially many runs. -/
theorem Built.fed_polynomial (b : Built p rules l es) (hl : buildLexer p rules = .ok (.ok l))
    (hr : ∀ e ∈ es, RepeatsNonEmpty e) (ho : ∀ e ∈ es, RepeatsOneWay e) :
    ∃ c k, ∀ fuel v runs, Fed l.nfa fuel v runs → runs.length ≤ c * (v.length + 1) ^ k := by
  refine b.parts.bundle.fed_polynomial (buildLexer_clean hl) ?_ ?_
  · intro r h
    obtain ⟨e, f, h1, rfl⟩ := mem_fragTrees.1 h
    exact frag_nonNull e (b.compiles e (mem_finalsFrom h1)) (hr e (mem_finalsFrom h1)) _ _ _
  · intro r h
    obtain ⟨e, f, h1, rfl⟩ := mem_fragTrees.1 h
    exact frag_loopsOneWay e (b.compiles e (mem_finalsFrom h1)) (ho e (mem_finalsFrom h1)) _ _ _

/-- If every rule can be read in one way only the number of runs is bounded. -/
theorem Built.fed_constant (b : Built p rules l es) (hl : buildLexer p rules = .ok (.ok l))
    (hr : ∀ e ∈ es, RepeatsNonEmpty e) (ho : ∀ e ∈ es, OneWay e fun _ => False) :
    ∃ c, ∀ fuel v runs, Fed l.nfa fuel v runs → runs.length ≤ c := by
  refine b.parts.bundle.fed_constant (buildLexer_clean hl) ?_ ?_
  · intro r h
    obtain ⟨e, f, h1, rfl⟩ := mem_fragTrees.1 h
    exact frag_nonNull e (b.compiles e (mem_finalsFrom h1)) (hr e (mem_finalsFrom h1)) _ _ _
  · intro r h
    obtain ⟨e, f, h1, rfl⟩ := mem_fragTrees.1 h
    exact frag_oneWay e (b.compiles e (mem_finalsFrom h1)) (ho e (mem_finalsFrom h1)) _ _ _

end

end Pango.Lex
