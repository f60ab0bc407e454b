import Verif.Proofs.Declared
import Verif.Props.Blowup
import Verif.Props.FirstWork
import Verif.Props.Predictive
import Verif.Props.RegularTokens

/-!
# C126: how many item sets a grammar has
-/

namespace Pango.Props

open Pango Pango.Parse Pango.Spec

/-- C126 as stated: if there is a parser, the number of different item sets is at most polynomial in the size of the
grammar. -/
def FewSets : Prop :=
  ∃ a k : Nat, ∀ (V T : Type) [DecidableEq V] [DecidableEq T] [TerminalEq T] [LawfulTerminalEq T] (g : Grammar V T),
    Built g → (∃ tbl, IsParser g tbl) → ∀ (fuel : Nat) (ord : HashOrder) (c : Cfsm V T),
      Cfsm.fromGrammar g ord fuel = .ok c → ∃ sets, AllSets c sets ∧ sets.length ≤ a * (rulesSize g + 1) ^ k

/-! ## Many item sets -/

private def pairs (n : Nat) : List (Nat × Nat) := (List.range (n * n)).map fun k => (k / n, k % n)

private theorem mem_pairs {n i j : Nat} : (i, j) ∈ pairs n ↔ i < n ∧ j < n := by
  simp only [pairs, List.mem_map, List.mem_range, Prod.mk.injEq]
  constructor
  · rintro ⟨k, h, rfl, rfl⟩
    have : 0 < n := by
      rcases Nat.eq_zero_or_pos n with rfl | h
      · simp at h
      · exact h
    exact ⟨Nat.div_lt_of_lt_mul h, Nat.mod_lt _ this⟩
  · rintro ⟨h1, h2⟩
    refine ⟨n * i + j, ?_, ?_, ?_⟩
    · calc n * i + j < n * i + n := by omega
        _ = n * (i + 1) := by rw [Nat.mul_succ]
        _ ≤ n * n := Nat.mul_le_mul_left _ (by omega)
    · rw [Nat.mul_add_div (by omega), Nat.div_eq_of_lt h2, Nat.add_zero]
    · rw [Nat.mul_add_mod, Nat.mod_eq_of_lt h2]

private def useRules (n : Nat) : List (UseVar × Body UseVar UseTok) :=
  (List.range n).map (fun i => (.text, [.var (.need i)])) ++ (List.range n).map (fun i => (.name i, [.term (.decl i)])) ++
  (List.range n).map (fun i => (.need i, [.var (.name i), .var (.seen i)])) ++
  (List.range n).map (fun i => (.seen i, [.term (.use i)])) ++
  (pairs n).map (fun p => (.seen p.1, [.var (.name p.2), .var (.seen p.1)])) ++
  ((pairs n).filter fun p => decide (p.2 ≠ p.1)).map fun p => (.need p.1, [.var (.name p.2), .var (.need p.1)])

private theorem mem_useRules {n : Nat} {v : UseVar} {β : Body UseVar UseTok} : (v, β) ∈ useRules n ↔ UseRule n v β := by
  simp only [useRules, List.mem_append, List.mem_map, List.mem_range, List.mem_filter, Prod.mk.injEq, Prod.exists,
    mem_pairs, decide_eq_true_eq]
  constructor
  · rintro (((((⟨i, h, rfl, rfl⟩ | ⟨i, h, rfl, rfl⟩) | ⟨i, h, rfl, rfl⟩) | ⟨i, h, rfl, rfl⟩) | ⟨i, j, ⟨h1, h2⟩, rfl, rfl⟩) |
      ⟨i, j, ⟨⟨h1, h2⟩, h3⟩, rfl, rfl⟩)
    · exact .text h
    · exact .name h
    · exact .find h
    · exact .use h
    · exact .more h1 h2
    · exact .skip h1 h2 h3
  · intro h
    cases h with
    | text h => exact .inl (.inl (.inl (.inl (.inl ⟨_, h, rfl, rfl⟩))))
    | name h => exact .inl (.inl (.inl (.inl (.inr ⟨_, h, rfl, rfl⟩))))
    | find h => exact .inl (.inl (.inl (.inr ⟨_, h, rfl, rfl⟩)))
    | use h => exact .inl (.inl (.inr ⟨_, h, rfl, rfl⟩))
    | more h1 h2 => exact .inl (.inr ⟨_, _, ⟨h1, h2⟩, rfl, rfl⟩)
    | skip h1 h2 h3 => exact .inr ⟨_, _, ⟨⟨h1, h2⟩, h3⟩, rfl, rfl⟩

private theorem useRules_length (n : Nat) : (useRules n).length ≤ 6 * n * n := by
  have h := List.length_filter_le (fun p : Nat × Nat => decide (p.2 ≠ p.1)) (pairs n)
  have h1 : (pairs n).length = n * n := by simp [pairs]
  simp only [useRules, List.length_append, List.length_map, List.length_range]
  have h2 : n ≤ n * n := Nat.le_mul_self n
  have h3 : 6 * n * n = 6 * (n * n) := Nat.mul_assoc ..
  omega

/-- The sets of names. -/
private def subs : Nat → List (List Nat)
  | 0 => [[]]
  | n + 1 => subs n ++ (subs n).map (· ++ [n])

private theorem subs_length (n : Nat) : (subs n).length = 2 ^ n := by
  induction n with
  | zero => rfl
  | succ n ih =>
    simp only [subs, List.length_append, List.length_map, ih]
    omega

private theorem subs_lt {n : Nat} : ∀ m ∈ subs n, ∀ i ∈ m, i < n := by
  induction n with
  | zero => simp [subs]
  | succ n ih =>
    intro m hm i hi
    rcases List.mem_append.1 hm with h | h
    · have := ih m h i hi
      omega
    · obtain ⟨m', h1, rfl⟩ := List.mem_map.1 h
      rcases List.mem_append.1 hi with h2 | h2
      · have := ih m' h1 i h2
        omega
      · rw [List.mem_singleton.1 h2]
        omega

private theorem subs_differ (n : Nat) : (subs n).Pairwise fun m m' => ∃ i < n, ¬ (i ∈ m ↔ i ∈ m') := by
  induction n with
  | zero => simp [subs]
  | succ n ih =>
    refine List.pairwise_append.2 ⟨ih.imp fun ⟨i, h1, h2⟩ => ⟨i, by omega, h2⟩, ?_, ?_⟩
    · refine List.pairwise_map.2 (ih.imp fun ⟨i, h1, h2⟩ => ⟨i, by omega, ?_⟩)
      have : i ≠ n := by omega
      simpa [this] using h2
    · intro m hm m' hm'
      obtain ⟨m', _, rfl⟩ := List.mem_map.1 hm'
      refine ⟨n, by omega, ?_⟩
      have : n ∉ m := fun h => absurd (subs_lt m hm n h) (by omega)
      simp [this]

private theorem sum_le {α : Type} {f : α → Nat} {k : Nat} {l : List α} (h : ∀ a ∈ l, f a ≤ k) : (l.map f).sum ≤ k * l.length := by
  induction l with
  | nil => simp
  | cons a l ih =>
    have h1 := h a (by simp)
    have h2 := ih fun a ha => h a (by simp [ha])
    simp only [List.map_cons, List.sum_cons, List.length_cons, Nat.mul_succ]
    omega

private theorem use_notIn {n : Nat} {g : Grammar UseVar UseTok} (hr : ∀ v β, (v, β) ∈ g.rules ↔ UseRule n v β) :
    NotIn g .whole .stop .never where
  head β h := by cases (hr _ _).1 h
  marker v β t h ht := by
    cases (hr _ _).1 h <;> simp at ht <;> subst ht <;> simp [teq, TerminalEq.teq]
  never v β t h ht := by
    cases (hr _ _).1 h <;> simp at ht <;> subst ht <;> simp [teq, TerminalEq.teq]
  differ := by decide

/-- C126, a grammar for the texts that declare some of `n` names and then use one of those declared: it has about `n²`
rules of one or two symbols, and a parser.  But there are `2 ^ n` different item sets, since the items tell which names
were declared, and the table has at least as many rows. -/
theorem c126_exponential (n : Nat) : ∃ g : Grammar UseVar UseTok, Built g ∧
    rulesSize g ≤ 18 * (n + 1) ^ 2 + 6 ∧ (∃ tbl, IsParser g tbl) ∧ (∀ tbl, IsParser g tbl → 2 ^ n ≤ tbl.action.length) ∧
    ∀ (fuel : Nat) (ord : HashOrder) (c : Cfsm UseVar UseTok), Cfsm.fromGrammar g ord fuel = .ok c →
      ∀ sets, AllSets c sets → 2 ^ n ≤ sets.length := by
  obtain ⟨g, hg, hs, hr⟩ := built_rules (V := UseVar) (T := UseTok) .text (useRules (n + 1))
    ⟨_, mem_useRules.2 (.text (Nat.succ_pos n))⟩
    (by
      intro v β w h hw
      cases mem_useRules.1 h with
      | text h1 =>
        simp at hw
        subst hw
        exact ⟨_, mem_useRules.2 (.find h1)⟩
      | name h1 => simp at hw
      | skip h1 h2 h3 =>
        simp at hw
        rcases hw with rfl | rfl
        · exact ⟨_, mem_useRules.2 (.name h2)⟩
        · exact ⟨_, mem_useRules.2 (.find h1)⟩
      | find h1 =>
        simp at hw
        rcases hw with rfl | rfl
        · exact ⟨_, mem_useRules.2 (.name h1)⟩
        · exact ⟨_, mem_useRules.2 (.use h1)⟩
      | more h1 h2 =>
        simp at hw
        rcases hw with rfl | rfl
        · exact ⟨_, mem_useRules.2 (.name h2)⟩
        · exact ⟨_, mem_useRules.2 (.use h1)⟩
      | use h1 => simp at hw)
    (by
      intro v β h
      cases mem_useRules.1 h <;> simp)
  have hr : ∀ v β, (v, β) ∈ g.rules ↔ UseRule (n + 1) v β := fun v β => (hr v β).trans mem_useRules
  have hn := use_notIn hr
  have he := use_epsFree hr
  have wf := hg.wellFormed
  have hg' := hg.withEnd (e := .stop) (f := .never) hn.head
  -- the items behind the names
  have seen : ∀ {m}, m ∈ subs (n + 1) → ∀ {i}, i < n + 1 →
      (Viable (withEnd g .whole .stop .never) (names m) (.seen i, ⟨[.term (.use i)], 0⟩) ↔ i ∈ m) := by
    intro m hm i hi
    rw [viable_withEnd wf hn, ← use_seen hs hr (subs_lt m hm) hi]
    simp
  have decl : ∀ {m}, m ∈ subs (n + 1) →
      ∃ h, Viable (withEnd g .whole .stop .never) (names m) (h, ⟨[.term (.decl 0)], 0⟩) := by
    intro m hm
    have h1 := use_viable hs hr (subs_lt m hm) (i := 0) (rest_rule (j := 0) (by omega) (by omega))
    have h2 : (UseVar.name 0, [Sym.term (.decl 0)]) ∈ g.rules := (hr _ _).2 (.name (by omega))
    exact ⟨_, (viable_withEnd wf hn).2 (.inr ⟨by simp, .expand h1 (reads_iff.2 rfl) h2 (fresh_plain (he _ _ h2))⟩)⟩
  refine ⟨withEnd g .whole .stop .never, hg', ?_, (c86_table hg he hn).1.2 (use_oneEntry hs hr), ?_, ?_⟩
  · obtain ⟨calls, hcalls⟩ := hg
    have hnodup : g.rules.Nodup := by
      rcases c26_build calls with ⟨h, _⟩ | ⟨g', h, _, _, h2, _⟩
      · rw [hcalls] at h
        cases h
      · rw [hcalls] at h
        cases h
        exact h2
    have h1 := nodup_length_le hnodup (u := useRules (n + 1)) fun r hr' => mem_useRules.2 ((hr r.1 r.2).1 hr')
    have h2 : (g.rules.map fun r => r.2.length + 1).sum ≤ 3 * g.rules.length := by
      refine sum_le fun r hr' => ?_
      obtain ⟨v, β⟩ := r
      cases (hr _ _).1 hr' <;> simp
    have h3 := useRules_length (n + 1)
    simp only [rulesSize, withEnd, List.map_append, List.sum_append, List.map_cons, List.map_nil, List.sum_cons,
      List.length_cons, List.length_nil, List.sum_nil]
    have h4 : 6 * (n + 1) * (n + 1) = 6 * (n + 1) ^ 2 := by rw [Nat.mul_assoc, ← Nat.pow_two]
    omega
  · intro tbl hp
    obtain ⟨c, follow, fo, ok⟩ := hp.ok hg'
    have ex : ∀ m : List Nat, ∃ k, m ∈ subs (n + 1) → ∃ s, Reached c (names m) s ∧ s.id = k := by
      intro m
      by_cases hm : m ∈ subs (n + 1)
      · obtain ⟨h, hv⟩ := decl hm
        obtain ⟨s, h1⟩ := ok.cfsm.exists_reached hv
        exact ⟨s.id, fun _ => ⟨s, h1, rfl⟩⟩
      · exact ⟨0, fun h => absurd h hm⟩
    have hdist : ((subs (n + 1)).map fun m => (ex m).choose).Nodup := by
      refine List.pairwise_map.2 ((subs_differ (n + 1)).imp_of_mem fun {m m'} hm hm' ⟨i, hi, h⟩ heq => h ?_)
      obtain ⟨s, h1, h2⟩ := (ex m).choose_spec hm
      obtain ⟨s', h3, h4⟩ := (ex m').choose_spec hm'
      have h5 := ok.cfsm.id_inj (reached_mem h1) (reached_mem h3) (by rw [h2, h4, heq])
      subst h5
      rw [← seen hm hi, ← seen hm' hi, ← reached_viable ok.cfsm h1, ← reached_viable ok.cfsm h3]
    have := nodup_length_le hdist (u := List.range tbl.action.length) fun k hk => by
      obtain ⟨m, hm, rfl⟩ := List.mem_map.1 hk
      obtain ⟨s, h1, h2⟩ := (ex m).choose_spec hm
      obtain ⟨h, hv⟩ := decl hm
      rw [List.mem_range, ok.actionLen]
      have h3 := (reached_viable ok.cfsm h1 _).2 hv
      obtain ⟨⟨x, d⟩, hx, hx'⟩ := List.mem_map.1 ((ok.cfsm.read s (reached_mem h1) (.term (.decl 0))).2 ⟨_, h3, rfl⟩)
      simp only at hx'
      subst hx'
      exact ⟨s, reached_mem h1, by omega, _, h3, _, _, .shift rfl hx⟩
    rw [List.length_map, subs_length, List.length_range, Nat.pow_succ] at this
    omega
  · intro fuel ord c hc sets hsets
    have ok := fromGrammar_ok hg'.wellFormed hc
    have ex : ∀ m : List Nat, ∃ J, m ∈ subs (n + 1) → J ∈ sets ∧
        ∀ p, p ∈ J ↔ Viable (withEnd g .whole .stop .never) (names m) p := by
      intro m
      by_cases hm : m ∈ subs (n + 1)
      · obtain ⟨h, hv⟩ := decl hm
        obtain ⟨s, h1⟩ := ok.exists_reached hv
        obtain ⟨J, h2, h3⟩ := hsets s (reached_mem h1)
        exact ⟨J, fun _ => ⟨h2, fun p => by rw [← h3, reached_viable ok h1]⟩⟩
      · exact ⟨[], fun h => absurd h hm⟩
    have hdist : ((subs (n + 1)).map fun m => (ex m).choose).Nodup := by
      refine List.pairwise_map.2 ((subs_differ (n + 1)).imp_of_mem fun {m m'} hm hm' ⟨i, hi, h⟩ heq => h ?_)
      have h1 := ((ex m).choose_spec hm).2
      have h2 := ((ex m').choose_spec hm').2
      rw [← seen hm hi, ← seen hm' hi, ← h1, ← h2, heq]
    have := nodup_length_le hdist (u := sets) fun J hJ => by
      obtain ⟨m, hm, rfl⟩ := List.mem_map.1 hJ
      exact ((ex m).choose_spec hm).1
    rw [List.length_map, subs_length, Nat.pow_succ] at this
    omega

/-- C126 is false. -/
theorem c126_false : ¬ FewSets := by
  rintro ⟨a, k, h⟩
  obtain ⟨n, hn⟩ := exp_beats_poly (a * 25 ^ k) (2 * k)
  obtain ⟨g, h1, h2, h3, _, h4⟩ := c126_exponential n
  obtain ⟨bound, hb⟩ := c32_construction h1
  obtain ⟨c, hc, _⟩ := hb bound (Nat.le_refl _) .insertion
  obtain ⟨sets, h5, h6⟩ := h UseVar UseTok g h1 h3 bound .insertion c hc
  have h7 := h4 _ _ c hc sets h5
  have h8 : (rulesSize g + 1) ^ k ≤ (25 * (n + 1) ^ 2) ^ k := by
    refine Nat.pow_le_pow_left ?_ k
    have : 1 ≤ (n + 1) ^ 2 := Nat.one_le_pow _ _ (by omega)
    omega
  have h9 := Nat.mul_le_mul_left a h8
  rw [Nat.mul_pow, ← Nat.pow_mul, ← Nat.mul_assoc] at h9
  omega

/-! ## Few item sets -/

variable {V T : Type} {g : Grammar V T}

private theorem viable_kernel {γ : List (Sym V T)} (hγ : γ ≠ []) {p : V × Item V T} :
    Viable g γ p ↔ Closure g (fun q => Viable g γ q ∧ 0 < q.2.cursor) p := by
  constructor
  · intro h
    induction h with
    | start _ _ => exact absurd rfl hγ
    | expand h1 h2 h3 h4 ih => exact .expand (ih hγ) h2 h3 h4
    | read h1 h2 _ =>
      refine .given ⟨.read h1 h2, ?_⟩
      obtain ⟨_, pre, k, _, _, _, _, h3⟩ := h2
      simp only
      omega
  · intro h
    induction h with
    | given h => exact h.1
    | expand _ h2 h3 h4 ih => exact .expand ih h2 h3 h4

private theorem closure_some {given : V × Item V T → Prop} {p : V × Item V T} (h : Closure g given p) : ∃ q, given q := by
  induction h with
  | given h => exact ⟨_, h⟩
  | expand _ _ _ _ ih => exact ih

/-- C126, what holds: an LL(1) grammar (C108) has at most as many different item sets as rules and symbols, and one.
Missing: a polynomial bound for all grammars, which is false (`c126_false`). -/
theorem c126_predictive_partial [DecidableEq V] [DecidableEq T] [TerminalEq T] [LawfulTerminalEq T] (hg : Built g)
    (hp : Predictive g) {fuel : Nat} {ord : HashOrder} {c : Cfsm V T} (hc : Cfsm.fromGrammar g ord fuel = .ok c) :
    ∃ sets, AllSets c sets ∧ sets.length ≤ rulesSize g + 1 := by
  have ok := fromGrammar_ok hg.wellFormed hc
  obtain ⟨reach, _⟩ := c33_viable hg fuel ord c hc
  have hone := hp.one_kernel hg.wellFormed
  have hzero : ∀ {p}, Viable g [] p → p.2.cursor = 0 := by
    intro p h
    generalize hγ : ([] : List (Sym V T)) = γ at h
    induction h with
    | start h1 h2 =>
      rw [fresh_iff.1 h2, ← fresh_iff.1 (fresh_plain (hp.noEps _ _ h1))]
    | expand _ _ h1 h2 _ =>
      rw [fresh_iff.1 h2, ← fresh_iff.1 (fresh_plain (hp.noEps _ _ h1))]
    | read _ _ _ => simp at hγ
  have pick : ∀ q : V × Item V T, ∃ J : ItemSet V T, (∃ s ∈ c.states, q ∈ s.items) → ∃ s ∈ c.states, q ∈ s.items ∧ s.items = J := by
    intro q
    by_cases h : ∃ s ∈ c.states, q ∈ s.items
    · obtain ⟨s, h1, h2⟩ := h
      exact ⟨s.items, fun _ => ⟨s, h1, h2, rfl⟩⟩
    · exact ⟨[], fun h' => absurd h' h⟩
  obtain ⟨s0, hs0, hi0⟩ := ok.start
  have hr0 : Reached c [] s0 := .start (List.mem_of_getElem? hs0) (by
    have h1 := ok.index (List.mem_of_getElem? hs0)
    have h2 := congrArg (fun l => l[0]?) ok.ids
    simp only [List.getElem?_map, hs0, Option.map_some] at h2
    have h3 : 0 < c.states.length := (List.getElem?_eq_some_iff.1 hs0).1
    rw [List.getElem?_range h3] at h2
    exact Option.some.inj h2)
  refine ⟨s0.items :: g.rules.flatMap fun r => (List.range (r.2.length + 1)).map fun k => (pick (r.1, ⟨r.2, k⟩)).choose, ?_, ?_⟩
  · intro s hs
    obtain ⟨γ, hγ⟩ := reach s hs
    by_cases h0 : γ = []
    · subst h0
      exact ⟨_, List.mem_cons_self, fun p => by rw [reached_viable ok hγ, reached_viable ok hr0]⟩
    · have hsome : ∃ p, Viable g γ p := by
        have := (c33_viable hg fuel ord c hc).2 γ
        exact this.2.1.1 ⟨s, hγ⟩
      obtain ⟨p, hv⟩ := hsome
      obtain ⟨q, hq, hq0⟩ := closure_some ((viable_kernel h0).1 hv)
      obtain ⟨s', h1, h2, h3⟩ := (pick q).choose_spec ⟨s, hs, (reached_viable ok hγ q).2 hq⟩
      refine ⟨(pick q).choose, List.mem_cons_of_mem _ (List.mem_flatMap.2 ⟨(q.1, q.2.body), (Viable_ok hq).rule,
        List.mem_map.2 ⟨q.2.cursor, ?_, rfl⟩⟩), ?_⟩
      · have := (Viable_ok hq).le
        rw [List.mem_range]
        exact Nat.lt_succ_of_le this
      · obtain ⟨γ', hγ'⟩ := reach s' h1
        have hq' := (reached_viable ok hγ' q).1 h2
        have h0' : γ' ≠ [] := by
          rintro rfl
          have := hzero hq'
          omega
        intro p
        rw [← h3, reached_viable ok hγ, reached_viable ok hγ', viable_kernel h0, viable_kernel h0']
        have key : ∀ {δ : List (Sym V T)}, Viable g δ q → (fun r => Viable g δ r ∧ 0 < r.2.cursor) = fun r => r = q := by
          intro δ hδ
          funext r
          exact propext ⟨fun h => hone δ r q h.1 hδ h.2 hq0, fun h => by rw [h]; exact ⟨hδ, hq0⟩⟩
        rw [key hq, key hq']
  · simp only [List.length_cons, List.length_flatMap, List.length_map, List.length_range, rulesSize]
    exact Nat.le_refl _

private def powers {α : Type} : List α → List (List α)
  | [] => [[]]
  | a :: l => powers l ++ (powers l).map (a :: ·)

private theorem powers_length {α : Type} (l : List α) : (powers l).length = 2 ^ l.length := by
  induction l with
  | nil => rfl
  | cons a l ih =>
    simp only [powers, List.length_append, List.length_map, ih, List.length_cons]
    omega

private theorem filter_powers {α : Type} (f : α → Bool) (l : List α) : l.filter f ∈ powers l := by
  induction l with
  | nil => simp [powers]
  | cons a l ih =>
    rw [List.filter_cons, powers, List.mem_append]
    split
    · exact .inr (List.mem_map.2 ⟨_, ih, rfl⟩)
    · exact .inl ih

/-- C126, what holds for all grammars: there is one bit for every rule and every symbol of a body, so the exponent in
`c126_exponential` cannot grow faster than the grammar. -/
theorem c126_bound_partial [DecidableEq V] [DecidableEq T] (hg : Built g) {fuel : Nat} {ord : HashOrder} {c : Cfsm V T}
    (hc : Cfsm.fromGrammar g ord fuel = .ok c) : ∃ sets, AllSets c sets ∧ sets.length ≤ 2 ^ rulesSize g := by
  have ok := fromGrammar_ok hg.wellFormed hc
  refine ⟨powers (g.rules.flatMap fun r => (List.range (r.2.length + 1)).map fun k => (r.1, (⟨r.2, k⟩ : Item V T))), ?_, ?_⟩
  · intro s hs
    refine ⟨_, filter_powers (fun p => decide (p ∈ s.items)) _, fun p => ?_⟩
    rw [List.mem_filter, decide_eq_true_eq]
    refine ⟨fun h => ⟨?_, h⟩, fun h => h.2⟩
    obtain ⟨γ, hγ⟩ := ok.reached hs
    have hv := Viable_ok ((reached_viable ok hγ p).1 h)
    exact List.mem_flatMap.2 ⟨(p.1, p.2.body), hv.rule, List.mem_map.2
      ⟨p.2.cursor, List.mem_range.2 (Nat.lt_succ_of_le hv.le), rfl⟩⟩
  · rw [powers_length]
    simp only [List.length_flatMap, List.length_map, List.length_range, rulesSize]
    exact Nat.le_refl _

/-! ## Grammars for which the claims say something -/

/-- With twenty names the grammar has at most 7944 rules and symbols, and the table at least a million rows. -/
example : ∃ (g : Grammar UseVar UseTok) (tbl : Table UseVar UseTok), Built g ∧ rulesSize g ≤ 7944 ∧ IsParser g tbl ∧
    1000000 ≤ tbl.action.length := by
  obtain ⟨g, h1, h2, ⟨tbl, h3⟩, h4, _⟩ := c126_exponential 20
  have := h4 tbl h3
  exact ⟨g, tbl, h1, by omega, h3, by omega⟩

/-- The grammar of programs of C108 has at most 18 item sets. -/
example : ∃ c, Cfsm.fromGrammar program .insertion 1000 = .ok c ∧
    ∃ sets, AllSets c sets ∧ sets.length ≤ 18 := by
  obtain ⟨c, hc⟩ : ∃ c, Cfsm.fromGrammar program .insertion 1000 = .ok c := by
    have h : (match Cfsm.fromGrammar program .insertion 1000 with | .ok _ => true | _ => false) = true := by decide +kernel
    split at h
    · exact ⟨_, by assumption⟩
    · cases h
  exact ⟨c, hc, c126_predictive_partial program_built program_predictive hc⟩

end Pango.Props
