import Verif.Proofs.Handle
import Verif.Props.FirstFollow

/-!
# C35: when there is a table
-/

namespace Pango.Props

open Pango Pango.Parse Pango.Spec

/-- Strings as terminals: the kind of a string is the string itself. -/
instance : TerminalEq String := ⟨fun s t => s == t⟩

instance : LawfulTerminalEq String where
  refl t := by simp [teq]
  symm s t h := by simp only [teq, beq_iff_eq] at *; exact h.symm
  trans s t u h h' := by simp only [teq, beq_iff_eq] at *; exact h.trans h'

/-- Specification: some state has two different actions on the same terminal, or at the end of the input. -/
def Conflict {V T : Type} [TerminalEq T] (g : Grammar V T) : Prop :=
  ∃ γ k k' a a', keyEq k k' = true ∧ SlrAction g γ k a ∧ SlrAction g γ k' a' ∧ a ≠ a'

/-- C35, the full claim: the construction of a parser succeeds exactly if there is no conflict. -/
def C35 : Prop :=
  ∀ (V T : Type) [DecidableEq V] [DecidableEq T] [TerminalEq T] [LawfulTerminalEq T] (g : Grammar V T), Built g →
    ∃ bound, ∀ fuel ≥ bound, ∀ ord : HashOrder, (∃ tbl, slrNew g ord fuel = .ok tbl) ↔ ¬ Conflict g

/-- `S → a b | a c`. -/
def commonPrefix : Grammar String String :=
  ⟨"S", [("S", [.term "a", .term "b"]), ("S", [.term "a", .term "c"])]⟩

theorem commonPrefix_built : Built commonPrefix :=
  ⟨[.setStart "S", .addRules "S" [[.term "a", .term "b"], [.term "a", .term "c"]]], by decide⟩

private theorem commonPrefix_rule {h : String} {β : Body String String} (hr : (h, β) ∈ commonPrefix.rules) :
    h = "S" ∧ (β = [.term "a", .term "b"] ∨ β = [.term "a", .term "c"]) := by
  simp only [commonPrefix, List.mem_cons, List.not_mem_nil, Prod.mk.injEq, or_false] at hr
  rcases hr with ⟨rfl, rfl⟩ | ⟨rfl, rfl⟩ <;> simp

private theorem commonPrefix_no_var {h v : String} {β : Body String String} (hr : (h, β) ∈ commonPrefix.rules) :
    .var v ∉ β := by
  obtain ⟨_, rfl | rfl⟩ := commonPrefix_rule hr <;> simp

private theorem commonPrefix_no_conflict : ¬ Conflict commonPrefix := by
  have hfol : ∀ v t, ¬ InFollow commonPrefix v (.term t) := by
    intro v t h
    rw [inFollow_iff] at h
    cases h with
    | here hr _ => exact commonPrefix_no_var (v := v) hr (by simp)
    | up hr _ _ => exact commonPrefix_no_var (v := v) hr (by simp)
  have hend : ∀ γ h i, Viable commonPrefix γ (h, i) → Complete i → γ = i.body := by
    intro γ h i hv hc
    have hrule := (Viable_ok hv).rule
    obtain ⟨γ', h1, h2⟩ := viable_split hv
    rcases h2 with ⟨rfl, _⟩ | ⟨h', i', hv', hr⟩
    · rw [h1, List.nil_append]
      refine complete_read hc ?_
      obtain ⟨_, hb | hb⟩ := commonPrefix_rule hrule <;> simp only at hb <;> rw [hb] <;> simp
    · obtain ⟨pre, post, hb, _⟩ := hr
      exact absurd (by rw [hb]; simp) (commonPrefix_no_var (v := h) (Viable_ok hv').rule)
  rintro ⟨γ, k, k', a, a', hk, h, h', hne⟩
  cases h with
  | shift _ _ =>
    cases h' with
    | shift _ _ => exact hne rfl
    | reduce _ _ hf => exact hfol _ _ hf
    | accept _ _ => cases hk
  | reduce _ _ hf => exact hfol _ _ hf
  | accept hv hc =>
    cases h' with
    | shift _ _ => cases hk
    | reduce _ _ hf => exact hfol _ _ hf
    | accept hv' hc' => exact hne (by rw [← hend _ _ _ hv hc, ← hend _ _ _ hv' hc'])

/-- C35 does not hold: `S → a b | a c` has no conflict, but the construction fails, because the shift of `a` is
inserted into the table once for each item. -/
theorem c35_false : ¬ C35 := by
  intro h
  obtain ⟨bound, h⟩ := h String String commonPrefix commonPrefix_built
  have hok := (h (bound + tableFuel commonPrefix) (by omega) .insertion).2 commonPrefix_no_conflict
  obtain ⟨c, follow, _, _, hc⟩ := slrNew_iff commonPrefix_built.wellFormed .insertion
    (fuel := bound + tableFuel commonPrefix) (by omega)
  rcases hc with ⟨hu, _⟩ | ⟨_, hp⟩
  · have hneed : ∀ β, ("S", .term "a" :: β) ∈ commonPrefix.rules → Needs commonPrefix (Entry commonPrefix follow) []
        ("S", Item.ofBody (.term "a" :: β)) (some "a") := fun β hβ =>
      .shift (.start hβ (fresh_iff.2 rfl)) ⟨[], β, rfl, rfl⟩
    have := (hu [] _ _ _ _ (hneed [.term "b"] (by decide)) (hneed [.term "c"] (by decide)) rfl).1
    exact absurd this (by decide)
  · obtain ⟨tbl, ht⟩ := hok
    rw [hp] at ht
    cases ht

variable {V T : Type} [DecidableEq V] [DecidableEq T] [TerminalEq T] [LawfulTerminalEq T]

/-- What holds instead of C35: the construction ends; it succeeds exactly if no two items of a state, and no item
twice, need an entry for terminals of the same kind.  It does not matter whether they need the same action.  At the
end of the input entries are needed only if the start variable has been given a follow set, which is the case if it is
surely followed, and only if something can stand behind it. -/
theorem c35_exact_partial {g : Grammar V T} (hg : Built g) :
    ∃ bound, ∀ fuel ≥ bound, ∀ ord : HashOrder, ∃ accepts : Prop,
      (SurelyFollowed g g.start → accepts) ∧ (accepts → Followable g g.start) ∧
      ((∃ tbl, slrNew g ord fuel = .ok tbl) ∨ slrNew g ord fuel = .panic) ∧
      ((∃ tbl, slrNew g ord fuel = .ok tbl) ↔ ∀ γ p p' k k', Needs g accepts γ p k → Needs g accepts γ p' k' →
        keyEq k k' = true → p = p' ∧ k = k') := by
  refine ⟨tableFuel g, fun fuel hf ord => ?_⟩
  obtain ⟨c, follow, ok, fo, h⟩ := slrNew_iff hg.wellFormed ord hf
  refine ⟨Entry g follow, fo.surely, fun h => (fo.entered _ h).followable, ?_, ?_⟩
  · rcases h with ⟨_, tbl, h, _⟩ | ⟨_, h⟩
    · exact .inl ⟨tbl, h⟩
    · exact .inr h
  · rcases h with ⟨h1, tbl, h2, _⟩ | ⟨h1, h2⟩
    · exact ⟨fun _ => h1, fun _ => ⟨tbl, h2⟩⟩
    · refine ⟨fun ⟨tbl, h⟩ => ?_, fun h => absurd h h1⟩
      rw [h2] at h
      cases h

omit [DecidableEq V] [DecidableEq T] [TerminalEq T] [LawfulTerminalEq T] in
private theorem action_needs {g : Grammar V T} {γ : List (Sym V T)} {k : Option T} {a : Option (V × Body V T)}
    {accepts : Prop} (h : SlrAction g γ k a) (hk : k = none → accepts) :
    ∃ p, Needs g accepts γ p k ∧ (∀ x, a = some x ↔ Complete p.2 ∧ x = (p.1, p.2.body)) := by
  have hread : ∀ {i : Item V T} {x : Sym V T}, Reads i x → ¬ Complete i := by
    rintro i x ⟨pre, post, h1, h2⟩ h3
    unfold Complete at h3
    rw [h1, h2] at h3
    simp at h3
  cases h with
  | @shift h i t hv hr => exact ⟨(h, i), .shift hv hr, fun x => by simp [hread hr]⟩
  | @reduce h i t hv hc hf => exact ⟨(h, i), .reduce hv hc hf, fun x => by simp [hc, eq_comm]⟩
  | @accept i hv hc => exact ⟨(g.start, i), .accept hv hc (hk rfl), fun x => by simp [hc, eq_comm]⟩

/-- One direction of C35 for terminals: if the construction succeeds then no state has two different actions on
terminals of the same kind. -/
theorem c35_no_conflict_partial {g : Grammar V T} (hg : Built g) :
    ∀ (fuel : Nat) (ord : HashOrder) (tbl : Table V T), slrNew g ord fuel = .ok tbl →
      ¬ ∃ γ t t' a a', teq t t' = true ∧ SlrAction g γ (some t) a ∧ SlrAction g γ (some t') a' ∧ a ≠ a' := by
  intro fuel ord tbl ht
  obtain ⟨c, follow, _, _, h⟩ := slrNew_ok hg.wellFormed ht
  rintro ⟨γ, t, t', a, a', ht, h1, h2, hne⟩
  obtain ⟨p, h3, h4⟩ := action_needs (accepts := Entry g follow) h1 (by simp)
  obtain ⟨p', h3', h4'⟩ := action_needs (accepts := Entry g follow) h2 (by simp)
  obtain ⟨rfl, _⟩ := h γ p p' _ _ h3 h3' ht
  apply hne
  cases a with
  | none =>
    cases a' with
    | none => rfl
    | some x => exact absurd ((h4 x).2 ((h4' x).1 rfl)) (by simp)
  | some x => exact ((h4' x).2 ((h4 x).1 rfl)).symm

/-- The other direction under the condition that the terminals read by the items of a state, and the terminals of
a follow set, are of different kinds: then a grammar without conflict gets a parser. -/
theorem c35_builds_partial {g : Grammar V T} (hg : Built g)
    (hread : ∀ γ h i h' i' t t', Viable g γ (h, i) → Viable g γ (h', i') → Reads i (.term t) → Reads i' (.term t') →
      teq t t' = true → (h, i) = (h', i'))
    (hfollow : ∀ v t t', InFollow g v (.term t) → InFollow g v (.term t') → teq t t' = true → t = t')
    (hno : ¬ Conflict g) :
    ∃ bound, ∀ fuel ≥ bound, ∀ ord : HashOrder, ∃ tbl, slrNew g ord fuel = .ok tbl := by
  obtain ⟨bound, hb⟩ := c35_exact_partial hg
  refine ⟨bound, fun fuel hf ord => ?_⟩
  obtain ⟨accepts, _, _, _, h⟩ := hb fuel hf ord
  refine h.2 fun γ p p' k k' hn hn' hk => ?_
  have hitem : ∀ {h h' : V} {i i' : Item V T}, Complete i → Complete i' → h = h' → i.body = i'.body →
      (h, i) = (h', i') := by
    rintro h h' ⟨b, c⟩ ⟨b', c'⟩ h1 h2 rfl rfl
    rw [Prod.mk.injEq, Item.mk.injEq]
    exact ⟨rfl, rfl, h1.trans h2.symm⟩
  have hno' : ∀ {k k' a a'}, keyEq k k' = true → SlrAction g γ k a → SlrAction g γ k' a' → a = a' := by
    intro k k' a a' hk h1 h2
    apply Decidable.byContradiction
    intro hne
    exact hno ⟨γ, k, k', a, a', hk, h1, h2, hne⟩
  cases hn with
  | shift hv hr =>
    cases hn' with
    | shift hv' hr' =>
      have := hread γ _ _ _ _ _ _ hv hv' hr hr' hk
      refine ⟨this, ?_⟩
      simp only [Prod.mk.injEq] at this
      obtain ⟨_, rfl⟩ := this
      have h1 := reads_iff.1 hr
      rw [reads_iff.1 hr'] at h1
      cases h1; rfl
    | reduce hv' hc' hf' => cases hno' hk (.shift hv hr) (.reduce hv' hc' hf')
    | accept _ _ _ => cases hk
  | reduce hv hc hf =>
    cases hn' with
    | shift hv' hr' => cases hno' hk (.reduce hv hc hf) (.shift hv' hr')
    | reduce hv' hc' hf' =>
      have h1 := hno' hk (.reduce hv hc hf) (.reduce hv' hc' hf')
      simp only [Option.some.injEq, Prod.mk.injEq] at h1
      refine ⟨hitem hc hc' h1.1 h1.2, ?_⟩
      rw [← h1.1] at hf'
      rw [hfollow _ _ _ hf hf' hk]
    | accept _ _ _ => cases hk
  | accept hv hc _ =>
    cases hn' with
    | shift _ _ => cases hk
    | reduce _ _ _ => cases hk
    | accept hv' hc' _ =>
      have h1 := hno' hk (.accept hv hc) (.accept hv' hc')
      simp only [Option.some.injEq, Prod.mk.injEq] at h1
      exact ⟨hitem hc hc' rfl h1.2, rfl⟩

/-- `P → P Q ; | Q ;` and `Q → x | ( Q )`, a grammar that gets a parser. -/
def goodGrammar : Grammar String String :=
  ⟨"P", [("P", [.var "P", .var "Q", .term ";"]), ("P", [.var "Q", .term ";"]), ("Q", [.term "x"]),
    ("Q", [.term "(", .var "Q", .term ")"])]⟩

theorem goodGrammar_built : Built goodGrammar :=
  ⟨[.setStart "P", .addRules "P" [[.var "P", .var "Q", .term ";"], [.var "Q", .term ";"]],
    .addRules "Q" [[.term "x"], [.term "(", .var "Q", .term ")"]]], by decide⟩

omit [TerminalEq T] [LawfulTerminalEq T] in
private theorem viable_state {g : Grammar V T} (hg : Built g) {ord : HashOrder} {fuel : Nat} {c : Cfsm V T}
    (hc : Cfsm.fromGrammar g ord fuel = .ok c) {γ : List (Sym V T)} {p : V × Item V T} (hp : Viable g γ p) :
    ∃ s ∈ c.states, ∀ q, Viable g γ q → q ∈ s.items := by
  have ok := fromGrammar_ok hg.wellFormed hc
  obtain ⟨s, hs⟩ := ok.exists_reached hp
  exact ⟨s, reached_mem hs, fun q hq => (reached_viable ok hs q).2 hq⟩

/-- The automaton of this grammar. -/
def goodCfsm : Cfsm String String :=
  match Cfsm.fromGrammar goodGrammar .insertion 100 with
  | .ok c => c
  | _ => ⟨goodGrammar, []⟩

theorem goodCfsm_eq : Cfsm.fromGrammar goodGrammar .insertion 100 = .ok goodCfsm := by decide +kernel

/-- It meets the hypotheses of `c35_builds_partial`. -/
example : (∀ γ h i h' i' t t', Viable goodGrammar γ (h, i) → Viable goodGrammar γ (h', i') → Reads i (.term t) →
      Reads i' (.term t') → teq t t' = true → (h, i) = (h', i')) ∧
    (∀ v t t', InFollow goodGrammar v (.term t) → InFollow goodGrammar v (.term t') → teq t t' = true → t = t') ∧
    ¬ Conflict goodGrammar := by
  have hone : ∀ s ∈ goodCfsm.states, ∀ p ∈ s.items, ∀ p' ∈ s.items, (p.2.cursorSymbol = none → p = p') ∧
      (p.2.cursorSymbol = p'.2.cursorSymbol → p = p' ∨ p.2.cursorSymbol = some (.var "P") ∨
        p.2.cursorSymbol = some (.var "Q")) := by
    have h : (goodCfsm.states.all fun s => s.items.all fun p => s.items.all fun p' => decide (p = p') ||
        (p.2.cursorSymbol != none && (p.2.cursorSymbol != p'.2.cursorSymbol ||
          p.2.cursorSymbol == some (.var "P") || p.2.cursorSymbol == some (.var "Q")))) = true := by
      decide +kernel
    simp only [List.all_eq_true, Bool.or_eq_true, decide_eq_true_eq, Bool.and_eq_true, bne_iff_ne, beq_iff_eq] at h
    intro s hs p hp p' hp'
    rcases h s hs p hp p' hp' with h | ⟨h1, h2⟩
    · exact ⟨fun _ => h, fun _ => .inl h⟩
    · refine ⟨fun h => absurd h h1, fun h => ?_⟩
      rcases h2 with (h2 | h2) | h2
      · exact absurd h h2
      · exact .inr (.inl h2)
      · exact .inr (.inr h2)
  have hv : ∀ {γ p p'}, Viable goodGrammar γ p → Viable goodGrammar γ p' → (p.2.cursorSymbol = none → p = p') ∧
      (p.2.cursorSymbol = p'.2.cursorSymbol → p = p' ∨ p.2.cursorSymbol = some (.var "P") ∨
        p.2.cursorSymbol = some (.var "Q")) := by
    intro γ p p' h h'
    obtain ⟨s, hs, hq⟩ := viable_state goodGrammar_built goodCfsm_eq h
    exact hone s hs p (hq p h) p' (hq p' h')
  have heq : ∀ {t t' : String}, teq t t' = true → t = t' := fun h => by simpa [teq] using h
  have hread : ∀ γ h i h' i' t t', Viable goodGrammar γ (h, i) → Viable goodGrammar γ (h', i') → Reads i (.term t) →
      Reads i' (.term t') → teq t t' = true → (h, i) = (h', i') := by
    intro γ h i h' i' t t' h1 h2 h3 h4 h5
    rw [reads_iff] at h3 h4
    rcases (hv h1 h2).2 (by simp only [h3, h4, heq h5]) with h | h | h
    · exact h
    · simp only [h3] at h; cases h
    · simp only [h3] at h; cases h
  refine ⟨hread, fun _ _ _ _ _ h => heq h, ?_⟩
  have hdone : ∀ {γ h i p}, Viable goodGrammar γ (h, i) → Complete i → Viable goodGrammar γ p → (h, i) = p :=
    fun h1 h2 h3 => (hv h1 h3).1 ((complete_iff (Viable_ok h1)).1 h2)
  rintro ⟨γ, k, k', a, a', hk, h, h', hne⟩
  apply hne
  have hr : ∀ {i : Item String String} {x : Sym String String}, Reads i x → ¬ Complete i := by
    rintro i x ⟨pre, post, h1, h2⟩ h3
    unfold Complete at h3
    rw [h1, h2] at h3
    simp at h3
  cases h with
  | shift h1 h2 =>
    cases h' with
    | shift _ _ => rfl
    | reduce h1' h2' _ => cases hdone h1' h2' h1; exact absurd h2' (hr h2)
    | accept _ _ => cases hk
  | reduce h1 h2 _ =>
    cases h' with
    | shift h1' h2' => cases hdone h1 h2 h1'; exact absurd h2 (hr h2')
    | reduce h1' h2' _ => cases hdone h1 h2 h1'; rfl
    | accept _ _ => cases hk
  | accept h1 h2 =>
    cases h' with
    | shift _ _ => cases hk
    | reduce _ _ _ => cases hk
    | accept h1' h2' => cases hdone h1 h2 h1'; rfl

/-- The hypotheses are met: the construction succeeds for one grammar and fails for another. -/
example : (∃ tbl, slrNew goodGrammar .insertion 100 = .ok tbl) ∧ slrNew commonPrefix .insertion 100 = .panic := by
  refine ⟨?_, by decide +kernel⟩
  have : (match slrNew goodGrammar .insertion 100 with | .ok _ => true | _ => false) = true := by decide +kernel
  split at this
  · exact ⟨_, by assumption⟩
  · cases this

end Pango.Props
