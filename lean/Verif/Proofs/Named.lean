import Verif.Proofs.Plugged
import Verif.Spec.Named

/-!
# The items of a grammar with a variable for every terminal
-/

namespace Pango.Parse

open Pango Pango.Spec

variable {V T : Type} {g : Grammar V T} {H : Grammar (V ⊕ T) T}

theorem nameSym_inj {x y : Sym V T} (h : nameSym x = nameSym y) : x = y := by
  cases x <;> cases y <;> simp_all [nameSym]

theorem nameSym_var {x : Sym V T} {v : V} (h : nameSym x = .var (.inl v)) : x = .var v := by
  cases x <;> simp_all [nameSym]

theorem nameSym_name {x : Sym V T} {t : T} (h : nameSym x = .var (.inr t)) : x = .term t := by
  cases x <;> simp_all [nameSym]

theorem nameSym_term {x : Sym V T} {t : T} : nameSym x ≠ .term t := by
  cases x <;> simp [nameSym]

theorem nameSym_eps {x : Sym V T} (h : nameSym x = .eps) : x = .eps := by
  cases x <;> simp_all [nameSym]

/-- The grammar with a variable for every terminal. -/
structure NamedTerms (g : Grammar V T) (H : Grammar (V ⊕ T) T) : Prop where
  start : H.start = .inl g.start
  rules : ∀ v β, (v, β) ∈ H.rules ↔ NamedRule g v β

theorem NamedTerms.epsFree (hH : NamedTerms g H) (he : EpsFree g) : EpsFree H := by
  intro v β h h'
  cases (hH.rules _ _).1 h with
  | rule h1 =>
    obtain ⟨x, h2, h3⟩ := List.mem_map.1 h'
    rw [nameSym_eps h3] at h2
    exact he _ _ h1 h2
  | terminal => simp at h'

theorem NamedTerms.nonempty (hH : NamedTerms g H) (hw : Spec.WellFormed g) (v : V ⊕ T) (β : Body (V ⊕ T) T)
    (h : (v, β) ∈ H.rules) : β ≠ [] := by
  cases (hH.rules _ _).1 h with
  | rule h1 => simpa using hw.nonempty _ _ h1
  | terminal => simp

theorem reads_map' {X Y : Type} {f : Sym X T → Sym Y T} {i : Item X T} {x : Sym X T} (h : Reads i x) :
    Reads (⟨i.body.map f, i.cursor⟩ : Item Y T) (f x) := by
  obtain ⟨pre, post, h1, h2⟩ := h
  exact ⟨pre.map f, post.map f, by simp [h1], by simp [h2]⟩

/-- The items. -/
inductive NamedItem (g : Grammar V T) : List (Sym (V ⊕ T) T) → (V ⊕ T) × Item (V ⊕ T) T → Prop
  | rule {γ : List (Sym V T)} {h : V} {β : Body V T} {c : Nat} : Viable g γ (h, ⟨β, c⟩) →
      NamedItem g (γ.map nameSym) (.inl h, ⟨β.map nameSym, c⟩)
  | before {γ : List (Sym V T)} {h : V} {i : Item V T} {t : T} : Viable g γ (h, i) → Reads i (.term t) →
      NamedItem g (γ.map nameSym) (.inr t, ⟨[.term t], 0⟩)
  | behind {γ : List (Sym V T)} {h : V} {i : Item V T} {t : T} : Viable g γ (h, i) → Reads i (.term t) →
      NamedItem g (γ.map nameSym ++ [.term t]) (.inr t, ⟨[.term t], 1⟩)

theorem viable_named (hH : NamedTerms g H) (he : EpsFree g) {γ : List (Sym (V ⊕ T) T)} {p : (V ⊕ T) × Item (V ⊕ T) T}
    (h : Viable H γ p) : NamedItem g γ p := by
  have he' := hH.epsFree he
  induction h with
  | start hr hf' =>
    rw [nonEps_fresh he' hr hf']
    rw [hH.start] at hr ⊢
    cases (hH.rules _ _).1 hr with
    | rule h1 => exact .rule (γ := []) (nonEps_start he h1)
  | expand h1 h2 hr hf' ih =>
    rw [nonEps_fresh he' hr hf']
    cases ih with
    | rule h3 =>
      obtain ⟨y, h4, h5⟩ := reads_map h2
      cases (hH.rules _ _).1 hr with
      | rule h6 =>
        cases nameSym_var h4.symm
        exact .rule (nonEps_expand he h3 h5 h6)
      | terminal _ _ =>
        cases nameSym_name h4.symm
        exact .before h3 h5
    | before _ _ => rw [reads_iff] at h2; simp [Item.cursorSymbol] at h2
    | behind _ _ => rw [reads_iff] at h2; simp [Item.cursorSymbol] at h2
  | @read γ h k j x h1 h2 ih =>
    obtain ⟨pre, post, rfl, rfl⟩ := nonEps_advance he' (Viable_ok h1).rule h2
    have h2 : Reads (⟨pre ++ x :: post, pre.length⟩ : Item (V ⊕ T) T) x := ⟨pre, post, rfl, rfl⟩
    generalize pre ++ x :: post = b at *
    generalize pre.length = c at *
    cases ih with
    | rule h3 =>
      obtain ⟨y, rfl, h5⟩ := reads_map h2
      have := NamedItem.rule (nonEps_read he h3 h5)
      simpa using this
    | before h3 h4 =>
      rw [reads_iff] at h2
      simp [Item.cursorSymbol] at h2
      subst h2
      exact .behind h3 h4
    | behind _ _ => rw [reads_iff] at h2; simp [Item.cursorSymbol] at h2

theorem named_viable (hH : NamedTerms g H) (he : EpsFree g) {γ : List (Sym V T)} {p : V × Item V T} (h : Viable g γ p) :
    Viable H (γ.map nameSym) (.inl p.1, ⟨p.2.body.map nameSym, p.2.cursor⟩) := by
  have he' := hH.epsFree he
  induction h with
  | start hr hf =>
    rw [nonEps_fresh he hr hf, ← hH.start]
    exact nonEps_start he' (by rw [hH.start]; exact (hH.rules _ _).2 (.rule hr))
  | expand h1 h2 hr hf ih =>
    rw [nonEps_fresh he hr hf]
    exact nonEps_expand he' ih (reads_map' (f := nameSym) h2) ((hH.rules _ _).2 (.rule hr))
  | read h1 h2 ih =>
    have hx := reads_iff.2 (advanced_iff.1 h2).1
    obtain ⟨pre, post, rfl, rfl⟩ := nonEps_advance he (Viable_ok h1).rule h2
    have := nonEps_read he' ih (reads_map' hx)
    simpa using this

theorem named_before (hH : NamedTerms g H) (he : EpsFree g) {γ : List (Sym V T)} {h : V} {i : Item V T} {t : T}
    (hv : Viable g γ (h, i)) (hr : Reads i (.term t)) : Viable H (γ.map nameSym) (.inr t, ⟨[.term t], 0⟩) := by
  refine nonEps_expand (hH.epsFree he) (named_viable hH he hv) (reads_map' (f := nameSym) hr) ((hH.rules _ _).2 ?_)
  obtain ⟨pre, post, h1, _⟩ := hr
  exact .terminal (Viable_ok hv).rule (by simp only; rw [h1]; simp)

/-! ## FIRST, FOLLOW, and what can end a sentence -/

theorem starts_named (hH : NamedTerms g H) (he : EpsFree g) (hw : Spec.WellFormed g) {t : T} {X : List (Sym (V ⊕ T) T)}
    (h : Starts H t X) : ∀ α, X = α.map nameSym → Starts g t α := by
  induction h with
  | term =>
    intro α h
    obtain ⟨x, α', rfl, h1, rfl⟩ := List.map_eq_cons_iff.1 h.symm
    exact absurd h1 nameSym_term
  | eps _ ih =>
    intro α h
    obtain ⟨x, α', rfl, h1, rfl⟩ := List.map_eq_cons_iff.1 h.symm
    rw [nameSym_eps h1]
    exact .eps (ih _ rfl)
  | inVar hr h2 ih =>
    intro α h
    obtain ⟨x, α', rfl, h1, rfl⟩ := List.map_eq_cons_iff.1 h.symm
    cases (hH.rules _ _).1 hr with
    | rule h3 =>
      rw [nameSym_var h1]
      exact .inVar h3 (ih _ rfl)
    | terminal _ _ =>
      rw [nameSym_name h1]
      cases h2
      exact .term
  | skip hr h2 _ _ =>
    exact absurd (nonEps_nullable (hH.nonempty hw) (hH.epsFree he) (hH.epsFree he _ _ hr) h2) (hH.nonempty hw _ _ hr)

theorem named_starts (hH : NamedTerms g H) (he : EpsFree g) (hw : Spec.WellFormed g) {t : T} {α : List (Sym V T)}
    (h : Starts g t α) (hα : ∀ t, .term t ∈ α → HasTerm g t) : Starts H t (α.map nameSym) := by
  induction h with
  | term =>
    obtain ⟨v, β, h1, h2⟩ := hα t (by simp)
    exact .inVar ((hH.rules _ _).2 (.terminal h1 h2)) .term
  | eps _ ih => exact .eps (ih fun t ht => hα t (by simp [ht]))
  | inVar hr _ ih => exact .inVar ((hH.rules _ _).2 (.rule hr)) (ih fun t ht => ⟨_, _, hr, ht⟩)
  | skip hr h2 _ _ => exact absurd (nonEps_nullable hw.nonempty he (he _ _ hr) h2) (hw.nonempty _ _ hr)

private theorem split_named {β : Body V T} {pre rest : List (Sym (V ⊕ T) T)} {v : V ⊕ T}
    (h : β.map nameSym = pre ++ .var v :: rest) :
    ∃ p x r, β = p ++ x :: r ∧ pre = p.map nameSym ∧ rest = r.map nameSym ∧ nameSym x = .var v := by
  obtain ⟨p, q, rfl, rfl, h1⟩ := List.map_eq_append_iff.1 h
  obtain ⟨x, r, rfl, h2, rfl⟩ := List.map_eq_cons_iff.1 h1
  exact ⟨p, x, r, rfl, rfl, rfl, h2⟩

theorem fol_named (hH : NamedTerms g H) (he : EpsFree g) (hw : Spec.WellFormed g) {t : T} {v : V ⊕ T} (h : Fol H t v) :
    ∀ u, v = .inl u → Fol g t u := by
  induction h with
  | @here h v pre rest hr hs =>
    rintro u rfl
    generalize hb : pre ++ .var (Sum.inl u) :: rest = b at hr
    cases (hH.rules _ _).1 hr with
    | rule h1 =>
      obtain ⟨p, x, r, rfl, rfl, rfl, h2⟩ := split_named hb.symm
      cases nameSym_var h2
      exact .here h1 (starts_named hH he hw hs _ rfl)
    | terminal _ _ => cases pre <;> simp at hb
  | @up h v pre rest hr hn _ ih =>
    rintro u rfl
    generalize hb : pre ++ .var (Sum.inl u) :: rest = b at hr
    cases (hH.rules _ _).1 hr with
    | rule h1 =>
      obtain ⟨p, x, r, rfl, rfl, rfl, h2⟩ := split_named hb.symm
      cases nameSym_var h2
      have h3 := nonEps_nullable (hH.nonempty hw) (hH.epsFree he) (fun h => by
        obtain ⟨y, h4, h5⟩ := List.mem_map.1 h
        rw [nameSym_eps h5] at h4
        exact he _ _ h1 (by simp [h4])) hn
      rw [List.map_eq_nil_iff] at h3
      subst h3
      exact .up h1 .nil (ih _ rfl)
    | terminal _ _ => cases pre <;> simp at hb

theorem named_fol (hH : NamedTerms g H) (he : EpsFree g) (hw : Spec.WellFormed g) {t : T} {v : V} (h : Fol g t v) :
    Fol H t (.inl v) := by
  induction h with
  | @here h v pre rest hr hs =>
    refine .here (h := .inl h) (pre := pre.map nameSym) (rest := rest.map nameSym) ?_
      (named_starts hH he hw hs fun t ht => ⟨_, _, hr, by simp [ht]⟩)
    have := (hH.rules _ _).2 (.rule hr)
    simpa [nameSym] using this
  | @up h v pre rest hr hn _ ih =>
    obtain rfl := nonEps_nullable hw.nonempty he (fun h => he _ _ hr (by simp [h])) hn
    refine .up (h := .inl h) (pre := pre.map nameSym) (rest := []) ?_ .nil ih
    have := (hH.rules _ _).2 (.rule hr)
    simpa [nameSym] using this

theorem canEnd_named (hH : NamedTerms g H) {v : V ⊕ T} (h : CanEnd H v) : ∀ u, v = .inl u → CanEnd g u := by
  induction h with
  | start =>
    intro u h
    rw [hH.start] at h
    cases h
    exact .start
  | @last h v pre hr _ ih =>
    rintro u rfl
    generalize hb : pre ++ [.var (Sum.inl u)] = b at hr
    cases (hH.rules _ _).1 hr with
    | rule h1 =>
      obtain ⟨p, x, r, rfl, rfl, h3, h2⟩ := split_named hb.symm
      cases nameSym_var h2
      obtain rfl := List.map_eq_nil_iff.1 h3.symm
      exact .last h1 (ih _ rfl)
    | terminal _ _ => cases pre <;> simp at hb

theorem named_canEnd (hH : NamedTerms g H) {v : V} (h : CanEnd g v) : CanEnd H (.inl v) := by
  induction h with
  | start => rw [← hH.start]; exact .start
  | @last h v pre hr _ ih =>
    refine .last (h := .inl h) (pre := pre.map nameSym) ?_ ih
    have := (hH.rules _ _).2 (.rule hr)
    simpa [nameSym] using this

theorem named_hasTerm (hH : NamedTerms g H) {t : T} (h : HasTerm H t) : HasTerm g t := by
  obtain ⟨v, β, h1, h2⟩ := h
  cases (hH.rules _ _).1 h1 with
  | rule _ =>
    obtain ⟨x, _, h3⟩ := List.mem_map.1 h2
    exact absurd h3 nameSym_term
  | terminal h3 h4 =>
    simp at h2
    subst h2
    exact ⟨_, _, h3, h4⟩

/-! ## The table -/

private theorem complete_map {X Y : Type} {f : Sym X T → Sym Y T} {β : Body X T} {c : Nat} :
    Complete (⟨β.map f, c⟩ : Item Y T) ↔ Complete (⟨β, c⟩ : Item X T) := by
  simp [Complete]

/-- What an item of the new grammar does, in terms of the old one. -/
inductive NamedEntry (g : Grammar V T) : List (Sym (V ⊕ T) T) → Option ((V ⊕ T) × Item (V ⊕ T) T) → Option T → Prop
  | shift {γ : List (Sym V T)} {t : T} : TextbookEntry g γ (some t) .shift →
      NamedEntry g (γ.map nameSym) (some (.inr t, ⟨[.term t], 0⟩)) (some t)
  | reduce {γ : List (Sym V T)} {k : Option T} {h : V} {β : Body V T} : TextbookEntry g γ k (.reduce h β) →
      NamedEntry g (γ.map nameSym) (some (.inl h, ⟨β.map nameSym, β.length⟩)) k
  | accept {γ : List (Sym V T)} : TextbookEntry g γ none .accept → NamedEntry g (γ.map nameSym) none none
  | terminal {γ : List (Sym V T)} {t : T} {k : Option T} :
      NamedEntry g (γ.map nameSym ++ [.term t]) (some (.inr t, ⟨[.term t], 1⟩)) k

theorem entry_named (hH : NamedTerms g H) (he : EpsFree g) (hw : Spec.WellFormed g) {γ : List (Sym (V ⊕ T) T)}
    {p : Option ((V ⊕ T) × Item (V ⊕ T) T)} {k : Option T} (h : TableEntry H γ p k) : NamedEntry g γ p k := by
  cases h with
  | shift hv hr =>
    cases viable_named hH he hv with
    | rule _ =>
      obtain ⟨y, h4, _⟩ := reads_map hr
      exact absurd h4.symm nameSym_term
    | before h1 h2 =>
      rw [reads_iff] at hr
      simp [Item.cursorSymbol] at hr
      subst hr
      exact .shift (.shift h1 h2)
    | behind _ _ => rw [reads_iff] at hr; simp [Item.cursorSymbol] at hr
  | reduce hv hc hf =>
    cases viable_named hH he hv with
    | rule h1 =>
      have hc := complete_map.1 hc
      simp only [Complete] at hc
      have h2 := TextbookEntry.reduce h1 hc (inFollow_iff.2 (fol_named hH he hw (inFollow_iff.1 hf) _ rfl))
      subst hc
      exact .reduce h2
    | before _ _ => simp [Complete] at hc
    | behind _ _ => exact .terminal
  | reduceEnd hv hc hf =>
    cases viable_named hH he hv with
    | rule h1 =>
      have hc := complete_map.1 hc
      simp only [Complete] at hc
      have h2 := TextbookEntry.reduceEnd h1 hc (canEnd_named hH hf _ rfl)
      subst hc
      exact .reduce h2
    | before _ _ => simp [Complete] at hc
    | behind _ _ => exact .terminal
  | accept h =>
    subst h
    rw [hH.start]
    exact .accept (γ := [.var g.start]) (.accept rfl)

theorem named_entry (hH : NamedTerms g H) (he : EpsFree g) (hw : Spec.WellFormed g) {γ : List (Sym V T)} {k : Option T}
    {m : TextbookMove V T} (h : TextbookEntry g γ k m) : ∃ p, TableEntry H (γ.map nameSym) p k ∧
      (m = .shift → ∃ t, k = some t ∧ p = some (.inr t, ⟨[.term t], 0⟩)) ∧
      (∀ h β, m = .reduce h β → p = some (.inl h, ⟨β.map nameSym, β.length⟩)) ∧ (m = .accept → p = none) := by
  cases h with
  | shift hv hr =>
    exact ⟨_, .shift (named_before hH he hv hr) (reads_iff.2 rfl), fun _ => ⟨_, rfl, rfl⟩, by simp, by simp⟩
  | @reduce h i t hv hc hf =>
    refine ⟨_, .reduce (named_viable hH he hv) (complete_map.2 hc) (inFollow_iff.2 (named_fol hH he hw (inFollow_iff.1 hf))),
      by simp, ?_, by simp⟩
    intro h' β h1
    cases h1
    simp only [Complete] at hc
    simp [hc]
  | @reduceEnd h i hv hc hf =>
    refine ⟨_, .reduceEnd (named_viable hH he hv) (complete_map.2 hc) (named_canEnd hH hf), by simp, ?_, by simp⟩
    intro h' β h1
    cases h1
    simp only [Complete] at hc
    simp [hc]
  | accept h =>
    subst h
    exact ⟨none, .accept (by rw [hH.start]; rfl), by simp, by simp, by simp⟩

theorem named_oneEntry [TerminalEq T] (hH : NamedTerms g H) (he : EpsFree g) (hw : Spec.WellFormed g) (hk : OneOfEachKind g) :
    OneEntryEach H ↔ SlrGrammar g := by
  have key : ∀ {γ : List (Sym (V ⊕ T) T)} {p : Option ((V ⊕ T) × Item (V ⊕ T) T)} {t : T},
      TableEntry H γ p (some t) → HasTerm g t := by
    intro γ p t h
    cases h with
    | shift hv hr =>
      obtain ⟨pre, post, h1, _⟩ := hr
      exact named_hasTerm hH ⟨_, _, (Viable_ok hv).rule, by simp only; rw [h1]; simp⟩
    | reduce _ _ hf => exact named_hasTerm hH (fol_hasTerm (inFollow_iff.1 hf))
  have keys : ∀ {γ : List (Sym (V ⊕ T) T)} {p p' : Option ((V ⊕ T) × Item (V ⊕ T) T)} {k k' : Option T},
      TableEntry H γ p k → TableEntry H γ p' k' → keyEq k k' = true → k = k' := by
    intro γ p p' k k' h h' he
    cases k with
    | none => cases k' <;> simp [keyEq] at he ⊢
    | some t =>
      cases k' with
      | none => simp [keyEq] at he
      | some u =>
        obtain ⟨_, _, h1, h2⟩ := key h
        obtain ⟨_, _, h3, h4⟩ := key h'
        rw [hk _ _ _ _ _ _ h1 h2 h3 h4 he]
  have inj : ∀ {α β : List (Sym V T)}, α.map nameSym = β.map nameSym → α = β :=
    fun h => map_inj_of (fun _ _ => nameSym_inj) h
  have last : ∀ {α β : List (Sym V T)} {t : T}, α.map nameSym ≠ β.map nameSym ++ [.term t] := by
    intro α β t h
    obtain ⟨_, q, rfl, _, h1⟩ := List.map_eq_append_iff.1 h
    obtain ⟨x, _, rfl, h2, _⟩ := List.map_eq_cons_iff.1 h1
    exact nameSym_term h2
  constructor
  · intro h γ k k' m m' h1 h2 he'
    obtain ⟨p, a1, a2, a3, a4⟩ := named_entry hH he hw h1
    obtain ⟨p', b1, b2, b3, b4⟩ := named_entry hH he hw h2
    obtain ⟨rfl, rfl⟩ := h _ _ _ _ _ a1 b1 he'
    cases m with
    | shift =>
      obtain ⟨t, _, rfl⟩ := a2 rfl
      cases m' with
      | shift => rfl
      | reduce h β => have := b3 _ _ rfl; simp at this
      | accept => simp at b4
    | reduce h β =>
      have h3 := a3 _ _ rfl
      subst h3
      cases m' with
      | shift => obtain ⟨t, _, h4⟩ := b2 rfl; simp at h4
      | reduce h' β' =>
        have h4 := b3 _ _ rfl
        simp only [Option.some.injEq, Prod.mk.injEq, Sum.inl.injEq, Item.mk.injEq] at h4
        obtain ⟨rfl, h4, _⟩ := h4
        rw [inj h4]
      | accept => simp at b4
    | accept =>
      have h3 := a4 rfl
      subst h3
      cases m' with
      | shift => obtain ⟨t, _, h4⟩ := b2 rfl; simp at h4
      | reduce h' β' => have h4 := b3 _ _ rfl; simp at h4
      | accept => rfl
  · intro h γ p p' k k' h1 h2 he'
    have hkk := keys h1 h2 he'
    refine ⟨?_, hkk⟩
    have n1 := entry_named hH he hw h1
    have n2 := entry_named hH he hw h2
    clear h1 h2
    generalize hγ : γ = γ' at n2
    cases n1 with
    | shift a1 =>
      cases n2 with
      | shift b1 => rw [Option.some.inj hkk]
      | reduce b1 => cases inj hγ; cases h _ _ _ _ _ a1 b1 he'
      | accept b1 => cases inj hγ; cases h _ _ _ _ _ a1 b1 he'
      | terminal => exact absurd hγ last
    | reduce a1 =>
      cases n2 with
      | shift b1 => cases inj hγ; cases h _ _ _ _ _ a1 b1 he'
      | reduce b1 => cases inj hγ; cases h _ _ _ _ _ a1 b1 he'; rfl
      | accept b1 => cases inj hγ; cases h _ _ _ _ _ a1 b1 he'
      | terminal => exact absurd hγ last
    | accept a1 =>
      cases n2 with
      | shift b1 => cases inj hγ; cases h _ _ _ _ _ a1 b1 he'
      | reduce b1 => cases inj hγ; cases h _ _ _ _ _ a1 b1 he'
      | accept b1 => rfl
      | terminal => exact absurd hγ last
    | terminal =>
      cases n2 with
      | shift b1 => exact absurd hγ.symm last
      | reduce b1 => exact absurd hγ.symm last
      | accept b1 => exact absurd hγ.symm last
      | terminal =>
        have := (List.append_inj' hγ rfl).2
        simp only [List.cons.injEq, Sym.term.injEq, and_true] at this
        rw [this]

end Pango.Parse
