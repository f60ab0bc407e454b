import Verif.Proofs.Table

/-!
# What the table says

The entries of the table in terms of the items of a state and of FOLLOW.
-/

namespace Pango.Parse

open Pango Pango.Spec

variable {V T : Type}

theorem pairwise_iff_of_nodup {α : Type} {R : α → α → Prop} (hR : ∀ a b, R a b → R b a) {l : List α}
    (hl : l.Nodup) : l.Pairwise R ↔ ∀ a ∈ l, ∀ b ∈ l, a ≠ b → R a b := by
  induction l with
  | nil => simp
  | cons x l ih =>
    rw [List.nodup_cons] at hl
    rw [List.pairwise_cons, ih hl.2]
    constructor
    · rintro ⟨h1, h2⟩ a ha b hb hne
      rcases List.mem_cons.1 ha with rfl | ha'
      · rcases List.mem_cons.1 hb with rfl | hb'
        · exact absurd rfl hne
        · exact h1 b hb'
      · rcases List.mem_cons.1 hb with rfl | hb'
        · exact hR _ _ (h1 a ha')
        · exact h2 a ha' b hb' hne
    · intro h
      refine ⟨fun a ha => h x (by simp) a (by simp [ha]) ?_, fun a ha b hb => h a (by simp [ha]) b (by simp [hb])⟩
      rintro rfl
      exact hl.1 ha

theorem mem_terminals {f : List (Sym V T)} {t : T} : t ∈ terminals f ↔ .term t ∈ f := by
  unfold terminals
  rw [List.mem_filterMap]
  constructor
  · rintro ⟨x, hx, h⟩
    cases x <;> simp at h
    subst h; exact hx
  · intro h; exact ⟨_, h, rfl⟩

theorem nodup_terminals {f : List (Sym V T)} (h : f.Nodup) : (terminals f).Nodup := by
  induction f with
  | nil => exact .nil
  | cons x f ih =>
    rw [List.nodup_cons] at h
    cases x with
    | term t =>
      show (t :: terminals f).Nodup
      rw [List.nodup_cons, mem_terminals]
      exact ⟨h.1, ih h.2⟩
    | var v => exact ih h.2
    | eps => exact ih h.2

/-- An item asks for an action on a terminal (`none` is the end of the input).  `entry` says whether the start
variable has an entry in the map of follow sets. -/
inductive Ask (g : Grammar V T) (entry : Prop) (s : CState V T) : V × Item V T → Option T → Action V → Prop
  | shift {h : V} {i : Item V T} {t : T} {d : Nat} : i.cursorSymbol = some (.term t) → (.term t, d) ∈ s.transitions →
      Ask g entry s (h, i) (some t) (.shift d)
  | reduce {h : V} {i : Item V T} {t : T} : i.cursorSymbol = none → Fol g t h →
      Ask g entry s (h, i) (some t) (.reduce h i.body.length)
  | accept {i : Item V T} : i.cursorSymbol = none → entry →
      Ask g entry s (g.start, i) none (.accept g.start i.body.length)

variable [DecidableEq V] [DecidableEq T]

/-- What is known of the map of follow sets. -/
structure FollowOk (g : Grammar V T) (follow : List (V × List (Sym V T))) : Prop where
  sets : ∀ v x, x ∈ getSet follow v ↔ ∃ t, x = .term t ∧ Fol g t v
  sure : ∀ v, SureEntry g v → (mapGet follow v).isSome
  entered : ∀ v, (mapGet follow v).isSome → Entered g v
  nodup : ∀ v, (getSet follow v).Nodup

omit [DecidableEq T] in
theorem FollowOk.notLast {g : Grammar V T} {follow : List (V × List (Sym V T))} (fo : FollowOk g follow) (v : V)
    (h : ∃ h β, (h, β) ∈ g.rules ∧ NotLast β v) : (mapGet follow v).isSome := by
  obtain ⟨_, _, h1, h2⟩ := h
  exact fo.sure v (.notLast h1 h2)

omit [DecidableEq T] in
theorem FollowOk.isSome {g : Grammar V T} {follow : List (V × List (Sym V T))} (fo : FollowOk g follow) {t : T}
    {v : V} (h : Fol g t v) : (mapGet follow v).isSome := by
  have := (fo.sets v (.term t)).2 ⟨t, rfl, h⟩
  unfold getSet at this
  cases hm : mapGet follow v with
  | none => simp [hm] at this
  | some f => rfl

variable {g : Grammar V T} {c : Cfsm V T} {follow : List (V × List (Sym V T))}

/-- Whether the start variable has an entry. -/
def Entry (g : Grammar V T) (follow : List (V × List (Sym V T))) : Prop := (mapGet follow g.start).isSome

theorem mem_demands (ok : CfsmOk g c) (fo : FollowOk g follow) {s : CState V T} (hs : s ∈ c.states)
    {p : V × Item V T} (hp : p ∈ s.items) {e : Insertion V T} :
    e ∈ demands g.start follow s p ↔ e.1 = s.id ∧ Ask g (Entry g follow) s p e.2.1 e.2.2 := by
  obtain ⟨h, i⟩ := p
  obtain ⟨n, k, a⟩ := e
  unfold demands
  simp only
  have hget : ∀ {x d}, mapGet s.transitions x = some d ↔ (x, d) ∈ s.transitions := by
    intro x d
    exact ⟨mapGet_mem, mapGet_of_mem (ok.keys s hs)⟩
  cases hc : i.cursorSymbol with
  | none =>
    simp only
    cases hf : mapGet follow h with
    | none =>
      simp only [List.not_mem_nil, false_iff, not_and]
      rintro - hask
      cases hask with
      | shift h1 _ => rw [hc] at h1; cases h1
      | reduce _ h1 =>
        have := fo.isSome h1
        rw [hf] at this; cases this
      | accept _ h1 =>
        rw [Entry, hf] at h1; cases h1
    | some f =>
      simp only [List.mem_append, List.mem_map, mem_terminals, Prod.mk.injEq]
      have hfol : ∀ t, .term t ∈ f ↔ Fol g t h := by
        intro t
        have := fo.sets h (.term t)
        simp only [getSet, hf, Option.getD_some] at this
        rw [this]
        constructor
        · rintro ⟨_, he, h⟩; cases he; exact h
        · intro h; exact ⟨t, rfl, h⟩
      constructor
      · rintro (⟨t, ht, rfl, rfl, rfl⟩ | h')
        · exact ⟨rfl, .reduce hc ((hfol t).1 ht)⟩
        · split at h'
          · rename_i he
            simp only [List.mem_singleton, Prod.mk.injEq] at h'
            obtain ⟨rfl, rfl, rfl⟩ := h'
            subst he
            exact ⟨rfl, .accept hc (by rw [Entry, hf]; rfl)⟩
          · cases h'
      · rintro ⟨rfl, hask⟩
        cases hask with
        | shift h1 _ => rw [hc] at h1; cases h1
        | reduce _ h1 => exact .inl ⟨_, (hfol _).2 h1, rfl, rfl, rfl⟩
        | accept _ _ => right; simp
  | some x =>
    have hno : ∀ x', i.cursorSymbol = some x' → x' = x := by
      intro x' h'
      rw [hc] at h'
      exact (Option.some.inj h').symm
    cases x with
    | eps => exact absurd hc ((ok.sets s hs).ok _ hp).noEps
    | var v =>
      simp only [List.not_mem_nil, false_iff, not_and]
      rintro - hask
      cases hask with
      | shift h1 _ => cases hno _ h1
      | reduce h1 _ => rw [hc] at h1; cases h1
      | accept h1 _ => rw [hc] at h1; cases h1
    | term t =>
      simp only
      constructor
      · intro h'
        split at h'
        · rename_i d hd
          simp only [List.mem_singleton, Prod.mk.injEq] at h'
          obtain ⟨rfl, rfl, rfl⟩ := h'
          exact ⟨rfl, .shift hc (hget.1 hd)⟩
        · cases h'
      · rintro ⟨rfl, hask⟩
        cases hask with
        | shift h1 h2 =>
          cases hno _ h1
          simp [hget.2 h2]
        | reduce h1 _ => rw [hc] at h1; cases h1
        | accept h1 _ => rw [hc] at h1; cases h1

theorem mem_allDemands (ok : CfsmOk g c) (fo : FollowOk g follow) {e : Insertion V T} :
    e ∈ allDemands g.start follow c.states ↔
      ∃ s ∈ c.states, e.1 = s.id ∧ ∃ p ∈ s.items, Ask g (Entry g follow) s p e.2.1 e.2.2 := by
  unfold allDemands
  simp only [List.mem_flatMap]
  constructor
  · rintro ⟨s, hs, p, hp, h⟩
    obtain ⟨h1, h2⟩ := (mem_demands ok fo hs hp).1 h
    exact ⟨s, hs, h1, p, hp, h2⟩
  · rintro ⟨s, hs, h1, p, hp, h2⟩
    exact ⟨s, hs, p, hp, (mem_demands ok fo hs hp).2 ⟨h1, h2⟩⟩

omit [DecidableEq V] in
theorem nodup_demands [DecidableEq V] (fo : FollowOk g follow) {s : CState V T} {p : V × Item V T} :
    (demands g.start follow s p).Nodup := by
  unfold demands
  split
  · split <;> simp
  · split
    · rename_i f hf
      have hn := fo.nodup p.1
      simp only [getSet, hf, Option.getD_some] at hn
      rw [List.nodup_append]
      refine ⟨?_, by split <;> simp, ?_⟩
      · unfold List.Nodup
        rw [List.pairwise_map]
        refine (nodup_terminals hn).imp ?_
        intro a b hab h
        simp only [Prod.mk.injEq, Option.some.injEq] at h
        exact hab h.2.1
      · intro a ha b hb
        obtain ⟨t, _, rfl⟩ := List.mem_map.1 ha
        split at hb
        · simp only [List.mem_singleton] at hb
          subst hb
          simp
        · cases hb
    · simp
  · simp

omit [DecidableEq V] [DecidableEq T] in
theorem Ask.action_unique {entry : Prop} {s : CState V T} (keys : (s.transitions.map Prod.fst).Nodup)
    {p : V × Item V T} {k : Option T} {a a' : Action V} (h : Ask g entry s p k a) (h' : Ask g entry s p k a') :
    a = a' := by
  cases h with
  | shift h1 h2 =>
    cases h' with
    | shift h3 h4 =>
      have hu : ∀ {l : List (Sym V T × Nat)} {x : Sym V T} {d d' : Nat}, (l.map Prod.fst).Nodup → (x, d) ∈ l →
          (x, d') ∈ l → d = d' := by
        intro l x d d' hn h h'
        induction l with
        | nil => cases h
        | cons e l ih =>
          rw [List.map_cons, List.nodup_cons] at hn
          rcases List.mem_cons.1 h with rfl | hm
          · rcases List.mem_cons.1 h' with hm' | hm'
            · cases hm'; rfl
            · exact absurd (List.mem_map.2 ⟨_, hm', rfl⟩) hn.1
          · rcases List.mem_cons.1 h' with rfl | hm'
            · exact absurd (List.mem_map.2 ⟨_, hm, rfl⟩) hn.1
            · exact ih hn.2 hm hm'
      rw [hu keys h2 h4]
    | reduce h3 _ => rw [h1] at h3; cases h3
  | reduce h1 _ =>
    cases h' with
    | shift h3 _ => rw [h1] at h3; cases h3
    | reduce _ _ => rfl
  | accept _ _ => cases h'; rfl

variable [TerminalEq T] [LawfulTerminalEq T]

/-- No two insertions collide exactly if no two askings do. -/
theorem pairwise_allDemands (ok : CfsmOk g c) (fo : FollowOk g follow) :
    (allDemands g.start follow c.states).Pairwise (fun e e' => ¬ Collide e e') ↔
    ∀ s ∈ c.states, ∀ p ∈ s.items, ∀ p' ∈ s.items, ∀ k k' a a', Ask g (Entry g follow) s p k a →
      Ask g (Entry g follow) s p' k' a' → keyEq k k' = true → p = p' ∧ k = k' := by
  have hsymm : ∀ e e' : Insertion V T, ¬ Collide e e' → ¬ Collide e' e :=
    fun e e' h h' => h ⟨h'.1.symm, keyEq_symm h'.2⟩
  unfold allDemands
  rw [List.pairwise_flatMap]
  constructor
  · rintro ⟨h1, _⟩ s hs p hp p' hp' k k' a a' ha ha' hk
    have := h1 s hs
    rw [List.pairwise_flatMap] at this
    obtain ⟨h2, h3⟩ := this
    rw [pairwise_iff_of_nodup (fun a b h x hx y hy => hsymm _ _ (h y hy x hx)) (ok.sets s hs).nodup] at h3
    have m : (s.id, k, a) ∈ demands g.start follow s p := (mem_demands ok fo hs hp).2 ⟨rfl, ha⟩
    have m' : (s.id, k', a') ∈ demands g.start follow s p' := (mem_demands ok fo hs hp').2 ⟨rfl, ha'⟩
    have hp : p = p' := by
      apply Decidable.byContradiction
      intro hne
      exact h3 p hp p' hp' hne _ m _ m' ⟨rfl, hk⟩
    subst hp
    refine ⟨rfl, ?_⟩
    have h4 := h2 p hp
    rw [pairwise_iff_of_nodup hsymm (nodup_demands fo)] at h4
    apply Decidable.byContradiction
    intro hne
    exact h4 _ m _ m' (fun h => hne (by cases h; rfl)) ⟨rfl, hk⟩
  · intro h
    refine ⟨fun s hs => ?_, ?_⟩
    · rw [List.pairwise_flatMap]
      refine ⟨fun p hp => ?_, ?_⟩
      · rw [pairwise_iff_of_nodup hsymm (nodup_demands fo)]
        intro e he e' he' hne hc
        obtain ⟨h1, h2⟩ := (mem_demands ok fo hs hp).1 he
        obtain ⟨h1', h2'⟩ := (mem_demands ok fo hs hp).1 he'
        have hk := (h s hs p hp p hp _ _ _ _ h2 h2' hc.2).2
        apply hne
        obtain ⟨n, k, a⟩ := e
        obtain ⟨n', k', a'⟩ := e'
        simp only at *
        subst hk
        rw [h1, h1', h2.action_unique (ok.keys s hs) h2']
      · rw [pairwise_iff_of_nodup (fun a b h x hx y hy => hsymm _ _ (h y hy x hx)) (ok.sets s hs).nodup]
        intro p hp p' hp' hne e he e' he' hc
        obtain ⟨h1, h2⟩ := (mem_demands ok fo hs hp).1 he
        obtain ⟨h1', h2'⟩ := (mem_demands ok fo hs hp').1 he'
        exact hne (h s hs p hp p' hp' _ _ _ _ h2 h2' hc.2).1
    · have hn : (c.states.map CState.id).Nodup := by rw [ok.ids]; exact List.nodup_range
      unfold List.Nodup at hn
      rw [List.pairwise_map] at hn
      refine hn.imp_of_mem ?_
      intro s s' hs hs' hne e he e' he' hc
      obtain ⟨p, hp, he⟩ := List.mem_flatMap.1 he
      obtain ⟨p', hp', he'⟩ := List.mem_flatMap.1 he'
      have h1 := ((mem_demands ok fo hs hp).1 he).1
      have h2 := ((mem_demands ok fo hs' hp').1 he').1
      exact hne (h1.symm.trans (hc.1.trans h2))

/-- What is known of a table. -/
structure SlrOk (g : Grammar V T) (c : Cfsm V T) (entry : Prop) (tbl : Table V T) : Prop where
  cfsm : CfsmOk g c
  start : tbl.start = g.start
  action : ∀ s ∈ c.states, ∀ k a, lookup tbl.action s.id k = some a ↔
    ∃ p ∈ s.items, ∃ k', Ask g entry s p k' a ∧ keyEq k' k = true
  unique : ∀ s ∈ c.states, ∀ p ∈ s.items, ∀ p' ∈ s.items, ∀ k k' a a', Ask g entry s p k a →
      Ask g entry s p' k' a' → keyEq k k' = true → p = p' ∧ k = k'
  actionLen : ∀ n, n < tbl.action.length ↔ ∃ s ∈ c.states, n ≤ s.id ∧ ∃ p ∈ s.items, ∃ k a, Ask g entry s p k a
  goto : ∀ s ∈ c.states, ∀ v d, gotoGet tbl.goto s.id v = some d ↔ (.var v, d) ∈ s.transitions
  gotoLen : ∀ n, n < tbl.goto.length ↔ ∃ s ∈ c.states, n ≤ s.id ∧ ∃ v d, (Sym.var v, d) ∈ s.transitions

omit [LawfulTerminalEq T] in
theorem CfsmOk.id_inj (ok : CfsmOk g c) {s s' : CState V T} (hs : s ∈ c.states) (hs' : s' ∈ c.states)
    (h : s.id = s'.id) : s = s' := by
  have h1 := ok.index hs
  rw [h, ok.index hs'] at h1
  exact (Option.some.inj h1).symm

omit [LawfulTerminalEq T] in
theorem TableOk.slrOk {tbl : Table V T} (ok : CfsmOk g c) (fo : FollowOk g follow) [LawfulTerminalEq T]
    (t : TableOk g c follow tbl) : SlrOk g c (Entry g follow) tbl where
  cfsm := ok
  start := t.start
  action s hs k a := by
    rw [t.action]
    constructor
    · rintro ⟨⟨n, k', a'⟩, he, rfl, hk, rfl⟩
      obtain ⟨s', hs', h1, p, hp, h2⟩ := (mem_allDemands ok fo).1 he
      simp only at h1 h2 hk
      have := ok.id_inj hs hs' h1
      subst this
      exact ⟨p, hp, k', h2, hk⟩
    · rintro ⟨p, hp, k', h, hk⟩
      exact ⟨(s.id, k', a), (mem_allDemands ok fo).2 ⟨s, hs, rfl, p, hp, h⟩, rfl, hk, rfl⟩
  unique := (pairwise_allDemands ok fo).1 t.apart
  actionLen n := by
    rw [t.actionLen]
    constructor
    · rintro ⟨e, he, hn⟩
      obtain ⟨s, hs, h1, p, hp, h2⟩ := (mem_allDemands ok fo).1 he
      exact ⟨s, hs, by omega, p, hp, _, _, h2⟩
    · rintro ⟨s, hs, hn, p, hp, k, a, h⟩
      exact ⟨(s.id, k, a), (mem_allDemands ok fo).2 ⟨s, hs, rfl, p, hp, h⟩, hn⟩
  goto := t.goto
  gotoLen := t.gotoLen

/-- The table in one statement. -/
theorem slrTable_ok (wf : WellFormed g) (ord : HashOrder) {fuel : Nat} (hf : tableFuel g ≤ fuel) :
    ∃ c follow, Cfsm.fromGrammar g (ord.sub 0) fuel = .ok c ∧ g.followSet ((ord.sub 1).sub 0) fuel = .ok follow ∧
      CfsmOk g c ∧ FollowOk g follow ∧
      ∃ r, slrTable g ord fuel = .ok r ∧
        (r.isSome ↔ ∀ s ∈ c.states, ∀ p ∈ s.items, ∀ p' ∈ s.items, ∀ k k' a a', Ask g (Entry g follow) s p k a →
          Ask g (Entry g follow) s p' k' a' → keyEq k k' = true → p = p' ∧ k = k') ∧
        ∀ tbl, r = some tbl → SlrOk g c (Entry g follow) tbl := by
  obtain ⟨c, follow, h1, ok, h2, h3, h4, h5, h6, r, h7, h8, h9⟩ := slrTable_spec wf ord hf
  have fo : FollowOk g follow := ⟨h3, h4, h5, h6⟩
  exact ⟨c, follow, h1, h2, ok, fo, r, h7, h8.trans (pairwise_allDemands ok fo), fun tbl h => (h9 tbl h).slrOk ok fo⟩

end Pango.Parse
