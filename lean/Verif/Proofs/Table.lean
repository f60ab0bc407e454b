import Verif.Proofs.Follow
import Verif.Proofs.Viable
import Verif.Model.Slr

/-!
# The construction of the table

Filling the table is a sequence of insertions into rows; it succeeds exactly if no two of them have the same state
and equal terminals.
-/

namespace Pango.Parse

open Pango Pango.Spec

variable {V T : Type} [TerminalEq T]

/-! ## Keys -/

section Keys

variable [LawfulTerminalEq T]

theorem keyEq_refl (k : Option T) : keyEq k k = true := by
  cases k with
  | none => rfl
  | some t => exact LawfulTerminalEq.refl t

theorem keyEq_symm {k k' : Option T} (h : keyEq k k' = true) : keyEq k' k = true := by
  cases k <;> cases k' <;> first | exact h | exact LawfulTerminalEq.symm _ _ h

theorem keyEq_trans {k k' k'' : Option T} (h : keyEq k k' = true) (h' : keyEq k' k'' = true) :
    keyEq k k'' = true := by
  cases k <;> cases k' <;> cases k'' <;>
    first | exact h | exact h' | exact LawfulTerminalEq.trans _ _ _ h h' | (simp [keyEq] at h h')

theorem rowGet_congr {row : ActionRow V T} {k k' : Option T} (h : keyEq k k' = true) :
    rowGet row k = rowGet row k' := by
  induction row with
  | nil => rfl
  | cons e row ih =>
    obtain ⟨k0, a⟩ := e
    simp only [rowGet]
    by_cases h0 : keyEq k0 k = true
    · rw [if_pos h0, if_pos (keyEq_trans h0 h)]
    · rw [if_neg h0, if_neg (fun h1 => h0 (keyEq_trans h1 (keyEq_symm h))), ih]

end Keys

theorem rowGet_append {row row' : ActionRow V T} {k : Option T} :
    rowGet (row ++ row') k = (rowGet row k).or (rowGet row' k) := by
  induction row with
  | nil => simp [rowGet]
  | cons e row ih =>
    obtain ⟨k0, a⟩ := e
    simp only [List.cons_append, rowGet]
    split
    · rfl
    · exact ih

/-! ## Insertions -/

/-- An insertion: state, terminal, action. -/
abbrev Insertion (V T : Type) := Nat × Option T × Action V

/-- Make the insertions one after the other. -/
def insertMany (table : List (ActionRow V T)) : List (Insertion V T) → Option (List (ActionRow V T))
  | [] => some table
  | (s, k, a) :: rest => (insertAction table s k a).bind fun t => insertMany t rest

theorem insertMany_append {a b : List (Insertion V T)} {table : List (ActionRow V T)} :
    insertMany table (a ++ b) = (insertMany table a).bind fun t => insertMany t b := by
  induction a generalizing table with
  | nil => rfl
  | cons e a ih =>
    obtain ⟨s, k, x⟩ := e
    simp only [List.cons_append, insertMany]
    cases insertAction table s k x with
    | none => rfl
    | some t => exact ih

/-- The entry of a table. -/
def lookup (table : List (ActionRow V T)) (s : Nat) (k : Option T) : Option (Action V) :=
  rowGet ((table[s]?).getD []) k

theorem resizeTo_getD {α : Type} {l : List (List α)} {n m : Nat} :
    ((resizeTo [] n l)[m]?).getD [] = (l[m]?).getD [] := by
  unfold resizeTo
  rw [List.getElem?_append]
  split
  · rfl
  · rename_i h
    rw [List.getElem?_eq_none (l := l) (by omega)]
    rw [List.getElem?_replicate]
    split <;> rfl

theorem resizeTo_length {α : Type} {d : α} {l : List α} {n : Nat} : (resizeTo d n l).length = max l.length n := by
  unfold resizeTo
  simp
  omega

theorem insertAction_none {table : List (ActionRow V T)} {s : Nat} {k : Option T} {a : Action V} :
    insertAction table s k a = none ↔ lookup table s k ≠ none := by
  unfold insertAction lookup
  simp only [resizeTo_getD]
  cases rowGet ((table[s]?).getD []) k <;> simp

theorem insertAction_some {table t : List (ActionRow V T)} {s : Nat} {k : Option T} {a : Action V}
    (h : insertAction table s k a = some t) :
    (∀ n k', lookup t n k' = (lookup table n k').or (if n = s ∧ keyEq k k' = true then some a else none)) ∧
    t.length = max table.length (s + 1) := by
  unfold insertAction at h
  simp only [resizeTo_getD] at h
  split at h
  · cases h
  · cases h
    have hlen : (resizeTo ([] : ActionRow V T) (s + 1) table).length = max table.length (s + 1) := resizeTo_length
    refine ⟨fun n k' => ?_, by simp [hlen]⟩
    unfold lookup
    rw [List.getElem?_set]
    by_cases hn : s = n
    · subst hn
      rw [if_pos rfl, if_pos (by rw [hlen]; omega), Option.getD_some, rowGet_append]
      congr 1
      simp only [rowGet, true_and]
    · rw [if_neg hn, resizeTo_getD]
      simp [Ne.symm hn]

/-- Two insertions into the same entry. -/
def Collide (e e' : Insertion V T) : Prop := e.1 = e'.1 ∧ keyEq e.2.1 e'.2.1 = true

theorem insertMany_spec [LawfulTerminalEq T] {L : List (Insertion V T)} :
    ∀ {table : List (ActionRow V T)},
    ((insertMany table L).isSome ↔ L.Pairwise (fun e e' => ¬ Collide e e') ∧
      ∀ e ∈ L, lookup table e.1 e.2.1 = none) ∧
    ∀ t, insertMany table L = some t →
      (∀ n k a, lookup t n k = some a ↔
        lookup table n k = some a ∨ ∃ e ∈ L, e.1 = n ∧ keyEq e.2.1 k = true ∧ e.2.2 = a) ∧
      ∀ n, n < t.length ↔ n < table.length ∨ ∃ e ∈ L, n ≤ e.1 := by
  induction L with
  | nil =>
    intro table
    refine ⟨by simp [insertMany], fun t h => ?_⟩
    simp only [insertMany, Option.some.injEq] at h
    subst h
    simp
  | cons e L ih =>
    intro table
    obtain ⟨s, k, a⟩ := e
    simp only [insertMany]
    cases hi : insertAction table s k a with
    | none =>
      have := insertAction_none.1 hi
      refine ⟨?_, by simp⟩
      simp only [Option.bind_none, Option.isSome_none, Bool.false_eq_true, false_iff, not_and]
      intro _ h
      exact this (h _ (List.mem_cons_self ..))
    | some t1 =>
      obtain ⟨h1, h2⟩ := insertAction_some hi
      have hn : lookup table s k = none := by
        cases hl : lookup table s k with
        | none => rfl
        | some b =>
          have := insertAction_none (a := a).2 (by rw [hl]; simp)
          rw [hi] at this
          cases this
      obtain ⟨h3, h4⟩ := ih (table := t1)
      simp only [Option.bind_some]
      have hpart : (∀ e ∈ L, lookup t1 e.1 e.2.1 = none) ↔
          (∀ e ∈ L, ¬ Collide (s, k, a) e) ∧ ∀ e ∈ L, lookup table e.1 e.2.1 = none := by
        constructor
        · intro h
          refine ⟨fun e he hc => ?_, fun e he => ?_⟩
          · have := h e he
            rw [h1] at this
            obtain ⟨c1, c2⟩ := hc
            simp only at c1 c2
            rw [if_pos ⟨c1.symm, c2⟩] at this
            cases hl : lookup table e.1 e.2.1 <;> simp [hl] at this
          · have := h e he
            rw [h1] at this
            cases hl : lookup table e.1 e.2.1 with
            | none => rfl
            | some b => simp [hl] at this
        · rintro ⟨h, h'⟩ e he
          rw [h1, h' e he, if_neg]
          · rfl
          · rintro ⟨c1, c2⟩
            exact h e he ⟨c1.symm, c2⟩
      refine ⟨?_, fun t ht => ?_⟩
      · rw [h3, hpart, List.pairwise_cons]
        simp only [List.mem_cons, forall_eq_or_imp, hn, true_and]
        constructor
        · rintro ⟨a1, a2, a3⟩; exact ⟨⟨a2, a1⟩, a3⟩
        · rintro ⟨⟨a1, a2⟩, a3⟩; exact ⟨a2, a1, a3⟩
      · obtain ⟨h5, h6⟩ := h4 t ht
        have hsome : (insertMany t1 L).isSome := by rw [ht]; rfl
        have hnone := (h3.1 hsome).2
        refine ⟨fun n k' b => ?_, fun n => ?_⟩
        · rw [h5, h1]
          constructor
          · rintro (h | ⟨e, he, h⟩)
            · cases hl : lookup table n k' with
              | some b' => simp [hl] at h; exact .inl (by rw [h])
              | none =>
                simp only [hl, Option.none_or] at h
                split at h
                · rename_i hc
                  cases h
                  exact .inr ⟨(s, k, a), by simp, hc.1.symm, hc.2, rfl⟩
                · cases h
            · exact .inr ⟨e, by simp [he], h⟩
          · rintro (h | ⟨e, he, c1, c2, c3⟩)
            · exact .inl (by simp [h])
            · rcases List.mem_cons.1 he with rfl | he
              · left
                simp only at c1 c2 c3
                subst c1 c3
                have : lookup table s k' = none := by
                  unfold lookup at hn ⊢
                  rw [← rowGet_congr c2]; exact hn
                simp [this, c2]
              · exact .inr ⟨e, he, c1, c2, c3⟩
        · rw [h6, h2]
          simp only [List.mem_cons, exists_eq_or_imp]
          constructor
          · rintro (h | h)
            · by_cases hlt : n < table.length
              · exact .inl hlt
              · exact .inr (.inl (by omega))
            · exact .inr (.inr h)
          · rintro (h | h | h)
            · exact .inl (by omega)
            · exact .inl (by omega)
            · exact .inr h

/-! ## Goto -/

variable [DecidableEq V]

/-- The entry of the goto table. -/
def gotoGet (table : List (List (V × Nat))) (s : Nat) (v : V) : Option Nat := mapGet ((table[s]?).getD []) v

omit [TerminalEq T] in
theorem insertGoto_spec {table : List (List (V × Nat))} {s : Nat} {v : V} {d : Nat}
    (h : ∀ d', gotoGet table s v = some d' → d' = d) :
    ∃ t, insertGoto table s v d = .ok t ∧
      (∀ n w, gotoGet t n w = if n = s ∧ w = v then some d else gotoGet table n w) ∧
      t.length = max table.length (s + 1) := by
  have hlen : (resizeTo ([] : List (V × Nat)) (s + 1) table).length = max table.length (s + 1) := resizeTo_length
  refine ⟨(resizeTo [] (s + 1) table).set s (mapSet ((table[s]?).getD []) v d), ?_, ?_, by simp [hlen]⟩
  · unfold insertGoto
    simp only [resizeTo_getD]
    cases hg : mapGet ((table[s]?).getD []) v with
    | none => rfl
    | some old =>
      simp only
      rw [if_pos (h old hg)]
  · intro n w
    unfold gotoGet
    rw [List.getElem?_set]
    by_cases hn : s = n
    · subst hn
      rw [if_pos rfl, if_pos (by rw [hlen]; omega), Option.getD_some, mapGet_mapSet]
      by_cases hw : v = w
      · subst hw; simp
      · simp [hw, Ne.symm hw]
    · rw [if_neg hn, resizeTo_getD]
      simp [Ne.symm hn]

/-! ## Items -/

variable [DecidableEq T]

/-- The terminals of a follow set. -/
def terminals (f : List (Sym V T)) : List T := f.filterMap fun x => match x with
  | .term t => some t
  | _ => none

/-- The insertions made for an item. -/
def demands (start : V) (follow : List (V × List (Sym V T))) (s : CState V T) (p : V × Item V T) :
    List (Insertion V T) :=
  match p.2.cursorSymbol with
  | some (.term t) => match mapGet s.transitions (.term t) with
    | some d => [(s.id, some t, .shift d)]
    | none => []
  | none => match mapGet follow p.1 with
    | some f => (terminals f).map (fun t => (s.id, some t, .reduce p.1 p.2.body.length)) ++
      if p.1 = start then [(s.id, none, .accept p.1 p.2.body.length)] else []
    | none => []
  | _ => []

theorem insertReduces_eq {s : Nat} {a : Action V} {f : List (Sym V T)} (h : ∀ v, Sym.var v ∉ f) :
    ∀ {table : List (ActionRow V T)}, insertReduces s a f table =
      .ok (insertMany table ((terminals f).map fun t => (s, some t, a))) := by
  induction f with
  | nil => intro table; rfl
  | cons x f ih =>
    intro table
    have ih := @ih (fun v hv => h v (by simp [hv]))
    cases x with
    | var v => exact absurd (List.mem_cons_self ..) (h v)
    | eps =>
      rw [insertReduces]
      exact ih
    | term t =>
      rw [insertReduces]
      show _ = Outcome.ok ((insertAction table s (some t) a).bind fun t' =>
        insertMany t' ((terminals f).map fun t => (s, some t, a)))
      cases insertAction table s (some t) a with
      | none => rfl
      | some t' => exact ih

/-- What is known of the goto table while it is being filled: `Done` says for which state and variable there is an
entry. -/
structure GotoInv (c : Cfsm V T) (Done : Nat → V → Prop) (table : List (List (V × Nat))) : Prop where
  get : ∀ s ∈ c.states, ∀ v d, gotoGet table s.id v = some d ↔ Done s.id v ∧ (.var v, d) ∈ s.transitions
  len : ∀ n, n < table.length ↔ ∃ s ∈ c.states, n ≤ s.id ∧ ∃ v, Done s.id v

variable {g : Grammar V T} {c : Cfsm V T} {follow : List (V × List (Sym V T))}

theorem insertItem_spec (ok : CfsmOk g c) (hfol : ∀ v f w, mapGet follow v = some f → Sym.var w ∉ f)
    (ord : HashOrder) {s : CState V T} (hs : s ∈ c.states) {p : V × Item V T} (hp : p ∈ s.items)
    {table : Table V T} {Done : Nat → V → Prop} (hgoto : GotoInv c Done table.goto) :
    ∃ L goto, L.Perm (demands g.start follow s p) ∧
      insertItem g ord follow s p.1 p.2 table =
        .ok ((insertMany table.action L).map fun a => ⟨table.start, a, goto⟩) ∧
      GotoInv c (fun n v => Done n v ∨ (n = s.id ∧ p.2.cursorSymbol = some (.var v))) goto := by
  have hitem := (ok.sets s hs).ok p hp
  have hreads : ∀ x, p.2.cursorSymbol = some x → ∃ d, (x, d) ∈ s.transitions ∧ mapGet s.transitions x = some d := by
    intro x hx
    obtain ⟨⟨x', d⟩, hd, rfl⟩ := List.mem_map.1 ((ok.read s hs x).2 ⟨p, hp, hx⟩)
    exact ⟨d, hd, mapGet_of_mem (ok.keys s hs) hd⟩
  have same : (∀ v, p.2.cursorSymbol ≠ some (.var v)) →
      GotoInv c (fun n v => Done n v ∨ (n = s.id ∧ p.2.cursorSymbol = some (.var v))) table.goto := by
    intro h
    have : (fun n v => Done n v ∨ (n = s.id ∧ p.2.cursorSymbol = some (.var v))) = Done := by
      funext n v
      simp [h v]
    rw [this]
    exact hgoto
  unfold insertItem demands
  cases hc : p.2.cursorSymbol with
  | none =>
    simp only
    rw [hc] at same
    cases hf : mapGet follow p.1 with
    | none => exact ⟨[], table.goto, .refl _, by simp [insertMany], same (by simp)⟩
    | some f =>
      have hnv : ∀ v, Sym.var v ∉ ord.shuffle [] _ f := by
        intro v hv
        rw [HashOrder.mem_shuffle] at hv
        exact hfol p.1 f v hf hv
      simp only
      rw [insertReduces_eq hnv]
      refine ⟨(terminals (ord.shuffle [] _ f)).map (fun t => (s.id, some t, .reduce p.1 p.2.body.length)) ++
        if p.1 = g.start then [(s.id, none, .accept p.1 p.2.body.length)] else [], table.goto, ?_, ?_,
        same (by simp)⟩
      · refine List.Perm.append_right _ (List.Perm.map _ ?_)
        exact List.Perm.filterMap _ (ord.perm _ _ _)
      · rw [insertMany_append]
        simp only [Outcome.bind_ok]
        cases insertMany table.action ((terminals (ord.shuffle [] _ f)).map
          fun t => (s.id, some t, .reduce p.1 p.2.body.length)) with
        | none => rfl
        | some a =>
          simp only [Option.bind_some]
          split
          · simp only [insertMany]
            cases insertAction a s.id none (.accept p.1 p.2.body.length) <;> rfl
          · rfl
  | some x =>
    rw [hc] at same
    cases x with
    | eps => exact absurd hc hitem.noEps
    | term t =>
      obtain ⟨d, _, hd⟩ := hreads _ hc
      refine ⟨[(s.id, some t, .shift d)], table.goto, by simp [hd], ?_, same (by simp)⟩
      simp only [hd, Outcome.expect_some, Outcome.bind_ok, insertMany]
      cases insertAction table.action s.id (some t) (.shift d) <;> rfl
    | var v =>
      obtain ⟨d, hd1, hd⟩ := hreads _ hc
      obtain ⟨goto, h1, h2, h3⟩ := insertGoto_spec (table := table.goto) (s := s.id) (v := v) (d := d) (by
        intro d' hd'
        have := ((hgoto.get s hs v d').1 hd').2
        have := mapGet_of_mem (ok.keys s hs) this
        rw [hd] at this
        exact (Option.some.inj this).symm)
      refine ⟨[], goto, by simp, ?_, ?_, ?_⟩
      · simp [hd, h1, insertMany]
      · intro s' hs' w d'
        rw [h2]
        constructor
        · intro h
          split at h
          · rename_i he
            cases h
            obtain ⟨e1, rfl⟩ := he
            have : s' = s := by
              have := ok.index hs'
              rw [e1, ok.index hs] at this
              exact (Option.some.inj this).symm
            subst this
            exact ⟨.inr ⟨rfl, rfl⟩, hd1⟩
          · have := (hgoto.get s' hs' w d').1 h
            exact ⟨.inl this.1, this.2⟩
        · rintro ⟨h, h'⟩
          split
          · rename_i he
            obtain ⟨e1, rfl⟩ := he
            have : s' = s := by
              have := ok.index hs'
              rw [e1, ok.index hs] at this
              exact (Option.some.inj this).symm
            subst this
            have := mapGet_of_mem (ok.keys s' hs') h'
            rw [← this, hd]
          · rename_i he
            rcases h with h | ⟨e1, e2⟩
            · exact (hgoto.get s' hs' w d').2 ⟨h, h'⟩
            · cases e2
              exact absurd ⟨e1, rfl⟩ he
      · intro n
        rw [h3]
        constructor
        · intro h
          by_cases hlt : n < table.goto.length
          · obtain ⟨s', hs', h4, w, h5⟩ := (hgoto.len n).1 hlt
            exact ⟨s', hs', h4, w, .inl h5⟩
          · exact ⟨s, hs, by omega, v, .inr ⟨rfl, rfl⟩⟩
        · rintro ⟨s', hs', h4, w, h5 | ⟨h5, _⟩⟩
          · have := (hgoto.len n).2 ⟨s', hs', h4, w, h5⟩
            omega
          · omega

theorem insertItems_spec (ok : CfsmOk g c) (hfol : ∀ v f w, mapGet follow v = some f → Sym.var w ∉ f)
    (ord : HashOrder) {s : CState V T} (hs : s ∈ c.states) {items : ItemSet V T} :
    ∀ {table : Table V T} {Done : Nat → V → Prop}, (∀ p ∈ items, p ∈ s.items) → GotoInv c Done table.goto →
    ∃ L goto, L.Perm (items.flatMap (demands g.start follow s)) ∧
      insertItems g ord follow s items table =
        .ok ((insertMany table.action L).map fun a => ⟨table.start, a, goto⟩) ∧
      ((insertMany table.action L).isSome → GotoInv c (fun n v => Done n v ∨
        (n = s.id ∧ ∃ p ∈ items, p.2.cursorSymbol = some (.var v))) goto) := by
  induction items with
  | nil =>
    intro table Done _ hgoto
    refine ⟨[], table.goto, .refl _, by simp [insertItems, insertMany], fun _ => ?_⟩
    simpa using hgoto
  | cons p items ih =>
    intro table Done hsub hgoto
    obtain ⟨h, i⟩ := p
    obtain ⟨L1, goto1, h1, h2, h3⟩ := insertItem_spec ok hfol (ord.sub items.length) hs
      (hsub (h, i) (List.mem_cons_self ..)) hgoto
    rw [insertItems]
    simp only at h2
    rw [h2]
    simp only [Outcome.bind_ok]
    cases hm : insertMany table.action L1 with
    | none =>
      refine ⟨L1 ++ items.flatMap (demands g.start follow s), goto1, ?_, ?_, ?_⟩
      · rw [List.flatMap_cons]
        exact h1.append_right _
      · rw [insertMany_append, hm]
        rfl
      · rw [insertMany_append, hm]
        simp
    | some a =>
      obtain ⟨L2, goto2, h4, h5, h6⟩ := ih (table := ⟨table.start, a, goto1⟩) (fun p hp => hsub p (by simp [hp])) h3
      refine ⟨L1 ++ L2, goto2, ?_, ?_, ?_⟩
      · rw [List.flatMap_cons]
        exact h1.append h4
      · simp only [Option.map_some]
        rw [h5, insertMany_append, hm]
        rfl
      · rw [insertMany_append, hm]
        intro hs'
        have := h6 hs'
        have he : (fun n v => (Done n v ∨ (n = s.id ∧ i.cursorSymbol = some (.var v))) ∨
            (n = s.id ∧ ∃ p ∈ items, p.2.cursorSymbol = some (.var v))) =
            (fun n v => Done n v ∨ (n = s.id ∧ ∃ p ∈ (h, i) :: items, p.2.cursorSymbol = some (.var v))) := by
          funext n v
          apply propext
          simp only [List.mem_cons, exists_eq_or_imp, or_assoc]
          refine or_congr Iff.rfl ?_
          constructor
          · rintro (⟨a, b⟩ | ⟨a, b⟩)
            · exact ⟨a, .inl b⟩
            · exact ⟨a, .inr b⟩
          · rintro ⟨a, b | b⟩
            · exact .inl ⟨a, b⟩
            · exact .inr ⟨a, b⟩
        rw [← he]
        exact this

/-- All insertions. -/
def allDemands (start : V) (follow : List (V × List (Sym V T))) (states : List (CState V T)) :
    List (Insertion V T) :=
  states.flatMap fun s => s.items.flatMap (demands start follow s)

theorem insertStates_spec (ok : CfsmOk g c) (hfol : ∀ v f w, mapGet follow v = some f → Sym.var w ∉ f)
    (ord : HashOrder) {states : List (CState V T)} :
    ∀ {table : Table V T} {Done : Nat → V → Prop}, (∀ s ∈ states, s ∈ c.states) → GotoInv c Done table.goto →
    ∃ L goto, L.Perm (allDemands g.start follow states) ∧
      insertStates g ord follow states table =
        .ok ((insertMany table.action L).map fun a => ⟨table.start, a, goto⟩) ∧
      ((insertMany table.action L).isSome → GotoInv c (fun n v => Done n v ∨
        ∃ s ∈ states, n = s.id ∧ ∃ p ∈ s.items, p.2.cursorSymbol = some (.var v)) goto) := by
  induction states with
  | nil =>
    intro table Done _ hgoto
    refine ⟨[], table.goto, .refl _, by simp [insertStates, insertMany], fun _ => ?_⟩
    simpa using hgoto
  | cons s states ih =>
    intro table Done hsub hgoto
    obtain ⟨L1, goto1, h1, h2, h3⟩ := insertItems_spec ok hfol ((ord.sub s.id).sub 1) (hsub s (by simp))
      (items := ((ord.sub s.id).sub 0).grouped Prod.fst s.items) (fun p hp => by simpa using hp) hgoto
    have h1' : L1.Perm (s.items.flatMap (demands g.start follow s)) :=
      h1.trans ((HashOrder.grouped_perm _ _ _).flatMap_right _)
    rw [insertStates, h2]
    simp only [Outcome.bind_ok]
    cases hm : insertMany table.action L1 with
    | none =>
      refine ⟨L1 ++ allDemands g.start follow states, goto1, ?_, ?_, ?_⟩
      · exact h1'.append_right _
      · rw [insertMany_append, hm]
        rfl
      · rw [insertMany_append, hm]
        simp
    | some a =>
      obtain ⟨L2, goto2, h4, h5, h6⟩ := ih (table := ⟨table.start, a, goto1⟩) (fun p hp => hsub p (by simp [hp]))
        (h3 (by rw [hm]; rfl))
      refine ⟨L1 ++ L2, goto2, h1'.append h4, ?_, ?_⟩
      · simp only [Option.map_some]
        rw [h5, insertMany_append, hm]
        rfl
      · rw [insertMany_append, hm]
        intro hs'
        have := h6 hs'
        have he : (fun n v => (Done n v ∨ (n = s.id ∧ ∃ p ∈ ((ord.sub s.id).sub 0).grouped Prod.fst s.items,
            p.2.cursorSymbol = some (.var v))) ∨
            ∃ s ∈ states, n = s.id ∧ ∃ p ∈ s.items, p.2.cursorSymbol = some (.var v)) =
            (fun n v => Done n v ∨ ∃ s' ∈ s :: states, n = s'.id ∧
              ∃ p ∈ s'.items, p.2.cursorSymbol = some (.var v)) := by
          funext n v
          apply propext
          simp only [List.mem_cons, exists_eq_or_imp, or_assoc, HashOrder.mem_grouped]
        rw [← he]
        exact this

/-! ## The table -/

/-- What is known of the table of an automaton. -/
structure TableOk (g : Grammar V T) (c : Cfsm V T) (follow : List (V × List (Sym V T))) (tbl : Table V T) :
    Prop where
  start : tbl.start = g.start
  action : ∀ n k a, lookup tbl.action n k = some a ↔
    ∃ e ∈ allDemands g.start follow c.states, e.1 = n ∧ keyEq e.2.1 k = true ∧ e.2.2 = a
  actionLen : ∀ n, n < tbl.action.length ↔ ∃ e ∈ allDemands g.start follow c.states, n ≤ e.1
  apart : (allDemands g.start follow c.states).Pairwise fun e e' => ¬ Collide e e'
  goto : ∀ s ∈ c.states, ∀ v d, gotoGet tbl.goto s.id v = some d ↔ (.var v, d) ∈ s.transitions
  gotoLen : ∀ n, n < tbl.goto.length ↔ ∃ s ∈ c.states, n ≤ s.id ∧ ∃ v d, (Sym.var v, d) ∈ s.transitions

/-- Enough iterations to build the table. -/
def tableFuel (g : Grammar V T) : Nat := cfsmFuel g + followFuel g

theorem slrTable_spec [LawfulTerminalEq T] (wf : WellFormed g) (ord : HashOrder) {fuel : Nat}
    (hf : tableFuel g ≤ fuel) :
    ∃ c follow, Cfsm.fromGrammar g (ord.sub 0) fuel = .ok c ∧ CfsmOk g c ∧
      g.followSet ((ord.sub 1).sub 0) fuel = .ok follow ∧
      (∀ v x, x ∈ getSet follow v ↔ ∃ t, x = .term t ∧ Fol g t v) ∧
      (∀ v, SureEntry g v → (mapGet follow v).isSome) ∧
      (∀ v, (mapGet follow v).isSome → Entered g v) ∧ (∀ v, (getSet follow v).Nodup) ∧
      ∃ r, slrTable g ord fuel = .ok r ∧
        (r.isSome ↔ (allDemands g.start follow c.states).Pairwise fun e e' => ¬ Collide e e') ∧
        ∀ tbl, r = some tbl → TableOk g c follow tbl := by
  obtain ⟨c, h1, ok⟩ := fromGrammar_spec wf (ord.sub 0) (fuel := fuel) (by unfold tableFuel at hf; omega)
  obtain ⟨follow, h2, h3, h4, h4', h4''⟩ := followSet_spec wf ((ord.sub 1).sub 0) (fuel := fuel)
    (by unfold tableFuel at hf; omega)
  refine ⟨c, follow, h1, ok, h2, h3, h4, h4', h4'', ?_⟩
  have hfol : ∀ v f w, mapGet follow v = some f → Sym.var w ∉ f := by
    intro v f w hv hw
    obtain ⟨t, ht, _⟩ := (h3 v (.var w)).1 (by simpa [getSet, hv] using hw)
    cases ht
  have hg0 : GotoInv c (fun _ _ => False) (⟨g.start, [], []⟩ : Table V T).goto := by
    constructor
    · intro s _ v d; simp [gotoGet, mapGet]
    · intro n; simp
  obtain ⟨L, goto, h5, h6, h7⟩ := insertStates_spec ok hfol ((ord.sub 1).sub 1) (states := c.states)
    (fun s h => h) hg0
  obtain ⟨h8, h9⟩ := insertMany_spec (L := L) (table := [])
  have hempty : ∀ n k, lookup ([] : List (ActionRow V T)) n k = none := fun n k => by simp [lookup, rowGet]
  have hpair : L.Pairwise (fun e e' => ¬ Collide e e') ↔
      (allDemands g.start follow c.states).Pairwise fun e e' => ¬ Collide e e' :=
    h5.pairwise_iff fun {a b} h hc => h ⟨hc.1.symm, keyEq_symm hc.2⟩
  refine ⟨(insertMany [] L).map fun a => ⟨g.start, a, goto⟩, ?_, ?_, ?_⟩
  · simp only [slrTable, h1, Outcome.bind_ok, newSlr, ok.grammar, h2]
    exact h6
  · rw [Option.isSome_map, h8, hpair]
    simp [hempty]
  · intro tbl htbl
    cases hm : insertMany [] L with
    | none => rw [hm] at htbl; cases htbl
    | some a =>
      rw [hm] at htbl
      cases htbl
      obtain ⟨h10, h11⟩ := h9 a hm
      have hgi := h7 (by rw [hm]; rfl)
      refine ⟨rfl, ?_, ?_, hpair.1 (h8.1 (by rw [hm]; rfl)).1, ?_, ?_⟩
      · intro n k x
        rw [h10]
        simp only [hempty, reduceCtorEq, false_or]
        constructor
        · rintro ⟨e, he, h⟩; exact ⟨e, h5.mem_iff.1 he, h⟩
        · rintro ⟨e, he, h⟩; exact ⟨e, h5.mem_iff.2 he, h⟩
      · intro n
        rw [h11]
        simp only [List.length_nil, Nat.not_lt_zero, false_or]
        constructor
        · rintro ⟨e, he, h⟩; exact ⟨e, h5.mem_iff.1 he, h⟩
        · rintro ⟨e, he, h⟩; exact ⟨e, h5.mem_iff.2 he, h⟩
      · intro s hs v d
        rw [hgi.get s hs v d]
        constructor
        · exact fun h => h.2
        · intro h
          refine ⟨.inr ⟨s, hs, rfl, ?_⟩, h⟩
          exact (ok.read s hs _).1 (List.mem_map.2 ⟨_, h, rfl⟩)
      · intro n
        rw [hgi.len]
        constructor
        · rintro ⟨s, hs, h, v, h' | ⟨s', hs', he, h'⟩⟩
          · exact h'.elim
          · obtain ⟨⟨x, d⟩, hd, hx⟩ := List.mem_map.1 ((ok.read s' hs' _).2 h')
            simp only at hx
            subst hx
            exact ⟨s', hs', by omega, v, d, hd⟩
        · rintro ⟨s, hs, h, v, d, hd⟩
          exact ⟨s, hs, h, v, .inr ⟨s, hs, rfl, (ok.read s hs _).1 (List.mem_map.2 ⟨_, hd, rfl⟩)⟩⟩

end Pango.Parse
