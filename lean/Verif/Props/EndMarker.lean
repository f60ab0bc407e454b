import Verif.Proofs.EndMarker
import Verif.Props.Language
import Verif.Props.ParseText
import Verif.Props.Scanning
import Verif.Props.Table
import Verif.Props.Trim

/-!
# C86: reading a language with an end marker
-/

namespace Pango.Props

open Pango Pango.Parse Pango.Spec

variable {V T : Type} [DecidableEq V] [DecidableEq T] {g : Grammar V T} {z : V} {e f : T}

private theorem insertNew_new {α : Type} [DecidableEq α] {a : α} {l : List α} (h : a ∉ l) : insertNew a l = l ++ [a] := by
  unfold insertNew
  rw [if_neg h]

/-- C86, the grammar can be built: with two more calls of the builder. -/
theorem c86_build {calls : List (BuilderCall V T)} (hg : (runCalls calls).build = .ok g)
    (hz : ∀ β, (z, β) ∉ g.rules) :
    (runCalls (calls ++ [.setStart z, .addRules z [[.var g.start, .term e], [.var z, .term f]]])).build =
      .ok (withEnd g z e f) := by
  have hs : g.start ≠ z := by
    obtain ⟨β, h⟩ := (show Built g from ⟨calls, hg⟩).wellFormed.start
    rintro rfl
    exact hz _ h
  simp only [GrammarBuilder.build] at hg
  cases hst : (runCalls calls).start with
  | none => simp [hst] at hg
  | some s =>
    simp only [hst] at hg
    split at hg
    · rename_i hall
      cases hg
      simp only at hz hs
      have hrun : runCalls (calls ++ [.setStart z, .addRules z [[.var s, .term e], [.var z, .term f]]]) =
          ⟨some z, (runCalls calls).rules ++ [(z, [.var s, .term e]), (z, [.var z, .term f])]⟩ := by
        simp only [runCalls, List.foldl_append, List.foldl_cons, List.foldl_nil, BuilderCall.run,
          GrammarBuilder.setStart, GrammarBuilder.addRules, GrammarBuilder.addRule, normalizeBody]
        change GrammarBuilder.mk (some z) _ = _
        congr 1
        change insertNew _ (insertNew _ (runCalls calls).rules) = (runCalls calls).rules ++ _
        rw [insertNew_new (hz _), insertNew_new]
        · simp
        · intro hm
          rcases List.mem_append.1 hm with h | h
          · exact hz _ h
          · simp at h
            exact hs h.1.symm
      simp only [List.all_eq_true, List.contains_iff_mem] at hall
      simp only [GrammarBuilder.build, hrun]
      rw [if_pos]
      · rfl
      · simp only [List.all_eq_true, List.contains_iff_mem]
        intro v hv
        simp only [List.map_append, List.mem_append, List.map_cons, List.map_nil, List.mem_cons, List.not_mem_nil,
          or_false, or_self]
        simp only [List.flatMap_append, List.mem_append, List.mem_cons, List.flatMap_cons, bodyVariables,
          List.filterMap_cons, List.filterMap_nil, List.flatMap_nil, List.not_mem_nil, or_false] at hv
        rcases hv with rfl | hv | rfl | rfl
        · exact .inr rfl
        · exact .inl (hall v (List.mem_cons_of_mem _ hv))
        · exact .inl (hall _ (by simp))
        · exact .inr rfl
    · cases hg

theorem Built.withEnd (hg : Built g) (hz : ∀ β, (z, β) ∉ g.rules) : Built (Spec.withEnd g z e f) := by
  obtain ⟨calls, h⟩ := hg
  exact ⟨_, c86_build h hz⟩

variable [TerminalEq T] [LawfulTerminalEq T]

/-! ## The table -/

omit [DecidableEq V] [DecidableEq T] [TerminalEq T] [LawfulTerminalEq T] in
private theorem viable_mem {γ : List (Sym V T)} {p : V × Item V T} (h : Viable g γ p) :
    ∀ x ∈ γ, ∃ h β, (h, β) ∈ g.rules ∧ x ∈ β := by
  induction h with
  | start => simp
  | expand _ _ _ _ ih => exact ih
  | @read γ hd i j x hv ha ih =>
    intro y hy
    rcases List.mem_append.1 hy with hy | hy
    · exact ih y hy
    · obtain rfl := List.mem_singleton.1 hy
      obtain ⟨_, pre, k, post, h1, _⟩ := ha
      exact ⟨_, _, (Viable_ok hv).rule, by simp only; rw [h1]; simp⟩

omit [DecidableEq V] [DecidableEq T] [TerminalEq T] [LawfulTerminalEq T] in
private theorem fol_mem {t : T} {v : V} (h : Fol g t v) : ∃ h β, (h, β) ∈ g.rules ∧ Sym.term t ∈ β := by
  induction h with
  | here hr hs =>
    rcases hs.mem with h | ⟨v, β, h1, h2⟩
    · exact ⟨_, _, hr, by simp [h]⟩
    · exact ⟨_, _, h1, h2⟩
  | up _ _ _ ih => exact ih

/-- The items of the grammar and the one item more, as items of the grammar with the marker. -/
private def endItem (g : Grammar V T) (z : V) (e : T) : Option (V × Item V T) → V × Item V T
  | some p => p
  | none => (z, ⟨[.var g.start, .term e], 1⟩)

/-- Where the end of the input is an entry, the marker is. -/
private def endKey (e : T) : Option T → T
  | some t => t
  | none => e

section

omit [DecidableEq V] [DecidableEq T] [LawfulTerminalEq T]

private theorem entry_in (hn : NotIn g z e f) {γ : List (Sym V T)} {p : Option (V × Item V T)}
    {k : Option T} (h : TableEntry g γ p k) :
    (∀ q, p = some q → q.1 ≠ z) ∧ (∀ t, k = some t → ∃ h β, (h, β) ∈ g.rules ∧ .term t ∈ β) ∧
      ∀ x ∈ γ, x = .var g.start ∨ ∃ h β, (h, β) ∈ g.rules ∧ x ∈ β := by
  have hv : ∀ {h : V} {i : Item V T}, Viable g γ (h, i) → h ≠ z ∧ ∀ x ∈ γ, x = .var g.start ∨
      ∃ h β, (h, β) ∈ g.rules ∧ x ∈ β :=
    fun h => ⟨hn.ne (Viable_ok h).rule, fun x hx => .inr (viable_mem h x hx)⟩
  cases h with
  | shift h hr =>
    refine ⟨fun q hq => by cases hq; exact (hv h).1, fun t ht => ?_, (hv h).2⟩
    cases ht
    obtain ⟨pre, post, h1, _⟩ := hr
    exact ⟨_, _, (Viable_ok h).rule, by simp only; rw [h1]; simp⟩
  | reduce h _ hf =>
    refine ⟨fun q hq => by cases hq; exact (hv h).1, fun t ht => ?_, (hv h).2⟩
    cases ht
    exact fol_mem (inFollow_iff.1 hf)
  | reduceEnd h _ _ => exact ⟨fun q hq => by cases hq; exact (hv h).1, by simp, (hv h).2⟩
  | accept h =>
    subst h
    exact ⟨by simp, by simp, by simp⟩

private theorem needs_of_entry (wf : Spec.WellFormed g) (he : EpsFree g) (hn : NotIn g z e f) {accepts : Prop}
    {γ : List (Sym V T)} {p : Option (V × Item V T)} {k : Option T} (h : TableEntry g γ p k) :
    Needs (Spec.withEnd g z e f) accepts γ (endItem g z e p) (some (endKey e k)) := by
  have hv : ∀ {h : V} {i : Item V T}, Viable g γ (h, i) → Viable (Spec.withEnd g z e f) γ (h, i) := fun h =>
    (viable_withEnd wf hn).2 (.inr ⟨hn.ne (Viable_ok h).rule, h⟩)
  cases h with
  | shift h hr => exact .shift (hv h) hr
  | reduce h hc hf =>
    exact .reduce (hv h) hc (inFollow_iff.2 ((follow_withEnd wf hn he (hn.ne (Viable_ok h).rule)).2
      (.inl (inFollow_iff.1 hf))))
  | reduceEnd h hc hf =>
    exact .reduce (hv h) hc (inFollow_iff.2 ((follow_withEnd wf hn he (hn.ne (Viable_ok h).rule)).2 (.inr ⟨rfl, hf⟩)))
  | accept h =>
    subst h
    exact .shift ((viable_withEnd wf hn).2 (.inl ⟨rfl, .inl rfl, Nat.le_succ 1, rfl⟩)) ⟨[.var g.start], [], rfl, rfl⟩

/-- An entry that is needed for one of the additional rules, except behind the start variable. -/
private def Extra (g : Grammar V T) (z : V) (e f : T) (γ : List (Sym V T)) (p : V × Item V T) (k : Option T) : Prop :=
  γ = [.var z] ∧ p = (z, ⟨[.var z, .term f], 1⟩) ∧ k = some f ∨
  (γ = [.var g.start, .term e] ∨ γ = [.var z, .term f]) ∧ p = (z, ⟨γ, 2⟩) ∧ (k = some f ∨ k = none)

private theorem entry_of_needs (wf : Spec.WellFormed g) (he : EpsFree g) (hn : NotIn g z e f) {accepts : Prop}
    {γ : List (Sym V T)} {q : V × Item V T} {k : Option T} (h : Needs (Spec.withEnd g z e f) accepts γ q k) :
    (∃ p l, TableEntry g γ p l ∧ q = endItem g z e p ∧ k = some (endKey e l)) ∨ Extra g z e f γ q k := by
  have item : ∀ {i : Item V T}, EndItem g z e f γ i → i = ⟨[.var g.start, .term e], 0⟩ ∨
      (i = ⟨[.var g.start, .term e], 1⟩ ∧ γ = [.var g.start]) ∨
      (i = ⟨[.var g.start, .term e], 2⟩ ∧ γ = [.var g.start, .term e]) ∨ i = ⟨[.var z, .term f], 0⟩ ∨
      (i = ⟨[.var z, .term f], 1⟩ ∧ γ = [.var z]) ∨ (i = ⟨[.var z, .term f], 2⟩ ∧ γ = [.var z, .term f]) := by
    rintro ⟨b, c⟩ ⟨h1, h2, h3⟩
    simp only at h1 h2 h3
    subst h3
    match c, h2 with
    | 0, _ => rcases h1 with rfl | rfl <;> simp
    | 1, _ => rcases h1 with rfl | rfl <;> simp
    | 2, _ => rcases h1 with rfl | rfl <;> simp
  cases h with
  | @shift h i t hv hr =>
    rcases (viable_withEnd wf hn).1 hv with ⟨hz, h1⟩ | ⟨_, h1⟩
    · simp only at hz h1
      subst hz
      rw [reads_iff] at hr
      rcases item h1 with rfl | ⟨rfl, rfl⟩ | ⟨rfl, rfl⟩ | rfl | ⟨rfl, rfl⟩ | ⟨rfl, rfl⟩ <;>
        simp [Item.cursorSymbol] at hr
      · subst hr
        exact .inl ⟨none, none, .accept rfl, rfl, rfl⟩
      · subst hr
        exact .inr (.inl ⟨rfl, rfl, rfl⟩)
    · exact .inl ⟨some (h, i), some t, .shift h1 hr, rfl, rfl⟩
  | @reduce h i t hv hc hf =>
    rcases (viable_withEnd wf hn).1 hv with ⟨hz, h1⟩ | ⟨hz, h1⟩
    · simp only at hz h1
      subst hz
      obtain rfl := (follow_new wf hn).1 (inFollow_iff.1 hf)
      rcases item h1 with rfl | ⟨rfl, rfl⟩ | ⟨rfl, rfl⟩ | rfl | ⟨rfl, rfl⟩ | ⟨rfl, rfl⟩ <;>
        simp [Complete] at hc
      · exact .inr (.inr ⟨.inl rfl, rfl, .inl rfl⟩)
      · exact .inr (.inr ⟨.inr rfl, rfl, .inl rfl⟩)
    · rcases (follow_withEnd wf hn he hz).1 (inFollow_iff.1 hf) with h2 | ⟨rfl, h2⟩
      · exact .inl ⟨some (h, i), some t, .reduce h1 hc (inFollow_iff.2 h2), rfl, rfl⟩
      · exact .inl ⟨some (h, i), none, .reduceEnd h1 hc h2, rfl, rfl⟩
  | @accept i hv hc _ =>
    rcases (viable_withEnd wf hn).1 hv with ⟨_, h1⟩ | ⟨hz, _⟩
    · simp only at h1
      rcases item h1 with rfl | ⟨rfl, rfl⟩ | ⟨rfl, rfl⟩ | rfl | ⟨rfl, rfl⟩ | ⟨rfl, rfl⟩ <;>
        simp [Complete] at hc
      · exact .inr (.inr ⟨.inl rfl, rfl, .inr rfl⟩)
      · exact .inr (.inr ⟨.inr rfl, rfl, .inr rfl⟩)
    · exact absurd rfl hz

end

private theorem unique_iff (hg : Built g) (he : EpsFree g) (hn : NotIn g z e f) {accepts : Prop} :
    (∀ γ p p' k k', Needs (Spec.withEnd g z e f) accepts γ p k → Needs (Spec.withEnd g z e f) accepts γ p' k' →
      keyEq k k' = true → p = p' ∧ k = k') ↔ OneEntryEach g := by
  have wf := hg.wellFormed
  have hne : ∀ {t : T}, (∃ h β, (h, β) ∈ g.rules ∧ .term t ∈ β) → teq t e = false ∧ teq e t = false ∧ t ≠ e := by
    rintro t ⟨hd, β, h1, h2⟩
    have h3 := hn.marker _ _ _ h1 h2
    refine ⟨h3, ?_, ?_⟩
    · cases h4 : teq e t with
      | false => rfl
      | true => rw [LawfulTerminalEq.symm _ _ h4] at h3; cases h3
    · rintro rfl
      rw [LawfulTerminalEq.refl] at h3
      cases h3
  constructor
  · intro h γ p p' k k' h1 h2 hk
    obtain ⟨a1, b1, _⟩ := entry_in hn h1
    obtain ⟨a2, b2, _⟩ := entry_in hn h2
    have hk' : keyEq (some (endKey e k)) (some (endKey e k')) = true := by
      cases k with
      | none =>
        cases k' with
        | none => exact LawfulTerminalEq.refl e
        | some t' => simp [keyEq] at hk
      | some t =>
        cases k' with
        | none => simp [keyEq] at hk
        | some t' => exact hk
    obtain ⟨h3, h4⟩ := h γ _ _ _ _ (needs_of_entry wf he hn h1) (needs_of_entry wf he hn h2) hk'
    constructor
    · cases p with
      | none =>
        cases p' with
        | none => rfl
        | some q' => exact absurd (congrArg Prod.fst h3).symm (a2 q' rfl)
      | some q =>
        cases p' with
        | none => exact absurd (congrArg Prod.fst h3) (a1 q rfl)
        | some q' => exact congrArg some h3
    · cases k with
      | none =>
        cases k' with
        | none => rfl
        | some t' => simp [keyEq] at hk
      | some t =>
        cases k' with
        | none => simp [keyEq] at hk
        | some t' => exact h4
  · intro h γ q q' k k' h1 h2 hk
    have apart : ∀ {p l q k}, TableEntry g γ p l → Extra g z e f γ q k → False := by
      intro p l q k h3 h4
      obtain ⟨_, _, h5⟩ := entry_in hn h3
      have hz : .var z ∉ γ := by
        intro hm
        rcases h5 _ hm with h6 | ⟨hd, β, h6, h7⟩
        · cases h6
          exact hn.start wf rfl
        · exact hn.body wf h6 h7 rfl
      have hte : .term e ∉ γ := by
        intro hm
        rcases h5 _ hm with h6 | ⟨hd, β, h6, h7⟩
        · cases h6
        · exact (hne ⟨hd, β, h6, h7⟩).2.2 rfl
      rcases h4 with ⟨rfl, _⟩ | ⟨rfl | rfl, _⟩
      · exact hz (by simp)
      · exact hte (by simp)
      · exact hz (by simp)
    rcases entry_of_needs wf he hn h1 with ⟨p, l, h3, rfl, rfl⟩ | h3
    · rcases entry_of_needs wf he hn h2 with ⟨p', l', h4, rfl, rfl⟩ | h4
      · obtain ⟨_, b1, _⟩ := entry_in hn h3
        obtain ⟨_, b2, _⟩ := entry_in hn h4
        have hk' : keyEq l l' = true := by
          cases l with
          | none =>
            cases l' with
            | none => rfl
            | some t' =>
              have := (hne (b2 t' rfl)).2.1
              simp only [keyEq, endKey] at hk
              rw [hk] at this
              cases this
          | some t =>
            cases l' with
            | none =>
              have := (hne (b1 t rfl)).1
              simp only [keyEq, endKey] at hk
              rw [hk] at this
              cases this
            | some t' => exact hk
        obtain ⟨rfl, rfl⟩ := h γ _ _ _ _ h3 h4 hk'
        exact ⟨rfl, rfl⟩
      · exact (apart h3 h4).elim
    · rcases entry_of_needs wf he hn h2 with ⟨p', l', h4, rfl, rfl⟩ | h4
      · exact (apart h4 h3).elim
      · rcases h3 with ⟨h3, h5, h6⟩ | ⟨h3, h5, h6⟩
        · rcases h4 with ⟨_, h7, h8⟩ | ⟨h4, h7, h8⟩
          · exact ⟨h5.trans h7.symm, h6.trans h8.symm⟩
          · rw [h3] at h4
            simp at h4
        · rcases h4 with ⟨h4, h7, h8⟩ | ⟨h4, h7, h8⟩
          · rw [h4] at h3
            simp at h3
          · refine ⟨h5.trans h7.symm, ?_⟩
            rcases h6 with rfl | rfl <;> rcases h8 with rfl | rfl <;> simp [keyEq] at hk ⊢

/-- C86, when there is a parser: exactly if the textbook's table, with the entries of each item counted, has no
two entries in one place.  This does not depend on the iteration order. -/
theorem c86_table (hg : Built g) (he : EpsFree g) (hn : NotIn g z e f) :
    ((∃ tbl, IsParser (Spec.withEnd g z e f) tbl) ↔ OneEntryEach g) ∧
    ∃ bound, ∀ fuel ≥ bound, ∀ ord : HashOrder,
      (∃ tbl, slrNew (Spec.withEnd g z e f) ord fuel = .ok tbl) ↔ OneEntryEach g := by
  have hg' := hg.withEnd (e := e) (f := f) hn.head
  obtain ⟨bound, hb⟩ := c35_exact_partial hg'
  have h1 : ∀ fuel ≥ bound, ∀ ord : HashOrder,
      (∃ tbl, slrNew (Spec.withEnd g z e f) ord fuel = .ok tbl) ↔ OneEntryEach g := by
    intro fuel hf ord
    obtain ⟨accepts, _, _, _, h⟩ := hb fuel hf ord
    rw [h, unique_iff hg he hn]
  refine ⟨⟨?_, ?_⟩, bound, h1⟩
  · rintro ⟨tbl, fuel, ord, h⟩
    obtain ⟨c, follow, _, _, h2⟩ := slrNew_ok hg'.wellFormed h
    exact (unique_iff hg he hn).1 h2
  · intro h
    obtain ⟨tbl, h2⟩ := (h1 bound (Nat.le_refl _) .insertion).2 h
    exact ⟨tbl, bound, .insertion, h2⟩

/-! ## Parsing -/

omit [DecidableEq V] [DecidableEq T] [LawfulTerminalEq T] in
/-- The parse trees of the grammar with the marker. -/
theorem tree_withEnd (wf : Spec.WellFormed g) (hn : NotIn g z e f) {n : Node V T} {input : List T} :
    ParseTree (Spec.withEnd g z e f) n input ↔
      (∃ w e' m, input = w ++ [e'] ∧ teq e e' = true ∧ ParseTree g m w ∧ n = .mk (.var z) [.mk (.term e') [], m]) ∨
      ∃ w f' m, input = w ++ [f'] ∧ teq f f' = true ∧ ParseTree (Spec.withEnd g z e f) m w ∧
        n = .mk (.var z) [.mk (.term f') [], m] := by
  have two : ∀ {g' : Grammar V T} {v : V} {t : T} {cs : List (Node V T)} {w : List T},
      Forest g' [.var v, .term t] cs w ↔ ∃ m u t', cs = [m, .mk (.term t') []] ∧ w = u ++ [t'] ∧
        teq t t' = true ∧ Forest g' [.var v] [m] u := by
    intro g' v t cs w
    constructor
    · intro h
      cases h with
      | var hr hb hrest =>
        cases hrest with
        | term ht hnil =>
          cases hnil
          exact ⟨_, _, _, rfl, rfl, ht, by simpa using Forest.var hr hb .nil⟩
    · rintro ⟨m, u, t', rfl, rfl, ht, h⟩
      cases h with
      | var hr hb hrest =>
        cases hrest
        simpa using Forest.var hr hb (.term ht .nil)
  rw [parseTree_iff]
  constructor
  · rintro ⟨β, cs, hr, rfl, hf⟩
    rcases withEnd_mem.1 hr with h | ⟨_, rfl | rfl⟩
    · exact absurd h (hn.head _)
    · obtain ⟨m, u, t', rfl, rfl, ht, h⟩ := two.1 hf
      refine .inl ⟨u, t', m, rfl, ht, (forest_withEnd wf hn ?_).1 h, rfl⟩
      simp only [List.mem_singleton, Sym.var.injEq]
      exact fun h => hn.start wf h.symm
    · obtain ⟨m, u, t', rfl, rfl, ht, h⟩ := two.1 hf
      exact .inr ⟨u, t', m, rfl, ht, h, rfl⟩
  · rintro (⟨w, e', m, rfl, ht, h, rfl⟩ | ⟨w, f', m, rfl, ht, h, rfl⟩)
    · exact ⟨_, [m, .mk (.term e') []], withEnd_mem.2 (.inr ⟨rfl, .inl rfl⟩), rfl,
        two.2 ⟨m, w, e', rfl, rfl, ht, forest_mono withEnd_sub h⟩⟩
    · exact ⟨_, [m, .mk (.term f') []], withEnd_mem.2 (.inr ⟨rfl, .inr rfl⟩), rfl,
        two.2 ⟨m, w, f', rfl, rfl, ht, h⟩⟩

omit [DecidableEq V] [DecidableEq T] [TerminalEq T] [LawfulTerminalEq T] in
private theorem followed_withEnd : Followed (Spec.withEnd g z e f) (Spec.withEnd g z e f).start :=
  ⟨z, [], .term f, [], withEnd_mem.2 (.inr ⟨rfl, .inr rfl⟩)⟩

omit [DecidableEq V] [DecidableEq T] [LawfulTerminalEq T] in
private theorem not_inside (wf : Spec.WellFormed g) (hn : NotIn g z e f) : ¬ Inside (Spec.withEnd g z e f) z := by
  suffices ∀ {v}, Inside (Spec.withEnd g z e f) v → v ≠ z from fun h => this h rfl
  intro v h
  induction h with
  | @behind h v x pre post hr =>
    rintro rfl
    rcases withEnd_mem.1 hr with hr | ⟨_, hr | hr⟩
    · exact hn.body wf hr (v := v) (by simp) rfl
    · cases pre with
      | nil => simp at hr
      | cons => simp at hr
    · cases pre with
      | nil => simp at hr
      | cons => simp at hr
  | @front h v post hr _ ih =>
    rintro rfl
    rcases withEnd_mem.1 hr with hr | ⟨rfl, hr⟩
    · exact hn.body wf hr (v := v) (by simp) rfl
    · exact ih rfl

omit [DecidableEq V] [DecidableEq T] [LawfulTerminalEq T] in
private theorem trim_withEnd (wf : Spec.WellFormed g) (he : EpsFree g) (hn : NotIn g z e f)
    (hreach : ∀ v β, (v, β) ∈ g.rules → Reachable g v)
    (hfirst : ∀ v β, (v, β) ∈ g.rules → ∃ t, InFirst g [.var v] (.term t)) : Trim (Spec.withEnd g z e f) where
  epsFree := withEnd_epsFree he
  reachable v β hr := by
    rcases withEnd_mem.1 hr with hr | ⟨rfl, _⟩
    · have : ∀ {v}, Reachable g v → Reachable (Spec.withEnd g z e f) v := by
        intro v h
        induction h with
        | start => exact .step .start (withEnd_mem.2 (.inr ⟨rfl, .inl rfl⟩)) (by simp)
        | step _ hr hv ih => exact .step ih (withEnd_sub _ hr) hv
      exact this (hreach _ _ hr)
    · exact .start
  first v β hr := by
    have first : ∀ {v β}, (v, β) ∈ g.rules → ∃ t, Starts (Spec.withEnd g z e f) t [.var v] := by
      intro v β hr
      obtain ⟨t, ht⟩ := hfirst v β hr
      exact ⟨t, (derives_starts.1 ht).mono withEnd_sub⟩
    rcases withEnd_mem.1 hr with hr | ⟨rfl, _⟩
    · obtain ⟨t, ht⟩ := first hr
      exact ⟨t, derives_starts.2 ht⟩
    · obtain ⟨β, hβ⟩ := wf.start
      obtain ⟨t, ht⟩ := first hβ
      exact ⟨t, derives_starts.2 (.inVar (β := [.var g.start, .term e]) (withEnd_mem.2 (.inr ⟨rfl, .inl rfl⟩))
        (starts_append (α := [.var g.start]).2 (.inl ht)))⟩
  start := ⟨f, inFollow_iff.2 ((follow_new wf hn).2 rfl)⟩

variable {tbl : Table V T}

/-- C86, which inputs are accepted, and with which tree. -/
theorem c86_accepts (hg : Built g) (he : EpsFree g) (hn : NotIn g z e f) (hp : IsParser (Spec.withEnd g z e f) tbl)
    {input : List T} (hi : ∀ t ∈ input, teq f t = false) {n : Node V T} :
    (∃ fuel, parseTokens tbl fuel input = .ok (some n)) ↔
      ∃ w e' m, input = w ++ [e'] ∧ teq e e' = true ∧ ParseTree g m w ∧
        n = .mk (.var z) [.mk (.term e') [], m] := by
  have wf := hg.wellFormed
  rw [c37_exact_partial (hg.withEnd hn.head) hp (withEnd_epsFree he) (.inr (.inl followed_withEnd)) (not_inside wf hn),
    tree_withEnd wf hn]
  constructor
  · rintro ⟨h | ⟨w, f', m, rfl, ht, _⟩, _⟩
    · exact h
    · rw [hi f' (by simp)] at ht
      cases ht
  · rintro ⟨w, e', m, h1, h2, h3, rfl⟩
    exact ⟨.inl ⟨w, e', m, h1, h2, h3, rfl⟩, z, e', [m], rfl⟩

/-- C86.  If every variable of the grammar can be reached and has a FIRST set, the parser of the grammar with the marker
returns on every input, after a number of iterations that is linear in its length.  It returns the tree of a sentence of
the grammar that is followed by the marker, and an error on all other inputs. -/
theorem c86_reads (hg : Built g) (he : EpsFree g) (hreach : ∀ v β, (v, β) ∈ g.rules → Reachable g v)
    (hfirst : ∀ v β, (v, β) ∈ g.rules → ∃ t, InFirst g [.var v] (.term t)) (hn : NotIn g z e f)
    (hp : IsParser (Spec.withEnd g z e f) tbl) {input : List T} (hi : ∀ t ∈ input, teq f t = false) {fuel : Nat}
    (hf : (2 * input.length + 1) * (g.rules.length + 4) < fuel) :
    ∃ r, parseTokens tbl fuel input = .ok r ∧ ∀ n, r = some n ↔
      ∃ w e' m, input = w ++ [e'] ∧ teq e e' = true ∧ ParseTree g m w ∧ n = .mk (.var z) [.mk (.term e') [], m] := by
  obtain ⟨r, hr⟩ := c40_trim_partial (hg.withEnd hn.head) hp (trim_withEnd hg.wellFormed he hn hreach hfirst) input
    (fuel := fuel) (by simpa [Spec.withEnd] using hf)
  refine ⟨r, hr, fun n => ?_⟩
  rw [← c86_accepts hg he hn hp hi]
  constructor
  · rintro rfl
    exact ⟨fuel, hr⟩
  · rintro ⟨fuel', h⟩
    have h1 := (parseTokens_mono (tbl := tbl) (fin := .ok ()) (w := input) (Nat.le_max_left fuel fuel')).ok hr
    have h2 := (parseTokens_mono (tbl := tbl) (fin := .ok ()) (w := input) (Nat.le_max_right fuel fuel')).ok h
    rw [h1] at h2
    cases h2
    rfl

/-- C86, a grammar for which there is such a parser is unambiguous. -/
theorem c86_unambiguous (hg : Built g) (he : EpsFree g) (hn : NotIn g z e f) (hp : IsParser (Spec.withEnd g z e f) tbl)
    {w : List T} {m m' : Node V T} (h : ParseTree g m w) (h' : ParseTree g m' w) : m = m' := by
  have hd := withEnd_epsFree (z := z) (e := e) (f := f) he
  have tree : ∀ {m}, ParseTree g m w →
      ParseTree (dropEps (Spec.withEnd g z e f)) (.mk (.var z) [.mk (.term e) [], m]) (w ++ [e]) := fun h =>
    (forest_dropEps hd).2 ((tree_withEnd hg.wellFormed hn).2 (.inl ⟨w, e, _, rfl, LawfulTerminalEq.refl e, h, rfl⟩))
  have := c46_token_partial (hg.withEnd hn.head) hp (.inr (.inl followed_withEnd)) (tree h) (tree h')
    ⟨z, e, [m], rfl⟩ ⟨z, e, [m'], rfl⟩
  simpa using this

/-- C86, errors are found early: as soon as no sentence begins with the tokens that have been read, whatever comes
behind them. -/
theorem c86_early (hg : Built g) (he : EpsFree g) (hreach : ∀ v β, (v, β) ∈ g.rules → Reachable g v)
    (hprod : Productive g) (hn : NotIn g z e f) (hp : IsParser (Spec.withEnd g z e f) tbl) {w : List T}
    (hw : ¬ BeginsSentence g w) (hi : ∀ t ∈ w, teq e t = false ∧ teq f t = false) (more : List T) {fuel : Nat}
    (hf : (2 * w.length + 1) * (g.rules.length + 4) < fuel) : parseTokens tbl fuel (w ++ more) = .ok none := by
  have wf := hg.wellFormed
  have hsplit : ∀ {rest u : List T} {x : T}, w ++ rest = u ++ [x] → (∀ t ∈ w, t ≠ x) → ∃ rest', u = w ++ rest' := by
    intro rest u x h hx
    rcases List.eq_nil_or_concat rest with rfl | ⟨rest, y, rfl⟩
    · rw [List.append_nil] at h
      exact absurd rfl (hx x (by rw [h]; simp))
    · rw [List.concat_eq_append, ← List.append_assoc] at h
      exact ⟨rest, (List.append_inj_left' h rfl).symm⟩
  have hne : ∀ {s x : T}, (∀ t ∈ w, teq s t = false) → teq s x = true → ∀ t ∈ w, t ≠ x := by
    rintro s x h1 h2 t ht rfl
    rw [h1 t ht] at h2
    cases h2
  have hbegin : ∀ k rest n, rest.length ≤ k → ¬ ParseTree (Spec.withEnd g z e f) n (w ++ rest) := by
    intro k
    induction k with
    | zero =>
      intro rest n hk h
      obtain rfl := List.length_eq_zero_iff.1 (Nat.le_zero.1 hk)
      rcases (tree_withEnd wf hn).1 h with ⟨u, e', m, h1, h2, _⟩ | ⟨u, f', m, h1, h2, _⟩
      · exact hne (fun t ht => (hi t ht).1) h2 e' (by rw [← List.append_nil w, h1]; simp) rfl
      · exact hne (fun t ht => (hi t ht).2) h2 f' (by rw [← List.append_nil w, h1]; simp) rfl
    | succ k ih =>
      intro rest n hk h
      rcases (tree_withEnd wf hn).1 h with ⟨u, e', m, h1, h2, h3, _⟩ | ⟨u, f', m, h1, h2, h3, _⟩
      · obtain ⟨rest', rfl⟩ := hsplit h1 (hne (fun t ht => (hi t ht).1) h2)
        exact hw ⟨rest', m, h3⟩
      · obtain ⟨rest', rfl⟩ := hsplit h1 (hne (fun t ht => (hi t ht).2) h2)
        refine ih rest' m ?_ h3
        have := congrArg List.length h1
        simp at this
        omega
  have hprod' : Productive (Spec.withEnd g z e f) := by
    intro v β hr
    rcases withEnd_mem.1 hr with hr | ⟨rfl, _⟩
    · obtain ⟨n, u, h⟩ := hprod v β hr
      exact ⟨n, u, forest_mono withEnd_sub h⟩
    · obtain ⟨β, hβ⟩ := wf.start
      obtain ⟨n, u, h⟩ := hprod _ _ hβ
      exact ⟨_, _, (tree_withEnd wf hn).2 (.inl ⟨u, e, n, rfl, LawfulTerminalEq.refl e, h, rfl⟩)⟩
  have hfirst : ∀ v β, (v, β) ∈ g.rules → ∃ t, InFirst g [.var v] (.term t) := by
    intro v β hr
    obtain ⟨n, u, h⟩ := hprod v β hr
    obtain ⟨t, ht⟩ := forest_first hg he h (by simp) (by simp)
    exact ⟨t, derives_starts.2 ht⟩
  refine c63_trim_partial (hg.withEnd hn.head) hp (trim_withEnd wf he hn hreach hfirst) hprod' ?_ more _ (by simp)
    (by simpa [Spec.withEnd] using hf)
  rintro ⟨rest, n, h⟩
  exact hbegin _ rest n (Nat.le_refl _) h

/-! ## Text -/

open Pango.Lex hiding Built

omit [DecidableEq V] [DecidableEq T] [LawfulTerminalEq T] in
private theorem kinds_of_rules {rules : List (List Char × (List Char → T))} {matchers : List (List Char → Prop)}
    (hf : ∀ r ∈ rules, ∀ s, teq f (r.2 s) = false) {input : List Char} {ts : List (Tok T)}
    (h : IsTokenization matchers rules input ts) : ∀ t ∈ ts.map Tok.kind, teq f t = false := by
  obtain ⟨ws, _, _, h⟩ := h
  intro t ht
  obtain ⟨tok, h1, rfl⟩ := List.mem_map.1 ht
  have h2 : (tok.source, some tok.kind) ∈ ts.map fun t => (t.source, some t.kind) := List.mem_map.2 ⟨tok, h1, rfl⟩
  rw [h] at h2
  obtain ⟨w, _, h3⟩ := List.mem_map.1 h2
  have h4 := congrArg Prod.snd h3
  simp only [kindAt] at h4
  obtain ⟨r, h5, h6⟩ := Option.map_eq_some_iff.1 h4
  rw [← h6]
  exact hf r (List.mem_of_getElem? h5) _

/-- C86 for text, and patterns that need one character of lookahead: the parser returns on every text, always the same.
It returns a tree exactly if the tokens of the text by maximal munch are a sentence and the marker, and an error
otherwise. -/
theorem c86_text [Unicode] (hg : Built g) (he : EpsFree g) (hreach : ∀ v β, (v, β) ∈ g.rules → Reachable g v)
    (hfirst : ∀ v β, (v, β) ∈ g.rules → ∃ t, InFirst g [.var v] (.term t)) (hn : NotIn g z e f)
    (hp : IsParser (Spec.withEnd g z e f) tbl) {p : Profile} {rules : List (List Char × (List Char → T))}
    {es : List Regex.Expr} {l : Lexer T} (hl : LexerFor p rules es l) (hr : Regular es) (ho : OneLookahead es)
    (hf : ∀ r ∈ rules, ∀ s, teq f (r.2 s) = false) (input : List Char) :
    ∃ r, (∀ r', Parses l tbl input r' ↔ r' = r) ∧ ∀ n, r = some n ↔
      ∃ ts w e' m, IsTokenization (languages es) rules input ts ∧ ts.map Tok.kind = w ++ [e'] ∧ teq e e' = true ∧
        ParseTree g m w ∧ n = .mk (.var z) [.mk (.term e') [], m] := by
  obtain ⟨c1, c2, c3⟩ := c23_tokenizes_partial p rules es l hl hr ho
  obtain ⟨ts, h1⟩ := c1 input
  have h2 := c2 _ _ h1
  obtain ⟨r, h3, h4⟩ := c86_reads hg he hreach hfirst hn hp (kinds_of_rules hf h2) (Nat.lt_succ_self _)
  have h5 := parses_of_tokens h1 h3
  refine ⟨r, fun r' => ⟨fun h => parses_unique h h5, fun h => h ▸ h5⟩, fun n => ?_⟩
  rw [h4]
  constructor
  · rintro ⟨w, e', m, h6, h7⟩
    exact ⟨ts, w, e', m, h2, h6, h7⟩
  · rintro ⟨ts', w, e', m, h6, h7, h8⟩
    have h9 := congrArg (List.map Prod.snd) (c3 _ _ _ h2 h6)
    simp only [List.map_map] at h9
    have h10 : ts.map Tok.kind = ts'.map Tok.kind := h9
    exact ⟨w, e', m, by rw [h10, h7], h8⟩

omit [DecidableEq V] [DecidableEq T] [LawfulTerminalEq T] in
private theorem kinds_of_calls {rules : List (List Char × (List Char → T))} {matchers : List (List Char → Prop)}
    {Live Ends : List Char → Prop} (hf : ∀ r ∈ rules, ∀ s, teq f (r.2 s) = false) {sc : Scanner} {as : List (Option (Tok T))}
    (h : Calls matchers Live Ends (kindAt rules) sc as) : ∀ t, some t ∈ as → teq f t.kind = false := by
  have hk : ∀ {i s k}, kindAt rules i s = some k → teq f k = false := by
    intro i s k h
    obtain ⟨r, h1, h2⟩ := Option.map_eq_some_iff.1 h
    rw [← h2]
    exact hf r (List.mem_of_getElem? h1) _
  induction h with
  | done => simp
  | next _ hc _ ih =>
    intro t ht
    rcases List.mem_cons.1 ht with h | h
    · cases hc with
      | token _ _ _ _ _ h1 =>
        cases h
        exact hk h1
      | last _ _ _ h1 =>
        cases h
        exact hk h1
      | nothing => cases h
      | over => cases h
    · exact ih t h

/-- C86 for text and all lexers: a tree is returned exactly if the tokens of the text, as the lexer makes them, are a
sentence and the marker. -/
theorem c86_scans [Unicode] (hg : Built g) (he : EpsFree g) (hn : NotIn g z e f)
    (hp : IsParser (Spec.withEnd g z e f) tbl) {p : Profile} {rules : List (List Char × (List Char → T))}
    {es : List Regex.Expr} {l : Lexer T} (hl : LexerFor p rules es l) (hf : ∀ r ∈ rules, ∀ s, teq f (r.2 s) = false)
    {input : List Char} {n : Node V T} :
    Parses l tbl input (some n) ↔
      ∃ (ts : List (Tok T)) (w : List T) (e' : T) (m : Node V T), Scans es rules input (ts.map some ++ [none]) ∧
        ts.map Tok.kind = w ++ [e'] ∧ teq e e' = true ∧
        ParseTree g m w ∧ n = .mk (.var z) [.mk (.term e') [], m] := by
  have key : ∀ {ts : List (Tok T)}, Scans es rules input (ts.map some ++ [none]) → ∀ t ∈ ts.map Tok.kind, teq f t = false := by
    intro ts h t ht
    obtain ⟨tok, h1, rfl⟩ := List.mem_map.1 ht
    exact kinds_of_calls hf h tok (List.mem_append_left _ (List.mem_map.2 ⟨tok, h1, rfl⟩))
  constructor
  · intro h
    obtain ⟨ts, h1, h2⟩ := c44_tokens_partial (hg.withEnd hn.head) hp l h
    have h3 := (c23_tokens_partial p rules es l hl input ts).1 h1
    obtain ⟨w, e', m, h4⟩ := (c86_accepts hg he hn hp (key h3)).1 h2
    exact ⟨ts, w, e', m, h3, h4⟩
  · rintro ⟨ts, w, e', m, h1, h2⟩
    obtain ⟨fuel, h3⟩ := (c86_accepts hg he hn hp (key h1)).2 ⟨w, e', m, h2⟩
    exact parses_of_tokens ((c23_tokens_partial p rules es l hl input ts).2 h1) h3

/-! ## Examples -/

/-- `Z → S $ | Z #`, `S → S ; A | A`, `A → x`. -/
def listWithEnd : Grammar String String := withEnd listGrammar "Z" "$" "#"

theorem listWithEnd_parser : IsParser listWithEnd (tableOf listWithEnd) := ⟨100, .insertion, by decide +kernel⟩

private theorem list_rules {v : String} {β : Body String String} (h : (v, β) ∈ listGrammar.rules) :
    v = "S" ∧ β = [.var "S", .term ";", .var "A"] ∨ v = "S" ∧ β = [.var "A"] ∨ v = "A" ∧ β = [.term "x"] := by
  simpa [listGrammar] using h

theorem list_epsFree : EpsFree listGrammar := by
  intro v β h
  rcases list_rules h with ⟨_, rfl⟩ | ⟨_, rfl⟩ | ⟨_, rfl⟩ <;> simp

theorem list_notIn : NotIn listGrammar "Z" "$" "#" where
  head β h := by rcases list_rules h with ⟨h, _⟩ | ⟨h, _⟩ | ⟨h, _⟩ <;> exact absurd h (by decide)
  marker v β t h ht := by
    rcases list_rules h with ⟨_, rfl⟩ | ⟨_, rfl⟩ | ⟨_, rfl⟩ <;> simp at ht <;> subst ht <;> decide
  never v β t h ht := by
    rcases list_rules h with ⟨_, rfl⟩ | ⟨_, rfl⟩ | ⟨_, rfl⟩ <;> simp at ht <;> subst ht <;> decide
  differ := by decide

theorem list_reachable : ∀ v β, (v, β) ∈ listGrammar.rules → Reachable listGrammar v := by
  intro v β h
  rcases list_rules h with ⟨rfl, _⟩ | ⟨rfl, _⟩ | ⟨rfl, _⟩
  · exact .start
  · exact .start
  · exact .step (β := [.var "A"]) .start (by decide) (by simp)

theorem list_productive : Productive listGrammar := by
  have hA : Forest listGrammar [.var "A"] [.mk (.var "A") [.mk (.term "x") []]] ["x"] :=
    .var (β := [.term "x"]) (cs := [_]) (x := ["x"]) (w := []) (by decide) (.term rfl .nil) .nil
  have hS : Forest listGrammar [.var "S"] [.mk (.var "S") [.mk (.var "A") [.mk (.term "x") []]]] ["x"] :=
    .var (β := [.var "A"]) (cs := [_]) (x := ["x"]) (w := []) (by decide) hA .nil
  intro v β h
  rcases list_rules h with ⟨rfl, _⟩ | ⟨rfl, _⟩ | ⟨rfl, _⟩
  · exact ⟨_, _, hS⟩
  · exact ⟨_, _, hS⟩
  · exact ⟨_, _, hA⟩

theorem list_first : ∀ v β, (v, β) ∈ listGrammar.rules → ∃ t, InFirst listGrammar [.var v] (.term t) := by
  intro v β h
  obtain ⟨n, u, h⟩ := list_productive v β h
  obtain ⟨t, ht⟩ := forest_first listGrammar_built list_epsFree h (by simp) (by simp)
  exact ⟨t, derives_starts.2 ht⟩

/-- The parser of `S → S ; A | A`, `A → x` does not accept `x` (see `c37_false`); with the marker it does. -/
example : parseTokens (tableOf listWithEnd) 60 ["x", "$"] =
    .ok (some (.mk (.var "Z") [.mk (.term "$") [], .mk (.var "S") [.mk (.var "A") [.mk (.term "x") []]]])) := by
  decide +kernel

/-- All hypotheses of the theorems are met: what the parser does on all inputs without `#`. -/
example (input : List String) (hi : ∀ t ∈ input, teq "#" t = false) : ∃ r,
    parseTokens (tableOf listWithEnd) ((2 * input.length + 1) * 7 + 1) input = .ok r ∧ ∀ n, r = some n ↔
      ∃ w e' m, input = w ++ [e'] ∧ teq "$" e' = true ∧ ParseTree listGrammar m w ∧
        n = .mk (.var "Z") [.mk (.term e') [], m] :=
  c86_reads listGrammar_built list_epsFree list_reachable list_first list_notIn listWithEnd_parser hi (Nat.lt_succ_self _)

example : OneEntryEach listGrammar := (c86_table listGrammar_built list_epsFree list_notIn).1.1 ⟨_, listWithEnd_parser⟩

example (more : List String) : parseTokens (tableOf listWithEnd) 22 (";" :: more) = .ok none := by
  refine c86_early listGrammar_built list_epsFree list_reachable list_productive list_notIn listWithEnd_parser
    (w := [";"]) ?_ (by simp; decide) more (by decide)
  rintro ⟨rest, n, h⟩
  have : ∀ {α : List (Sym String String)} {ns : List (Node String String)} {w : List String},
      Forest listGrammar α ns w → α ≠ [] → (∀ x ∈ α.head?, x = .var "S" ∨ x = .var "A" ∨ x = .term "x") →
      ∃ u, w = "x" :: u := by
    intro α ns w h
    induction h with
    | nil => simp
    | eps => simp
    | @term t u α ns w ht _ _ =>
      intro _ h
      have : t = "x" := by simpa using h
      subst this
      have : "x" = u := by simpa [teq] using ht
      exact ⟨w, by rw [this]⟩
    | @var v β α cs ns x w hr _ _ ih _ =>
      intro _ _
      have : ∃ u, x = "x" :: u := by
        rcases list_rules hr with ⟨_, rfl⟩ | ⟨_, rfl⟩ | ⟨_, rfl⟩ <;> exact ih (by simp) (by simp)
      obtain ⟨u, rfl⟩ := this
      exact ⟨u ++ w, rfl⟩
  obtain ⟨u, hu⟩ := this h (by simp) (by simp [listGrammar])
  simp at hu

/-- There are grammars without a parser: `S → A | B`, `A → x`, `B → x` has two trees for `x`. -/
def twoWays : Grammar String String :=
  ⟨"S", [("S", [.var "A"]), ("S", [.var "B"]), ("A", [.term "x"]), ("B", [.term "x"])]⟩

example : ¬ OneEntryEach twoWays := by
  intro h
  have hr : ∀ {v : String} {β : Body String String}, (v, β) ∈ twoWays.rules →
      v = "S" ∧ β = [.var "A"] ∨ v = "S" ∧ β = [.var "B"] ∨ v = "A" ∧ β = [.term "x"] ∨ v = "B" ∧ β = [.term "x"] := by
    intro v β h
    simpa [twoWays] using h
  have hg : Built twoWays :=
    ⟨[.setStart "S", .addRules "S" [[.var "A"], [.var "B"]], .addRules "A" [[.term "x"]], .addRules "B" [[.term "x"]]],
      by decide +kernel⟩
  have he : EpsFree twoWays := by
    intro v β h
    rcases hr h with ⟨_, rfl⟩ | ⟨_, rfl⟩ | ⟨_, rfl⟩ | ⟨_, rfl⟩ <;> simp
  have hn : NotIn twoWays "Z" "$" "#" := by
    refine ⟨fun β h => ?_, fun v β t h ht => ?_, fun v β t h ht => ?_, by decide⟩
    · rcases hr h with ⟨h, _⟩ | ⟨h, _⟩ | ⟨h, _⟩ | ⟨h, _⟩ <;> exact absurd h (by decide)
    all_goals
      rcases hr h with ⟨_, rfl⟩ | ⟨_, rfl⟩ | ⟨_, rfl⟩ | ⟨_, rfl⟩ <;> simp at ht <;> subst ht <;> decide
  obtain ⟨tbl, hp⟩ := (c86_table hg he hn).1.2 h
  have leaf : Forest twoWays [.term "x"] [.mk (.term "x") []] ["x"] := .term rfl .nil
  have hA : Forest twoWays [.var "A"] [.mk (.var "A") [.mk (.term "x") []]] ["x"] :=
    .var (β := [.term "x"]) (cs := [_]) (x := ["x"]) (w := []) (by decide) leaf .nil
  have hB : Forest twoWays [.var "B"] [.mk (.var "B") [.mk (.term "x") []]] ["x"] :=
    .var (β := [.term "x"]) (cs := [_]) (x := ["x"]) (w := []) (by decide) leaf .nil
  have := c86_unambiguous hg he hn hp (w := ["x"])
    (m := .mk (.var "S") [.mk (.var "A") [.mk (.term "x") []]]) (m' := .mk (.var "S") [.mk (.var "B") [.mk (.term "x") []]])
    (.var (β := [.var "A"]) (cs := [_]) (x := ["x"]) (w := []) (by decide) hA .nil)
    (.var (β := [.var "B"]) (cs := [_]) (x := ["x"]) (w := []) (by decide) hB .nil)
  exact absurd this (by decide)

/-- The lexer with the rules `x`, `;` and `!`. -/
def semisEnd : Lexer String :=
  ⟨⟨0, [⟨0, false, [(.literal (.mtch 'x'), [2]), (.literal (.mtch ';'), [3]), (.literal (.mtch '!'), [4])]⟩,
    ⟨1, true, []⟩, ⟨2, true, []⟩, ⟨3, true, []⟩, ⟨4, true, []⟩]⟩, [(2, fun _ => "x"), (3, fun _ => ";"), (4, fun _ => "$")]⟩

def semisEndRules : List (List Char × (List Char → String)) :=
  [("x".toList, fun _ => "x"), (";".toList, fun _ => ";"), ("!".toList, fun _ => "$")]

def semisEndTrees : List Regex.Expr := [.lit (.mtch 'x') none, .lit (.mtch ';') none, .lit (.mtch '!') none]

theorem semisEnd_for [Unicode] : LexerFor .debug semisEndRules semisEndTrees semisEnd := ⟨rfl, rfl⟩

/-- All texts, read by this lexer and the parser of the lists. -/
example [Unicode] (input : List Char) : ∃ r, (∀ r', Parses semisEnd (tableOf listWithEnd) input r' ↔ r' = r) ∧ ∀ n,
    r = some n ↔ ∃ ts w e' m, IsTokenization (languages semisEndTrees) semisEndRules input ts ∧
      ts.map Tok.kind = w ++ [e'] ∧ teq "$" e' = true ∧ ParseTree listGrammar m w ∧
      n = .mk (.var "Z") [.mk (.term e') [], m] := by
  have hl : ∀ e ∈ semisEndTrees, ∃ a, e = .lit a none := by simp [semisEndTrees]
  refine c86_text listGrammar_built list_epsFree list_reachable list_first list_notIn listWithEnd_parser semisEnd_for
    (literals_regular hl) (literals_oneLookahead hl) ?_ input
  intro r hr s
  simp only [semisEndRules, List.mem_cons, List.not_mem_nil, or_false] at hr
  rcases hr with rfl | rfl | rfl <;> rfl

/-- The text `x!` has the tokens `x` and `$`, and is accepted. -/
example [Unicode] : ∃ (ts : List (Tok String)) (w : List String) (e' : String) (m : Node String String),
    Scans semisEndTrees semisEndRules "x!".toList (ts.map some ++ [none]) ∧
    ts.map Tok.kind = w ++ [e'] ∧ teq "$" e' = true ∧ ParseTree listGrammar m w ∧
    (.mk (.var "Z") [.mk (.term "$") [], .mk (.var "S") [.mk (.var "A") [.mk (.term "x") []]]] : Node String String) =
      .mk (.var "Z") [.mk (.term e') [], m] := by
  have h : lexAll (nfaMachine semisEnd.nfa 10) semisEnd.tokens 5 (InputIter.new "x!".toList) =
      .ok ([⟨"x", ['x'], (0, 1)⟩, ⟨"$", ['!'], (1, 2)⟩], ⟨[], [], (2, 0), [], []⟩) := by
    with_unfolding_all rfl
  refine (c86_scans listGrammar_built list_epsFree list_notIn listWithEnd_parser semisEnd_for ?_).1
    (parses_of_tokens ⟨10, 5, _, h⟩ (fuel := 60) (by decide +kernel))
  intro r hr s
  simp only [semisEndRules, List.mem_cons, List.not_mem_nil, or_false] at hr
  rcases hr with rfl | rfl | rfl <;> rfl

end Pango.Props
