import Verif.Proofs.FollowOrder
import Verif.Props.Rename
import Verif.Spec.Orders

/-!
# C42, C64: exactly when the iteration order matters
-/

namespace Pango.Props

open Pango Pango.Parse Pango.Spec

variable {V T : Type} [DecidableEq V] [DecidableEq T] {g : Grammar V T} {tbl tbl' : Table V T}

variable [TerminalEq T] [LawfulTerminalEq T]

theorem exists_order (hg : Built g) (accepts : Prop) (h1 : accepts → Followable g g.start)
    (h2 : ¬ accepts → ¬ SurelyFollowed g g.start) :
    ∃ bound, ∃ ord : HashOrder, ∀ fuel ≥ bound,
      (Fits g accepts ∧ ∃ c tbl, slrNew g ord fuel = .ok tbl ∧ SlrOk g c accepts tbl) ∨
      (¬ Fits g accepts ∧ slrNew g ord fuel = .panic) := by
  have hex : ∃ ord follow, g.followSet ord (tableFuel g) = .ok follow ∧ (Entry g follow ↔ accepts) := by
    have hf : followFuel g ≤ tableFuel g := by unfold tableFuel; omega
    by_cases ha : accepts
    · obtain ⟨ord, r, h3, h4⟩ := followSet_some hg.wellFormed hf (entered_iff.2 (h1 ha))
      exact ⟨ord, r, h3, fun _ => ha, fun _ => h4⟩
    · have h3 := h2 ha
      rw [surelyFollowed_iff] at h3
      obtain ⟨ord, r, h4, h5⟩ := followSet_none hg.wellFormed hf (v := g.start) (fun h => h3 (.inl h))
        (fun t h => h3 (.inr ⟨t, h⟩))
      refine ⟨ord, r, h4, fun h => ?_, fun h => absurd h ha⟩
      rw [Entry, h5] at h
      cases h
  obtain ⟨ord, follow, h3, h4⟩ := hex
  refine ⟨tableFuel g, orderBelow 1 0 ord, fun fuel hf => ?_⟩
  have hmono : ∀ r, slrNew g (orderBelow 1 0 ord) (tableFuel g) = r → r ≠ .diverge →
      slrNew g (orderBelow 1 0 ord) fuel = r := by
    intro r hr hd
    have := slrNew_mono (g := g) (ord := orderBelow 1 0 ord) hf
    cases r with
    | ok t => exact this.ok hr
    | panic => exact this.panic hr
    | diverge => exact absurd rfl hd
  rcases slrNew_entry hg.wellFormed (Nat.le_refl _) h3 h4 with ⟨h5, c, tbl, h6, h7⟩ | ⟨h5, h6⟩
  · exact .inl ⟨h5, c, tbl, hmono _ h6 (by simp), h7⟩
  · exact .inr ⟨h5, hmono _ h6 (by simp)⟩

/-- The two machines that a parser can be, and when: one that accepts, if something can stand behind the start variable,
and one that accepts nothing, if the start variable is not surely followed. -/
theorem c42_machines (hg : Built g) (accepts : Prop) (h1 : accepts → Followable g g.start)
    (h2 : ¬ accepts → ¬ SurelyFollowed g g.start) :
    ∃ bound, ∃ ord : HashOrder, ∀ fuel ≥ bound,
      (Fits g accepts ∧ ∃ tbl, slrNew g ord fuel = .ok tbl ∧ Agrees g tbl accepts) ∨
      (¬ Fits g accepts ∧ slrNew g ord fuel = .panic) := by
  obtain ⟨bound, ord, h⟩ := exists_order hg accepts h1 h2
  refine ⟨bound, ord, fun fuel hf => (h fuel hf).imp ?_ id⟩
  rintro ⟨h3, c, tbl, h4, h5⟩
  exact ⟨h3, tbl, h4, SlrOk.agrees h5⟩

/-- The iteration order changes neither whether there is a parser nor what parsers return, except that some may return
an error where others panic. -/
def OrderFree (g : Grammar V T) : Prop :=
  (∀ ord ord' fuel fuel' tbl, slrNew g ord fuel = .ok tbl → slrNew g ord' fuel' ≠ .panic) ∧
  ∀ tbl tbl', IsParser g tbl → IsParser g tbl' → ∀ fuel input,
    SameButPanic (parseTokens tbl fuel input) (parseTokens tbl' fuel input)

/-- What is known of the construction under an iteration order. -/
theorem slrNew_verdict (hg : Built g) (ord : HashOrder) :
    ∃ accepts : Prop, (SurelyFollowed g g.start → accepts) ∧ (accepts → Followable g g.start) ∧
      (∀ fuel tbl, slrNew g ord fuel = .ok tbl → Fits g accepts ∧ Agrees g tbl accepts) ∧
      ∀ fuel, slrNew g ord fuel = .panic → ¬ Fits g accepts := by
  obtain ⟨c, follow, _, _, fo, h⟩ := slrNew_at hg.wellFormed ord (Nat.le_refl (tableFuel g))
  have hmax : ∀ fuel r, slrNew g ord fuel = r → r ≠ .diverge → slrNew g ord (tableFuel g) = r := by
    intro fuel r hr hd
    have h1 := slrNew_mono (g := g) (ord := ord) (Nat.le_add_right fuel (tableFuel g))
    have h2 := slrNew_mono (g := g) (ord := ord) (Nat.le_add_left (tableFuel g) fuel)
    have h3 : slrNew g ord (fuel + tableFuel g) = r := by
      cases r with
      | ok t => exact h1.ok hr
      | panic => exact h1.panic hr
      | diverge => exact absurd rfl hd
    rcases h with ⟨_, tbl, h, _⟩ | ⟨_, h⟩
    · rw [← h3, h2.ok h, h]
    · rw [← h3, h2.panic h, h]
  refine ⟨Entry g follow, fo.surely, fun h => (fo.entered _ h).followable, fun fuel tbl ht => ?_, fun fuel ht => ?_⟩
  · have ht := hmax _ _ ht (by simp)
    rcases h with ⟨h1, tbl', h2, h3⟩ | ⟨_, h2⟩
    · rw [ht] at h2
      cases h2
      exact ⟨h1, SlrOk.agrees h3⟩
    · rw [ht] at h2
      cases h2
  · have ht := hmax _ _ ht (by simp)
    rcases h with ⟨_, tbl', h2, _⟩ | ⟨h1, _⟩
    · rw [ht] at h2
      cases h2
    · exact h1

omit [DecidableEq V] [DecidableEq T] [LawfulTerminalEq T] in
theorem fits_mono {a b : Prop} (h : Fits g b) (hab : a → b) : Fits g a := by
  have hn : ∀ {γ p k}, Needs g a γ p k → Needs g b γ p k := by
    intro γ p k h
    cases h with
    | shift h1 h2 => exact .shift h1 h2
    | reduce h1 h2 h3 => exact .reduce h1 h2 h3
    | accept h1 h2 h3 => exact .accept h1 h2 (hab h3)
  exact fun γ p p' k k' h1 h2 h3 => h γ p p' k k' (hn h1) (hn h2) h3

/-- C35, the exact conditions: there is a parser under every iteration order if and only if no entry of the table is
needed twice, where entries are needed at the end of the input if something can stand behind the start variable; and
under some order if and only if this is so, where they are needed only if the start variable is surely followed. -/
theorem c35_orders_partial (hg : Built g) :
    ∃ bound, ∀ fuel ≥ bound,
      ((∀ ord : HashOrder, ∃ tbl, slrNew g ord fuel = .ok tbl) ↔ Fits g (Followable g g.start)) ∧
      ((∃ ord : HashOrder, ∃ tbl, slrNew g ord fuel = .ok tbl) ↔ Fits g (SurelyFollowed g g.start)) := by
  obtain ⟨b1, ord1, h1⟩ := c42_machines hg (Followable g g.start) id (fun h h' => h h'.followable)
  obtain ⟨b2, ord2, h2⟩ := c42_machines hg (SurelyFollowed g g.start) SurelyFollowed.followable id
  refine ⟨max (tableFuel g) (max b1 b2), fun fuel hf => ⟨⟨fun h => ?_, fun h ord => ?_⟩, ⟨?_, fun h => ?_⟩⟩⟩
  · obtain ⟨tbl, ht⟩ := h ord1
    rcases h1 fuel (by omega) with ⟨h1, _⟩ | ⟨_, h1⟩
    · exact h1
    · rw [ht] at h1
      cases h1
  · obtain ⟨c, follow, _, _, fo, ⟨_, tbl, h3, _⟩ | ⟨h3, _⟩⟩ := slrNew_at hg.wellFormed ord (fuel := fuel) (by omega)
    · exact ⟨tbl, h3⟩
    · exact absurd (fits_mono h fun h => (fo.entered _ h).followable) h3
  · rintro ⟨ord, tbl, ht⟩
    obtain ⟨a, h3, _, h4, _⟩ := slrNew_verdict hg ord
    exact fits_mono (h4 _ _ ht).1 h3
  · rcases h2 fuel (by omega) with ⟨_, tbl, h2, _⟩ | ⟨h2, _⟩
    · exact ⟨ord2, tbl, h2⟩
    · exact absurd h h2

theorem Agrees.noTree {accepts : Prop} (h : Agrees g tbl accepts)
    (hno : accepts → ∀ input k n, ¬ MachineRun g True input k (.tree n)) (fuel : Nat) (input : List T) (n : Node V T) :
    parseTokens tbl fuel input ≠ .ok (some n) := by
  intro hr
  obtain ⟨k, _, c, h1, h2⟩ := ((h fuel input).1 n).1 hr
  cases h2 with
  | accept h3 h4 h5 h6 => exact hno h5 _ _ _ ⟨_, h1, .accept h3 h4 trivial h6⟩

/-- C42, exactly, for all grammars: the iteration order does not matter if and only if the start variable is surely
followed, or nothing can stand behind it, or there is no parser for other reasons, or there is always a parser but it
accepts nothing. -/
theorem c42_exact_partial (hg : Built g) :
    OrderFree g ↔ SurelyFollowed g g.start ∨ ¬ Followable g g.start ∨ ¬ Fits g False ∨
      (Fits g True ∧ ∀ input k n, ¬ MachineRun g True input k (.tree n)) := by
  constructor
  · intro ⟨h1, h2⟩
    refine Classical.byContradiction fun hc => ?_
    simp only [not_or, Classical.not_not] at hc
    obtain ⟨h3, h4, h5, h6⟩ := hc
    obtain ⟨b, ord, h7⟩ := c42_machines hg True (fun _ => h4) (fun h => absurd trivial h)
    obtain ⟨b', ord', h8⟩ := c42_machines hg False False.elim (fun _ => h3)
    rcases h8 b' (Nat.le_refl _) with ⟨_, tbl', h9, h10⟩ | ⟨h9, _⟩
    · rcases h7 b (Nat.le_refl _) with ⟨h11, tbl, h12, h13⟩ | ⟨_, h12⟩
      · refine h6 ⟨h11, fun input k n h => ?_⟩
        have h14 := ((h13 (k + 1) input).1 n).2 ⟨k, by omega, h⟩
        have h15 := h2 tbl tbl' ⟨_, _, h12⟩ ⟨_, _, h9⟩ (k + 1) input
        rw [h14] at h15
        rcases h15 with h15 | ⟨h15 | h15, _⟩
        · exact Agrees.noTree h10 False.elim _ _ _ h15.symm
        · cases h15
        · cases h15
      · exact h1 _ _ _ _ _ h9 h12
    · exact h9 h5
  · intro h
    constructor
    · intro ord ord' fuel fuel' tbl ht ht'
      obtain ⟨a, h1, h2, h3, _⟩ := slrNew_verdict hg ord
      obtain ⟨a', h1', h2', _, h4'⟩ := slrNew_verdict hg ord'
      have h5 := (h3 _ _ ht).1
      refine h4' _ ht' ?_
      rcases h with h | h | h | ⟨h, _⟩
      · exact fits_mono h5 (fun _ => h1 h)
      · exact fits_mono h5 (fun h' => absurd (h2' h') h)
      · exact absurd (fits_mono h5 False.elim) h
      · exact fits_mono h (fun _ => trivial)
    · rintro tbl tbl' ⟨f1, ord, ht⟩ ⟨f2, ord', ht'⟩ fuel input
      obtain ⟨a, h1, h2, h3, _⟩ := slrNew_verdict hg ord
      obtain ⟨a', h1', h2', h3', _⟩ := slrNew_verdict hg ord'
      obtain ⟨h4, h5⟩ := h3 _ _ ht
      obtain ⟨h4', h5'⟩ := h3' _ _ ht'
      rcases h with h | h | h | ⟨_, h⟩
      · obtain rfl : a = a' := propext ⟨fun _ => h1' h, fun _ => h1 h⟩
        exact h5.same h5' fuel input
      · obtain rfl : a = a' := propext ⟨fun k => absurd (h2 k) h, fun k => absurd (h2' k) h⟩
        exact h5.same h5' fuel input
      · exact absurd (fits_mono h4 False.elim) h
      · have n1 := Agrees.noTree h5 (fun _ => h) fuel input
        have n1' := Agrees.noTree h5' (fun _ => h) fuel input
        have n2 := (h5 fuel input).2.2.2
        have n2' := (h5' fuel input).2.2.2
        cases hr : parseTokens tbl fuel input with
        | diverge => exact .inl (n2'.2 (n2.1 hr)).symm
        | ok r =>
          cases r with
          | some n => exact absurd hr (n1 n)
          | none =>
            cases hr' : parseTokens tbl' fuel input with
            | diverge => rw [n2.2 (n2'.1 hr')] at hr; cases hr
            | ok r =>
              cases r with
              | some n => exact absurd hr' (n1' n)
              | none => exact .inl rfl
            | panic => exact .inr ⟨.inl rfl, .inr rfl⟩
        | panic =>
          cases hr' : parseTokens tbl' fuel input with
          | diverge => rw [n2.2 (n2'.1 hr')] at hr; cases hr
          | ok r =>
            cases r with
            | some n => exact absurd hr' (n1' n)
            | none => exact .inr ⟨.inr rfl, .inl rfl⟩
          | panic => exact .inl rfl

/-- What the machine accepts, for grammars without epsilon: something, if and only if a parse tree ends in a token. -/
theorem machine_tree_iff (hg : Built g) (he : EpsFree g) (hd : Followable g g.start) (hfit : Fits g True) :
    (∃ input k n, MachineRun g True input k (.tree n)) ↔ ∃ n w, ParseTree g n w ∧ EndsInToken n := by
  obtain ⟨b, ord, h⟩ := exists_order hg True (fun _ => hd) (fun h => absurd trivial h)
  rcases h b (Nat.le_refl _) with ⟨_, c, tbl, h1, ok⟩ | ⟨h, _⟩
  · have h2 := SlrOk.agrees ok
    constructor
    · rintro ⟨input, k, n, hr⟩
      obtain ⟨_, γ, ns, pre, u, β, cs, t, h4, h5, h6, h7, rfl, h8⟩ :=
        (parse_exact hg.wellFormed ok he).1 ⟨k + 1, ((h2 _ _).1 n).2 ⟨k, by omega, hr⟩⟩
      exact ⟨_, u, parseTree_iff.2 ⟨_, cs, h7, rfl, h8⟩, (endsInToken_iff h8 (he _ _ h7)).2 ⟨β, t, rfl⟩⟩
    · rintro ⟨n, w, h4, h5⟩
      obtain ⟨β, cs, h6, rfl, h7⟩ := parseTree_iff.1 h4
      obtain ⟨β', t, rfl⟩ := (endsInToken_iff h7 (he _ _ h6)).1 h5
      obtain ⟨fuel, h8⟩ := (parse_exact hg.wellFormed ok he).2
        ⟨trivial, [], [], [], w, β', cs, t, rfl, .nil, .inl ⟨rfl, rfl⟩, h6, rfl, h7⟩
      obtain ⟨k, _, h9⟩ := ((h2 _ _).1 _).1 h8
      exact ⟨_, k, _, h9⟩
  · exact absurd hfit h

/-- C42 for grammars without epsilon: the last case is that no parse tree ends in a token. -/
theorem c42_epsFree_partial (hg : Built g) (he : EpsFree g) :
    OrderFree g ↔ SurelyFollowed g g.start ∨ ¬ Followable g g.start ∨ ¬ Fits g False ∨
      (Fits g True ∧ ¬ ∃ n w, ParseTree g n w ∧ EndsInToken n) := by
  rw [c42_exact_partial hg]
  by_cases hd : SurelyFollowed g g.start ∨ ¬ Followable g g.start
  · exact iff_of_true (hd.imp id .inl) (hd.imp id .inl)
  · simp only [not_or, Classical.not_not] at hd
    refine or_congr Iff.rfl (or_congr Iff.rfl (or_congr Iff.rfl (and_congr_right fun hfit => ?_)))
    rw [← machine_tree_iff hg he hd.2 hfit]
    simp only [not_exists]

/-- C39, exactly, for grammars without epsilon: there is a parser that accepts something if and only if something can
stand behind the start variable, no entry of the table is needed twice, and a parse tree ends in a token. -/
theorem c39_exact_partial (hg : Built g) (he : EpsFree g) :
    (∃ tbl, IsParser g tbl ∧ ∃ fuel input n, parseTokens tbl fuel input = .ok (some n)) ↔
      Followable g g.start ∧ Fits g True ∧ ∃ n w, ParseTree g n w ∧ EndsInToken n := by
  constructor
  · rintro ⟨tbl, ⟨enough, ord, ht⟩, fuel, input, n, hn⟩
    obtain ⟨a, h1, h2, h3, _⟩ := slrNew_verdict hg ord
    obtain ⟨h4, h5⟩ := h3 _ _ ht
    obtain ⟨k, _, x, h6, h7⟩ := ((h5 fuel input).1 n).1 hn
    have ha : a := by
      cases h7 with
      | accept _ _ ha _ => exact ha
    obtain rfl : a = True := eq_true ha
    exact ⟨h2 ha, h4, (machine_tree_iff hg he (h2 ha) h4).1 ⟨_, k, n, x, h6, h7⟩⟩
  · rintro ⟨h1, h2, h3⟩
    obtain ⟨input, k, n, h4⟩ := (machine_tree_iff hg he h1 h2).2 h3
    obtain ⟨b, ord, h⟩ := c42_machines hg True (fun _ => h1) (fun h => absurd trivial h)
    rcases h b (Nat.le_refl _) with ⟨_, tbl, h5, h6⟩ | ⟨h, _⟩
    · exact ⟨tbl, ⟨_, _, h5⟩, k + 1, input, n, ((h6 _ _).1 n).2 ⟨k, by omega, h4⟩⟩
    · exact absurd h2 h

/-- And every parser accepts something, whatever the iteration order, if moreover the start variable is surely
followed. -/
theorem c39_every_partial (hg : Built g) (he : EpsFree g) (hs : SurelyFollowed g g.start) (hp : IsParser g tbl) :
    (∃ fuel input n, parseTokens tbl fuel input = .ok (some n)) ↔ ∃ n w, ParseTree g n w ∧ EndsInToken n := by
  constructor
  · rintro ⟨fuel, input, n, h⟩
    obtain ⟨_, _, _, w, _, h1, h2, _⟩ := (c37_all_partial hg hp he hs).1 ⟨fuel, h⟩
    exact ⟨n, w, h1, h2⟩
  · rintro ⟨n, w, h1, h2⟩
    obtain ⟨fuel, h⟩ := (c37_all_partial hg hp he hs).2 ⟨[], [], [], w, rfl, h1, h2, .nil, .inl rfl⟩
    exact ⟨fuel, w, n, h⟩

/-- C42 for grammars without epsilon in which every variable has a FIRST set: the iteration order does not matter. -/
theorem c42_first_partial (hg : Built g) (he : EpsFree g)
    (hfirst : ∀ v β, (v, β) ∈ g.rules → ∃ t, InFirst g [.var v] (.term t)) : OrderFree g := by
  rw [c42_exact_partial hg]
  by_cases hd : Followable g g.start
  · left
    left
    generalize g.start = v at hd
    induction hd with
    | @behind v h =>
      obtain ⟨h, pre, x, post, hr⟩ := h
      cases x with
      | term t => exact ⟨t, inFollow_iff.2 (.here hr .term)⟩
      | eps => exact absurd (by simp) (he _ _ hr)
      | var w =>
        obtain ⟨β, hw⟩ := hg.wellFormed.closed _ _ w hr (by simp)
        obtain ⟨t, ht⟩ := hfirst w β hw
        refine ⟨t, inFollow_iff.2 (.here hr ?_)⟩
        cases derives_starts.1 ht with
        | inVar h1 h2 => exact .inVar h1 h2
        | skip _ _ h => cases h
    | last hr _ ih =>
      obtain ⟨t, ht⟩ := ih
      exact ⟨t, inFollow_iff.2 (.up hr .nil (inFollow_iff.1 ht))⟩
  · exact .inr (.inl hd)

/-! ## Other rules -/

section Rules

variable {g' : Grammar V T}

/-- C59 up to the iteration order: if the rules that can be reached, and what follows their variables, are the same, and
the start variable is surely followed, or can be followed, in both or none, then what a parser of one does, some parser
of the other does. -/
theorem c59_orders_partial (hg : Built g) (hg' : Built g') (h : SameReachable g g')
    (hf : ∀ v t, Reachable g v → (InFollow g v (.term t) ↔ InFollow g' v (.term t)))
    (hsure : SurelyFollowed g' g'.start → SurelyFollowed g g.start)
    (hcan : Followable g g.start → Followable g' g'.start) (hp : IsParser g tbl) :
    ∃ tbl', IsParser g' tbl' ∧ ∀ fuel input,
      SameButPanic (parseTokens tbl fuel input) (parseTokens tbl' fuel input) := by
  obtain ⟨c, follow, fo, ok⟩ := hp.ok hg
  obtain ⟨b, ord, h1⟩ := exists_order hg' (Entry g follow) (fun k => hcan (fo.entered _ k).followable)
    (fun k k' => k (fo.surely (hsure k')))
  rcases h1 b (Nat.le_refl _) with ⟨_, c', tbl', h2, ok'⟩ | ⟨h2, _⟩
  · exact ⟨tbl', ⟨_, _, h2⟩, fun fuel input =>
      (SlrOk.agrees ok).same (SlrOk.agrees (ok'.same (SameReachable.symm h) (SameFollow.symm h hf))) fuel input⟩
  · refine absurd (fun γ p p' k k' n1 n2 => ?_) h2
    exact ok.uniq γ p p' k k' (n1.same (SameReachable.symm h) (SameFollow.symm h hf))
      (n2.same (SameReachable.symm h) (SameFollow.symm h hf))

/-- The part of C59 about the order in which rules are added, for all grammars: of the same rules in another order there
are the same parsers, except for errors and panics. -/
theorem c59_order_partial (hg : Built g) (hg' : Built g') (hstart : g.start = g'.start)
    (hrules : ∀ r, r ∈ g.rules ↔ r ∈ g'.rules) (hp : IsParser g tbl) :
    ∃ tbl', IsParser g' tbl' ∧ ∀ fuel input,
      SameButPanic (parseTokens tbl fuel input) (parseTokens tbl' fuel input) := by
  refine c59_orders_partial hg hg' ⟨hstart, fun v β _ => hrules (v, β)⟩ (fun v t _ => ?_)
    (fun h => hstart ▸ SurelyFollowed.mono (fun r => (hrules r).2) h)
    (fun h => hstart ▸ Followable.mono (fun r => (hrules r).1) h) hp
  rw [inFollow_iff, inFollow_iff]
  exact ⟨Fol.mono fun r => (hrules r).1, Fol.mono fun r => (hrules r).2⟩

/-- The part of C59 about rules that can not be reached, if none of them has a variable in its body that can. -/
theorem c59_rules_partial (hg : Built g) (hg' : Built g') (h : SameReachable g g') (hs : Separate g) (hs' : Separate g')
    (hp : IsParser g tbl) : ∃ tbl', IsParser g' tbl' ∧ ∀ fuel input,
      SameButPanic (parseTokens tbl fuel input) (parseTokens tbl' fuel input) := by
  have hsym := SameReachable.symm h
  refine c59_orders_partial hg hg' h (fun v t hv => ?_) (fun k => ?_) (fun k => ?_) hp
  · rw [inFollow_iff, inFollow_iff]
    exact ⟨fun k => k.same h hs hv, fun k => k.same hsym hs' ((SameReachable.reachable h).1 hv)⟩
  · rw [h.1]
    exact SurelyFollowed.same hsym hs' k .start
  · rw [← h.1]
    exact Followable.same h hs k .start

end Rules

/-! ## Names -/

section Names

variable {V' T' : Type} [DecidableEq V'] [DecidableEq T'] [TerminalEq T'] [LawfulTerminalEq T'] [Nonempty T]
  {f : V → V'} {k : T → T'} {tbl' : Table V' T'}

omit [DecidableEq V] [DecidableEq T] [LawfulTerminalEq T] [DecidableEq V'] [DecidableEq T'] [LawfulTerminalEq T'] in
theorem fits_rename (hr : Renaming f k) {a : Prop} : Fits (g.rename f k) a ↔ Fits g a := by
  obtain ⟨f', k', hf, hk⟩ := hr.undo g
  constructor
  · intro h γ p p' o o' h1 h2 ho
    obtain ⟨h3, h4⟩ := h _ _ _ _ _ (h1.rename (f := f) (k := k)) (h2.rename (f := f) (k := k))
      (by rw [keyEq_rename hr.kinds]; exact ho)
    obtain ⟨v, i⟩ := p
    obtain ⟨v', i'⟩ := p'
    simp only [Prod.mk.injEq] at h3
    have h5 : i = i' := by
      have := congrArg (renameItem f' k') h3.2
      rwa [renameItem_undo hf hk, renameItem_undo hf hk] at this
    refine ⟨by rw [hr.vars _ _ h3.1, h5], ?_⟩
    cases o <;> cases o' <;> simp at h4 ⊢
    exact hr.terms _ _ h4
  · intro h γ p p' o o' h1 h2 ho
    obtain ⟨γ, _, _, rfl, _⟩ := h1.viable.renamed
    obtain ⟨v, i, o, rfl, rfl, h1'⟩ := h1.undo hf hk
    obtain ⟨v', i', o', rfl, rfl, h2'⟩ := h2.undo hf hk
    rw [keyEq_rename hr.kinds] at ho
    obtain ⟨h3, rfl⟩ := h _ _ _ _ _ h1' h2' ho
    cases h3
    exact ⟨rfl, rfl⟩

/-- C64 for all grammars: what a parser does, some parser of the grammar with other names does, and the other way round,
except for errors and panics.  So other names can change no more than the iteration order can. -/
theorem c64_orders_partial (hr : Renaming f k) (hg : Built g) :
    (∀ tbl, IsParser g tbl → ∃ tbl', IsParser (g.rename f k) tbl' ∧ ∀ fuel w,
      SameButPanic (parseTokens tbl' fuel (w.map k))
        (renameResult (Option.map (Node.rename f k)) (parseTokens tbl fuel w))) ∧
    (∀ tbl', IsParser (g.rename f k) tbl' → ∃ tbl, IsParser g tbl ∧ ∀ fuel w,
      SameButPanic (parseTokens tbl' fuel (w.map k))
        (renameResult (Option.map (Node.rename f k)) (parseTokens tbl fuel w))) := by
  obtain ⟨f', k', hf, hk⟩ := hr.undo g
  have hg' := hg.rename hr.vars hr.terms
  have hsure : SurelyFollowed (g.rename f k) (f g.start) → SurelyFollowed g g.start := by
    intro h
    have := surelyFollowed_rename (f := f') (k := k') h
    rwa [rename_undo hf hk, hf] at this
  constructor
  · rintro tbl ⟨fuel, ord, ht⟩
    obtain ⟨a, h1, h2, h3, _⟩ := slrNew_verdict hg ord
    obtain ⟨h4, h5⟩ := h3 _ _ ht
    obtain ⟨b, ord', h6⟩ := c42_machines hg' a (fun h => (h2 h).rename) (fun h h' => h (h1 (hsure h')))
    rcases h6 b (Nat.le_refl _) with ⟨_, tbl', h7, h8⟩ | ⟨h7, _⟩
    · exact ⟨tbl', ⟨_, _, h7⟩, agrees_rename hr h5 h8⟩
    · exact absurd ((fits_rename hr).2 h4) h7
  · rintro tbl' ⟨fuel, ord, ht⟩
    obtain ⟨a, h1, h2, h3, _⟩ := slrNew_verdict hg' ord
    obtain ⟨h4, h5⟩ := h3 _ _ ht
    obtain ⟨b, ord', h6⟩ := c42_machines hg a (fun h => Followable.undo hf hk (h2 h))
      (fun h h' => h (h1 (surelyFollowed_rename h')))
    rcases h6 b (Nat.le_refl _) with ⟨_, tbl, h7, h8⟩ | ⟨h7, _⟩
    · exact ⟨tbl, ⟨_, _, h7⟩, agrees_rename hr h8 h5⟩
    · exact absurd ((fits_rename hr).1 h4) h7

/-- C64 for the grammars for which the iteration order does not matter: all parsers of the grammar with other names do
the same. -/
theorem c64_free_partial (hr : Renaming f k) (hg : Built g) (hfree : OrderFree g) {tbl : Table V T} (hp : IsParser g tbl)
    (hp' : IsParser (g.rename f k) tbl') (fuel : Nat) (w : List T) :
    SameButPanic (parseTokens tbl' fuel (w.map k))
      (renameResult (Option.map (Node.rename f k)) (parseTokens tbl fuel w)) := by
  obtain ⟨tbl2, h1, h2⟩ := (c64_orders_partial hr hg).2 tbl' hp'
  have h3 := h2 fuel w
  have h4 := hfree.2 tbl2 tbl h1 hp fuel w
  have hmap : ∀ {r : Outcome (Option (Node V T))}, (r = .ok none ∨ r = .panic) →
      (renameResult (Option.map (Node.rename f k)) r = .ok none ∨
        renameResult (Option.map (Node.rename f k)) r = .panic) := by
    rintro r (rfl | rfl)
    · exact .inl rfl
    · exact .inr rfl
  rcases h4 with h4 | ⟨h4, h5⟩
  · rw [← h4]; exact h3
  · rcases h3 with h3 | ⟨h3, _⟩
    · exact .inr ⟨by rw [h3]; exact hmap h4, hmap h5⟩
    · exact .inr ⟨h3, hmap h5⟩

end Names

/-! ## Instances -/

/-- `sums` and its rules in the other order, with others that can not be reached. -/
example : ∃ tbl, IsParser sumsAndU tbl ∧ ∀ fuel input,
    SameButPanic (parseTokens (tableOf sums) fuel input) (parseTokens tbl fuel input) :=
  c59_rules_partial ⟨[.setStart "S", .addRules "S" [[.var "S", .term "+", .term "n"], [.term "n"]]], by decide⟩
    ⟨[.setStart "S", .addRules "U" [[.term "(", .var "U", .term ")"]], .addRules "S" [[.term "n"]],
      .addRules "U" [[.term "x"]], .addRules "S" [[.var "S", .term "+", .term "n"]]], by decide⟩
    sums_same sums_separate sumsAndU_separate ⟨100, .insertion, by decide +kernel⟩

theorem deadEnd_epsFree : EpsFree deadEnd := by
  intro h β hr
  simp only [deadEnd, List.mem_cons, Prod.mk.injEq, List.not_mem_nil, or_false] at hr
  rcases hr with ⟨_, rfl⟩ | ⟨_, rfl⟩ <;> decide

/-- A parser of `goodGrammar` accepts something, a parser of `deadEnd` does not. -/
example : (∃ tbl, IsParser goodGrammar tbl ∧ ∃ fuel input n, parseTokens tbl fuel input = .ok (some n)) ∧
    ¬ ∃ tbl, IsParser deadEnd tbl ∧ ∃ fuel input n, parseTokens tbl fuel input = .ok (some n) :=
  ⟨⟨_, goodGrammar_parser, (c39_every_partial goodGrammar_built goodGrammar_epsFree goodGrammar_followed.surely
    goodGrammar_parser).2 ⟨_, _, parseTree_iff.2 ⟨[.var "Q", .term ";"], _, by decide, rfl,
      .var (β := [.term "x"]) (by decide) (.term (u := "x") rfl .nil) (.term (u := ";") rfl .nil)⟩, _, _, _, rfl⟩⟩,
    fun h => deadEnd_unfollowed ((c39_exact_partial deadEnd_built deadEnd_epsFree).1 h).1⟩

/-- `S → a`, `X → B ε`, `B → S`: the FOLLOW set of the start variable is empty, but there in any case. -/
def nextFollow : Grammar String String :=
  ⟨"S", [("S", [.term "a"]), ("X", [.var "B", .eps]), ("B", [.var "S"])]⟩

theorem nextFollow_built : Built nextFollow :=
  ⟨[.setStart "S", .addRules "S" [[.term "a"]], .addRules "X" [[.var "B", .eps]], .addRules "B" [[.var "S"]]],
    by decide⟩

theorem nextFollow_surely : SurelyFollowed nextFollow nextFollow.start :=
  .inr (.inr ⟨"B", [], by simp [nextFollow], "X", [], .eps, [], by simp [nextFollow]⟩)

example : OrderFree nextFollow := (c42_exact_partial nextFollow_built).2 (.inl nextFollow_surely)

/-- With one more step, the order matters; so the start variable is not surely followed, and the parser accepts under
some order. -/
theorem emptyFollow_ordered : ¬ OrderFree emptyFollow := by
  intro h
  have h1 : slrNew emptyFollow .insertion 100 = .ok (tableOf emptyFollow) := by decide +kernel
  have h2 : slrNew emptyFollow dependenciesReversed 100 = .ok (tableOf emptyFollow dependenciesReversed) := by
    decide +kernel
  have h3 := h.2 _ _ ⟨_, _, h1⟩ ⟨_, _, h2⟩ 10 ["a"]
  rcases h3 with h3 | ⟨h3 | h3, _⟩
  · exact absurd h3 (by decide +kernel)
  · exact absurd h3 (by decide +kernel)
  · exact absurd h3 (by decide +kernel)

example : ¬ SurelyFollowed emptyFollow emptyFollow.start ∧ Followable emptyFollow emptyFollow.start ∧
    Fits emptyFollow False := by
  have h := mt (c42_exact_partial emptyFollow_built).2 emptyFollow_ordered
  simp only [not_or, Classical.not_not] at h
  exact ⟨h.1, h.2.1, h.2.2.1⟩

/-- `nextFollow` has a parser, so its table fits. -/
example : Fits nextFollow (Followable nextFollow nextFollow.start) := by
  obtain ⟨bound, h⟩ := c35_orders_partial nextFollow_built
  have h1 : slrNew nextFollow .insertion 100 = .ok (tableOf nextFollow) := by decide +kernel
  have h2 := (h (bound + 100) (by omega)).2.1 ⟨.insertion, _, (slrNew_mono (by omega)).ok h1⟩
  exact fits_mono h2 fun _ => nextFollow_surely

/-- `S → a`, `X → B Y`, `Y → Y`, `B → C` and `C → S`: the same without epsilon, with a variable that stands for
nothing. -/
def emptyFirst : Grammar String String :=
  ⟨"S", [("S", [.term "a"]), ("X", [.var "B", .var "Y"]), ("Y", [.var "Y"]), ("B", [.var "C"]), ("C", [.var "S"])]⟩

theorem emptyFirst_built : Built emptyFirst :=
  ⟨[.setStart "S", .addRules "S" [[.term "a"]], .addRules "X" [[.var "B", .var "Y"]], .addRules "Y" [[.var "Y"]],
    .addRules "B" [[.var "C"]], .addRules "C" [[.var "S"]]], by decide⟩

theorem emptyFirst_epsFree : EpsFree emptyFirst := by
  intro h β hr
  simp only [emptyFirst, List.mem_cons, Prod.mk.injEq, List.not_mem_nil, or_false] at hr
  rcases hr with ⟨_, rfl⟩ | ⟨_, rfl⟩ | ⟨_, rfl⟩ | ⟨_, rfl⟩ | ⟨_, rfl⟩ <;> simp

theorem emptyFirst_ordered : ¬ OrderFree emptyFirst := by
  intro h
  have h1 : slrNew emptyFirst .insertion 100 = .ok (tableOf emptyFirst) := by decide +kernel
  have h2 : slrNew emptyFirst dependenciesReversed 100 = .ok (tableOf emptyFirst dependenciesReversed) := by
    decide +kernel
  have h3 := h.2 _ _ ⟨_, _, h1⟩ ⟨_, _, h2⟩ 10 ["a"]
  rcases h3 with h3 | ⟨h3 | h3, _⟩
  · exact absurd h3 (by decide +kernel)
  · exact absurd h3 (by decide +kernel)
  · exact absurd h3 (by decide +kernel)

example : ¬ SurelyFollowed emptyFirst emptyFirst.start ∧ Followable emptyFirst emptyFirst.start := by
  have h := mt (c42_epsFree_partial emptyFirst_built emptyFirst_epsFree).2 emptyFirst_ordered
  simp only [not_or, Classical.not_not] at h
  exact ⟨h.1, h.2.1⟩

/-- In `goodGrammar` every variable has a FIRST set. -/
example : OrderFree goodGrammar := c42_first_partial goodGrammar_built goodGrammar_epsFree goodGrammar_first

/-- Both parsers of `emptyFollow` are there with longer names as well. -/
example : ∃ tbl' tbl'', IsParser (emptyFollow.rename (fun v => "var_" ++ v) (fun t => "tok_" ++ t)) tbl' ∧
    IsParser (emptyFollow.rename (fun v => "var_" ++ v) (fun t => "tok_" ++ t)) tbl'' ∧
    (∀ fuel w, SameButPanic (parseTokens tbl' fuel (w.map fun t => "tok_" ++ t))
      (renameResult (Option.map (Node.rename (fun v => "var_" ++ v) (fun t => "tok_" ++ t)))
        (parseTokens (tableOf emptyFollow) fuel w))) ∧
    ∀ fuel w, SameButPanic (parseTokens tbl'' fuel (w.map fun t => "tok_" ++ t))
      (renameResult (Option.map (Node.rename (fun v => "var_" ++ v) (fun t => "tok_" ++ t)))
        (parseTokens (tableOf emptyFollow dependenciesReversed) fuel w)) := by
  have h1 : slrNew emptyFollow .insertion 100 = .ok (tableOf emptyFollow) := by decide +kernel
  have h2 : slrNew emptyFollow dependenciesReversed 100 = .ok (tableOf emptyFollow dependenciesReversed) := by
    decide +kernel
  obtain ⟨t1, h3, h4⟩ := (c64_orders_partial prefixed emptyFollow_built).1 _ ⟨_, _, h1⟩
  obtain ⟨t2, h5, h6⟩ := (c64_orders_partial prefixed emptyFollow_built).1 _ ⟨_, _, h2⟩
  exact ⟨t1, t2, h3, h5, h4, h6⟩

example (tbl' : Table String String)
    (hp' : IsParser (nextFollow.rename (fun v => "var_" ++ v) (fun t => "tok_" ++ t)) tbl') (fuel : Nat)
    (w : List String) : SameButPanic (parseTokens tbl' fuel (w.map fun t => "tok_" ++ t))
      (renameResult (Option.map (Node.rename (fun v => "var_" ++ v) (fun t => "tok_" ++ t)))
        (parseTokens (tableOf nextFollow) fuel w)) :=
  c64_free_partial prefixed nextFollow_built ((c42_exact_partial nextFollow_built).2 (.inl nextFollow_surely))
    ⟨100, .insertion, by decide +kernel⟩ hp' fuel w

end Pango.Props
