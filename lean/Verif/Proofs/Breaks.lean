import Verif.Spec.Breaks
import Verif.Proofs.Machine

/-!
# The panics of the parser
-/

namespace Pango.Parse

open Pango Pango.Spec

variable {V T : Type} [DecidableEq V] [DecidableEq T] [TerminalEq T] [LawfulTerminalEq T] {g : Grammar V T}
  {c : Cfsm V T} {entry : Prop} {tbl : Table V T}

theorem SlrOk.after_acts (ok : SlrOk g c entry tbl) {γ : List (Sym V T)} {s : CState V T} (h : Reached c γ s) :
    After c (Acts g entry) γ ↔ tbl.action.length ≤ s.id := by
  constructor
  · rintro ⟨s1, h1, h2⟩
    cases ok.cfsm.reached_unique h h1
    rw [← Nat.not_lt, ok.actionLen]
    rintro ⟨s', hs', hle, p, hp, k, a, ha⟩
    obtain ⟨γ', h3⟩ := ok.cfsm.reached hs'
    have := h2 γ' s' ⟨p, k, (needs_iff ok.cfsm h3).2 ⟨hp, a, ha⟩⟩ h3
    omega
  · intro hle
    refine ⟨s, h, fun γ' s' ⟨p, k, hn⟩ h3 => ?_⟩
    obtain ⟨hp, a, ha⟩ := (needs_iff ok.cfsm h3).1 hn
    refine Nat.lt_of_not_le fun h4 => ?_
    have := (ok.actionLen s.id).2 ⟨s', reached_mem h3, h4, p, hp, k, a, ha⟩
    omega

theorem SlrOk.after_reads (ok : SlrOk g c entry tbl) {γ : List (Sym V T)} {s : CState V T} (h : Reached c γ s) :
    After c (ReadsVariable g) γ ↔ tbl.goto.length ≤ s.id := by
  constructor
  · rintro ⟨s1, h1, h2⟩
    cases ok.cfsm.reached_unique h h1
    rw [← Nat.not_lt, ok.gotoLen]
    rintro ⟨s', hs', hle, v, d, hd⟩
    obtain ⟨γ', h3⟩ := ok.cfsm.reached hs'
    obtain ⟨p, hp, hx⟩ := (ok.cfsm.read s' hs' _).1 (List.mem_map.2 ⟨_, hd, rfl⟩)
    have := h2 γ' s' ⟨p, v, (reached_viable ok.cfsm h3 p).1 hp, reads_iff.2 hx⟩ h3
    omega
  · intro hle
    refine ⟨s, h, fun γ' s' ⟨p, v, hv, hr⟩ h3 => ?_⟩
    refine Nat.lt_of_not_le fun h4 => ?_
    obtain ⟨d, hd, _⟩ := ok.cfsm.next h3 hv (reads_iff.1 hr)
    have := (ok.gotoLen s.id).2 ⟨s', reached_mem h3, h4, v, _, hd⟩
    omega

/-- A configuration that breaks is one where the machine stops with an error or because the stack is too short. -/
theorem SlrOk.breaks_halts (ok : SlrOk g c entry tbl) {x : Config V T} (h : Breaks g c entry x) :
    Halts g entry x .error ∨ Halts g entry x .underflow := by
  cases h with
  | underflow h => exact .inr h
  | noRow h =>
    obtain ⟨s, h1, h2⟩ := h
    refine .inl (.noAction fun p k hn => ?_)
    have := h2 _ _ ⟨p, k, hn⟩ h1
    omega
  | noGotoRow h1 h2 h3 h4 h5 h6 =>
    obtain ⟨s, h7, h8⟩ := h6
    refine .inl (.noGoto h1 h2 h3 h4 h5 fun q hq hr => ?_)
    have := h8 _ _ ⟨q, _, hq, hr⟩ h7
    omega

/-- The last iteration panics exactly where the machine breaks. -/
theorem Ends.breaks (ok : SlrOk g c entry tbl) {γ : List (Sym V T)} {ns : List (Node V T)} {w : List T}
    {res : Outcome (Option (Node V T))} (h : Ends g c entry tbl (bottomNode g) (.ok ()) γ ns w res) :
    (res = .panic ∧ Breaks g c entry ⟨γ, ns, w⟩) ∨
      (res = .ok none ∧ Halts g entry ⟨γ, ns, w⟩ .error ∧ ¬ Breaks g c entry ⟨γ, ns, w⟩) ∨
      ∃ n, res = .ok (some n) ∧ Halts g entry ⟨γ, ns, w⟩ (.tree n) := by
  have hhalts := h.halts
  cases h with
  | panic _ h _ => cases h
  | diverge _ h _ => cases h
  | @last st s r hst _ hd hr =>
    obtain ⟨z, hz, hg, _⟩ | ⟨_, h, _⟩ | ⟨_, h, _⟩ := hhalts
    rotate_left
    · cases h
    · cases h
    have hreach := hst.reached
    generalize hk : w.head? = key at hd
    have hcons : ∀ {u : T}, w.head? = some u → ∃ w', w = u :: w' := by
      intro u hu
      cases w with
      | nil => cases hu
      | cons a w' => cases hu; exact ⟨w', rfl⟩
    have hnil : w.head? = none → w = [] := by
      intro hu
      cases w with
      | nil => rfl
      | cons a w' => cases hu
    have hkey : ∀ {t t' u : T}, teq t u = true → teq t' u = true → keyEq (some t) (some t') = true :=
      fun h1 h2 => LawfulTerminalEq.trans _ _ _ h1 (LawfulTerminalEq.symm _ _ h2)
    cases hd with
    | shift _ _ _ _ => cases hr
    | reduce _ _ _ _ _ _ _ _ _ => cases hr
    | noRow h1 _ => cases hr; exact .inl ⟨rfl, .noRow ((ok.after_acts hreach).2 h1)⟩
    | error h1 h2 =>
      cases hr
      have hz' : Halts g entry ⟨γ, ns, w⟩ .error := .noAction (hk ▸ h2)
      refine .inr (.inl ⟨rfl, hz', fun hb => ?_⟩)
      generalize hx : (⟨γ, ns, w⟩ : Config V T) = x at hb
      cases hb with
      | noRow h3 =>
        cases hx
        have := (ok.after_acts hreach).1 h3
        omega
      | noGotoRow h3 h4 h5 h6 _ _ =>
        cases hx
        have := (hk ▸ h2) _ _ (.reduce h3 h4 h5)
        simp only [List.head?_cons, keyEq, h6] at this
        cases this
      | underflow h3 =>
        subst hx
        cases hz'.unique ok.uniq h3
    | @noGoto h i t u s' γ' ρ _ h1 h2 h3 h4 h5 h6 h7 h8 h9 =>
      obtain ⟨w', rfl⟩ := hcons hk
      subst h5
      have hz' : Halts g entry ⟨γ' ++ ρ, ns, u :: w'⟩ .error := .noGoto h1 h2 (inFollow_iff.2 h3) h4 h6 h8
      rcases h9 with ⟨rfl, h9⟩ | ⟨rfl, h9⟩ <;> cases hr
      · refine .inr (.inl ⟨rfl, hz', fun hb => ?_⟩)
        generalize hx : (⟨γ' ++ ρ, ns, u :: w'⟩ : Config V T) = x at hb
        cases hb with
        | noRow h10 =>
          cases hx
          obtain ⟨s1, h11, h12⟩ := h10
          have := h12 _ _ ⟨_, _, .reduce h1 h2 (inFollow_iff.2 h3)⟩ h11
          omega
        | noGotoRow h10 h11 h12 h13 h14 h15 =>
          simp only [Config.mk.injEq, List.cons.injEq] at hx
          obtain ⟨hx1, rfl, rfl, rfl⟩ := hx
          rw [← hx1] at h10
          cases (ok.uniq _ _ _ _ _ (.reduce h1 h2 (inFollow_iff.2 h3)) (.reduce h10 h11 h12) (hkey h4 h13)).1
          obtain ⟨rfl, _⟩ := List.append_inj' hx1 (by omega)
          have := (ok.after_reads h7).1 h15
          omega
        | underflow h10 =>
          subst hx
          cases hz'.unique ok.uniq h10
      · exact .inl ⟨rfl, .noGotoRow h1 h2 (inFollow_iff.2 h3) h4 h6 ((ok.after_reads h7).2 h9)⟩
    | under h1 h2 h3 h4 h5 =>
      obtain ⟨w', rfl⟩ := hcons hk
      cases hr
      exact .inl ⟨rfl, .underflow (.reduceUnder h1 h2 (inFollow_iff.2 h3) h4 h5)⟩
    | accept h1 h2 h3 h4 =>
      obtain rfl := hnil hk
      cases hr
      exact .inr (.inr ⟨_, rfl, .accept h1 h2 h3 h4⟩)
    | acceptUnder h1 h2 h3 h4 =>
      obtain rfl := hnil hk
      cases hr
      exact .inl ⟨rfl, .underflow (.acceptUnder h1 h2 h3 h4)⟩

/-- The parser panics exactly if the machine gets to a configuration that breaks, and returns an error exactly if it
stops with an error in one that does not. -/
theorem parse_breaks (ok : SlrOk g c entry tbl) (fuel : Nat) (w : List T) :
    (parseTokens tbl fuel w = .panic ↔ ∃ k < fuel, ∃ x, ShiftReduces g k (.start w) x ∧ Breaks g c entry x) ∧
    (parseTokens tbl fuel w = .ok none ↔
      ∃ k < fuel, ∃ x, ShiftReduces g k (.start w) x ∧ Halts g entry x .error ∧ ¬ Breaks g c entry x) := by
  obtain ⟨k, γ, ns, w', h1, ⟨rfl, h2⟩ | ⟨hk, h2⟩⟩ := parseTokens_runs ok (fin := .ok ()) (n := fuel) (w := w)
  · have h1' : ShiftReduces g k (.start w) ⟨γ, ns, w'⟩ := shiftReduces_iff.2 h1
    have hno : ∀ {k' x s}, k' < k → ShiftReduces g k' (.start w) x → ¬ Halts g entry x s := by
      intro k' x s hk' hx hs
      have := (ShiftReduces.stops ok hx hs h1').1
      omega
    rw [h2]
    refine ⟨⟨fun h => (nomatch h), fun ⟨k', hk', x, h3, h4⟩ => ?_⟩,
      ⟨fun h => (nomatch h), fun ⟨k', hk', x, h3, h4, _⟩ => (hno hk' h3 h4).elim⟩⟩
    rcases ok.breaks_halts h4 with h5 | h5
    · exact (hno hk' h3 h5).elim
    · exact (hno hk' h3 h5).elim
  · have h1' : ShiftReduces g k (.start w) ⟨γ, ns, w'⟩ := shiftReduces_iff.2 h1
    have hsame : ∀ {k' x s s'}, Halts g entry ⟨γ, ns, w'⟩ s' → ShiftReduces g k' (.start w) x → Halts g entry x s →
        x = ⟨γ, ns, w'⟩ ∧ s = s' := by
      intro k' x s s' hs' hx hs
      have a1 := ShiftReduces.stops ok h1' hs' hx
      have a2 := ShiftReduces.stops ok hx hs h1'
      have a3 := a1.2 (by omega)
      subst a3
      exact ⟨rfl, hs.unique ok.uniq hs'⟩
    rcases Ends.breaks ok h2 with ⟨h3, h4⟩ | ⟨h3, h4, h5⟩ | ⟨n, h3, h4⟩ <;> rw [h3]
    · refine ⟨⟨fun _ => ⟨k, hk, _, h1', h4⟩, fun _ => rfl⟩, ⟨fun h => (nomatch h), ?_⟩⟩
      rintro ⟨k', hk', x, h5, h6, h7⟩
      rcases ok.breaks_halts h4 with h8 | h8
      · obtain ⟨rfl, _⟩ := hsame h8 h5 h6
        exact absurd h4 h7
      · cases (hsame h8 h5 h6).2
    · refine ⟨⟨fun h => (nomatch h), ?_⟩, ⟨fun _ => ⟨k, hk, _, h1', h4, h5⟩, fun _ => rfl⟩⟩
      rintro ⟨k', hk', x, h6, h7⟩
      rcases ok.breaks_halts h7 with h8 | h8
      · obtain ⟨rfl, _⟩ := hsame h4 h6 h8
        exact absurd h7 h5
      · cases (hsame h4 h6 h8).2
    · refine ⟨⟨fun h => (nomatch h), ?_⟩, ⟨fun h => (nomatch h), ?_⟩⟩
      · rintro ⟨k', hk', x, h6, h7⟩
        rcases ok.breaks_halts h7 with h8 | h8
        · cases (hsame h4 h6 h8).2
        · cases (hsame h4 h6 h8).2
      · rintro ⟨k', hk', x, h6, h7, _⟩
        cases (hsame h4 h6 h7).2

/-- The automaton behind the table is that of `Cfsm::from_grammar`. -/
theorem slrNew_from (wf : WellFormed g) {ord : HashOrder} {fuel : Nat} (h : slrNew g ord fuel = .ok tbl) :
    ∃ c follow, Cfsm.fromGrammar g (ord.sub 0) fuel = .ok c ∧ FollowOk g follow ∧ SlrOk g c (Entry g follow) tbl := by
  have h1 := (slrNew_mono (n' := fuel + tableFuel g) (by omega)).ok h
  obtain ⟨c, follow, hc, _, _, fo, r, h2, _, h3⟩ := slrTable_ok wf ord (fuel := fuel + tableFuel g) (by omega)
  refine ⟨c, follow, ?_, fo, h3 tbl ?_⟩
  · cases hc' : Cfsm.fromGrammar g (ord.sub 0) fuel with
    | ok c' =>
      have := (fromGrammar_mono (n' := fuel + tableFuel g) (by omega)).ok hc'
      rw [hc] at this
      cases this
      rfl
    | panic => simp [slrNew, slrTable, hc'] at h
    | diverge => simp [slrNew, slrTable, hc'] at h
  · simp only [slrNew, h2, Outcome.bind_ok] at h1
    cases r with
    | none => simp at h1
    | some t => simpa using h1

end Pango.Parse
