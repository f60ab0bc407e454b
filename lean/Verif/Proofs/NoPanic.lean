import Verif.Proofs.Complete

/-!
# When the parser does not panic
-/

namespace Pango.Parse

open Pango Pango.Spec

variable {V T : Type} {g : Grammar V T}

theorem not_nullable (wf : WellFormed g) (he : EpsFree g) {α : List (Sym V T)} (hα : α ≠ []) (hn : Sym.eps ∉ α) :
    ¬ Nullable g α := by
  intro h
  induction h with
  | nil => exact hα rfl
  | eps _ _ => exact hn (by simp)
  | var hr _ _ ih1 _ => exact ih1 (wf.nonempty _ _ hr) (he _ _ hr)

/-- A terminal that begins what is behind the cursor is read by some item. -/
theorem viable_starts (wf : WellFormed g) (he : EpsFree g) {t : T} {α : List (Sym V T)} (hs : Starts g t α) :
    ∀ {γ pre : List (Sym V T)} {h : V} {i : Item V T}, Viable g γ (h, i) → i.body = pre ++ α → i.cursor = pre.length →
      ∃ h' i', Viable g γ (h', i') ∧ Reads i' (.term t) := by
  induction hs with
  | term =>
    intro γ pre h i hv h1 h2
    exact ⟨h, i, hv, pre, _, h1, h2⟩
  | eps _ _ =>
    intro γ pre h i hv h1 h2
    exact absurd (by rw [h1]; simp) (he _ _ (Viable_ok hv).rule)
  | inVar hr _ ih =>
    intro γ pre h i hv h1 h2
    exact ih (.expand hv ⟨pre, _, h1, h2⟩ hr (fresh_plain (he _ _ hr))) (pre := []) rfl rfl
  | skip hr hn _ _ => exact absurd hn (not_nullable wf he (wf.nonempty _ _ hr) (he _ _ hr))

variable [DecidableEq V] [DecidableEq T] [TerminalEq T] [LawfulTerminalEq T] {c : Cfsm V T} {entry : Prop}
  {tbl : Table V T}

omit [TerminalEq T] [LawfulTerminalEq T] in
theorem reached_nonempty (wf : WellFormed g) (ok : CfsmOk g c) {γ : List (Sym V T)} {s : CState V T}
    (h : Reached c γ s) : ∃ p, Viable g γ p := by
  cases h with
  | start _ _ =>
    obtain ⟨β, hβ⟩ := wf.start
    exact ⟨_, .start hβ (fresh_iff.2 rfl)⟩
  | @step γ s' s x d h1 h2 h3 h4 =>
    obtain ⟨p, hp, hx⟩ := (ok.read s' (reached_mem h1) x).1 (List.mem_map.2 ⟨_, h2, rfl⟩)
    exact ⟨_, .read ((reached_viable ok h1 p).1 hp) (advanced_iff.2 ⟨hx, rfl⟩)⟩

theorem parse_no_panic (wf : WellFormed g) (ok : SlrOk g c entry tbl) (he : EpsFree g)
    (hfirst : ∀ v β, (v, β) ∈ g.rules → ∃ t, Starts g t [.var v])
    (hfollow : ∀ v β, (v, β) ∈ g.rules → ∃ t, Fol g t v)
    (hvar : ∃ β v, (g.start, β) ∈ g.rules ∧ .var v ∈ β) {n : Nat} {w : List T} {fin : InputEnd}
    (hfin : fin ≠ .panic) : parseTokens tbl n w fin ≠ .panic := by
  intro h
  obtain ⟨k, γ, ns, w', h1, ⟨_, h2⟩ | ⟨_, h2⟩⟩ := parseTokens_runs ok (fin := fin) (n := n) (w := w)
  · rw [h] at h2; cases h2
  rw [h] at h2
  cases h2 with
  | diverge _ _ h3 => cases h3
  | panic _ h3 _ => exact hfin h3
  | @last st s r hst _ hd hr =>
    cases hr
    have hreach := hst.reached
    have hbody : ∀ {γ h i}, Viable g γ (h, i) → Complete i → i.body.length ≤ γ.length := by
      intro γ h i hv hc
      obtain ⟨γ', rfl, _⟩ := viable_complete hv hc (he _ _ (Viable_ok hv).rule)
      simp
    generalize hr : (Outcome.panic : Outcome (Option (Handled V T))) = r at hd
    generalize hk : w'.head? = key at hd
    cases hd with
    | noRow hlen _ =>
      obtain ⟨⟨hd, i⟩, hp⟩ := reached_nonempty wf ok.cfsm hreach
      have hneed : ∃ p t, Needs g entry γ p (some t) := by
        have hrule := (Viable_ok hp).rule
        simp only at hrule
        cases hcur : i.cursorSymbol with
        | none =>
          obtain ⟨t, ht⟩ := hfollow _ _ hrule
          exact ⟨_, t, .reduce hp ((complete_iff (Viable_ok hp)).2 hcur) (inFollow_iff.2 ht)⟩
        | some x =>
          obtain ⟨pre, post, hb, hcu⟩ := reads_iff.2 hcur
          cases x with
          | term t => exact ⟨_, t, .shift hp (reads_iff.2 hcur)⟩
          | eps => exact absurd hcur (Viable_ok hp).noEps
          | var v =>
            obtain ⟨β, hβ⟩ := wf.closed _ _ v hrule (by rw [hb]; simp)
            obtain ⟨t, ht⟩ := hfirst _ _ hβ
            have : Starts g t (.var v :: post) := starts_append.2 (.inl ht : _ ∨ (Nullable g [.var v] ∧ Starts g t post))
            obtain ⟨h', i', h3, h4⟩ := viable_starts wf he this hp hb hcu
            exact ⟨_, t, .shift h3 h4⟩
      obtain ⟨p, t, hn⟩ := hneed
      obtain ⟨hp', a, ha⟩ := (needs_iff ok.cfsm hreach).1 hn
      have := (ok.actionLen s.id).2 ⟨s, reached_mem hreach, Nat.le_refl _, p, hp', _, a, ha⟩
      omega
    | error _ _ => cases hr
    | shift _ _ _ _ => cases hr
    | reduce _ _ _ _ _ _ _ _ _ => cases hr
    | under h3 h4 _ _ h5 =>
      have := hbody h3 h4
      omega
    | acceptUnder h3 h4 _ h5 =>
      have := hbody h3 h4
      omega
    | accept _ _ _ _ => cases hr
    | @noGoto h i t u s' γ' ρ _ h3 h4 h5 h6 h7 h8 h9 h10 h11 =>
      rcases h11 with ⟨rfl, _⟩ | ⟨_, h11⟩
      · cases hr
      · obtain ⟨γ'', h12, h13⟩ := viable_complete h3 h4 (he _ _ (Viable_ok h3).rule)
        rw [h7] at h12
        obtain ⟨rfl, _⟩ := List.append_inj' h12 h8
        rcases h13 with ⟨rfl, _⟩ | ⟨h', i', h13, h14⟩
        · obtain ⟨β, v, hβ, hmem⟩ := hvar
          obtain ⟨pre, post, rfl⟩ := List.append_of_mem hmem
          have he' := he _ _ hβ
          have hv : Viable g [] (g.start, ⟨pre ++ .var v :: post, 0⟩) := .start hβ (fresh_plain he')
          have hv' := viable_run hv he' (α := pre) (pre := []) (post := .var v :: post) (by simp) rfl
          obtain ⟨s1, hs1⟩ := ok.cfsm.exists_reached hv'
          obtain ⟨s2, h15, _⟩ := ok.cfsm.next hs1 hv' (x := .var v) (reads_iff.1 ⟨pre, post, rfl, by simp⟩)
          obtain ⟨s0, h16, h17⟩ := ok.cfsm.reached_start
          have := ok.cfsm.reached_unique h9 h17
          subst this
          have := (ok.gotoLen s'.id).2 ⟨s1, reached_mem hs1, by omega, v, _, h15⟩
          omega
        · exact h10 _ h13 h14

end Pango.Parse
