import Verif.Proofs.Sound

/-!
# What the parser returns depends on the grammar and the input only
-/

namespace Pango.Parse

open Pango Pango.Spec

variable {V T : Type} [TerminalEq T] {g : Grammar V T}

/-- What is returned where no step is possible. -/
inductive Verdict (g : Grammar V T) (entry : Prop) (b : Node V T) (γ : List (Sym V T)) (ns : List (Node V T)) :
    Option T → Option (Node V T) → Prop
  | error {k : Option T} : (∀ p k', Needs g entry γ p k' → keyEq k' k = false) → Verdict g entry b γ ns k none
  | noGoto {h : V} {i : Item V T} {t u : T} {γ' ρ : List (Sym V T)} : Viable g γ (h, i) → Complete i → Fol g t h →
      teq t u = true → γ = γ' ++ ρ → ρ.length = i.body.length → (∀ q, Viable g γ' q → ¬ Reads q.2 (.var h)) →
      Verdict g entry b γ ns (some u) none
  | accept {i : Item V T} : Viable g γ (g.start, i) → Complete i → entry →
      Verdict g entry b γ ns none (some (.mk (.var g.start) ((ns ++ [b]).take i.body.length)))

variable [DecidableEq V] [DecidableEq T] {c : Cfsm V T} {entry : Prop} {tbl : Table V T} {b : Node V T}
  {fin : InputEnd} {γ : List (Sym V T)} {ns : List (Node V T)} {w : List T}

theorem Ends.verdict {r : Option (Node V T)} (h : Ends g c entry tbl b fin γ ns w (.ok r)) :
    Verdict g entry b γ ns w.head? r ∧ (w = [] → fin = .ok ()) := by
  cases h with
  | panic _ _ h => cases h
  | diverge _ _ h => cases h
  | last _ hfin hd hr =>
    refine ⟨?_, hfin⟩
    generalize hk : w.head? = key at hd
    cases hr with
    | error =>
      generalize hr : (Outcome.ok none : Outcome (Option (Handled V T))) = r at hd
      cases hd with
      | error _ h => exact .error h
      | noGoto h1 h2 h3 h4 h5 h6 _ h7 _ => exact .noGoto h1 h2 h3 h4 h5 h6 h7
      | noRow _ _ => cases hr
      | shift _ _ _ _ => cases hr
      | reduce _ _ _ _ _ _ _ _ _ => cases hr
      | under _ _ _ _ _ => cases hr
      | acceptUnder _ _ _ _ => cases hr
      | accept _ _ _ _ => cases hr
    | accept =>
      cases hd with
      | accept h1 h2 h3 _ => exact .accept h1 h2 h3
      | noGoto _ _ _ _ _ _ _ _ h =>
        rcases h with ⟨h, _⟩ | ⟨h, _⟩ <;> cases h

variable [LawfulTerminalEq T]

/-- Where no step is possible, the result is determined. -/
theorem Verdict.unique (ok : SlrOk g c entry tbl) {k : Option T} {r r' : Option (Node V T)}
    (h : Verdict g entry b γ ns k r) (h' : Verdict g entry b γ ns k r') : r = r' := by
  generalize hk : k = k1 at h
  cases h with
  | error h =>
    cases h' with
    | error _ => rfl
    | noGoto _ _ _ _ _ _ _ => rfl
    | accept h1 h2 h3 =>
      have := h _ _ (.accept h1 h2 h3)
      subst hk
      simp [keyEq] at this
  | noGoto _ _ _ _ _ _ _ =>
    cases h' with
    | error _ => rfl
    | noGoto _ _ _ _ _ _ _ => rfl
    | accept _ _ _ => cases hk
  | accept h1 h2 h3 =>
    cases h' with
    | noGoto _ _ _ _ _ _ _ => cases hk
    | error h =>
      have := h _ _ (.accept h1 h2 h3)
      subst hk
      simp [keyEq] at this
    | accept h4 h5 h6 =>
      cases (ok.needs_unique (.accept h1 h2 h3) (.accept h4 h5 h6) rfl).1
      rfl

omit [DecidableEq V] [DecidableEq T] in
/-- A step contradicts a verdict. -/
theorem Verdict.stuck (huniq : ∀ {γ : List (Sym V T)} {p p' : V × Item V T} {k k' : Option T}, Needs g entry γ p k →
      Needs g entry γ p' k' → keyEq k k' = true → p = p' ∧ k = k') {r : Option (Node V T)}
    (h : Verdict g entry b γ ns w.head? r) {y : Conf V T} : ¬ Move g ⟨γ, ns, w⟩ y := by
  intro hm
  have hkey : ∀ {t t' u : T}, teq t u = true → teq t' u = true → keyEq (some t) (some t') = true :=
    fun h1 h2 => LawfulTerminalEq.trans _ _ _ h1 (LawfulTerminalEq.symm _ _ h2)
  generalize hx : (⟨γ, ns, w⟩ : Conf V T) = x at hm
  generalize hk : w.head? = key at h
  cases hm with
  | @shift _ _ _ _ t u _ h1 h2 h3 =>
    cases hx
    cases h with
    | error h =>
      have := h _ _ (.shift h1 h2)
      rw [← hk] at this
      simp only [List.head?_cons, keyEq, h3] at this
      cases this
    | noGoto h4 h5 h6 h7 _ _ _ =>
      simp only [List.head?_cons, Option.some.injEq] at hk
      subst hk
      cases (huniq (.shift h1 h2) (.reduce h4 h5 (inFollow_iff.2 h6)) (hkey h3 h7)).1
      exact reads_not_complete h2 h5
    | accept _ _ _ => cases hk
  | @reduce γ' ρ _ hd i t u _ q h1 h2 h3 h4 h5 h6 h7 =>
    cases hx
    cases h with
    | error h =>
      have := h _ _ (.reduce h1 h2 (inFollow_iff.2 h3))
      rw [← hk] at this
      simp only [List.head?_cons, keyEq, h4] at this
      cases this
    | noGoto h8 h9 h10 h11 h12 h13 h14 =>
      simp only [List.head?_cons, Option.some.injEq] at hk
      subst hk
      cases (huniq (.reduce h1 h2 (inFollow_iff.2 h3)) (.reduce h8 h9 (inFollow_iff.2 h10)) (hkey h4 h11)).1
      obtain ⟨rfl, _⟩ := List.append_inj' h12 (by omega)
      exact h14 _ h6 h7
    | accept _ _ _ => cases hk

/-- Two tables of a grammar give the same result, unless one panics. -/
theorem parse_agree {c' : Cfsm V T} {tbl' : Table V T} (ok : SlrOk g c entry tbl) (ok' : SlrOk g c' entry tbl')
    {n : Nat} {r : Option (Node V T)} (h : parseTokens tbl n w fin = .ok r) :
    parseTokens tbl' n w fin = .ok r ∨ parseTokens tbl' n w fin = .panic := by
  obtain ⟨k, γ, ns, w', h1, ⟨_, h2⟩ | ⟨hk, h2⟩⟩ := parseTokens_runs ok (fin := fin) (n := n) (w := w)
  · rw [h] at h2; cases h2
  rw [h] at h2
  obtain ⟨hv, hfin⟩ := h2.verdict
  obtain ⟨st, s, h3, h4⟩ := parseTokens_moves ok' (fin := fin) h1
  obtain ⟨m, rfl⟩ := Nat.exists_eq_add_of_lt hk
  have h5 := h4 (m + 1)
  rw [show k + m + 1 = m + 1 + k by omega, h5]
  obtain ⟨k', γ', ns', w'', h6, h7⟩ := parseLoop_runs ok' (fin := fin) (n := m + 1) (w := w') h3
  have hstop : k' = 0 ∧ γ' = γ ∧ ns' = ns ∧ w'' = w' := by
    generalize hy : (⟨γ', ns', w''⟩ : Conf V T) = y at h6
    cases h6 with
    | refl =>
      cases hy
      exact ⟨rfl, rfl, rfl, rfl⟩
    | step hm _ => exact absurd hm (hv.stuck (fun a b c => ok.needs_unique a b c))
  obtain ⟨rfl, rfl, rfl, rfl⟩ := hstop
  rcases h7 with ⟨h7, _⟩ | ⟨_, h7⟩
  · omega
  revert h7
  generalize parseLoop tbl' fin (m + 1) w'' st s.id = res
  intro h7
  cases res with
  | ok r' => rw [hv.unique ok h7.verdict.1]; exact .inl rfl
  | panic => exact .inr rfl
  | diverge =>
    exfalso
    cases h7 with
    | panic _ _ h => cases h
    | diverge hw hf _ => rw [hfin hw] at hf; cases hf
    | last _ _ _ hr => cases hr

end Pango.Parse
