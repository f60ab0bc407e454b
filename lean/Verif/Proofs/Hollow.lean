import Verif.Proofs.Complete

/-!
# Empty variables

A node that the parser makes has children, so a tree with an empty variable is not returned for a sentence that has tokens.
-/

namespace Pango.Parse

open Pango Pango.Spec

variable {V T : Type} [TerminalEq T] {g : Grammar V T}

theorem forest_front {α : List (Sym V T)} {ns : List (Node V T)} {w : List T} (h : Forest g α ns w) :
    (w = [] → Nullable g α) ∧ ∀ u r, w = u :: r → ∃ t, teq t u = true ∧ Starts g t α := by
  induction h with
  | nil => exact ⟨fun _ => .nil, fun _ _ h => nomatch h⟩
  | eps _ ih =>
    refine ⟨fun h => .eps (ih.1 h), fun u r h => ?_⟩
    obtain ⟨t, h1, h2⟩ := ih.2 u r h
    exact ⟨t, h1, .eps h2⟩
  | term ht _ _ =>
    refine ⟨(nomatch ·), fun u r h => ?_⟩
    cases h
    exact ⟨_, ht, .term⟩
  | @var v β α cs ns x w hr _ _ ih1 ih2 =>
    cases x with
    | nil =>
      refine ⟨fun h => .var hr (ih1.1 rfl) (ih2.1 h), fun u r h => ?_⟩
      obtain ⟨t, h1, h2⟩ := ih2.2 u r h
      exact ⟨t, h1, .skip hr (ih1.1 rfl) h2⟩
    | cons u x =>
      refine ⟨(nomatch ·), fun u' r h => ?_⟩
      cases h
      obtain ⟨t, h1, h2⟩ := ih1.2 u x rfl
      exact ⟨t, h1, .inVar hr h2⟩

/-- The nodes that the parser makes have children. -/
theorem Move.full {x y : Conf V T} (wf : WellFormed g) (h : Move g x y)
    (hx : x.nodes.length = x.syms.length ∧ ∀ n ∈ x.nodes, ¬ HasEmpty n) :
    y.nodes.length = y.syms.length ∧ ∀ n ∈ y.nodes, ¬ HasEmpty n := by
  obtain ⟨hl, hx⟩ := hx
  cases h with
  | @shift γ ns hd i t u w h1 h2 h3 =>
    refine ⟨by simpa using hl, fun n hn hh => ?_⟩
    rcases List.mem_cons.1 hn with rfl | hn
    · cases hh with
      | child hm _ => cases hm
    · exact hx n hn hh
  | @reduce γ ρ ns hd i t u w q h1 h2 h3 h4 h5 h6 h7 =>
    simp only [List.length_append] at hl
    refine ⟨by simp; omega, fun n hn hh => ?_⟩
    rcases List.mem_cons.1 hn with rfl | hn
    · have hne : i.body.length ≠ 0 := by
        simpa using wf.nonempty _ _ (Viable_ok h1).rule
      generalize hcs : ns.take i.body.length = cs at hh
      cases hh with
      | here =>
        have := congrArg List.length hcs
        simp only [List.length_take, List.length_nil] at this
        omega
      | child hm h => exact hx _ (List.mem_of_mem_take (hcs ▸ hm)) h
    · exact hx n (List.mem_of_mem_drop hn) hh

theorem Moves.full {k : Nat} {x y : Conf V T} (wf : WellFormed g) (h : Moves g k x y)
    (hx : x.nodes.length = x.syms.length ∧ ∀ n ∈ x.nodes, ¬ HasEmpty n) :
    y.nodes.length = y.syms.length ∧ ∀ n ∈ y.nodes, ¬ HasEmpty n := by
  induction h with
  | refl => exact hx
  | step h1 _ ih => exact ih (h1.full wf hx)

/-- A forest that begins with an empty variable. -/
theorem forest_hollow {α : List (Sym V T)} {v : V} {ms : List (Node V T)} {w : List T}
    (h : Forest g α (.mk (.var v) [] :: ms) w) :
    ∃ pre rest β, α = pre ++ .var v :: rest ∧ (v, β) ∈ g.rules ∧ Forest g β [] [] ∧ Forest g rest ms w := by
  generalize hns : Node.mk (.var v) [] :: ms = ns at h
  induction h with
  | nil => cases hns
  | eps _ ih =>
    obtain ⟨pre, rest, β, rfl, h1, h2, h3⟩ := ih hns
    exact ⟨.eps :: pre, rest, β, rfl, h1, h2, h3⟩
  | term _ _ _ => cases hns
  | @var v' β α cs ns x w hr hc h2 _ _ =>
    simp only [List.cons.injEq, Node.mk.injEq, Sym.var.injEq] at hns
    obtain ⟨⟨rfl, hcs⟩, rfl⟩ := hns
    obtain rfl : cs = [] := by simpa using hcs.symm
    have hx : x = [] := by simpa [tokensAll] using (forest_tokens hc).symm
    subst hx
    exact ⟨[], α, β, rfl, hr, hc, h2⟩

/-- A body of which nothing is left consists of epsilons. -/
theorem forest_nil {β : List (Sym V T)} (h : Forest g β [] []) : ∀ x ∈ β, x = .eps := by
  generalize hns : ([] : List (Node V T)) = ns at h
  generalize hw : ([] : List T) = w at h
  induction h with
  | nil => exact fun _ h => nomatch h
  | eps _ ih =>
    intro x hx
    rcases List.mem_cons.1 hx with rfl | hx
    · rfl
    · exact ih hns hw x hx
  | term _ _ _ => cases hns
  | var _ _ _ _ _ => cases hns

theorem leading_all {β : Body V T} (h : ∀ x ∈ β, x = .eps) : leadingEpsilons β = β.length := by
  induction β with
  | nil => rfl
  | cons x β ih =>
    obtain rfl := h x (by simp)
    rw [leadingEpsilons, ih fun y hy => h y (by simp [hy]), List.length_cons]

variable [DecidableEq V] [DecidableEq T] [LawfulTerminalEq T]

/-- A parse tree with an empty variable is not returned, if it has tokens. -/
theorem parse_hollow {c : Cfsm V T} {follow : List (V × List (Sym V T))} {tbl : Table V T} (wf : WellFormed g)
    (ok : SlrOk g c (Entry g follow) tbl)
    (huniq : ∀ γ p p' k k', Needs g (Entry g follow) γ p k → Needs g (Entry g follow) γ p' k' → keyEq k k' = true →
      p = p' ∧ k = k') {fin : InputEnd} {n : Nat} {u : T} {w : List T} {r : Node V T}
    (ht : ParseTree g r (u :: w)) (he : HasEmpty r) : parseTokens tbl n (u :: w) fin ≠ .ok (some r) := by
  intro h
  obtain ⟨k, γ, ns, i, hm, _, hv, hc, _, hle, hlen, rfl⟩ := parseTokens_some ok h
  obtain ⟨_, hfull⟩ := hm.full wf ⟨rfl, fun _ h => nomatch h⟩
  simp only at hfull
  by_cases hall : i.body.length ≤ ns.length
  · rw [List.take_append_of_le_length hall] at he
    have hne : i.body.length ≠ 0 := by simpa using wf.nonempty _ _ (Viable_ok hv).rule
    generalize hcs : ns.take i.body.length = cs at he
    cases he with
    | here =>
      have := congrArg List.length hcs
      simp only [List.length_take, List.length_nil] at this
      omega
    | child hm h => exact hfull _ (List.mem_of_mem_take (hcs ▸ hm)) h
  · rw [List.take_of_length_le (by simp; omega)] at ht
    obtain ⟨β, cs, hr, h1, h2⟩ := parseTree_iff.1 ht
    obtain rfl : cs = bottomNode g :: ns.reverse := by
      have := congrArg (fun n => match n with | .mk _ cs => List.reverse cs) h1
      simpa using this.symm
    obtain ⟨pre, rest, β0, rfl, hr0, h3, h4⟩ := forest_hollow h2
    obtain ⟨t, h5, h6⟩ := (forest_front h4).2 u w rfl
    have hfol : Fol g t g.start := .here hr h6
    have hneed : Needs g (Entry g follow) [] (g.start, Item.ofBody β0) (some t) :=
      .reduce (.start hr0 (fresh_iff.2 rfl)) (leading_all (forest_nil h3)) (inFollow_iff.2 hfol)
    generalize hx : (⟨[], [], u :: w⟩ : Conf V T) = x at hm
    cases hm with
    | refl => cases hx
    | step hmove _ =>
      cases hmove with
      | @shift γ ns hd j t' u' w' g1 g2 g3 =>
        cases hx
        obtain ⟨hp, _⟩ := huniq _ _ _ _ _ hneed (.shift g1 g2) (LawfulTerminalEq.trans _ _ _ h5 (LawfulTerminalEq.symm _ _ g3))
        cases hp
        have g4 := reads_iff.1 g2
        have g5 := (complete_iff (Viable_ok g1)).1 (leading_all (forest_nil h3))
        simp only at g5
        rw [g5] at g4
        cases g4
      | @reduce γ ρ ns hd j t' u' w' q g1 g2 g3 g4 g5 g6 g7 =>
        simp only [Conf.mk.injEq] at hx
        have h0 : γ ++ ρ = [] := hx.1.symm
        obtain ⟨rfl, rfl⟩ := List.append_eq_nil_iff.1 h0
        exact wf.nonempty _ _ (Viable_ok g1).rule (List.length_eq_zero_iff.1 g5.symm)

end Pango.Parse
