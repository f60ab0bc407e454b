import Verif.Proofs.Matching
import Verif.Proofs.FragLang
import Verif.Proofs.FragClass
import Verif.Proofs.Runs
import Verif.Spec.RegexPrefix

/-!
# How far the automaton of a pattern can read
-/

namespace Pango.Fsm

open Pango Pango.Regex Pango.Spec Pango.Props

variable [Unicode] {E : Nat → Input → Nat → Prop}

/-- The words that are read on the way through a fragment. -/
def Fr.Pre : Fr → List Char → Prop
  | .eps _ _, w => w = []
  | .lit _ _ l, w => w = [] ∨ ∃ c, w = [c] ∧ l.contains c = true
  | .alt a b, w => a.Pre w ∨ b.Pre w
  | .seq a _ b, w => a.Pre w ∨ ∃ u v, w = u ++ v ∧ a.Lang u ∧ b.Pre v
  | .loop _ _ _ _ body, w =>
    ∃ (ws : List (List Char)) (v : List Char), w = ws.flatten ++ v ∧ (∀ u ∈ ws, body.Lang u) ∧ body.Pre v

theorem Fr.pre_nil (fr : Fr) : fr.Pre [] := by
  induction fr with
  | eps => rfl
  | lit => exact .inl rfl
  | alt a b iha _ => exact .inl iha
  | seq a m b iha _ => exact .inl iha
  | loop s x t q body ih => exact ⟨[], [], rfl, by simp, ih⟩

theorem Fr.pre_of_lang {fr : Fr} : ∀ {w : List Char}, fr.Lang w → fr.Pre w := by
  induction fr with
  | eps => intro w h; exact h
  | lit => intro w h; exact .inr h
  | alt a b iha ihb => intro w h; exact h.imp iha ihb
  | seq a m b iha ihb =>
    rintro w ⟨u, v, rfl, h1, h2⟩
    exact .inr ⟨u, v, rfl, h1, ihb h2⟩
  | loop s x t q body ih =>
    rintro w ⟨ws, rfl, _, h⟩
    exact ⟨ws, [], by simp, h, body.pre_nil⟩

/-- A path that enters a fragment goes through it or reads part of it. -/
theorem Fr.enter {fr : Fr} : ∀ {s t : Nat} {κ κ0 κ' : Counts} {n d p' : Nat} {u w : List Char},
    fr.Ok s t → fr.Closed E → CStep fr.Edge s κ u d κ0 → Path E n d κ0 w p' κ' →
    (∀ h ∈ fr.heads, κ h = 0) →
    fr.Pre (u ++ w) ∨
    ∃ n2 κ1 w1 w2, u ++ w = w1 ++ w2 ∧ n2 ≤ n ∧ fr.Lang w1 ∧ Path E n2 t κ1 w2 p' κ' ∧
      κ1 s = κ s + 1 ∧ (∀ h ∈ fr.heads, κ1 h = 0) ∧ ∀ y, y ≠ s → y ∉ fr.inner → κ1 y = κ y := by
  induction fr with
  | eps s' t' =>
    intro s t κ κ0 κ' n d p' u w ok cl hs hp hz
    obtain ⟨rfl, rfl⟩ := ok.shape
    right
    cases hs with
    | eps h =>
      obtain ⟨_, _, rfl⟩ := h
      exact ⟨n, _, [], w, rfl, Nat.le_refl _, rfl, hp, κ.bump_self _, by simp [heads],
        fun y hy _ => κ.bump_ne hy⟩
    | quant h _ => cases h.2.1
    | char h _ => cases h.2.1
  | lit s' t' l =>
    intro s t κ κ0 κ' n d p' u w ok cl hs hp hz
    obtain ⟨rfl, rfl⟩ := ok.shape
    right
    cases hs with
    | eps h => cases h.2.1
    | quant h _ => cases h.2.1
    | @char _ _ l' c h hc =>
      obtain ⟨_, h2, rfl⟩ := h
      cases h2
      exact ⟨n, _, [c], w, rfl, Nat.le_refl _, ⟨c, rfl, hc⟩, hp, κ.bump_self _, by simp [heads],
        fun y hy _ => κ.bump_ne hy⟩
  | alt a b iha ihb =>
    intro s t κ κ0 κ' n d p' u w ok cl hs hp hz
    simp only [heads, inner, List.mem_append, not_or] at hz ⊢
    rcases hs.or (G := a.Edge) (H := b.Edge) (fun i y h => h) with hs | hs
    · rcases iha ok.alt_left (cl.alt_left ok) hs hp (fun h hh => hz h (.inl hh)) with
        hpre | ⟨n2, κ1, w1, w2, e, hn, hl, hp2, h2, h3, h4⟩
      · exact .inl (.inl hpre)
      refine .inr ⟨n2, κ1, w1, w2, e, hn, .inl hl, hp2, h2, ?_, fun y hy hn => h4 y hy hn.1⟩
      rintro h (hh | hh)
      · exact h3 h hh
      · have hb := heads_inner hh
        rw [h4 h ?_ ?_]
        · exact hz h (.inr hh)
        · rintro rfl; exact ok.alt_right.s_out hb
        · exact fun ha => ok.alt_disjoint ha hb
    · rcases ihb ok.alt_right (cl.alt_right ok) hs hp (fun h hh => hz h (.inr hh)) with
        hpre | ⟨n2, κ1, w1, w2, e, hn, hl, hp2, h2, h3, h4⟩
      · exact .inl (.inr hpre)
      refine .inr ⟨n2, κ1, w1, w2, e, hn, .inr hl, hp2, h2, ?_, fun y hy hn => h4 y hy hn.2⟩
      rintro h (hh | hh)
      · have ha := heads_inner hh
        rw [h4 h ?_ ?_]
        · exact hz h (.inl hh)
        · rintro rfl; exact ok.alt_left.s_out ha
        · exact ok.alt_disjoint ha
      · exact h3 h hh
  | seq a m b iha ihb =>
    intro s t κ κ0 κ' n d p' u w ok cl hs hp hz
    simp only [heads, inner, List.mem_append, List.mem_cons, not_or] at hz ⊢
    have s_out : s ≠ m ∧ s ∉ a.inner ∧ s ∉ b.inner := by
      have := ok.s_out
      simpa only [inner, List.mem_append, List.mem_cons, not_or] using this
    have hs : CStep a.Edge s κ u d κ0 := hs.restrict (by
      rintro i y (h | h)
      · exact h
      · rcases edge_source ok.seq_right.shape h with h' | h'
        · exact absurd h' s_out.1
        · exact absurd h' s_out.2.2)
    rcases iha ok.seq_left (cl.seq_left ok) hs hp (fun h hh => hz h (.inl hh)) with
      hpre | ⟨n2, κ1, w1, w2, e, hn, hl, hp2, h2, h3, h4⟩
    · exact .inl (.inl hpre)
    have hzb : ∀ h ∈ b.heads, κ1 h = 0 := by
      intro h hh
      have hb := heads_inner hh
      rw [h4 h ?_ ?_]
      · exact hz h (.inr hh)
      · rintro rfl; exact s_out.2.2 hb
      · exact fun ha => ok.seq_disjoint ha hb
    cases hp2 with
    | refl => exact .inl (.inr ⟨w1, [], e, hl, b.pre_nil⟩)
    | @cons n3 _ d1 _ _ κ2 _ u1 v1 hs1 hp3 =>
      have hs1 : CStep b.Edge m κ1 u1 d1 κ2 := hs1.restrict (fun i y h => cl.seq_mid ok h)
      rcases ihb ok.seq_right (cl.seq_right ok) hs1 hp3 hzb with
        hpre | ⟨n4, κ3, x1, x2, e', hn', hl', hp4, g2, g3, g4⟩
      · exact .inl (.inr ⟨w1, u1 ++ v1, e, hl, hpre⟩)
      refine .inr ⟨n4, κ3, w1 ++ x1, x2, by rw [e, e', List.append_assoc], by omega,
        ⟨w1, x1, rfl, hl, hl'⟩, hp4, ?_, ?_, ?_⟩
      · rw [g4 s s_out.1 s_out.2.2, h2]
      · rintro h (hh | hh)
        · have ha := heads_inner hh
          rw [g4 h ?_ ?_]
          · exact h3 h hh
          · rintro rfl; exact ok.seq_left.t_out ha
          · exact ok.seq_disjoint ha
        · exact g3 h hh
      · intro y hy hn
        rw [g4 y hn.1 hn.2.2, h4 y hy hn.2.1]
  | loop s' x t' q body ih =>
    intro s t κ κ0 κ' n d p' u w ok cl hs hp hz
    obtain ⟨rfl, rfl, sx, tx, sb, tb⟩ := ok.loop_ends
    simp only [heads, inner, List.mem_cons, not_or] at hz ⊢
    -- from the head
    have key : ∀ (k n : Nat), n ≤ k → ∀ (κ : Counts) (w : List Char), Path E n x κ w p' κ' →
        (∀ h ∈ body.heads, κ h = 0) →
        (∃ (ws : List (List Char)) (v : List Char), w = ws.flatten ++ v ∧ (∀ u ∈ ws, body.Lang u) ∧
          body.Pre v) ∨
        ∃ n2 κ1 w2, ∃ ws : List (List Char), w = ws.flatten ++ w2 ∧ n2 ≤ n ∧
          (∀ u ∈ ws, body.Lang u) ∧ q.isSatisfied (κ x + ws.length) = true ∧ Path E n2 t' κ1 w2 p' κ' ∧
          κ1 x = 0 ∧ (∀ h ∈ body.heads, κ1 h = 0) ∧ ∀ y, y ≠ x → y ∉ body.inner → κ1 y = κ y := by
      intro k
      induction k with
      | zero =>
        intro n hn κ w hp hz
        obtain rfl : n = 0 := by omega
        cases hp
        exact .inl ⟨[], [], rfl, by simp, body.pre_nil⟩
      | succ k ihk =>
        intro n hn κ w hp hz
        cases hp with
        | refl => exact .inl ⟨[], [], rfl, by simp, body.pre_nil⟩
        | @cons n1 _ d1 _ _ κ1 _ u1 v1 hs1 hp1 =>
          have hexit : CStep (fun _ i y => i = .quantified q ∧ y = t') x κ u1 d1 κ1 ∨
              CStep body.Edge x κ u1 d1 κ1 := hs1.or (fun i y h => cl.loop_head ok h)
          rcases hexit with h | h
          · cases h with
            | eps h => cases h.1
            | char h _ => cases h.1
            | @quant _ _ q' h hq =>
              obtain ⟨h1, rfl⟩ := h
              cases h1
              refine .inr ⟨n1, _, v1, [], rfl, by omega, by simp, by simpa using hq, hp1,
                κ.reset_self _, ?_, ?_⟩
              · intro h hh
                rw [κ.reset_ne (by rintro rfl; exact ok.loop_body.s_out (heads_inner hh))]
                exact hz h hh
              · intro y hy _
                exact κ.reset_ne hy
          · rcases ih ok.loop_body (cl.loop_body ok) h hp1 hz with
              hpre | ⟨n2, κ2, w1, w2, e, hn2, hl, hp2, h2, h3, h4⟩
            · exact .inl ⟨[], u1 ++ v1, rfl, by simp, hpre⟩
            rcases ihk n2 (by omega) κ2 w2 hp2 h3 with
              ⟨ws, v, e', hl', hpre⟩ | ⟨n3, κ3, w3, ws, e', hn3, hl', hq, hp3, g2, g3, g4⟩
            · refine .inl ⟨w1 :: ws, v, by rw [e, e']; simp, ?_, hpre⟩
              intro u hu
              rcases List.mem_cons.1 hu with rfl | hu
              · exact hl
              · exact hl' u hu
            refine .inr ⟨n3, κ3, w3, w1 :: ws, by rw [e, e']; simp, by omega, ?_, ?_, hp3, g2, g3,
              fun y hy hn => by rw [g4 y hy hn, h4 y hy hn]⟩
            · intro u hu
              rcases List.mem_cons.1 hu with rfl | hu
              · exact hl
              · exact hl' u hu
            · rw [List.length_cons, ← Nat.add_assoc, Nat.add_right_comm, ← h2]
              exact hq
    have hfirst : CStep (fun _ i y => i = .eps ∧ y = x) s' κ u d κ0 := hs.restrict (by
      rintro i y (h | h | h)
      · exact h.2
      · exact absurd h.1 sx
      · rcases edge_source ok.loop_body.shape h with h' | h'
        · exact absurd h' sx
        · exact absurd h' sb)
    cases hfirst with
    | quant h _ => cases h.1
    | char h _ => cases h.1
    | eps h =>
      obtain ⟨_, rfl⟩ := h
      rcases key n n (Nat.le_refl _) _ w hp (by
        intro h hh
        rw [κ.bump_ne (by rintro rfl; exact sb (heads_inner hh))]
        exact hz h (.inr hh)) with
        ⟨ws, v, e, hl, hpre⟩ | ⟨n2, κ1, w2, ws, e, hn, hl, hq, hp2, h2, h3, h4⟩
      · exact .inl ⟨ws, v, by simpa using e, hl, hpre⟩
      have hx0 : κ.bump s' d = 0 := by rw [κ.bump_ne (Ne.symm sx)]; exact hz d (.inl rfl)
      rw [hx0, Nat.zero_add] at hq
      refine .inr ⟨n2, κ1, ws.flatten, w2, by simpa using e, hn, ⟨ws, rfl, hq, hl⟩, hp2, ?_, ?_, ?_⟩
      · rw [h4 s' sx sb, κ.bump_self]
      · rintro h (rfl | hh)
        · exact h2
        · exact h3 h hh
      · intro y hy hn
        rw [h4 y hn.1 hn.2, κ.bump_ne hy]

mutual

theorem frag_pre (e : Expr) (he : ¬ HasEmptySeq e) (s t n : Nat) (w : List Char)
    (h : (frag e s t n).1.Pre w) : MayRead e w := by
  match e with
  | .concat es =>
    simp only [HasEmptySeq, not_or] at he
    rw [frag] at h
    exact fragConcat_pre es he.1 he.2 s t n w h
  | .empty =>
    rw [frag] at h
    simp only [Fr.Pre] at h
    rw [h]
    exact .nothing
  | .alt l r =>
    simp only [HasEmptySeq, not_or] at he
    rw [frag] at h
    rcases h with h | h
    · exact .altL (frag_pre l he.1 _ _ _ w h)
    · exact .altR (frag_pre r he.2 _ _ _ w h)
  | .lit l none =>
    rw [frag] at h
    rcases h with rfl | ⟨c, rfl, hc⟩
    · exact .nothing
    · exact .char ((c08_literal_sets l c).1 hc)
  | .lit l (some q) =>
    rw [frag] at h
    obtain ⟨ws, v, rfl, h1, h2⟩ := h
    refine .chars ?_
    intro c hc
    rcases List.mem_append.1 hc with hc | hc
    · obtain ⟨u, hu, hc⟩ := List.mem_flatten.1 hc
      obtain ⟨d, rfl, hd⟩ := h1 u hu
      rw [List.mem_singleton.1 hc]
      exact (c08_literal_sets l d).1 hd
    · rcases h2 with rfl | ⟨d, rfl, hd⟩
      · cases hc
      · rw [List.mem_singleton.1 hc]
        exact (c08_literal_sets l d).1 hd
  | .group e none =>
    simp only [HasEmptySeq] at he
    rw [frag] at h
    exact .once (frag_pre e he _ _ _ w h)
  | .group e (some q) =>
    simp only [HasEmptySeq] at he
    rw [frag] at h
    obtain ⟨ws, v, rfl, h1, h2⟩ := h
    exact .times (fun u hu => (frag_lang e he _ _ _ u).1 (h1 u hu)) (frag_pre e he _ _ _ v h2)

theorem fragConcat_pre (es : List Expr) (hne : es ≠ []) (he : ¬ AnyEmptySeq es) (s t n : Nat)
    (w : List Char) (h : (fragConcat es s t n).1.Pre w) : MayRead (.concat es) w := by
  match es with
  | [] => exact absurd rfl hne
  | [e] =>
    simp only [AnyEmptySeq, or_false] at he
    rw [fragConcat] at h
    exact .here (frag_pre e he _ _ _ w h)
  | e :: e' :: es =>
    rw [AnyEmptySeq, not_or] at he
    rw [fragConcat.eq_3 _ _ _ _ _ (by simp)] at h
    rcases h with h | ⟨u, v, rfl, h1, h2⟩
    · exact .here (frag_pre e he.1 _ _ _ w h)
    · exact .later ((frag_lang e he.1 _ _ _ u).1 h1)
        (fragConcat_pre (e' :: es) (by simp) he.2 _ _ _ v h2)

end

/-! ## Runs as paths -/

variable {nfa : Nfa} {rs : List (Fr × Nat)}

theorem ER.path (w : Wf nfa) {r s : Run} (hl : r.state < nfa.states.length) (h : ER nfa r s)
    (hr : r.counters.Sorted) :
    s.counters.Sorted ∧ ∃ n, Path nfa.HasEdge n r.state r.counts [] s.state s.counts := by
  obtain ⟨n, hk⟩ := reaches_iff_kreach.1 ((reaches_iff_ER w hl).2 h)
  obtain ⟨h1, h2⟩ := hk.path w hr
  exact ⟨h1, n, h2⟩

theorem RunsAt.path (w : Wf nfa) {v : List Char} {r : Run} (h : RunsAt nfa v r) : r.counters.Sorted ∧
    ∃ x, SReach nfa.HasEdge nfa.start x ∧ CharPath nfa.HasEdge x (fun _ => 0) v r.state r.counts := by
  induction h with
  | init h => exact ⟨.nil, _, h, .refl _ _⟩
  | @snoc v c r s t hr hs ht ih =>
    obtain ⟨hso, x, hx, hp⟩ := ih
    obtain ⟨i, he⟩ := hs.edge
    have hlt := (w.edge_lt he).2
    cases hs with
    | @mk l d hl hc =>
      obtain ⟨k1, k2, k3⟩ := r.take_eps hso d
      obtain ⟨h1, n, h2⟩ := ht.path w hlt k2
      refine ⟨h1, x, hx, hp.snoc ?_ h2⟩
      rw [k3]
      exact .char hl hc

/-- What the automaton of several patterns can read is what one of them can read. -/
theorem Bundle.mayRead (b : Bundle nfa rs) (ho : ∀ r ∈ rs, r.1.HeadOk) {w : List Char} {r : Run}
    (h : RunsAt nfa w r) : w = [] ∨ ∃ r ∈ rs, r.1.Pre w := by
  obtain ⟨_, x, hx, hp⟩ := h.path b.wf
  rw [b.start] at hx
  obtain ⟨n, κ', hp⟩ := (start_paths (b.startOk ho) w).1 ⟨x, _, hx, hp⟩
  generalize hs' : r.state = s' at hp
  generalize hz : (0 : Nat) = z at hp
  cases hp with
  | refl => exact .inl rfl
  | @cons n _ d _ _ κ1 _ u w hs hp =>
    subst hz
    right
    obtain ⟨r', hr', hs'⟩ : ∃ r' ∈ rs, CStep r'.1.Edge 0 (fun _ => 0) u d κ1 := by
      cases hs with
      | eps h => obtain ⟨r', hr', h⟩ := (b.edges _ _ _).1 h; exact ⟨r', hr', .eps h⟩
      | quant h hq => obtain ⟨r', hr', h⟩ := (b.edges _ _ _).1 h; exact ⟨r', hr', .quant h hq⟩
      | char h hc => obtain ⟨r', hr', h⟩ := (b.edges _ _ _).1 h; exact ⟨r', hr', .char h hc⟩
    refine ⟨r', hr', ?_⟩
    rcases Fr.enter (b.ok hr') (b.closed hr') hs' hp (fun _ _ => rfl) with
      h | ⟨n2, κ2, w1, w2, e, _, hl, hp2, _⟩
    · exact h
    · generalize hp' : r'.2 = p2 at hp2
      cases hp2 with
      | refl => rw [e, List.append_nil]; exact Fr.pre_of_lang hl
      | cons hs _ =>
        subst hp'
        obtain ⟨i, h⟩ := hs.edge
        exact absurd h (b.final_no_edge hr')

end Pango.Fsm
