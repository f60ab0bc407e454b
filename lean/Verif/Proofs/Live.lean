import Verif.Proofs.Spin
import Verif.Proofs.Prefix
import Verif.Spec.RegexReach

/-!
# What the automaton can read
-/

namespace Pango.Fsm

open Pango Pango.Regex Pango.Spec Pango.Props

variable [Unicode] {E : Nat → Input → Nat → Prop}

/-- The words that are read on the way through a fragment from the closure of its first state. -/
def Fr.FirstPre : Fr → List Char → Prop
  | .eps _ _, _ => False
  | .lit _ _ l, w => ∃ c, w = [c] ∧ l.contains c = true
  | .alt a b, w => a.FirstPre w ∨ b.FirstPre w
  | .seq a _ b, w => a.FirstPre w ∨ (∃ fl u v, w = u ++ v ∧ a.First fl u ∧ b.Pre v) ∨
      (a.Nul ∧ b.FirstPre w)
  | .loop _ _ _ _ body, w => body.FirstPre w ∨
      ∃ (fl : Bool) (u : List Char) (ws : List (List Char)) (v : List Char), w = u ++ (ws.flatten ++ v) ∧
        body.First fl u ∧ (∀ u ∈ ws, body.Lang u) ∧ body.Pre v

theorem Fr.firstPre_of_first {fr : Fr} : ∀ {b : Bool} {w : List Char}, fr.First b w → fr.FirstPre w := by
  induction fr with
  | eps => intro b w h; exact h
  | lit => intro b w h; exact h.2
  | alt a b iha ihb => intro fl w h; exact h.imp iha ihb
  | seq a m b iha ihb =>
    rintro fl w (⟨u, v, rfl, h1, h2⟩ | ⟨_, h1, b', h2⟩)
    · exact .inr (.inl ⟨fl, u, v, rfl, h1, pre_of_lang h2⟩)
    · exact .inr (.inr ⟨h1, ihb h2⟩)
  | loop s x t q body ih =>
    rintro fl w ⟨_, b', u, ws, rfl, h1, h2, _⟩
    exact .inr ⟨b', u, ws, [], by simp, h1, h2, body.pre_nil⟩

/-- A path from the head of a loop. -/
theorem Fr.pre_head {body : Fr} {s' x t' s t p' : Nat} {q : Quant} {κ' : Counts}
    (ok : (Fr.loop s' x t' q body).Ok s t) (cl : (Fr.loop s' x t' q body).Closed E) :
    ∀ (k n : Nat), n ≤ k → ∀ (κ : Counts) (w : List Char), Path E n x κ w p' κ' →
    (∀ h ∈ body.heads, κ h = 0) →
    (∃ (ws : List (List Char)) (v : List Char), w = ws.flatten ++ v ∧ (∀ u ∈ ws, body.Lang u) ∧
      body.Pre v) ∨
    ∃ n2 κ1 w2, ∃ ws : List (List Char), w = ws.flatten ++ w2 ∧ n2 ≤ n ∧
      (∀ u ∈ ws, body.Lang u) ∧ q.isSatisfied (κ x + ws.length) = true ∧ Path E n2 t' κ1 w2 p' κ' ∧
      κ1 x = 0 ∧ (∀ h ∈ body.heads, κ1 h = 0) ∧ ∀ y, y ≠ x → y ∉ body.inner → κ1 y = κ y := by
  obtain ⟨rfl, rfl, _⟩ := ok.loop_ends
  intro k
  induction k with
  | zero =>
    intro n hn κ w hp hz
    obtain rfl : n = 0 := by omega
    cases hp
    exact .inl ⟨[], [], rfl, by simp, body.pre_nil⟩
  | succ k ihk =>
    intro n hn κ w hp hz
    cases hp with
    | refl => exact .inl ⟨[], [], rfl, by simp, body.pre_nil⟩
    | @cons n1 _ d1 _ _ κ1 _ u1 v1 hs1 hp1 =>
      have hexit : CStep (fun _ i y => i = .quantified q ∧ y = t') x κ u1 d1 κ1 ∨
          CStep body.Edge x κ u1 d1 κ1 := hs1.or (fun i y h => cl.loop_head ok h)
      rcases hexit with h | h
      · cases h with
        | eps h => cases h.1
        | char h _ => cases h.1
        | @quant _ _ q' h hq =>
          obtain ⟨h1, rfl⟩ := h
          cases h1
          refine .inr ⟨n1, _, v1, [], rfl, by omega, by simp, by simpa using hq, hp1,
            κ.reset_self _, ?_, ?_⟩
          · intro h hh
            rw [κ.reset_ne (by rintro rfl; exact ok.loop_body.s_out (heads_inner hh))]
            exact hz h hh
          · intro y hy _
            exact κ.reset_ne hy
      · rcases Fr.enter ok.loop_body (cl.loop_body ok) h hp1 hz with
          hpre | ⟨n2, κ2, w1, w2, e, hn2, hl, hp2, h2, h3, h4⟩
        · exact .inl ⟨[], u1 ++ v1, rfl, by simp, hpre⟩
        rcases ihk n2 (by omega) κ2 w2 hp2 h3 with
          ⟨ws, v, e', hl', hpre⟩ | ⟨n3, κ3, w3, ws, e', hn3, hl', hq, hp3, g2, g3, g4⟩
        · refine .inl ⟨w1 :: ws, v, by rw [e, e']; simp, ?_, hpre⟩
          intro u hu
          rcases List.mem_cons.1 hu with rfl | hu
          · exact hl
          · exact hl' u hu
        refine .inr ⟨n3, κ3, w3, w1 :: ws, by rw [e, e']; simp, by omega, ?_, ?_, hp3, g2, g3,
          fun y hy hn => by rw [g4 y hy hn, h4 y hy hn]⟩
        · intro u hu
          rcases List.mem_cons.1 hu with rfl | hu
          · exact hl
          · exact hl' u hu
        · rw [List.length_cons, ← Nat.add_assoc, Nat.add_right_comm, ← h2]
          exact hq

/-- A path that begins with a character in a state the closure of `s` reaches goes through the fragment or
reads part of it. -/
theorem Fr.enter_first {fr : Fr} : ∀ {s t x : Nat} {κ κ0 κ' : Counts} {n d p' : Nat} {c : Char}
    {w : List Char}, fr.Ok s t → fr.Closed E → (x = s ∨ fr.Start x) → CStep fr.Edge x κ [c] d κ0 →
    Path E n d κ0 w p' κ' → (∀ h ∈ fr.heads, κ h = 0) →
    fr.FirstPre (c :: w) ∨ ∃ b n2 κ1 w1 w2, c :: w = w1 ++ w2 ∧ fr.First b w1 ∧ Path E n2 t κ1 w2 p' κ' ∧
      κ1 s = (if b then 1 else 0) + κ s ∧ (∀ h ∈ fr.heads, κ1 h = 0) ∧
      ∀ y, y ≠ s → y ∉ fr.inner → κ1 y = κ y := by
  induction fr with
  | eps s' t' =>
    intro s t x κ κ0 κ' n d p' c w ok cl hx hs hp hz
    generalize hc : [c] = u at hs
    cases hs with
    | eps => cases hc
    | quant => cases hc
    | char h _ => cases h.2.1
  | lit s' t' l =>
    intro s t x κ κ0 κ' n d p' c w ok cl hx hs hp hz
    obtain ⟨rfl, rfl⟩ := ok.shape
    generalize hcu : [c] = u at hs
    cases hs with
    | eps h => cases hcu
    | quant h _ => cases hcu
    | @char _ _ l' c' h hc =>
      cases hcu
      obtain ⟨rfl, h2, rfl⟩ := h
      cases h2
      exact .inr ⟨true, n, _, [c], w, rfl, ⟨rfl, c, rfl, hc⟩, hp, by rw [κ.bump_self]; simp; omega,
        by simp [heads], fun y hy _ => κ.bump_ne hy⟩
  | alt a b iha ihb =>
    intro s t x κ κ0 κ' n d p' c w ok cl hx hs hp hz
    simp only [heads, inner, List.mem_append, not_or] at hz ⊢
    rcases hs.or (G := a.Edge) (H := b.Edge) (fun i y h => h) with hs | hs
    · have hx' : x = s ∨ a.Start x := by
        obtain ⟨i, he⟩ := hs.edge
        rcases edge_source ok.alt_left.shape he with h | h
        · exact .inl h
        · rcases hx with h' | h' | h'
          · exact .inl h'
          · exact .inr h'
          · exact absurd (start_inner h') (ok.alt_disjoint h)
      rcases iha ok.alt_left (cl.alt_left ok) hx' hs hp (fun h hh => hz h (.inl hh)) with
        hsp | ⟨fl, n2, κ1, w1, w2, e, hl, hp2, h2, h3, h4⟩
      · exact .inl (.inl hsp)
      refine .inr ⟨fl, n2, κ1, w1, w2, e, .inl hl, hp2, h2, ?_, fun y hy hn => h4 y hy hn.1⟩
      rintro h (hh | hh)
      · exact h3 h hh
      · have hb := heads_inner hh
        rw [h4 h ?_ ?_]
        · exact hz h (.inr hh)
        · rintro rfl; exact ok.alt_right.s_out hb
        · exact fun ha => ok.alt_disjoint ha hb
    · have hx' : x = s ∨ b.Start x := by
        obtain ⟨i, he⟩ := hs.edge
        rcases edge_source ok.alt_right.shape he with h | h
        · exact .inl h
        · rcases hx with h' | h' | h'
          · exact .inl h'
          · exact absurd h (ok.alt_disjoint (start_inner h'))
          · exact .inr h'
      rcases ihb ok.alt_right (cl.alt_right ok) hx' hs hp (fun h hh => hz h (.inr hh)) with
        hsp | ⟨fl, n2, κ1, w1, w2, e, hl, hp2, h2, h3, h4⟩
      · exact .inl (.inr hsp)
      refine .inr ⟨fl, n2, κ1, w1, w2, e, .inr hl, hp2, h2, ?_, fun y hy hn => h4 y hy hn.2⟩
      rintro h (hh | hh)
      · have ha := heads_inner hh
        rw [h4 h ?_ ?_]
        · exact hz h (.inl hh)
        · rintro rfl; exact ok.alt_left.s_out ha
        · exact ok.alt_disjoint ha
      · exact h3 h hh
  | seq a m b iha ihb =>
    intro s t x κ κ0 κ' n d p' c w ok cl hx hs hp hz
    simp only [heads, inner, List.mem_append, List.mem_cons, not_or] at hz ⊢
    have s_out : s ≠ m ∧ s ∉ a.inner ∧ s ∉ b.inner := by
      have := ok.s_out
      simpa only [inner, List.mem_append, List.mem_cons, not_or] using this
    rcases hs.or (G := a.Edge) (H := b.Edge) (fun i y h => h) with hs | hs
    · have hx' : x = s ∨ a.Start x := by
        obtain ⟨i, he⟩ := hs.edge
        rcases hx with h | h | ⟨_, h | h⟩
        · exact .inl h
        · exact .inr h
        · subst h
          rcases edge_source ok.seq_left.shape he with h | h
          · exact absurd h.symm s_out.1
          · exact absurd h ok.seq_left.t_out
        · have hb := start_inner h
          rcases edge_source ok.seq_left.shape he with h | h
          · subst h; exact absurd hb s_out.2.2
          · exact absurd hb (ok.seq_disjoint h)
      rcases iha ok.seq_left (cl.seq_left ok) hx' hs hp (fun h hh => hz h (.inl hh)) with
        hsp | ⟨fl, n2, κ1, w1, w2, e, hl, hp2, h2, h3, h4⟩
      · exact .inl (.inl hsp)
      have hzb : ∀ h ∈ b.heads, κ1 h = 0 := by
        intro h hh
        have hb := heads_inner hh
        rw [h4 h ?_ ?_]
        · exact hz h (.inr hh)
        · rintro rfl; exact s_out.2.2 hb
        · exact fun ha => ok.seq_disjoint ha hb
      cases hp2 with
      | refl => exact .inl (.inr (.inl ⟨fl, w1, [], e, hl, b.pre_nil⟩))
      | @cons n3 _ d1 _ _ κ2 _ u1 v1 hs1 hp3 =>
        have hs1 : CStep b.Edge m κ1 u1 d1 κ2 := hs1.restrict (fun i y h => cl.seq_mid ok h)
        rcases Fr.enter ok.seq_right (cl.seq_right ok) hs1 hp3 hzb with
          hsp | ⟨n4, κ3, x1, x2, e', hn', hl', hp4, g2, g3, g4⟩
        · exact .inl (.inr (.inl ⟨fl, w1, u1 ++ v1, e, hl, hsp⟩))
        refine .inr ⟨fl, n4, κ3, w1 ++ x1, x2, by rw [e, e', List.append_assoc], .inl ⟨w1, x1, rfl, hl, hl'⟩,
          hp4, ?_, ?_, ?_⟩
        · rw [g4 s s_out.1 s_out.2.2, h2]
        · rintro h (hh | hh)
          · have ha := heads_inner hh
            rw [g4 h ?_ ?_]
            · exact h3 h hh
            · rintro rfl; exact ok.seq_left.t_out ha
            · exact ok.seq_disjoint ha
          · exact g3 h hh
        · intro y hy hn
          rw [g4 y hn.1 hn.2.2, h4 y hy hn.2.1]
    · have hx' : a.Nul ∧ (x = m ∨ b.Start x) := by
        obtain ⟨i, he⟩ := hs.edge
        rcases hx with h | h | h
        · subst h
          rcases edge_source ok.seq_right.shape he with h | h
          · exact absurd h s_out.1
          · exact absurd h s_out.2.2
        · have ha := start_inner h
          rcases edge_source ok.seq_right.shape he with h | h
          · subst h; exact absurd ha ok.seq_left.t_out
          · exact absurd h (ok.seq_disjoint ha)
        · exact h
      rcases ihb ok.seq_right (cl.seq_right ok) hx'.2 hs hp
          (fun h hh => hz h (.inr hh)) with hsp | ⟨fl, n2, κ1, w1, w2, e, hl, hp2, h2, h3, h4⟩
      · exact .inl (.inr (.inr ⟨hx'.1, hsp⟩))
      refine .inr ⟨false, n2, κ1, w1, w2, e, .inr ⟨rfl, hx'.1, fl, hl⟩, hp2, ?_, ?_, ?_⟩
      · rw [h4 s s_out.1 s_out.2.2]; simp
      · rintro h (hh | hh)
        · have ha := heads_inner hh
          rw [h4 h ?_ ?_]
          · exact hz h (.inl hh)
          · rintro rfl; exact ok.seq_left.t_out ha
          · exact ok.seq_disjoint ha
        · exact h3 h hh
      · intro y hy hn
        exact h4 y hn.1 hn.2.2
  | loop s' h t' q body ih =>
    intro s t x κ κ0 κ' n d p' c w ok cl hx hs hp hz
    obtain ⟨rfl, rfl, sx, tx, sb, tb⟩ := ok.loop_ends
    simp only [heads, inner, List.mem_cons, not_or] at hz ⊢
    have hs' : CStep body.Edge x κ [c] d κ0 := by
      generalize hcu : [c] = u at hs
      cases hs with
      | eps => cases hcu
      | quant => cases hcu
      | char he hc =>
        cases hcu
        rcases he with he | he | he
        · cases he.2.1
        · cases he.2.1
        · exact .char he hc
    have hx' : x = h ∨ body.Start x := by
      rcases hx with h' | h'
      · subst h'
        obtain ⟨i, he⟩ := hs'.edge
        rcases edge_source ok.loop_body.shape he with h | h
        · exact absurd h sx
        · exact absurd h sb
      · exact h'
    rcases ih ok.loop_body (cl.loop_body ok) hx' hs' hp
        (fun h hh => hz h (.inr hh)) with hsp | ⟨fl, n2, κ1, w1, w2, e, hl, hp2, h2, h3, h4⟩
    · exact .inl (.inl hsp)
    rcases Fr.pre_head ok cl n2 n2 (Nat.le_refl _) κ1 w2 hp2 h3 with
      ⟨ws, v, e', hws, hsp⟩ | ⟨n3, κ2, w3, ws, e', _, hws, hq, hp3, g2, g3, g4⟩
    · exact .inl (.inr ⟨fl, w1, ws, v, by rw [e, e'], hl, hws, hsp⟩)
    rw [h2, hz h (.inl rfl), Nat.add_zero] at hq
    refine .inr ⟨false, n3, κ2, w1 ++ ws.flatten, w3, by rw [e, e', List.append_assoc],
      ⟨rfl, fl, w1, ws, rfl, hl, hws, hq⟩, hp3, ?_, ?_, ?_⟩
    · rw [g4 s' sx sb, h4 s' sx sb]; simp
    · rintro y (rfl | hh)
      · exact g2
      · exact g3 y hh
    · intro y hy hn
      rw [g4 y hn.1 hn.2, h4 y hn.1 hn.2]

/-- Every such word is read on a path. -/
theorem Fr.pre_complete {fr : Fr} : ∀ {s t : Nat} {κ : Counts} {w : List Char}, fr.Ok s t →
    (∀ x i y, fr.Edge x i y → E x i y) → fr.Pre w → (∀ h ∈ fr.heads, κ h = 0) →
    ∃ x n κ', Path E n s κ w x κ' := by
  induction fr with
  | eps =>
    rintro s t κ w ok hE rfl hz
    exact ⟨_, 0, _, .refl _ _⟩
  | lit s' t' l =>
    rintro s t κ w ok hE (rfl | ⟨c, rfl, hc⟩) hz
    · exact ⟨_, 0, _, .refl _ _⟩
    · obtain ⟨n, κ', h, _⟩ := Fr.complete (E := E) ok hE (w := [c]) ⟨c, rfl, hc⟩ hz
      exact ⟨_, n, κ', h⟩
  | alt a b iha ihb =>
    intro s t κ w ok hE hw hz
    simp only [heads, List.mem_append] at hz
    rcases hw with hw | hw
    · exact iha ok.alt_left (fun x i y h => hE x i y (.inl h)) hw (fun h hh => hz h (.inl hh))
    · exact ihb ok.alt_right (fun x i y h => hE x i y (.inr h)) hw (fun h hh => hz h (.inr hh))
  | seq a m b iha ihb =>
    intro s t κ w ok hE hw hz
    simp only [heads, List.mem_append] at hz
    rcases hw with hw | ⟨u, v, rfl, hu, hv⟩
    · exact iha ok.seq_left (fun x i y h => hE x i y (.inl h)) hw (fun h hh => hz h (.inl hh))
    · obtain ⟨n1, κ1, g1, _, _, g4⟩ := Fr.complete (E := E) ok.seq_left (fun x i y h => hE x i y (.inl h)) hu
        (fun h hh => hz h (.inl hh))
      have s_out : s ∉ b.inner := by
        have := ok.s_out
        simp only [inner, List.mem_append, List.mem_cons, not_or] at this
        exact this.2.2
      obtain ⟨x, n, κ', h2⟩ := ihb ok.seq_right (fun x i y h => hE x i y (.inr h)) hv (κ := κ1) (by
        intro h hh
        have hb := heads_inner hh
        rw [g4 h ?_ ?_]
        · exact hz h (.inr hh)
        · rintro rfl; exact s_out hb
        · exact fun ha => ok.seq_disjoint ha hb)
      exact ⟨x, n1 + n, κ', g1.append h2⟩
  | loop s' x t' q body ih =>
    rintro s t κ w ok hE ⟨ws, v, rfl, hws, hv⟩ hz
    obtain ⟨rfl, rfl, sx, tx, sb, tb⟩ := ok.loop_ends
    simp only [heads, List.mem_cons] at hz
    have hEb : ∀ x i y, body.Edge x i y → E x i y := fun x i y h => hE x i y (.inr (.inr h))
    have p1 : Path E 1 s' κ [] x (κ.bump s') := .single (.eps (hE _ _ _ (.inl ⟨rfl, rfl, rfl⟩)))
    obtain ⟨n', κ2, g1, g2, g3, g4⟩ := Fr.rounds (E := E) ok.loop_body hEb ws (κ.bump s') hws (by
      intro h hh
      rw [κ.bump_ne (by rintro rfl; exact sb (heads_inner hh))]
      exact hz h (.inr hh))
    obtain ⟨y, n, κ', h2⟩ := ih ok.loop_body hEb hv g3
    exact ⟨y, 1 + n' + n, κ', by simpa using (p1.append g1).append h2⟩

/-- The same from the closure of the first state. -/
theorem Fr.first_pre_complete {fr : Fr} : ∀ {s t : Nat} {κ : Counts} {w : List Char}, fr.Ok s t →
    (∀ x i y, fr.Edge x i y → E x i y) → fr.FirstPre w → (∀ h ∈ fr.heads, κ h = 0) →
    ∃ y x n d c v κ0 κ', w = c :: v ∧ SReach E s y ∧ CStep E y κ [c] d κ0 ∧ Path E n d κ0 v x κ' := by
  induction fr with
  | eps => intro s t κ w ok hE h; exact h.elim
  | lit s' t' l =>
    rintro s t κ w ok hE ⟨c, rfl, hc⟩ hz
    obtain ⟨y, n, d, c', v, κ0, κ', e, h1, h2, h3, _⟩ := Fr.first_complete (E := E) (b := true) ok hE
      (w := [c]) ⟨rfl, c, rfl, hc⟩ hz
    exact ⟨y, _, n, d, c', v, κ0, κ', e, h1, h2, h3⟩
  | alt a b iha ihb =>
    intro s t κ w ok hE hw hz
    simp only [heads, List.mem_append] at hz
    rcases hw with hw | hw
    · exact iha ok.alt_left (fun x i y h => hE x i y (.inl h)) hw (fun h hh => hz h (.inl hh))
    · exact ihb ok.alt_right (fun x i y h => hE x i y (.inr h)) hw (fun h hh => hz h (.inr hh))
  | seq a m b iha ihb =>
    intro s t κ w ok hE hw hz
    simp only [heads, List.mem_append] at hz
    have hEa : ∀ x i y, a.Edge x i y → E x i y := fun x i y h => hE x i y (.inl h)
    have hEb : ∀ x i y, b.Edge x i y → E x i y := fun x i y h => hE x i y (.inr h)
    rcases hw with hw | ⟨fl, u, v, rfl, hu, hv⟩ | ⟨hnul, hw⟩
    · exact iha ok.seq_left hEa hw (fun h hh => hz h (.inl hh))
    · obtain ⟨y, n, d, c, v', κ0, κ1, rfl, h1, h2, h3, _, _, h4⟩ := Fr.first_complete (E := E) ok.seq_left
        hEa hu (fun h hh => hz h (.inl hh))
      have s_out : s ∉ b.inner := by
        have := ok.s_out
        simp only [inner, List.mem_append, List.mem_cons, not_or] at this
        exact this.2.2
      obtain ⟨x, n', κ', g2⟩ := Fr.pre_complete (E := E) ok.seq_right hEb hv (κ := κ1) (by
        intro h hh
        have hb := heads_inner hh
        rw [h4 h ?_ ?_]
        · exact hz h (.inr hh)
        · rintro rfl; exact s_out hb
        · exact fun ha => ok.seq_disjoint ha hb)
      exact ⟨y, x, n + n', d, c, v' ++ v, κ0, κ', rfl, h1, h2, h3.append g2⟩
    · obtain ⟨y, x, n, d, c, v, κ0, κ', e, h1, h2, h3⟩ := ihb ok.seq_right hEb hw
        (fun h hh => hz h (.inr hh))
      exact ⟨y, x, n, d, c, v, κ0, κ', e, (Fr.nul_reach ok.seq_left hEa hnul).trans h1, h2, h3⟩
  | loop s' x t' q body ih =>
    intro s t κ w ok hE hw hz
    obtain ⟨rfl, rfl, sx, tx, sb, tb⟩ := ok.loop_ends
    simp only [heads, List.mem_cons] at hz
    have hEb : ∀ x i y, body.Edge x i y → E x i y := fun x i y h => hE x i y (.inr (.inr h))
    have p1 : SReach E s' x := (SReach.refl _).eps (hE _ _ _ (.inl ⟨rfl, rfl, rfl⟩))
    rcases hw with hw | ⟨fl, u, ws, v, rfl, hu, hws, hv⟩
    · obtain ⟨y, z, n, d, c, v, κ0, κ', e, h1, h2, h3⟩ := ih ok.loop_body hEb hw
        (fun h hh => hz h (.inr hh))
      exact ⟨y, z, n, d, c, v, κ0, κ', e, p1.trans h1, h2, h3⟩
    · obtain ⟨y, n, d, c, v', κ0, κ1, rfl, h1, h2, h3, _, h5, _⟩ := Fr.first_complete (E := E) ok.loop_body
        hEb hu (fun h hh => hz h (.inr hh))
      obtain ⟨n', κ2, g1, g2, g3, g4⟩ := Fr.rounds (E := E) ok.loop_body hEb ws κ1 hws h5
      obtain ⟨z, m, κ', f2⟩ := Fr.pre_complete (E := E) ok.loop_body hEb hv g3
      exact ⟨y, z, n + (n' + m), d, c, v' ++ (ws.flatten ++ v), κ0, κ', by simp, p1.trans h1, h2,
        h3.append (g1.append f2)⟩

/-! ## Whole automata -/

variable {nfa : Nfa} {rs : List (Fr × Nat)}

/-- What the automaton can read. -/
theorem Bundle.live_iff (b : Bundle nfa rs) (w : List Char) :
    (∃ r, RunsAt nfa w r) ↔ w = [] ∨ ∃ r ∈ rs, r.1.FirstPre w := by
  constructor
  · rintro ⟨run, hrun⟩
    obtain ⟨_, x, hx, hp⟩ := runsAt_paths b.wf b.start hrun
    generalize run.state = p' at hp
    generalize run.counts = κe at hp
    cases hp with
    | refl => exact .inl rfl
    | @char d _ n _ κ1 _ c w hs hp =>
      right
      obtain ⟨r, hr, hs', hx'⟩ : ∃ r ∈ rs, CStep r.1.Edge x (fun _ => 0) [c] d κ1 ∧
          (x = 0 ∨ r.1.Start x) := by
        obtain ⟨l, he, hc, rfl⟩ : ∃ l, nfa.HasEdge x (.literal l) d ∧ l.contains c = true ∧
            κ1 = Counts.bump (fun _ => 0) x := by
          generalize hcu : [c] = u at hs
          cases hs with
          | eps => cases hcu
          | quant => cases hcu
          | char he hc => cases hcu; exact ⟨_, he, hc, rfl⟩
        obtain ⟨r, hr, he'⟩ := (b.edges x _ d).1 he
        refine ⟨r, hr, .char he' hc, ?_⟩
        rcases b.sreach hx with h | ⟨r', hr', h | ⟨rfl, _⟩⟩
        · exact .inl h
        · rcases Fr.edge_source (b.shape r hr) he' with h' | h'
          · exact .inl h'
          · have := b.unique hr hr' (x := x) (by simp [h']) (by simp [Fr.start_inner h])
            subst this
            exact .inr h
        · exact absurd he (b.final_no_edge hr')
      refine ⟨r, hr, ?_⟩
      rcases Fr.enter_first (b.ok hr) (b.closed hr) hx' hs' hp (fun _ _ => rfl) with
        h | ⟨fl, n2, κ2, w1, w2, e, hl, hp2, _⟩
      · exact h
      · generalize hp' : r.2 = p2 at hp2
        cases hp2 with
        | refl =>
          rw [e, List.append_nil]
          exact Fr.firstPre_of_first hl
        | cons hs _ =>
          subst hp'
          obtain ⟨i, h⟩ := hs.edge
          exact absurd h (b.final_no_edge hr)
  · rintro (rfl | ⟨r, hr, h⟩)
    · exact ⟨⟨nfa.start, []⟩, .init (.refl _)⟩
    · obtain ⟨y, x, n, d, c, v, κ0, κ', rfl, h1, h2, h3⟩ := Fr.first_pre_complete (E := nfa.HasEdge)
        (κ := fun _ => 0) (b.ok hr) (fun x i y h => (b.edges x i y).2 ⟨r, hr, h⟩) h (fun _ _ => rfl)
      obtain ⟨run, g1, _⟩ := paths_runsAt b.wf b.start h1 _ (.char h2 h3)
      exact ⟨run, g1⟩

/-! ## Fragments of expressions -/

mutual

theorem frag_pre_of (e : Expr) (he : ¬ HasEmptySeq e) (s t n : Nat) (w : List Char)
    (h : MayRead e w) : (frag e s t n).1.Pre w := by
  match e with
  | .concat es =>
    simp only [HasEmptySeq, not_or] at he
    rw [frag]
    exact fragConcat_pre_of es he.1 he.2 s t n w h
  | .empty =>
    cases h
    exact Fr.pre_nil _
  | .alt l r =>
    simp only [HasEmptySeq, not_or] at he
    cases h with
    | nothing => exact Fr.pre_nil _
    | altL h => rw [frag]; exact .inl (frag_pre_of l he.1 _ _ _ w h)
    | altR h => rw [frag]; exact .inr (frag_pre_of r he.2 _ _ _ w h)
  | .lit l none =>
    cases h with
    | nothing => exact Fr.pre_nil _
    | char h => rw [frag]; exact .inr ⟨_, rfl, (c08_literal_sets l _).2 h⟩
  | .lit l (some q) =>
    cases h with
    | nothing => exact Fr.pre_nil _
    | chars h =>
      rw [frag]
      refine ⟨w.map (fun c => [c]), [], ?_, ?_, .inl rfl⟩
      · clear h
        induction w with
        | nil => rfl
        | cons c w ih => simpa using ih
      · intro u hu
        obtain ⟨c', hc', rfl⟩ := List.mem_map.1 hu
        exact ⟨c', rfl, (c08_literal_sets l c').2 (h c' hc')⟩
  | .group e none =>
    simp only [HasEmptySeq] at he
    cases h with
    | nothing => exact Fr.pre_nil _
    | once h => rw [frag]; exact frag_pre_of e he _ _ _ w h
  | .group e (some q) =>
    simp only [HasEmptySeq] at he
    cases h with
    | nothing => exact Fr.pre_nil _
    | @times _ _ ws v h1 h2 =>
      rw [frag]
      exact ⟨ws, v, rfl, fun u hu => (frag_lang e he _ _ _ u).2 (h1 u hu), frag_pre_of e he _ _ _ v h2⟩

theorem fragConcat_pre_of (es : List Expr) (hne : es ≠ []) (he : ¬ AnyEmptySeq es) (s t n : Nat)
    (w : List Char) (h : MayRead (.concat es) w) : (fragConcat es s t n).1.Pre w := by
  match es with
  | [] => exact absurd rfl hne
  | [e] =>
    simp only [AnyEmptySeq, or_false] at he
    cases h with
    | nothing => exact Fr.pre_nil _
    | here h => rw [fragConcat]; exact frag_pre_of e he _ _ _ w h
    | later h1 h2 =>
      cases h2
      rw [fragConcat, List.append_nil]
      exact Fr.pre_of_lang ((frag_lang e he _ _ _ _).2 h1)
  | e :: e' :: es =>
    rw [AnyEmptySeq, not_or] at he
    cases h with
    | nothing => exact Fr.pre_nil _
    | here h => rw [fragConcat.eq_3 _ _ _ _ _ (by simp)]; exact .inl (frag_pre_of e he.1 _ _ _ w h)
    | @later _ _ u v h1 h2 =>
      rw [fragConcat.eq_3 _ _ _ _ _ (by simp)]
      exact .inr ⟨u, v, rfl, (frag_lang e he.1 _ _ _ u).2 h1,
        fragConcat_pre_of (e' :: es) (by simp) he.2 _ _ _ v h2⟩

end

mutual

theorem frag_firstPre (e : Expr) (he : ¬ HasEmptySeq e) (s t n : Nat) (w : List Char) :
    (frag e s t n).1.FirstPre w ↔ MayBegin e w := by
  match e with
  | .concat es =>
    simp only [HasEmptySeq, not_or] at he
    rw [frag]
    exact fragConcat_firstPre es he.1 he.2 s t n w
  | .empty =>
    rw [frag]
    exact ⟨fun h => h.elim, fun h => by cases h⟩
  | .alt l r =>
    simp only [HasEmptySeq, not_or] at he
    rw [frag]
    simp only [Fr.FirstPre]
    rw [frag_firstPre l he.1, frag_firstPre r he.2]
    constructor
    · rintro (h | h)
      · exact .altL h
      · exact .altR h
    · intro h
      cases h with
      | altL h => exact .inl h
      | altR h => exact .inr h
  | .lit l none =>
    rw [frag]
    simp only [Fr.FirstPre]
    constructor
    · rintro ⟨c, rfl, hc⟩
      exact .char ((c08_literal_sets l c).1 hc)
    · intro h
      cases h with
      | char h => exact ⟨_, rfl, (c08_literal_sets l _).2 h⟩
  | .lit l (some q) =>
    rw [frag]
    simp only [Fr.FirstPre]
    constructor
    · rintro (⟨c, rfl, hc⟩ | ⟨fl, u, ws, v, rfl, ⟨_, c, rfl, hc⟩, hws, hv⟩)
      · refine .chars (by simp) ?_
        intro c' hc'
        rw [List.mem_singleton.1 hc']
        exact (c08_literal_sets l c).1 hc
      · refine .chars (by simp) ?_
        intro c' hc'
        simp only [List.singleton_append, List.mem_cons, List.mem_append] at hc'
        rcases hc' with rfl | hc' | hc'
        · exact (c08_literal_sets l c').1 hc
        · exact (lit_words hws).2 c' hc'
        · rcases hv with rfl | ⟨d, rfl, hd⟩
          · cases hc'
          · rw [List.mem_singleton.1 hc']
            exact (c08_literal_sets l d).1 hd
    · intro h
      cases h with
      | chars hne h =>
        cases w with
        | nil => exact absurd rfl hne
        | cons c w =>
          refine .inr ⟨true, [c], w.map (fun c => [c]), [], ?_, ⟨rfl, c, rfl, ?_⟩, ?_, .inl rfl⟩
          · clear h hne
            induction w with
            | nil => rfl
            | cons c w ih => simpa using ih
          · exact (c08_literal_sets l c).2 (h c (by simp))
          · intro u hu
            obtain ⟨c', hc', rfl⟩ := List.mem_map.1 hu
            exact ⟨c', rfl, (c08_literal_sets l c').2 (h c' (by simp [hc']))⟩
  | .group e none =>
    simp only [HasEmptySeq] at he
    rw [frag, frag_firstPre e he]
    constructor
    · exact .group
    · intro h
      cases h with
      | group h => exact h
  | .group e (some q) =>
    simp only [HasEmptySeq] at he
    rw [frag]
    simp only [Fr.FirstPre]
    constructor
    · rintro (h | ⟨fl, u, ws, v, rfl, hu, hws, h⟩)
      · exact .first ((frag_firstPre e he _ _ _ w).1 h)
      · exact .inside ((frag_first e he _ _ _ fl u).1 hu)
          (fun u hu => (frag_lang e he _ _ _ u).1 (hws u hu)) (frag_pre e he _ _ _ _ h)
    · intro h
      cases h with
      | first h => exact .inl ((frag_firstPre e he _ _ _ w).2 h)
      | @inside _ _ b u ws v hu hws h =>
        exact .inr ⟨b, u, ws, v, rfl, (frag_first e he _ _ _ b u).2 hu,
          fun u hu => (frag_lang e he _ _ _ u).2 (hws u hu), frag_pre_of e he _ _ _ _ h⟩

theorem fragConcat_firstPre (es : List Expr) (hne : es ≠ []) (he : ¬ AnyEmptySeq es) (s t n : Nat)
    (w : List Char) : (fragConcat es s t n).1.FirstPre w ↔ MayBegin (.concat es) w := by
  match es with
  | [] => exact absurd rfl hne
  | [e] =>
    simp only [AnyEmptySeq, or_false] at he
    rw [fragConcat, frag_firstPre e he]
    constructor
    · exact .here
    · intro h
      cases h with
      | here h => exact h
      | after h1 h2 =>
        cases h2
        rw [List.append_nil, ← frag_firstPre e he 0 0 0]
        exact Fr.firstPre_of_first ((frag_first e he _ _ _ _ _).2 h1)
      | later _ h => cases h
  | e :: e' :: es =>
    rw [AnyEmptySeq, not_or] at he
    rw [fragConcat.eq_3 _ _ _ _ _ (by simp)]
    simp only [Fr.FirstPre]
    rw [frag_nul e he.1]
    constructor
    · rintro (h | ⟨fl, u, v, rfl, h1, h2⟩ | ⟨h1, h2⟩)
      · exact .here ((frag_firstPre e he.1 _ _ _ w).1 h)
      · exact .after ((frag_first e he.1 _ _ _ fl u).1 h1) (fragConcat_pre (e' :: es) (by simp) he.2 _ _ _ v h2)
      · exact .later h1 ((fragConcat_firstPre (e' :: es) (by simp) he.2 _ _ _ w).1 h2)
    · intro h
      cases h with
      | here h => exact .inl ((frag_firstPre e he.1 _ _ _ w).2 h)
      | @after _ _ b u v h1 h2 =>
        exact .inr (.inl ⟨b, u, v, rfl, (frag_first e he.1 _ _ _ b u).2 h1,
          fragConcat_pre_of (e' :: es) (by simp) he.2 _ _ _ v h2⟩)
      | later h1 h2 =>
        exact .inr (.inr ⟨h1, (fragConcat_firstPre (e' :: es) (by simp) he.2 _ _ _ w).2 h2⟩)

end

end Pango.Fsm
