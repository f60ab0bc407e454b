import Verif.Proofs.FragLang
import Verif.Proofs.Matching
import Verif.Proofs.Runs
import Verif.Spec.RegexStart

/-!
# Paths that begin in the closure of the start state
-/

namespace Pango.Fsm

open Pango Pango.Regex Pango.Spec Pango.Props

variable [Unicode]

/-- The words that a fragment reads when it is entered without counting, and whether the first
character was read in its first state. -/
def Fr.First : Fr → Bool → List Char → Prop
  | .eps _ _, _, _ => False
  | .lit _ _ l, b, w => b = true ∧ ∃ c, w = [c] ∧ l.contains c = true
  | .alt x y, b, w => x.First b w ∨ y.First b w
  | .seq x _ y, b, w => (∃ u v, w = u ++ v ∧ x.First b u ∧ y.Lang v) ∨
      (b = false ∧ x.Nul ∧ ∃ b', y.First b' w)
  | .loop _ _ _ q body, b, w => b = false ∧ ∃ b' u, ∃ ws : List (List Char), w = u ++ ws.flatten ∧
      body.First b' u ∧ (∀ v ∈ ws, body.Lang v) ∧
      q.isSatisfied ((if b' then 1 else 0) + ws.length) = true

theorem Fr.first_ne {fr : Fr} : ∀ {b : Bool} {w : List Char}, fr.First b w → w ≠ [] := by
  induction fr with
  | eps => intro b w h; exact h.elim
  | lit => rintro b w ⟨_, c, rfl, _⟩; simp
  | alt x y ihx ihy =>
    intro b w h
    exact h.elim ihx ihy
  | seq x m y ihx ihy =>
    rintro b w (⟨u, v, rfl, h, _⟩ | ⟨_, _, b', h⟩)
    · simp [ihx h]
    · exact ihy h
  | loop s h t q body ih =>
    rintro b w ⟨_, b', u, ws, rfl, h, _⟩
    simp [ih h]

variable {E : Nat → Input → Nat → Prop}

omit [Unicode] in
theorem SReach.trans {x y z : Nat} (h : SReach E x y) (h' : SReach E y z) : SReach E x z := by
  induction h' with
  | refl => exact h
  | eps _ he ih => exact ih.eps he
  | quant _ he hq ih => exact ih.quant he hq

omit [Unicode] in
/-- What can be passed over is passed over. -/
theorem Fr.nul_reach {fr : Fr} : ∀ {s t : Nat}, fr.Ok s t → (∀ x i y, fr.Edge x i y → E x i y) →
    fr.Nul → SReach E s t := by
  induction fr with
  | eps s' t' =>
    intro s t ok hE h
    obtain ⟨rfl, rfl⟩ := ok.shape
    exact (SReach.refl _).eps (hE _ _ _ ⟨rfl, rfl, rfl⟩)
  | lit => intro s t ok hE h; exact h.elim
  | alt a b iha ihb =>
    intro s t ok hE h
    rcases h with h | h
    · exact iha ok.alt_left (fun x i y h => hE x i y (.inl h)) h
    · exact ihb ok.alt_right (fun x i y h => hE x i y (.inr h)) h
  | seq a m b iha ihb =>
    intro s t ok hE h
    exact (iha ok.seq_left (fun x i y h => hE x i y (.inl h)) h.1).trans
      (ihb ok.seq_right (fun x i y h => hE x i y (.inr h)) h.2)
  | loop s' x t' q body ih =>
    intro s t ok hE h
    obtain ⟨rfl, rfl, _⟩ := ok.loop_ends
    exact ((SReach.refl _).eps (hE _ _ _ (.inl ⟨rfl, rfl, rfl⟩))).quant
      (hE _ _ _ (.inr (.inl ⟨rfl, rfl, rfl⟩))) h

/-- Going around a loop any number of times. -/
theorem Fr.rounds {body : Fr} {x : Nat} (ok : body.Ok x x) (hE : ∀ x i y, body.Edge x i y → E x i y) :
    ∀ (ws : List (List Char)) (κ : Counts), (∀ u ∈ ws, body.Lang u) → (∀ h ∈ body.heads, κ h = 0) →
    ∃ n κ', Path E n x κ ws.flatten x κ' ∧ κ' x = κ x + ws.length ∧
      (∀ h ∈ body.heads, κ' h = 0) ∧ ∀ y, y ≠ x → y ∉ body.inner → κ' y = κ y := by
  intro ws
  induction ws with
  | nil => intro κ _ hz; exact ⟨0, κ, .refl _ _, rfl, hz, fun _ _ _ => rfl⟩
  | cons u ws ihw =>
    intro κ hl hz
    obtain ⟨n, κ1, h1, h2, h3, h4⟩ := Fr.complete (E := E) ok hE (hl u (by simp)) hz
    obtain ⟨n', κ2, g1, g2, g3, g4⟩ := ihw κ1 (fun u hu => hl u (by simp [hu])) h3
    refine ⟨n + n', κ2, by simpa using h1.append g1, ?_, g3, ?_⟩
    · rw [g2, h2, List.length_cons]; omega
    · intro y hy hn; rw [g4 y hy hn, h4 y hy hn]

/-- Every such word is read on a path that begins with a character. -/
theorem Fr.first_complete {fr : Fr} : ∀ {s t : Nat} {κ : Counts} {b : Bool} {w : List Char}, fr.Ok s t →
    (∀ x i y, fr.Edge x i y → E x i y) → fr.First b w → (∀ h ∈ fr.heads, κ h = 0) →
    ∃ x n d c v κ0 κ', w = c :: v ∧ SReach E s x ∧ CStep E x κ [c] d κ0 ∧ Path E n d κ0 v t κ' ∧
      κ' s = (if b then 1 else 0) + κ s ∧ (∀ h ∈ fr.heads, κ' h = 0) ∧
      ∀ y, y ≠ s → y ∉ fr.inner → κ' y = κ y := by
  induction fr with
  | eps => intro s t κ b w ok hE h; exact h.elim
  | lit s' t' l =>
    rintro s t κ b w ok hE ⟨rfl, c, rfl, hc⟩ hz
    obtain ⟨rfl, rfl⟩ := ok.shape
    refine ⟨s', 0, t', c, [], _, _, rfl, .refl _, .char (hE _ _ _ ⟨rfl, rfl, rfl⟩) hc, .refl _ _, ?_,
      by simp [heads], fun y hy _ => κ.bump_ne hy⟩
    rw [κ.bump_self]; simp; omega
  | alt a b iha ihb =>
    intro s t κ fl w ok hE hw hz
    simp only [heads, inner, List.mem_append] at hz ⊢
    rcases hw with hw | hw
    · obtain ⟨x, n, d, c, v, κ0, κ', h0, h1, h1', h1'', h2, h3, h4⟩ := iha ok.alt_left
        (fun x i y h => hE x i y (.inl h)) hw (fun h hh => hz h (.inl hh))
      refine ⟨x, n, d, c, v, κ0, κ', h0, h1, h1', h1'', h2, ?_, fun y hy hn => h4 y hy (fun h => hn (.inl h))⟩
      rintro h (hh | hh)
      · exact h3 h hh
      · have hb := heads_inner hh
        rw [h4 h ?_ ?_]
        · exact hz h (.inr hh)
        · rintro rfl; exact ok.alt_right.s_out hb
        · exact fun ha => ok.alt_disjoint ha hb
    · obtain ⟨x, n, d, c, v, κ0, κ', h0, h1, h1', h1'', h2, h3, h4⟩ := ihb ok.alt_right
        (fun x i y h => hE x i y (.inr h)) hw (fun h hh => hz h (.inr hh))
      refine ⟨x, n, d, c, v, κ0, κ', h0, h1, h1', h1'', h2, ?_, fun y hy hn => h4 y hy (fun h => hn (.inr h))⟩
      rintro h (hh | hh)
      · have ha := heads_inner hh
        rw [h4 h ?_ ?_]
        · exact hz h (.inl hh)
        · rintro rfl; exact ok.alt_left.s_out ha
        · exact ok.alt_disjoint ha
      · exact h3 h hh
  | seq a m b iha ihb =>
    intro s t κ fl w ok hE hw hz
    simp only [heads, inner, List.mem_append, List.mem_cons] at hz ⊢
    have s_out : s ≠ m ∧ s ∉ a.inner ∧ s ∉ b.inner := by
      have := ok.s_out
      simpa only [inner, List.mem_append, List.mem_cons, not_or] using this
    rcases hw with ⟨u, v, rfl, hu, hv⟩ | ⟨rfl, hnul, b', hw⟩
    · obtain ⟨x, n, d, c, v', κ0, κ1, rfl, h1, h1', h1'', h2, h3, h4⟩ := iha ok.seq_left
        (fun x i y h => hE x i y (.inl h)) hu (fun h hh => hz h (.inl hh))
      have hzb : ∀ h ∈ b.heads, κ1 h = 0 := by
        intro h hh
        have hb := heads_inner hh
        rw [h4 h ?_ ?_]
        · exact hz h (.inr hh)
        · rintro rfl; exact s_out.2.2 hb
        · exact fun ha => ok.seq_disjoint ha hb
      obtain ⟨n', κ2, g1, g2, g3, g4⟩ := Fr.complete (E := E) ok.seq_right
        (fun x i y h => hE x i y (.inr h)) hv hzb
      refine ⟨x, n + n', d, c, v' ++ v, κ0, κ2, rfl, h1, h1', h1''.append g1, ?_, ?_, ?_⟩
      · rw [g4 s s_out.1 s_out.2.2, h2]
      · rintro h (hh | hh)
        · have ha := heads_inner hh
          rw [g4 h ?_ ?_]
          · exact h3 h hh
          · rintro rfl; exact ok.seq_left.t_out ha
          · exact ok.seq_disjoint ha
        · exact g3 h hh
      · intro y hy hn
        simp only [not_or] at hn
        rw [g4 y hn.1 hn.2.2, h4 y hy hn.2.1]
    · obtain ⟨x, n, d, c, v, κ0, κ', rfl, h1, h1', h1'', h2, h3, h4⟩ := ihb ok.seq_right
        (fun x i y h => hE x i y (.inr h)) hw (fun h hh => hz h (.inr hh))
      refine ⟨x, n, d, c, v, κ0, κ', rfl,
        (Fr.nul_reach ok.seq_left (fun x i y h => hE x i y (.inl h)) hnul).trans h1, h1', h1'', ?_, ?_, ?_⟩
      · rw [h4 s s_out.1 s_out.2.2]; simp
      · rintro h (hh | hh)
        · have ha := heads_inner hh
          rw [h4 h ?_ ?_]
          · exact hz h (.inl hh)
          · rintro rfl; exact ok.seq_left.t_out ha
          · exact ok.seq_disjoint ha
        · exact h3 h hh
      · intro y hy hn
        simp only [not_or] at hn
        exact h4 y hn.1 hn.2.2
  | loop s' x t' q body ih =>
    rintro s t κ fl w ok hE ⟨rfl, b', u, ws, rfl, hu, hws, hq⟩ hz
    obtain ⟨rfl, rfl, sx, tx, sb, tb⟩ := ok.loop_ends
    simp only [heads, inner, List.mem_cons] at hz ⊢
    have hEb : ∀ x i y, body.Edge x i y → E x i y := fun x i y h => hE x i y (.inr (.inr h))
    obtain ⟨y, n, d, c, v, κ0, κ1, rfl, h1, h1', h1'', h2, h3, h4⟩ := ih ok.loop_body hEb hu
      (fun h hh => hz h (.inr hh))
    obtain ⟨n', κ2, g1, g2, g3, g4⟩ := Fr.rounds (E := E) ok.loop_body hEb ws κ1 hws h3
    have hx0 : κ x = 0 := hz x (.inl rfl)
    rw [hx0, Nat.add_zero] at h2
    rw [h2] at g2
    have p2 : Path E 1 x κ2 [] t' (κ2.reset x) :=
      .single (.quant (hE _ _ _ (.inr (.inl ⟨rfl, rfl, rfl⟩))) (by rw [g2]; exact hq))
    refine ⟨y, n + n' + 1, d, c, v ++ ws.flatten, κ0, κ2.reset x, rfl,
      ((SReach.refl _).eps (hE _ _ _ (.inl ⟨rfl, rfl, rfl⟩))).trans h1, h1', ?_, ?_, ?_, ?_⟩
    · simpa using (h1''.append g1).append p2
    · rw [κ2.reset_ne sx, g4 s' sx sb, h4 s' sx sb]; simp
    · rintro h (rfl | hh)
      · exact κ2.reset_self h
      · have hb := heads_inner hh
        rw [κ2.reset_ne (by rintro rfl; exact ok.loop_body.s_out hb)]
        exact g3 h hh
    · intro y hy hn
      simp only [not_or] at hn
      rw [κ2.reset_ne hn.1, g4 y hn.1 hn.2, h4 y hn.1 hn.2]

/-- A path from the head of a loop to somewhere outside. -/
theorem Fr.leave {body : Fr} {s' x t' s t p' : Nat} {q : Quant} {κ' : Counts}
    (ok : (Fr.loop s' x t' q body).Ok s t) (cl : (Fr.loop s' x t' q body).Closed E)
    (hout : p' ≠ x ∧ p' ∉ body.inner) :
    ∀ (k n : Nat), n ≤ k → ∀ (κ : Counts) (w : List Char), Path E n x κ w p' κ' →
      (∀ h ∈ body.heads, κ h = 0) →
      ∃ n2 κ1 w2, ∃ ws : List (List Char), w = ws.flatten ++ w2 ∧ n2 ≤ n ∧
        (∀ u ∈ ws, body.Lang u) ∧ q.isSatisfied (κ x + ws.length) = true ∧ Path E n2 t κ1 w2 p' κ' ∧
        κ1 x = 0 ∧ (∀ h ∈ body.heads, κ1 h = 0) ∧ ∀ y, y ≠ x → y ∉ body.inner → κ1 y = κ y := by
  intro k
  induction k with
  | zero =>
    intro n hn κ w hp hz
    obtain rfl : n = 0 := by omega
    cases hp
    exact absurd rfl hout.1
  | succ k ihk =>
    intro n hn κ w hp hz
    cases hp with
    | refl => exact absurd rfl hout.1
    | @cons n1 _ d1 _ _ κ1 _ u1 v1 hs1 hp1 =>
      have hexit : CStep (fun _ i y => i = .quantified q ∧ y = t) x κ u1 d1 κ1 ∨
          CStep body.Edge x κ u1 d1 κ1 := hs1.or (fun i y h => cl.loop_head ok h)
      rcases hexit with h | h
      · cases h with
        | eps h => cases h.1
        | char h _ => cases h.1
        | @quant _ _ q' h hq =>
          obtain ⟨h1, rfl⟩ := h
          cases h1
          refine ⟨n1, _, v1, [], rfl, by omega, by simp, by simpa using hq, hp1, κ.reset_self _, ?_, ?_⟩
          · intro h hh
            rw [κ.reset_ne (by rintro rfl; exact ok.loop_body.s_out (heads_inner hh))]
            exact hz h hh
          · intro y hy _
            exact κ.reset_ne hy
      · obtain ⟨n2, κ2, w1, w2, e, hn2, hl, hp2, h2, h3, h4⟩ := Fr.sound ok.loop_body (cl.loop_body ok) h
          hp1 hout.2 hz
        obtain ⟨n3, κ3, w3, ws, e', hn3, hl', hq, hp3, g2, g3, g4⟩ := ihk n2 (by omega) κ2 w2 hp2 h3
        refine ⟨n3, κ3, w3, w1 :: ws, by rw [e, e']; simp, by omega, ?_, ?_, hp3, g2, g3,
          fun y hy hn => by rw [g4 y hy hn, h4 y hy hn]⟩
        · intro u hu
          rcases List.mem_cons.1 hu with rfl | hu
          · exact hl
          · exact hl' u hu
        · rw [List.length_cons, ← Nat.add_assoc, Nat.add_right_comm, ← h2]
          exact hq

/-- A path that begins with a character in a state the closure of `s` reaches, and that ends outside of
the fragment, goes through `t`. -/
theorem Fr.first_sound {fr : Fr} : ∀ {s t x : Nat} {κ κ0 κ' : Counts} {n d p' : Nat} {c : Char}
    {w : List Char}, fr.Ok s t → fr.Closed E → (x = s ∨ fr.Start x) → CStep fr.Edge x κ [c] d κ0 →
    Path E n d κ0 w p' κ' → p' ∉ fr.inner → (∀ h ∈ fr.heads, κ h = 0) →
    ∃ b n2 κ1 w1 w2, c :: w = w1 ++ w2 ∧ fr.First b w1 ∧ Path E n2 t κ1 w2 p' κ' ∧
      κ1 s = (if b then 1 else 0) + κ s ∧ (∀ h ∈ fr.heads, κ1 h = 0) ∧
      ∀ y, y ≠ s → y ∉ fr.inner → κ1 y = κ y := by
  induction fr with
  | eps s' t' =>
    intro s t x κ κ0 κ' n d p' c w ok cl hx hs hp hout hz
    generalize hc : [c] = u at hs
    cases hs with
    | eps => cases hc
    | quant => cases hc
    | char h _ => cases h.2.1
  | lit s' t' l =>
    intro s t x κ κ0 κ' n d p' c w ok cl hx hs hp hout hz
    obtain ⟨rfl, rfl⟩ := ok.shape
    generalize hcu : [c] = u at hs
    cases hs with
    | eps h => cases hcu
    | quant h _ => cases hcu
    | @char _ _ l' c' h hc =>
      cases hcu
      obtain ⟨rfl, h2, rfl⟩ := h
      cases h2
      exact ⟨true, n, _, [c], w, rfl, ⟨rfl, c, rfl, hc⟩, hp, by rw [κ.bump_self]; simp; omega,
        by simp [heads], fun y hy _ => κ.bump_ne hy⟩
  | alt a b iha ihb =>
    intro s t x κ κ0 κ' n d p' c w ok cl hx hs hp hout hz
    simp only [heads, inner, List.mem_append, not_or] at hz hout ⊢
    rcases hs.or (G := a.Edge) (H := b.Edge) (fun i y h => h) with hs | hs
    · have hx' : x = s ∨ a.Start x := by
        obtain ⟨i, he⟩ := hs.edge
        rcases edge_source ok.alt_left.shape he with h | h
        · exact .inl h
        · rcases hx with h' | h' | h'
          · exact .inl h'
          · exact .inr h'
          · exact absurd (start_inner h') (ok.alt_disjoint h)
      obtain ⟨fl, n2, κ1, w1, w2, e, hl, hp2, h2, h3, h4⟩ := iha ok.alt_left (cl.alt_left ok) hx' hs hp
        hout.1 (fun h hh => hz h (.inl hh))
      refine ⟨fl, n2, κ1, w1, w2, e, .inl hl, hp2, h2, ?_, fun y hy hn => h4 y hy hn.1⟩
      rintro h (hh | hh)
      · exact h3 h hh
      · have hb := heads_inner hh
        rw [h4 h ?_ ?_]
        · exact hz h (.inr hh)
        · rintro rfl; exact ok.alt_right.s_out hb
        · exact fun ha => ok.alt_disjoint ha hb
    · have hx' : x = s ∨ b.Start x := by
        obtain ⟨i, he⟩ := hs.edge
        rcases edge_source ok.alt_right.shape he with h | h
        · exact .inl h
        · rcases hx with h' | h' | h'
          · exact .inl h'
          · exact absurd h (ok.alt_disjoint (start_inner h'))
          · exact .inr h'
      obtain ⟨fl, n2, κ1, w1, w2, e, hl, hp2, h2, h3, h4⟩ := ihb ok.alt_right (cl.alt_right ok) hx' hs hp
        hout.2 (fun h hh => hz h (.inr hh))
      refine ⟨fl, n2, κ1, w1, w2, e, .inr hl, hp2, h2, ?_, fun y hy hn => h4 y hy hn.2⟩
      rintro h (hh | hh)
      · have ha := heads_inner hh
        rw [h4 h ?_ ?_]
        · exact hz h (.inl hh)
        · rintro rfl; exact ok.alt_left.s_out ha
        · exact ok.alt_disjoint ha
      · exact h3 h hh
  | seq a m b iha ihb =>
    intro s t x κ κ0 κ' n d p' c w ok cl hx hs hp hout hz
    simp only [heads, inner, List.mem_append, List.mem_cons, not_or] at hz hout ⊢
    have s_out : s ≠ m ∧ s ∉ a.inner ∧ s ∉ b.inner := by
      have := ok.s_out
      simpa only [inner, List.mem_append, List.mem_cons, not_or] using this
    rcases hs.or (G := a.Edge) (H := b.Edge) (fun i y h => h) with hs | hs
    · have hx' : x = s ∨ a.Start x := by
        obtain ⟨i, he⟩ := hs.edge
        rcases hx with h | h | ⟨_, h | h⟩
        · exact .inl h
        · exact .inr h
        · subst h
          rcases edge_source ok.seq_left.shape he with h | h
          · exact absurd h.symm s_out.1
          · exact absurd h ok.seq_left.t_out
        · have hb := start_inner h
          rcases edge_source ok.seq_left.shape he with h | h
          · subst h; exact absurd hb s_out.2.2
          · exact absurd hb (ok.seq_disjoint h)
      obtain ⟨fl, n2, κ1, w1, w2, e, hl, hp2, h2, h3, h4⟩ := iha ok.seq_left (cl.seq_left ok) hx' hs hp
        hout.2.1 (fun h hh => hz h (.inl hh))
      have hzb : ∀ h ∈ b.heads, κ1 h = 0 := by
        intro h hh
        have hb := heads_inner hh
        rw [h4 h ?_ ?_]
        · exact hz h (.inr hh)
        · rintro rfl; exact s_out.2.2 hb
        · exact fun ha => ok.seq_disjoint ha hb
      cases hp2 with
      | refl => exact absurd rfl hout.1
      | @cons n3 _ d1 _ _ κ2 _ u1 v1 hs1 hp3 =>
        have hs1 : CStep b.Edge m κ1 u1 d1 κ2 := hs1.restrict (fun i y h => cl.seq_mid ok h)
        obtain ⟨n4, κ3, x1, x2, e', hn', hl', hp4, g2, g3, g4⟩ := Fr.sound ok.seq_right
          (cl.seq_right ok) hs1 hp3 hout.2.2 hzb
        refine ⟨fl, n4, κ3, w1 ++ x1, x2, by rw [e, e', List.append_assoc], .inl ⟨w1, x1, rfl, hl, hl'⟩,
          hp4, ?_, ?_, ?_⟩
        · rw [g4 s s_out.1 s_out.2.2, h2]
        · rintro h (hh | hh)
          · have ha := heads_inner hh
            rw [g4 h ?_ ?_]
            · exact h3 h hh
            · rintro rfl; exact ok.seq_left.t_out ha
            · exact ok.seq_disjoint ha
          · exact g3 h hh
        · intro y hy hn
          rw [g4 y hn.1 hn.2.2, h4 y hy hn.2.1]
    · have hx' : a.Nul ∧ (x = m ∨ b.Start x) := by
        obtain ⟨i, he⟩ := hs.edge
        rcases hx with h | h | h
        · subst h
          rcases edge_source ok.seq_right.shape he with h | h
          · exact absurd h s_out.1
          · exact absurd h s_out.2.2
        · have ha := start_inner h
          rcases edge_source ok.seq_right.shape he with h | h
          · subst h; exact absurd ha ok.seq_left.t_out
          · exact absurd h (ok.seq_disjoint ha)
        · exact h
      obtain ⟨fl, n2, κ1, w1, w2, e, hl, hp2, h2, h3, h4⟩ := ihb ok.seq_right (cl.seq_right ok) hx'.2 hs
        hp hout.2.2 (fun h hh => hz h (.inr hh))
      refine ⟨false, n2, κ1, w1, w2, e, .inr ⟨rfl, hx'.1, fl, hl⟩, hp2, ?_, ?_, ?_⟩
      · rw [h4 s s_out.1 s_out.2.2]; simp
      · rintro h (hh | hh)
        · have ha := heads_inner hh
          rw [h4 h ?_ ?_]
          · exact hz h (.inl hh)
          · rintro rfl; exact ok.seq_left.t_out ha
          · exact ok.seq_disjoint ha
        · exact h3 h hh
      · intro y hy hn
        exact h4 y hn.1 hn.2.2
  | loop s' h t' q body ih =>
    intro s t x κ κ0 κ' n d p' c w ok cl hx hs hp hout hz
    obtain ⟨rfl, rfl, sx, tx, sb, tb⟩ := ok.loop_ends
    simp only [heads, inner, List.mem_cons, not_or] at hz hout ⊢
    have hs' : CStep body.Edge x κ [c] d κ0 := by
      generalize hcu : [c] = u at hs
      cases hs with
      | eps => cases hcu
      | quant => cases hcu
      | char he hc =>
        cases hcu
        rcases he with he | he | he
        · cases he.2.1
        · cases he.2.1
        · exact .char he hc
    have hx' : x = h ∨ body.Start x := by
      rcases hx with h' | h'
      · subst h'
        obtain ⟨i, he⟩ := hs'.edge
        rcases edge_source ok.loop_body.shape he with h | h
        · exact absurd h sx
        · exact absurd h sb
      · exact h'
    obtain ⟨fl, n2, κ1, w1, w2, e, hl, hp2, h2, h3, h4⟩ := ih ok.loop_body (cl.loop_body ok) hx' hs' hp
      hout.2 (fun h hh => hz h (.inr hh))
    obtain ⟨n3, κ2, w3, ws, e', _, hws, hq, hp3, g2, g3, g4⟩ := Fr.leave ok cl hout n2 n2 (Nat.le_refl _)
      κ1 w2 hp2 h3
    rw [h2, hz h (.inl rfl), Nat.add_zero] at hq
    refine ⟨false, n3, κ2, w1 ++ ws.flatten, w3, by rw [e, e', List.append_assoc],
      ⟨rfl, fl, w1, ws, rfl, hl, hws, hq⟩, hp3, ?_, ?_, ?_⟩
    · rw [g4 s' sx sb, h4 s' sx sb]; simp
    · rintro y (rfl | hh)
      · exact g2
      · exact g3 y hh
    · intro y hy hn
      rw [g4 y hn.1 hn.2, h4 y hn.1 hn.2]

/-! ## Whole automata -/

variable {nfa : Nfa} {rs : List (Fr × Nat)}

omit [Unicode] in
/-- What the closure of the start state reaches. -/
theorem Bundle.sreach (b : Bundle nfa rs) {x : Nat} (h : SReach nfa.HasEdge 0 x) :
    x = 0 ∨ ∃ r ∈ rs, r.1.Start x ∨ (x = r.2 ∧ r.1.Nul) := by
  have step : ∀ {x d : Nat} {i : Input}, (x = 0 ∨ ∃ r ∈ rs, r.1.Start x ∨ (x = r.2 ∧ r.1.Nul)) →
      nfa.HasEdge x i d → Static i → ∃ r ∈ rs, r.1.Start d ∨ (d = r.2 ∧ r.1.Nul) := by
    intro x d i hx he hi
    obtain ⟨r, hr, he'⟩ := (b.edges x i d).1 he
    refine ⟨r, hr, Fr.start_step (b.ok hr) ?_ he' hi⟩
    rcases hx with h | ⟨r', hr', h | ⟨rfl, _⟩⟩
    · exact .inl h
    · rcases Fr.edge_source (b.shape r hr) he' with h' | h'
      · exact .inl h'
      · have := b.unique hr hr' (x := x) (by simp [h']) (by simp [Fr.start_inner h])
        subst this
        exact .inr h
    · exact absurd he (b.final_no_edge hr')
  induction h with
  | refl => exact .inl rfl
  | eps _ he ih => exact .inr (step ih he trivial)
  | quant _ he hq ih => exact .inr (step ih he hq)

/-- The words that lead from the closure of the start state to a final state. -/
theorem Bundle.first_paths (b : Bundle nfa rs) {f : Nat} (hf : nfa.IsFinal f) (w : List Char) :
    (∃ x κ', SReach nfa.HasEdge 0 x ∧ CharPath nfa.HasEdge x (fun _ => 0) w f κ') ↔
      ∃ r ∈ rs, r.2 = f ∧ ((w = [] ∧ r.1.Nul) ∨ ∃ fl, r.1.First fl w) := by
  constructor
  · rintro ⟨x, κ', hx, hp⟩
    have h0 : f ≠ 0 := by
      rintro rfl
      rcases (b.finals 0).1 hf with h | ⟨r, hr, h⟩
      · cases h
      · exact b.final_ne hr h.symm
    have hinner : ∀ r ∈ rs, f ∉ r.1.inner := by
      intro r hr h
      rcases (b.finals f).1 hf with rfl | ⟨r', hr', h'⟩
      · have := b.two r hr 1 h
        omega
      · have := b.unique hr hr' (x := f) (by simp [h]) (by simp [h'])
        subst this
        exact (b.ok hr).t_out (h' ▸ h)
    cases hp with
    | refl =>
      rcases b.sreach hx with h | ⟨r, hr, h | ⟨rfl, h⟩⟩
      · exact absurd h h0
      · exact absurd (Fr.start_inner h) (hinner r hr)
      · exact ⟨r, hr, rfl, .inl ⟨rfl, h⟩⟩
    | @char d _ n _ κ1 _ c w hs hp =>
      obtain ⟨r, hr, hs', hx'⟩ : ∃ r ∈ rs, CStep r.1.Edge x (fun _ => 0) [c] d κ1 ∧
          (x = 0 ∨ r.1.Start x) := by
        obtain ⟨l, he, hc, rfl⟩ : ∃ l, nfa.HasEdge x (.literal l) d ∧ l.contains c = true ∧
            κ1 = Counts.bump (fun _ => 0) x := by
          generalize hcu : [c] = u at hs
          cases hs with
          | eps => cases hcu
          | quant => cases hcu
          | char he hc => cases hcu; exact ⟨_, he, hc, rfl⟩
        obtain ⟨r, hr, he'⟩ := (b.edges x _ d).1 he
        refine ⟨r, hr, .char he' hc, ?_⟩
        rcases b.sreach hx with h | ⟨r', hr', h | ⟨rfl, _⟩⟩
        · exact .inl h
        · rcases Fr.edge_source (b.shape r hr) he' with h' | h'
          · exact .inl h'
          · have := b.unique hr hr' (x := x) (by simp [h']) (by simp [Fr.start_inner h])
            subst this
            exact .inr h
        · exact absurd he (b.final_no_edge hr')
      obtain ⟨fl, n2, κ2, w1, w2, e, hl, hp2, _⟩ := Fr.first_sound (b.ok hr) (b.closed hr) hx' hs' hp
        (hinner r hr) (fun _ _ => rfl)
      generalize hp' : r.2 = p2 at hp2
      cases hp2 with
      | refl => exact ⟨r, hr, hp', .inr ⟨fl, by rw [e, List.append_nil]; exact hl⟩⟩
      | cons hs _ =>
        subst hp'
        obtain ⟨i, h⟩ := hs.edge
        exact absurd h (b.final_no_edge hr)
  · rintro ⟨r, hr, rfl, ⟨rfl, h⟩ | ⟨fl, h⟩⟩
    · exact ⟨_, _, Fr.nul_reach (b.ok hr) (fun x i y h => (b.edges x i y).2 ⟨r, hr, h⟩) h, .refl _ _⟩
    · obtain ⟨x, n, d, c, v, κ0, κ', rfl, h1, h2, h3, _⟩ := Fr.first_complete (E := nfa.HasEdge)
        (κ := fun _ => 0) (b.ok hr) (fun x i y h => (b.edges x i y).2 ⟨r, hr, h⟩) h (fun _ _ => rfl)
      exact ⟨x, κ', h1, .char h2 h3⟩

/-- The runs after reading a word and the paths that read it. -/
theorem runsAt_paths (w : Wf nfa) (h0 : nfa.start = 0) {v : List Char} {r : Run} (h : RunsAt nfa v r) :
    r.counters.Sorted ∧ ∃ x, SReach nfa.HasEdge 0 x ∧
      CharPath nfa.HasEdge x (fun _ => 0) v r.state r.counts := by
  induction h with
  | init h => exact ⟨List.Pairwise.nil, _, h0 ▸ h, .refl _ _⟩
  | @snoc v c r s t _ hc he ih =>
    obtain ⟨hs, x, hx, hp⟩ := ih
    have hst : CStep nfa.HasEdge r.state r.counts [c] s.state s.counts ∧ s.counters.Sorted := by
      cases hc with
      | @mk l d hed hc =>
        obtain ⟨k1, k2, k3⟩ := r.take_eps hs d
        rw [k3]
        exact ⟨.char hed hc, k2⟩
    obtain ⟨i, hedge⟩ := hst.1.edge
    obtain ⟨n, hk⟩ := reaches_iff_kreach.1 ((reaches_iff_ER w (w.edge_lt hedge).2).2 he)
    obtain ⟨k1, k2⟩ := hk.path w hst.2
    exact ⟨k1, x, hx, hp.snoc hst.1 k2⟩

theorem paths_runsAt (w : Wf nfa) (h0 : nfa.start = 0) {x : Nat} (hx : SReach nfa.HasEdge 0 x)
    (v : List Char) : ∀ {p : Nat} {κ : Counts}, CharPath nfa.HasEdge x (fun _ => 0) v p κ →
    ∃ r, RunsAt nfa v r ∧ r.state = p ∧ r.counts = κ := by
  generalize hn : v.length = n
  induction n generalizing v with
  | zero =>
    intro p κ hp
    rw [List.length_eq_zero_iff.1 hn] at hp ⊢
    generalize hu : ([] : List Char) = u at hp
    cases hp with
    | refl => exact ⟨⟨x, []⟩, .init (h0 ▸ hx), rfl, rfl⟩
    | char => cases hu
  | succ n ih =>
    intro p κ hp
    have hne : v ≠ [] := by rintro rfl; simp at hn
    obtain ⟨v', c, rfl⟩ : ∃ v' c, v = v' ++ [c] :=
      ⟨v.dropLast, v.getLast hne, (List.dropLast_concat_getLast hne).symm⟩
    obtain ⟨n2, p1, d, κ1, κ2, h3, h4, h5⟩ := hp.split
    obtain ⟨r, hr, rfl, rfl⟩ := ih v' (by simpa using hn) h3
    have hs := (runsAt_paths w h0 hr).1
    generalize hu : [c] = u at h4
    cases h4 with
    | eps => cases hu
    | quant => cases hu
    | @char _ _ l c' he hc =>
      cases hu
      obtain ⟨k1, k2, k3⟩ := r.take_eps hs d
      obtain ⟨r', h6, h7, h8, _⟩ := KReach.of_path w (r := r.takeTransition d false) k2
        (by rw [k1, k3]; exact h5)
      exact ⟨r', .snoc hr (.mk he hc) ((reaches_iff_ER w (by rw [k1]; exact (w.edge_lt he).2)).1
        (reaches_iff_kreach.2 ⟨_, h6⟩)), h7, h8⟩

/-- Whether some run is in a final state after reading a word. -/
theorem Bundle.runsAt_final (b : Bundle nfa rs) {f : Nat} (hf : nfa.IsFinal f) (w : List Char) :
    (∃ r, RunsAt nfa w r ∧ r.state = f) ↔
      ∃ r ∈ rs, r.2 = f ∧ ((w = [] ∧ r.1.Nul) ∨ ∃ fl, r.1.First fl w) := by
  rw [← b.first_paths hf w]
  constructor
  · rintro ⟨r, hr, rfl⟩
    obtain ⟨_, x, hx, hp⟩ := runsAt_paths b.wf b.start hr
    exact ⟨x, _, hx, hp⟩
  · rintro ⟨x, κ, hx, hp⟩
    obtain ⟨r, hr, h, _⟩ := paths_runsAt b.wf b.start hx w hp
    exact ⟨r, hr, h⟩

end Pango.Fsm
