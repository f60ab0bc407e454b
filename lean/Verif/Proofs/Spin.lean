import Verif.Proofs.HaltAt
import Verif.Proofs.FragFirst
import Verif.Spec.RegexSpin

/-!
# The strings on which the closures do not end
-/

namespace Pango.Fsm

open Pango Pango.Regex Pango.Spec Pango.Props

variable [Unicode] {E : Nat → Input → Nat → Prop}

/-- The words that lead from the first state of a fragment to the head of a loop whose body reads the empty
word. -/
def Fr.Spins : Fr → List Char → Prop
  | .eps _ _, _ => False
  | .lit _ _ _, _ => False
  | .alt a b, w => a.Spins w ∨ b.Spins w
  | .seq a _ b, w => a.Spins w ∨ ∃ u v, w = u ++ v ∧ a.Lang u ∧ b.Spins v
  | .loop _ _ _ _ body, w => ∃ (ws : List (List Char)) (v : List Char), w = ws.flatten ++ v ∧
      (∀ u ∈ ws, body.Lang u) ∧ ((v = [] ∧ body.Lang []) ∨ body.Spins v)

/-- The same for words that are read from the closure of the first state. -/
def Fr.FirstSpins : Fr → List Char → Prop
  | .eps _ _, _ => False
  | .lit _ _ _, _ => False
  | .alt a b, w => a.FirstSpins w ∨ b.FirstSpins w
  | .seq a _ b, w => a.FirstSpins w ∨ (∃ fl u v, w = u ++ v ∧ a.First fl u ∧ b.Spins v) ∨
      (a.Nul ∧ b.FirstSpins w)
  | .loop _ _ _ _ body, w => body.FirstSpins w ∨
      ∃ (fl : Bool) (u : List Char) (ws : List (List Char)) (v : List Char), w = u ++ (ws.flatten ++ v) ∧
        body.First fl u ∧ (∀ u ∈ ws, body.Lang u) ∧ ((v = [] ∧ body.Lang []) ∨ body.Spins v)

variable {s t p' : Nat}

theorem Fr.null_alt_left {a b : Fr} (ok : (Fr.alt a b).Ok s t)
    (h : p' ∈ (Fr.alt a b).inner → (Fr.alt a b).Null p') (hp : p' ∈ a.inner) : a.Null p' := by
  rcases h (List.mem_append.2 (.inl hp)) with h | h
  · exact h
  · exact absurd (null_inner h) (ok.alt_disjoint hp)

theorem Fr.null_alt_right {a b : Fr} (ok : (Fr.alt a b).Ok s t)
    (h : p' ∈ (Fr.alt a b).inner → (Fr.alt a b).Null p') (hp : p' ∈ b.inner) : b.Null p' := by
  rcases h (List.mem_append.2 (.inr hp)) with h | h
  · exact absurd hp (ok.alt_disjoint (null_inner h))
  · exact h

theorem Fr.null_seq_left {a b : Fr} {m : Nat} (ok : (Fr.seq a m b).Ok s t)
    (h : p' ∈ (Fr.seq a m b).inner → (Fr.seq a m b).Null p') (hp : p' ∈ a.inner) : a.Null p' := by
  rcases h (List.mem_cons.2 (.inr (List.mem_append.2 (.inl hp)))) with h | h
  · exact h
  · exact absurd (null_inner h) (ok.seq_disjoint hp)

theorem Fr.null_seq_right {a b : Fr} {m : Nat} (ok : (Fr.seq a m b).Ok s t)
    (h : p' ∈ (Fr.seq a m b).inner → (Fr.seq a m b).Null p') (hp : p' ∈ b.inner) : b.Null p' := by
  rcases h (List.mem_cons.2 (.inr (List.mem_append.2 (.inr hp)))) with h | h
  · exact absurd hp (ok.seq_disjoint (null_inner h))
  · exact h

theorem Fr.null_seq_mid {a b : Fr} {m : Nat} (ok : (Fr.seq a m b).Ok s t) :
    ¬ (m ∈ (Fr.seq a m b).inner → (Fr.seq a m b).Null m) := by
  intro h
  rcases h (List.mem_cons.2 (.inl rfl)) with h | h
  · exact ok.seq_left.t_out (null_inner h)
  · exact ok.seq_right.s_out (null_inner h)

theorem Fr.null_loop_head {body : Fr} {s' x t' : Nat} {q : Quant} (ok : (Fr.loop s' x t' q body).Ok s t)
    (h : x ∈ (Fr.loop s' x t' q body).inner → (Fr.loop s' x t' q body).Null x) : body.Lang [] := by
  rcases h (List.mem_cons.2 (.inl rfl)) with h | h
  · exact h.2
  · exact absurd (null_inner h) ok.loop_body.s_out

theorem Fr.null_loop_body {body : Fr} {s' x t' : Nat} {q : Quant} (ok : (Fr.loop s' x t' q body).Ok s t)
    (h : p' ∈ (Fr.loop s' x t' q body).inner → (Fr.loop s' x t' q body).Null p') (hp : p' ∈ body.inner) :
    body.Null p' := by
  rcases h (List.mem_cons.2 (.inr hp)) with h | h
  · exact absurd (h.1 ▸ hp) ok.loop_body.s_out
  · exact h

/-- A path from the head of a loop. -/
theorem Fr.spin_head {body : Fr} {s' x t' s t p' : Nat} {q : Quant} {κ' : Counts}
    (ok : (Fr.loop s' x t' q body).Ok s t) (cl : (Fr.loop s' x t' q body).Closed E)
    (hN : p' ∈ (Fr.loop s' x t' q body).inner → (Fr.loop s' x t' q body).Null p')
    (ih : ∀ {s t : Nat} {κ κ0 κ' : Counts} {n d p' : Nat} {u w : List Char},
      body.Ok s t → body.Closed E → CStep body.Edge s κ u d κ0 → Path E n d κ0 w p' κ' →
      (∀ h ∈ body.heads, κ h = 0) → (p' ∈ body.inner → body.Null p') →
      body.Spins (u ++ w) ∨
      ∃ n2 κ1 w1 w2, u ++ w = w1 ++ w2 ∧ n2 ≤ n ∧ body.Lang w1 ∧ Path E n2 t κ1 w2 p' κ' ∧
        κ1 s = κ s + 1 ∧ (∀ h ∈ body.heads, κ1 h = 0) ∧ ∀ y, y ≠ s → y ∉ body.inner → κ1 y = κ y) :
    ∀ (k n : Nat), n ≤ k → ∀ (κ : Counts) (w : List Char), Path E n x κ w p' κ' →
    (∀ h ∈ body.heads, κ h = 0) →
    (∃ (ws : List (List Char)) (v : List Char), w = ws.flatten ++ v ∧ (∀ u ∈ ws, body.Lang u) ∧
      ((v = [] ∧ body.Lang []) ∨ body.Spins v)) ∨
    ∃ n2 κ1 w2, ∃ ws : List (List Char), w = ws.flatten ++ w2 ∧ n2 ≤ n ∧
      (∀ u ∈ ws, body.Lang u) ∧ q.isSatisfied (κ x + ws.length) = true ∧ Path E n2 t' κ1 w2 p' κ' ∧
      κ1 x = 0 ∧ (∀ h ∈ body.heads, κ1 h = 0) ∧ ∀ y, y ≠ x → y ∉ body.inner → κ1 y = κ y := by
  obtain ⟨rfl, rfl, _⟩ := ok.loop_ends
  intro k
  induction k with
  | zero =>
    intro n hn κ w hp hz
    obtain rfl : n = 0 := by omega
    cases hp
    exact .inl ⟨[], [], rfl, by simp, .inl ⟨rfl, null_loop_head ok hN⟩⟩
  | succ k ihk =>
    intro n hn κ w hp hz
    cases hp with
    | refl => exact .inl ⟨[], [], rfl, by simp, .inl ⟨rfl, null_loop_head ok hN⟩⟩
    | @cons n1 _ d1 _ _ κ1 _ u1 v1 hs1 hp1 =>
      have hexit : CStep (fun _ i y => i = .quantified q ∧ y = t') x κ u1 d1 κ1 ∨
          CStep body.Edge x κ u1 d1 κ1 := hs1.or (fun i y h => cl.loop_head ok h)
      rcases hexit with h | h
      · cases h with
        | eps h => cases h.1
        | char h _ => cases h.1
        | @quant _ _ q' h hq =>
          obtain ⟨h1, rfl⟩ := h
          cases h1
          refine .inr ⟨n1, _, v1, [], rfl, by omega, by simp, by simpa using hq, hp1,
            κ.reset_self _, ?_, ?_⟩
          · intro h hh
            rw [κ.reset_ne (by rintro rfl; exact ok.loop_body.s_out (heads_inner hh))]
            exact hz h hh
          · intro y hy _
            exact κ.reset_ne hy
      · rcases ih ok.loop_body (cl.loop_body ok) h hp1 hz (null_loop_body ok hN) with
          hsp | ⟨n2, κ2, w1, w2, e, hn2, hl, hp2, h2, h3, h4⟩
        · exact .inl ⟨[], u1 ++ v1, rfl, by simp, .inr hsp⟩
        rcases ihk n2 (by omega) κ2 w2 hp2 h3 with
          ⟨ws, v, e', hl', hsp⟩ | ⟨n3, κ3, w3, ws, e', hn3, hl', hq, hp3, g2, g3, g4⟩
        · refine .inl ⟨w1 :: ws, v, by rw [e, e']; simp, ?_, hsp⟩
          intro u hu
          rcases List.mem_cons.1 hu with rfl | hu
          · exact hl
          · exact hl' u hu
        refine .inr ⟨n3, κ3, w3, w1 :: ws, by rw [e, e']; simp, by omega, ?_, ?_, hp3, g2, g3,
          fun y hy hn => by rw [g4 y hy hn, h4 y hy hn]⟩
        · intro u hu
          rcases List.mem_cons.1 hu with rfl | hu
          · exact hl
          · exact hl' u hu
        · rw [List.length_cons, ← Nat.add_assoc, Nat.add_right_comm, ← h2]
          exact hq

/-- A path that enters a fragment and ends at such a state, if it ends in the fragment, goes through the
fragment or reads one of these words. -/
theorem Fr.spin_enter {fr : Fr} : ∀ {s t : Nat} {κ κ0 κ' : Counts} {n d p' : Nat} {u w : List Char},
    fr.Ok s t → fr.Closed E → CStep fr.Edge s κ u d κ0 → Path E n d κ0 w p' κ' →
    (∀ h ∈ fr.heads, κ h = 0) → (p' ∈ fr.inner → fr.Null p') →
    fr.Spins (u ++ w) ∨
    ∃ n2 κ1 w1 w2, u ++ w = w1 ++ w2 ∧ n2 ≤ n ∧ fr.Lang w1 ∧ Path E n2 t κ1 w2 p' κ' ∧
      κ1 s = κ s + 1 ∧ (∀ h ∈ fr.heads, κ1 h = 0) ∧ ∀ y, y ≠ s → y ∉ fr.inner → κ1 y = κ y := by
  induction fr with
  | eps s' t' =>
    intro s t κ κ0 κ' n d p' u w ok cl hs hp hz hN
    obtain ⟨rfl, rfl⟩ := ok.shape
    right
    cases hs with
    | eps h =>
      obtain ⟨_, _, rfl⟩ := h
      exact ⟨n, _, [], w, rfl, Nat.le_refl _, rfl, hp, κ.bump_self _, by simp [heads],
        fun y hy _ => κ.bump_ne hy⟩
    | quant h _ => cases h.2.1
    | char h _ => cases h.2.1
  | lit s' t' l =>
    intro s t κ κ0 κ' n d p' u w ok cl hs hp hz hN
    obtain ⟨rfl, rfl⟩ := ok.shape
    right
    cases hs with
    | eps h => cases h.2.1
    | quant h _ => cases h.2.1
    | @char _ _ l' c h hc =>
      obtain ⟨_, h2, rfl⟩ := h
      cases h2
      exact ⟨n, _, [c], w, rfl, Nat.le_refl _, ⟨c, rfl, hc⟩, hp, κ.bump_self _, by simp [heads],
        fun y hy _ => κ.bump_ne hy⟩
  | alt a b iha ihb =>
    intro s t κ κ0 κ' n d p' u w ok cl hs hp hz hN
    simp only [heads, inner, List.mem_append, not_or] at hz ⊢
    rcases hs.or (G := a.Edge) (H := b.Edge) (fun i y h => h) with hs | hs
    · rcases iha ok.alt_left (cl.alt_left ok) hs hp (fun h hh => hz h (.inl hh)) (null_alt_left ok hN) with
        hsp | ⟨n2, κ1, w1, w2, e, hn, hl, hp2, h2, h3, h4⟩
      · exact .inl (.inl hsp)
      refine .inr ⟨n2, κ1, w1, w2, e, hn, .inl hl, hp2, h2, ?_, fun y hy hn => h4 y hy hn.1⟩
      rintro h (hh | hh)
      · exact h3 h hh
      · have hb := heads_inner hh
        rw [h4 h ?_ ?_]
        · exact hz h (.inr hh)
        · rintro rfl; exact ok.alt_right.s_out hb
        · exact fun ha => ok.alt_disjoint ha hb
    · rcases ihb ok.alt_right (cl.alt_right ok) hs hp (fun h hh => hz h (.inr hh)) (null_alt_right ok hN) with
        hsp | ⟨n2, κ1, w1, w2, e, hn, hl, hp2, h2, h3, h4⟩
      · exact .inl (.inr hsp)
      refine .inr ⟨n2, κ1, w1, w2, e, hn, .inr hl, hp2, h2, ?_, fun y hy hn => h4 y hy hn.2⟩
      rintro h (hh | hh)
      · have ha := heads_inner hh
        rw [h4 h ?_ ?_]
        · exact hz h (.inl hh)
        · rintro rfl; exact ok.alt_left.s_out ha
        · exact ok.alt_disjoint ha
      · exact h3 h hh
  | seq a m b iha ihb =>
    intro s t κ κ0 κ' n d p' u w ok cl hs hp hz hN
    simp only [heads, inner, List.mem_append, List.mem_cons, not_or] at hz ⊢
    have s_out : s ≠ m ∧ s ∉ a.inner ∧ s ∉ b.inner := by
      have := ok.s_out
      simpa only [inner, List.mem_append, List.mem_cons, not_or] using this
    have hs : CStep a.Edge s κ u d κ0 := hs.restrict (by
      rintro i y (h | h)
      · exact h
      · rcases edge_source ok.seq_right.shape h with h' | h'
        · exact absurd h' s_out.1
        · exact absurd h' s_out.2.2)
    rcases iha ok.seq_left (cl.seq_left ok) hs hp (fun h hh => hz h (.inl hh)) (null_seq_left ok hN) with
      hsp | ⟨n2, κ1, w1, w2, e, hn, hl, hp2, h2, h3, h4⟩
    · exact .inl (.inl hsp)
    have hzb : ∀ h ∈ b.heads, κ1 h = 0 := by
      intro h hh
      have hb := heads_inner hh
      rw [h4 h ?_ ?_]
      · exact hz h (.inr hh)
      · rintro rfl; exact s_out.2.2 hb
      · exact fun ha => ok.seq_disjoint ha hb
    cases hp2 with
    | refl => exact absurd hN (null_seq_mid ok)
    | @cons n3 _ d1 _ _ κ2 _ u1 v1 hs1 hp3 =>
      have hs1 : CStep b.Edge m κ1 u1 d1 κ2 := hs1.restrict (fun i y h => cl.seq_mid ok h)
      rcases ihb ok.seq_right (cl.seq_right ok) hs1 hp3 hzb (null_seq_right ok hN) with
        hsp | ⟨n4, κ3, x1, x2, e', hn', hl', hp4, g2, g3, g4⟩
      · exact .inl (.inr ⟨w1, u1 ++ v1, e, hl, hsp⟩)
      refine .inr ⟨n4, κ3, w1 ++ x1, x2, by rw [e, e', List.append_assoc], by omega,
        ⟨w1, x1, rfl, hl, hl'⟩, hp4, ?_, ?_, ?_⟩
      · rw [g4 s s_out.1 s_out.2.2, h2]
      · rintro h (hh | hh)
        · have ha := heads_inner hh
          rw [g4 h ?_ ?_]
          · exact h3 h hh
          · rintro rfl; exact ok.seq_left.t_out ha
          · exact ok.seq_disjoint ha
        · exact g3 h hh
      · intro y hy hn
        rw [g4 y hn.1 hn.2.2, h4 y hy hn.2.1]
  | loop s' x t' q body ih =>
    intro s t κ κ0 κ' n d p' u w ok cl hs hp hz hN
    obtain ⟨rfl, rfl, sx, tx, sb, tb⟩ := ok.loop_ends
    simp only [heads, inner, List.mem_cons, not_or] at hz ⊢
    have hfirst : CStep (fun _ i y => i = .eps ∧ y = x) s' κ u d κ0 := hs.restrict (by
      rintro i y (h | h | h)
      · exact h.2
      · exact absurd h.1 sx
      · rcases edge_source ok.loop_body.shape h with h' | h'
        · exact absurd h' sx
        · exact absurd h' sb)
    cases hfirst with
    | quant h _ => cases h.1
    | char h _ => cases h.1
    | eps h =>
      obtain ⟨_, rfl⟩ := h
      rcases Fr.spin_head ok cl hN ih n n (Nat.le_refl _) _ w hp (by
        intro h hh
        rw [κ.bump_ne (by rintro rfl; exact sb (heads_inner hh))]
        exact hz h (.inr hh)) with
        ⟨ws, v, e, hl, hsp⟩ | ⟨n2, κ1, w2, ws, e, hn, hl, hq, hp2, h2, h3, h4⟩
      · exact .inl ⟨ws, v, by simpa using e, hl, hsp⟩
      have hx0 : κ.bump s' d = 0 := by rw [κ.bump_ne (Ne.symm sx)]; exact hz d (.inl rfl)
      rw [hx0, Nat.zero_add] at hq
      refine .inr ⟨n2, κ1, ws.flatten, w2, by simpa using e, hn, ⟨ws, rfl, hq, hl⟩, hp2, ?_, ?_, ?_⟩
      · rw [h4 s' sx sb, κ.bump_self]
      · rintro h (rfl | hh)
        · exact h2
        · exact h3 h hh
      · intro y hy hn
        rw [h4 y hn.1 hn.2, κ.bump_ne hy]

/-- A path that begins with a character in a state the closure of `s` reaches, and that ends at
the head of such a loop if it ends in the fragment. -/
theorem Fr.spin_first {fr : Fr} : ∀ {s t x : Nat} {κ κ0 κ' : Counts} {n d p' : Nat} {c : Char}
    {w : List Char}, fr.Ok s t → fr.Closed E → (x = s ∨ fr.Start x) → CStep fr.Edge x κ [c] d κ0 →
    Path E n d κ0 w p' κ' → (p' ∈ fr.inner → fr.Null p') → (∀ h ∈ fr.heads, κ h = 0) →
    fr.FirstSpins (c :: w) ∨ ∃ b n2 κ1 w1 w2, c :: w = w1 ++ w2 ∧ fr.First b w1 ∧ Path E n2 t κ1 w2 p' κ' ∧
      κ1 s = (if b then 1 else 0) + κ s ∧ (∀ h ∈ fr.heads, κ1 h = 0) ∧
      ∀ y, y ≠ s → y ∉ fr.inner → κ1 y = κ y := by
  induction fr with
  | eps s' t' =>
    intro s t x κ κ0 κ' n d p' c w ok cl hx hs hp hN hz
    generalize hc : [c] = u at hs
    cases hs with
    | eps => cases hc
    | quant => cases hc
    | char h _ => cases h.2.1
  | lit s' t' l =>
    intro s t x κ κ0 κ' n d p' c w ok cl hx hs hp hN hz
    obtain ⟨rfl, rfl⟩ := ok.shape
    generalize hcu : [c] = u at hs
    cases hs with
    | eps h => cases hcu
    | quant h _ => cases hcu
    | @char _ _ l' c' h hc =>
      cases hcu
      obtain ⟨rfl, h2, rfl⟩ := h
      cases h2
      exact .inr ⟨true, n, _, [c], w, rfl, ⟨rfl, c, rfl, hc⟩, hp, by rw [κ.bump_self]; simp; omega,
        by simp [heads], fun y hy _ => κ.bump_ne hy⟩
  | alt a b iha ihb =>
    intro s t x κ κ0 κ' n d p' c w ok cl hx hs hp hN hz
    simp only [heads, inner, List.mem_append, not_or] at hz ⊢
    rcases hs.or (G := a.Edge) (H := b.Edge) (fun i y h => h) with hs | hs
    · have hx' : x = s ∨ a.Start x := by
        obtain ⟨i, he⟩ := hs.edge
        rcases edge_source ok.alt_left.shape he with h | h
        · exact .inl h
        · rcases hx with h' | h' | h'
          · exact .inl h'
          · exact .inr h'
          · exact absurd (start_inner h') (ok.alt_disjoint h)
      rcases iha ok.alt_left (cl.alt_left ok) hx' hs hp (null_alt_left ok hN) (fun h hh => hz h (.inl hh)) with
        hsp | ⟨fl, n2, κ1, w1, w2, e, hl, hp2, h2, h3, h4⟩
      · exact .inl (.inl hsp)
      refine .inr ⟨fl, n2, κ1, w1, w2, e, .inl hl, hp2, h2, ?_, fun y hy hn => h4 y hy hn.1⟩
      rintro h (hh | hh)
      · exact h3 h hh
      · have hb := heads_inner hh
        rw [h4 h ?_ ?_]
        · exact hz h (.inr hh)
        · rintro rfl; exact ok.alt_right.s_out hb
        · exact fun ha => ok.alt_disjoint ha hb
    · have hx' : x = s ∨ b.Start x := by
        obtain ⟨i, he⟩ := hs.edge
        rcases edge_source ok.alt_right.shape he with h | h
        · exact .inl h
        · rcases hx with h' | h' | h'
          · exact .inl h'
          · exact absurd h (ok.alt_disjoint (start_inner h'))
          · exact .inr h'
      rcases ihb ok.alt_right (cl.alt_right ok) hx' hs hp (null_alt_right ok hN) (fun h hh => hz h (.inr hh)) with
        hsp | ⟨fl, n2, κ1, w1, w2, e, hl, hp2, h2, h3, h4⟩
      · exact .inl (.inr hsp)
      refine .inr ⟨fl, n2, κ1, w1, w2, e, .inr hl, hp2, h2, ?_, fun y hy hn => h4 y hy hn.2⟩
      rintro h (hh | hh)
      · have ha := heads_inner hh
        rw [h4 h ?_ ?_]
        · exact hz h (.inl hh)
        · rintro rfl; exact ok.alt_left.s_out ha
        · exact ok.alt_disjoint ha
      · exact h3 h hh
  | seq a m b iha ihb =>
    intro s t x κ κ0 κ' n d p' c w ok cl hx hs hp hN hz
    simp only [heads, inner, List.mem_append, List.mem_cons, not_or] at hz ⊢
    have s_out : s ≠ m ∧ s ∉ a.inner ∧ s ∉ b.inner := by
      have := ok.s_out
      simpa only [inner, List.mem_append, List.mem_cons, not_or] using this
    rcases hs.or (G := a.Edge) (H := b.Edge) (fun i y h => h) with hs | hs
    · have hx' : x = s ∨ a.Start x := by
        obtain ⟨i, he⟩ := hs.edge
        rcases hx with h | h | ⟨_, h | h⟩
        · exact .inl h
        · exact .inr h
        · subst h
          rcases edge_source ok.seq_left.shape he with h | h
          · exact absurd h.symm s_out.1
          · exact absurd h ok.seq_left.t_out
        · have hb := start_inner h
          rcases edge_source ok.seq_left.shape he with h | h
          · subst h; exact absurd hb s_out.2.2
          · exact absurd hb (ok.seq_disjoint h)
      rcases iha ok.seq_left (cl.seq_left ok) hx' hs hp (null_seq_left ok hN) (fun h hh => hz h (.inl hh)) with
        hsp | ⟨fl, n2, κ1, w1, w2, e, hl, hp2, h2, h3, h4⟩
      · exact .inl (.inl hsp)
      have hzb : ∀ h ∈ b.heads, κ1 h = 0 := by
        intro h hh
        have hb := heads_inner hh
        rw [h4 h ?_ ?_]
        · exact hz h (.inr hh)
        · rintro rfl; exact s_out.2.2 hb
        · exact fun ha => ok.seq_disjoint ha hb
      cases hp2 with
      | refl => exact absurd hN (null_seq_mid ok)
      | @cons n3 _ d1 _ _ κ2 _ u1 v1 hs1 hp3 =>
        have hs1 : CStep b.Edge m κ1 u1 d1 κ2 := hs1.restrict (fun i y h => cl.seq_mid ok h)
        rcases Fr.spin_enter ok.seq_right (cl.seq_right ok) hs1 hp3 hzb (null_seq_right ok hN) with
          hsp | ⟨n4, κ3, x1, x2, e', hn', hl', hp4, g2, g3, g4⟩
        · exact .inl (.inr (.inl ⟨fl, w1, u1 ++ v1, e, hl, hsp⟩))
        refine .inr ⟨fl, n4, κ3, w1 ++ x1, x2, by rw [e, e', List.append_assoc], .inl ⟨w1, x1, rfl, hl, hl'⟩,
          hp4, ?_, ?_, ?_⟩
        · rw [g4 s s_out.1 s_out.2.2, h2]
        · rintro h (hh | hh)
          · have ha := heads_inner hh
            rw [g4 h ?_ ?_]
            · exact h3 h hh
            · rintro rfl; exact ok.seq_left.t_out ha
            · exact ok.seq_disjoint ha
          · exact g3 h hh
        · intro y hy hn
          rw [g4 y hn.1 hn.2.2, h4 y hy hn.2.1]
    · have hx' : a.Nul ∧ (x = m ∨ b.Start x) := by
        obtain ⟨i, he⟩ := hs.edge
        rcases hx with h | h | h
        · subst h
          rcases edge_source ok.seq_right.shape he with h | h
          · exact absurd h s_out.1
          · exact absurd h s_out.2.2
        · have ha := start_inner h
          rcases edge_source ok.seq_right.shape he with h | h
          · subst h; exact absurd ha ok.seq_left.t_out
          · exact absurd h (ok.seq_disjoint ha)
        · exact h
      rcases ihb ok.seq_right (cl.seq_right ok) hx'.2 hs hp (null_seq_right ok hN)
          (fun h hh => hz h (.inr hh)) with hsp | ⟨fl, n2, κ1, w1, w2, e, hl, hp2, h2, h3, h4⟩
      · exact .inl (.inr (.inr ⟨hx'.1, hsp⟩))
      refine .inr ⟨false, n2, κ1, w1, w2, e, .inr ⟨rfl, hx'.1, fl, hl⟩, hp2, ?_, ?_, ?_⟩
      · rw [h4 s s_out.1 s_out.2.2]; simp
      · rintro h (hh | hh)
        · have ha := heads_inner hh
          rw [h4 h ?_ ?_]
          · exact hz h (.inl hh)
          · rintro rfl; exact ok.seq_left.t_out ha
          · exact ok.seq_disjoint ha
        · exact h3 h hh
      · intro y hy hn
        exact h4 y hn.1 hn.2.2
  | loop s' h t' q body ih =>
    intro s t x κ κ0 κ' n d p' c w ok cl hx hs hp hN hz
    obtain ⟨rfl, rfl, sx, tx, sb, tb⟩ := ok.loop_ends
    simp only [heads, inner, List.mem_cons, not_or] at hz ⊢
    have hs' : CStep body.Edge x κ [c] d κ0 := by
      generalize hcu : [c] = u at hs
      cases hs with
      | eps => cases hcu
      | quant => cases hcu
      | char he hc =>
        cases hcu
        rcases he with he | he | he
        · cases he.2.1
        · cases he.2.1
        · exact .char he hc
    have hx' : x = h ∨ body.Start x := by
      rcases hx with h' | h'
      · subst h'
        obtain ⟨i, he⟩ := hs'.edge
        rcases edge_source ok.loop_body.shape he with h | h
        · exact absurd h sx
        · exact absurd h sb
      · exact h'
    rcases ih ok.loop_body (cl.loop_body ok) hx' hs' hp (null_loop_body ok hN)
        (fun h hh => hz h (.inr hh)) with hsp | ⟨fl, n2, κ1, w1, w2, e, hl, hp2, h2, h3, h4⟩
    · exact .inl (.inl hsp)
    rcases Fr.spin_head ok cl hN Fr.spin_enter n2 n2 (Nat.le_refl _) κ1 w2 hp2 h3 with
      ⟨ws, v, e', hws, hsp⟩ | ⟨n3, κ2, w3, ws, e', _, hws, hq, hp3, g2, g3, g4⟩
    · exact .inl (.inr ⟨fl, w1, ws, v, by rw [e, e'], hl, hws, hsp⟩)
    rw [h2, hz h (.inl rfl), Nat.add_zero] at hq
    refine .inr ⟨false, n3, κ2, w1 ++ ws.flatten, w3, by rw [e, e', List.append_assoc],
      ⟨rfl, fl, w1, ws, rfl, hl, hws, hq⟩, hp3, ?_, ?_, ?_⟩
    · rw [g4 s' sx sb, h4 s' sx sb]; simp
    · rintro y (rfl | hh)
      · exact g2
      · exact g3 y hh
    · intro y hy hn
      rw [g4 y hn.1 hn.2, h4 y hn.1 hn.2]

/-- Every such word is read on a path to such a state. -/
theorem Fr.spin_complete {fr : Fr} : ∀ {s t : Nat} {κ : Counts} {w : List Char}, fr.Ok s t →
    (∀ x i y, fr.Edge x i y → E x i y) → fr.Spins w → (∀ h ∈ fr.heads, κ h = 0) →
    ∃ x n κ', fr.Null x ∧ Path E n s κ w x κ' := by
  induction fr with
  | eps | lit => intro s t κ w ok hE h; exact h.elim
  | alt a b iha ihb =>
    intro s t κ w ok hE hw hz
    simp only [heads, List.mem_append] at hz
    rcases hw with hw | hw
    · obtain ⟨x, n, κ', h1, h2⟩ := iha ok.alt_left (fun x i y h => hE x i y (.inl h)) hw
        (fun h hh => hz h (.inl hh))
      exact ⟨x, n, κ', .inl h1, h2⟩
    · obtain ⟨x, n, κ', h1, h2⟩ := ihb ok.alt_right (fun x i y h => hE x i y (.inr h)) hw
        (fun h hh => hz h (.inr hh))
      exact ⟨x, n, κ', .inr h1, h2⟩
  | seq a m b iha ihb =>
    intro s t κ w ok hE hw hz
    simp only [heads, List.mem_append] at hz
    rcases hw with hw | ⟨u, v, rfl, hu, hv⟩
    · obtain ⟨x, n, κ', h1, h2⟩ := iha ok.seq_left (fun x i y h => hE x i y (.inl h)) hw
        (fun h hh => hz h (.inl hh))
      exact ⟨x, n, κ', .inl h1, h2⟩
    · obtain ⟨n1, κ1, g1, _, _, g4⟩ := Fr.complete (E := E) ok.seq_left (fun x i y h => hE x i y (.inl h)) hu
        (fun h hh => hz h (.inl hh))
      have s_out : s ∉ b.inner := by
        have := ok.s_out
        simp only [inner, List.mem_append, List.mem_cons, not_or] at this
        exact this.2.2
      obtain ⟨x, n, κ', h1, h2⟩ := ihb ok.seq_right (fun x i y h => hE x i y (.inr h)) hv (κ := κ1) (by
        intro h hh
        have hb := heads_inner hh
        rw [g4 h ?_ ?_]
        · exact hz h (.inr hh)
        · rintro rfl; exact s_out hb
        · exact fun ha => ok.seq_disjoint ha hb)
      exact ⟨x, n1 + n, κ', .inr h1, g1.append h2⟩
  | loop s' x t' q body ih =>
    rintro s t κ w ok hE ⟨ws, v, rfl, hws, hv⟩ hz
    obtain ⟨rfl, rfl, sx, tx, sb, tb⟩ := ok.loop_ends
    simp only [heads, List.mem_cons] at hz
    have hEb : ∀ x i y, body.Edge x i y → E x i y := fun x i y h => hE x i y (.inr (.inr h))
    have p1 : Path E 1 s' κ [] x (κ.bump s') := .single (.eps (hE _ _ _ (.inl ⟨rfl, rfl, rfl⟩)))
    obtain ⟨n', κ2, g1, g2, g3, g4⟩ := Fr.rounds (E := E) ok.loop_body hEb ws (κ.bump s') hws (by
      intro h hh
      rw [κ.bump_ne (by rintro rfl; exact sb (heads_inner hh))]
      exact hz h (.inr hh))
    rcases hv with ⟨rfl, hl⟩ | hv
    · exact ⟨x, 1 + n', κ2, .inl ⟨rfl, hl⟩, by simpa using p1.append g1⟩
    · obtain ⟨y, n, κ', h1, h2⟩ := ih ok.loop_body hEb hv g3
      exact ⟨y, 1 + n' + n, κ', .inr h1, by simpa using (p1.append g1).append h2⟩

/-- The same from the closure of the first state. -/
theorem Fr.spin_first_complete {fr : Fr} : ∀ {s t : Nat} {κ : Counts} {w : List Char}, fr.Ok s t →
    (∀ x i y, fr.Edge x i y → E x i y) → fr.FirstSpins w → (∀ h ∈ fr.heads, κ h = 0) →
    ∃ y x n d c v κ0 κ', w = c :: v ∧ SReach E s y ∧ CStep E y κ [c] d κ0 ∧ Path E n d κ0 v x κ' ∧
      fr.Null x := by
  induction fr with
  | eps | lit => intro s t κ w ok hE h; exact h.elim
  | alt a b iha ihb =>
    intro s t κ w ok hE hw hz
    simp only [heads, List.mem_append] at hz
    rcases hw with hw | hw
    · obtain ⟨y, x, n, d, c, v, κ0, κ', e, h1, h2, h3, h4⟩ := iha ok.alt_left
        (fun x i y h => hE x i y (.inl h)) hw (fun h hh => hz h (.inl hh))
      exact ⟨y, x, n, d, c, v, κ0, κ', e, h1, h2, h3, .inl h4⟩
    · obtain ⟨y, x, n, d, c, v, κ0, κ', e, h1, h2, h3, h4⟩ := ihb ok.alt_right
        (fun x i y h => hE x i y (.inr h)) hw (fun h hh => hz h (.inr hh))
      exact ⟨y, x, n, d, c, v, κ0, κ', e, h1, h2, h3, .inr h4⟩
  | seq a m b iha ihb =>
    intro s t κ w ok hE hw hz
    simp only [heads, List.mem_append] at hz
    have hEa : ∀ x i y, a.Edge x i y → E x i y := fun x i y h => hE x i y (.inl h)
    have hEb : ∀ x i y, b.Edge x i y → E x i y := fun x i y h => hE x i y (.inr h)
    rcases hw with hw | ⟨fl, u, v, rfl, hu, hv⟩ | ⟨hnul, hw⟩
    · obtain ⟨y, x, n, d, c, v, κ0, κ', e, h1, h2, h3, h4⟩ := iha ok.seq_left hEa hw
        (fun h hh => hz h (.inl hh))
      exact ⟨y, x, n, d, c, v, κ0, κ', e, h1, h2, h3, .inl h4⟩
    · obtain ⟨y, n, d, c, v', κ0, κ1, rfl, h1, h2, h3, _, _, h4⟩ := Fr.first_complete (E := E) ok.seq_left
        hEa hu (fun h hh => hz h (.inl hh))
      have s_out : s ∉ b.inner := by
        have := ok.s_out
        simp only [inner, List.mem_append, List.mem_cons, not_or] at this
        exact this.2.2
      obtain ⟨x, n', κ', g1, g2⟩ := Fr.spin_complete (E := E) ok.seq_right hEb hv (κ := κ1) (by
        intro h hh
        have hb := heads_inner hh
        rw [h4 h ?_ ?_]
        · exact hz h (.inr hh)
        · rintro rfl; exact s_out hb
        · exact fun ha => ok.seq_disjoint ha hb)
      exact ⟨y, x, n + n', d, c, v' ++ v, κ0, κ', rfl, h1, h2, h3.append g2, .inr g1⟩
    · obtain ⟨y, x, n, d, c, v, κ0, κ', e, h1, h2, h3, h4⟩ := ihb ok.seq_right hEb hw
        (fun h hh => hz h (.inr hh))
      exact ⟨y, x, n, d, c, v, κ0, κ', e, (Fr.nul_reach ok.seq_left hEa hnul).trans h1, h2, h3, .inr h4⟩
  | loop s' x t' q body ih =>
    intro s t κ w ok hE hw hz
    obtain ⟨rfl, rfl, sx, tx, sb, tb⟩ := ok.loop_ends
    simp only [heads, List.mem_cons] at hz
    have hEb : ∀ x i y, body.Edge x i y → E x i y := fun x i y h => hE x i y (.inr (.inr h))
    have p1 : SReach E s' x := (SReach.refl _).eps (hE _ _ _ (.inl ⟨rfl, rfl, rfl⟩))
    rcases hw with hw | ⟨fl, u, ws, v, rfl, hu, hws, hv⟩
    · obtain ⟨y, z, n, d, c, v, κ0, κ', e, h1, h2, h3, h4⟩ := ih ok.loop_body hEb hw
        (fun h hh => hz h (.inr hh))
      exact ⟨y, z, n, d, c, v, κ0, κ', e, p1.trans h1, h2, h3, .inr h4⟩
    · obtain ⟨y, n, d, c, v', κ0, κ1, rfl, h1, h2, h3, _, h5, _⟩ := Fr.first_complete (E := E) ok.loop_body
        hEb hu (fun h hh => hz h (.inr hh))
      obtain ⟨n', κ2, g1, g2, g3, g4⟩ := Fr.rounds (E := E) ok.loop_body hEb ws κ1 hws h5
      rcases hv with ⟨rfl, hl⟩ | hv
      · exact ⟨y, x, n + n', d, c, v' ++ ws.flatten, κ0, κ2, by simp, p1.trans h1, h2, h3.append g1,
          .inl ⟨rfl, hl⟩⟩
      · obtain ⟨z, m, κ', f1, f2⟩ := Fr.spin_complete (E := E) ok.loop_body hEb hv g3
        exact ⟨y, z, n + (n' + m), d, c, v' ++ (ws.flatten ++ v), κ0, κ', by simp, p1.trans h1, h2,
          h3.append (g1.append f2), .inr f1⟩

/-! ## Whole automata -/

variable {nfa : Nfa} {rs : List (Fr × Nat)}

/-- After which words the closure does not end. -/
theorem Bundle.spinning_iff (b : Bundle nfa rs) (w : List Char) :
    Bundle.Spinning nfa rs w ↔ ∃ r ∈ rs, r.1.FirstSpins w := by
  constructor
  · rintro ⟨hne, run, hrun, r0, hr0, hnull⟩
    obtain ⟨_, x, hx, hp⟩ := runsAt_paths b.wf b.start hrun
    generalize run.state = p' at hp hnull
    generalize run.counts = κe at hp
    cases hp with
    | refl => exact absurd rfl hne
    | @char d _ n _ κ1 _ c w hs hp =>
      obtain ⟨r, hr, hs', hx'⟩ : ∃ r ∈ rs, CStep r.1.Edge x (fun _ => 0) [c] d κ1 ∧
          (x = 0 ∨ r.1.Start x) := by
        obtain ⟨l, he, hc, rfl⟩ : ∃ l, nfa.HasEdge x (.literal l) d ∧ l.contains c = true ∧
            κ1 = Counts.bump (fun _ => 0) x := by
          generalize hcu : [c] = u at hs
          cases hs with
          | eps => cases hcu
          | quant => cases hcu
          | char he hc => cases hcu; exact ⟨_, he, hc, rfl⟩
        obtain ⟨r, hr, he'⟩ := (b.edges x _ d).1 he
        refine ⟨r, hr, .char he' hc, ?_⟩
        rcases b.sreach hx with h | ⟨r', hr', h | ⟨rfl, _⟩⟩
        · exact .inl h
        · rcases Fr.edge_source (b.shape r hr) he' with h' | h'
          · exact .inl h'
          · have := b.unique hr hr' (x := x) (by simp [h']) (by simp [Fr.start_inner h])
            subst this
            exact .inr h
        · exact absurd he (b.final_no_edge hr')
      refine ⟨r, hr, ?_⟩
      rcases Fr.spin_first (b.ok hr) (b.closed hr) hx' hs' hp (fun h => by
          have := b.unique hr hr0 (x := p') (by simp [h]) (by simp [Fr.null_inner hnull])
          subst this
          exact hnull) (fun _ _ => rfl) with h | ⟨fl, n2, κ2, w1, w2, e, hl, hp2, _⟩
      · exact h
      · generalize hp' : r.2 = p2 at hp2
        cases hp2 with
        | refl =>
          subst hp'
          have := b.unique hr hr0 (x := r.2) (by simp) (by simp [Fr.null_inner hnull])
          subst this
          exact absurd (Fr.null_inner hnull) (b.ok hr).t_out
        | cons hs _ =>
          subst hp'
          obtain ⟨i, h⟩ := hs.edge
          exact absurd h (b.final_no_edge hr)
  · rintro ⟨r, hr, h⟩
    obtain ⟨y, x, n, d, c, v, κ0, κ', rfl, h1, h2, h3, h4⟩ := Fr.spin_first_complete (E := nfa.HasEdge)
      (κ := fun _ => 0) (b.ok hr) (fun x i y h => (b.edges x i y).2 ⟨r, hr, h⟩) h (fun _ _ => rfl)
    obtain ⟨run, g1, g2, _⟩ := paths_runsAt b.wf b.start h1 _ (.char h2 h3)
    exact ⟨by simp, run, g1, r, hr, g2 ▸ h4⟩

end Pango.Fsm
