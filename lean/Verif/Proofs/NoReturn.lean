import Verif.Proofs.HaltAt

/-!
# A state that was left along an ε-edge is not entered again before a character is read
-/

namespace Pango.Fsm

open Pango Pango.Regex Pango.Spec Pango.Props

/-- The own states of the fragment are entered along the edges of the fragment only. -/
def Fr.Entered (E : Nat → Input → Nat → Prop) (fr : Fr) : Prop :=
  ∀ x i y, E x i y → y ∈ fr.inner → fr.Edge x i y

section sub

variable {E : Nat → Input → Nat → Prop} {s t : Nat}

theorem Fr.Entered.alt_left {a b : Fr} (h : (Fr.alt a b).Ok s t) (he : (Fr.alt a b).Entered E) :
    a.Entered E := by
  intro x i y hxy hy
  rcases he x i y hxy (by simp [inner, hy]) with h' | h'
  · exact h'
  · rcases edge_target h.alt_right.shape h' with rfl | h''
    · exact absurd hy h.alt_left.t_out
    · exact absurd h'' (h.alt_disjoint hy)

theorem Fr.Entered.alt_right {a b : Fr} (h : (Fr.alt a b).Ok s t) (he : (Fr.alt a b).Entered E) :
    b.Entered E := by
  intro x i y hxy hy
  rcases he x i y hxy (by simp [inner, hy]) with h' | h'
  · rcases edge_target h.alt_left.shape h' with rfl | h''
    · exact absurd hy h.alt_right.t_out
    · exact absurd hy (h.alt_disjoint h'')
  · exact h'

theorem Fr.Entered.seq_left {a b : Fr} {m : Nat} (h : (Fr.seq a m b).Ok s t)
    (he : (Fr.seq a m b).Entered E) : a.Entered E := by
  intro x i y hxy hy
  rcases he x i y hxy (by simp [inner, hy]) with h' | h'
  · exact h'
  · rcases edge_target h.seq_right.shape h' with rfl | h''
    · exact absurd (by simp [inner, hy]) h.t_out
    · exact absurd h'' (h.seq_disjoint hy)

theorem Fr.Entered.seq_right {a b : Fr} {m : Nat} (h : (Fr.seq a m b).Ok s t)
    (he : (Fr.seq a m b).Entered E) : b.Entered E := by
  intro x i y hxy hy
  rcases he x i y hxy (by simp [inner, hy]) with h' | h'
  · rcases edge_target h.seq_left.shape h' with rfl | h''
    · exact absurd hy h.seq_right.s_out
    · exact absurd hy (h.seq_disjoint h'')
  · exact h'

theorem Fr.Entered.loop_body {body : Fr} {s' x t' : Nat} {q : Quant}
    (h : (Fr.loop s' x t' q body).Ok s t) (he : (Fr.loop s' x t' q body).Entered E) : body.Entered E := by
  intro y i z hyz hz
  obtain ⟨e1, e2, h1, h2, h3, h4⟩ := h.loop_ends
  rcases he y i z hyz (by simp [inner, hz]) with h' | h' | h'
  · rw [h'.2.2] at hz; exact absurd hz h.loop_body.s_out
  · rw [h'.2.2, e2] at hz; exact absurd hz h4
  · exact h'

end sub

variable [Unicode] {E : Nat → Input → Nat → Prop}

/-- An ε-path from inside of a fragment to a state outside of it goes through its end. -/
theorem Fr.leaves {fr : Fr} {s t : Nat} (ok : fr.Ok s t) (cl : fr.Closed E) : ∀ {n p p' : Nat} {κ κ' : Counts},
    p ∈ fr.inner → p' ∉ fr.inner → Path E n p κ [] p' κ' →
    ∃ n1 n2 κ1, Path E n1 p κ [] t κ1 ∧ Path E n2 t κ1 [] p' κ' := by
  intro n
  induction n with
  | zero =>
    intro p p' κ κ' hp hp' hpath
    cases hpath
    exact absurd hp hp'
  | succ n ih =>
    intro p p' κ κ' hp hp' hpath
    rcases hpath.nil_cases with ⟨h, _⟩ | ⟨n', d, κ0, hn, hs, hpath⟩
    · omega
    obtain rfl : n = n' := by omega
    obtain ⟨i, he⟩ := hs.edge
    rcases edge_target ok.shape (cl p hp i d he) with rfl | hd
    · exact ⟨1, n, κ0, .single hs, hpath⟩
    · obtain ⟨n1, n2, κ1, h1, h2⟩ := ih hd hp' hpath
      exact ⟨n1 + 1, n2, κ1, .cons hs h1, h2⟩

/-- An ε-path from outside of a fragment to one of its own states goes through its start, and leaves that into the
fragment. -/
theorem Fr.enters {fr : Fr} {s t : Nat} (ok : fr.Ok s t) (en : fr.Entered E) : ∀ {n p p' : Nat} {κ κ' : Counts},
    p ∉ fr.inner → p' ∈ fr.inner → Path E n p κ [] p' κ' →
    ∃ n1 n2 d κ1 κ2, Path E n1 p κ [] s κ1 ∧ CStep fr.Edge s κ1 [] d κ2 ∧ Path E n2 d κ2 [] p' κ' := by
  intro n
  induction n with
  | zero =>
    intro p p' κ κ' hp hp' hpath
    cases hpath
    exact absurd hp' hp
  | succ n ih =>
    intro p p' κ κ' hp hp' hpath
    rcases hpath.nil_cases with ⟨h, _⟩ | ⟨n', d, κ0, hn, hs, hpath⟩
    · omega
    obtain rfl : n = n' := by omega
    by_cases hd : d ∈ fr.inner
    · have hs' : CStep fr.Edge p κ [] d κ0 := by
        cases hs with
        | eps h => exact .eps (en _ _ _ h hd)
        | quant h hq => exact .quant (en _ _ _ h hd) hq
      obtain ⟨i, he⟩ := hs'.edge
      rcases edge_source ok.shape he with rfl | h
      · exact ⟨0, n, d, κ, κ0, .refl _ _, hs', hpath⟩
      · exact absurd h hp
    · obtain ⟨n1, n2, d', κ1, κ2, h1, h2, h3⟩ := ih hd hp' hpath
      exact ⟨n1 + 1, n2, d', κ1, κ2, .cons hs h1, h2, h3⟩

/-- Behind the start of a fragment, an ε-path to a state outside reads the empty word of the fragment. -/
theorem Fr.lang_nil {fr : Fr} {s t n d p' : Nat} {κ κ0 κ' : Counts} (ok : fr.Ok s t) (cl : fr.Closed E)
    (hs : CStep fr.Edge s κ [] d κ0) (hp : Path E n d κ0 [] p' κ') (hp' : p' ∉ fr.inner)
    (hz : ∀ h ∈ fr.heads, κ h = 0) : fr.Lang [] := by
  obtain ⟨_, _, w1, w2, e, _, hl, _⟩ := Fr.sound ok cl hs hp hp' hz
  obtain ⟨rfl, rfl⟩ := List.append_eq_nil_iff.1 e.symm
  exact hl

/-- If ε-paths lead into a fragment to one of its states, and from there to its end, then the fragment reads the empty
word, or a repeated part of it does. -/
theorem Fr.through {fr : Fr} : ∀ {s t n m p q : Nat} {κ κ1 κ2 κ' : Counts}, fr.Ok s t → fr.Closed E →
    fr.Entered E → p ∈ fr.inner → p ∉ fr.heads → fr.Quiet κ p → Path E n p κ [] t κ1 → q ∉ fr.inner →
    fr.Quiet κ2 q → Path E m q κ2 [] p κ' →
    fr.Lang [] ∨ ∃ k x κ3, Path E k p κ [] x κ3 ∧ fr.Null x := by
  induction fr with
  | eps | lit => intro s t n m p q κ κ1 κ2 κ' _ _ _ hp; simp [inner] at hp
  | alt a b iha ihb =>
    intro s t n m p q κ κ1 κ2 κ' ok cl en hp hh hq hα hout hq2 hβ
    simp only [inner, heads, List.mem_append, not_or] at hp hh hout
    rcases hp with hp | hp
    · rcases iha ok.alt_left (cl.alt_left ok) (en.alt_left ok) hp hh.1 (fun l hl => hq l (List.mem_append.2 (.inl hl)))
        hα hout.1 (fun l hl => hq2 l (List.mem_append.2 (.inl hl))) hβ with h | ⟨k, x, κ3, h1, h2⟩
      · exact .inl (.inl h)
      · exact .inr ⟨k, x, κ3, h1, .inl h2⟩
    · rcases ihb ok.alt_right (cl.alt_right ok) (en.alt_right ok) hp hh.2
        (fun l hl => hq l (List.mem_append.2 (.inr hl)))
        hα hout.2 (fun l hl => hq2 l (List.mem_append.2 (.inr hl))) hβ with h | ⟨k, x, κ3, h1, h2⟩
      · exact .inl (.inr h)
      · exact .inr ⟨k, x, κ3, h1, .inr h2⟩
  | seq a mid b iha ihb =>
    intro s t n m p q κ κ1 κ2 κ' ok cl en hp hh hq hα hout hq2 hβ
    have hqa : a.Quiet κ p := fun l hl => hq l (List.mem_append.2 (.inl hl))
    have hqb : b.Quiet κ p := fun l hl => hq l (List.mem_append.2 (.inr hl))
    have hq2a : a.Quiet κ2 q := fun l hl => hq2 l (List.mem_append.2 (.inl hl))
    have hq2b : b.Quiet κ2 q := fun l hl => hq2 l (List.mem_append.2 (.inr hl))
    have hpi := hp
    have hqi := hout
    simp only [inner, heads, List.mem_append, List.mem_cons, not_or] at hp hh hout
    -- from the middle to the end
    have right : ∀ {n : Nat} {κ κ1 : Counts}, b.Quiet κ mid → Path E n mid κ [] t κ1 → b.Lang [] := by
      intro n κ κ1 hq hpath
      rcases hpath.nil_cases with ⟨_, h, _⟩ | ⟨n', d, κ0, rfl, hs, hpath⟩
      · exact absurd h.symm ok.seq_mid.2
      · exact Fr.lang_nil ok.seq_right (cl.seq_right ok) (hs.restrict fun i y h => cl.seq_mid ok h) hpath
          ok.seq_right.t_out (hq.zero ok.seq_right.s_out)
    -- from the start to the middle or further
    have left : p ∉ a.inner → a.Lang [] := by
      intro hpa
      obtain ⟨n1, n2, d, κ3, κ4, h1, h2, h3⟩ := Fr.enters ok en hqi hpi hβ
      have h2' : CStep a.Edge s κ3 [] d κ4 := by
        refine h2.restrict fun i y h => ?_
        rcases h with h | h
        · exact h
        · rcases edge_source ok.seq_right.shape h with h' | h'
          · exact absurd h' ok.seq_mid.1
          · exact absurd (by simp [inner, h']) ok.s_out
      exact Fr.lang_nil ok.seq_left (cl.seq_left ok) h2' h3 hpa
        ((hq2a.path ok.seq_left (cl.seq_left ok) h1).zero ok.seq_left.s_out)
    have both : a.Lang [] → b.Lang [] → (Fr.seq a mid b).Lang [] := fun h1 h2 => ⟨[], [], rfl, h1, h2⟩
    rcases hp with rfl | hp | hp
    · exact .inl (both (left ok.seq_left.t_out) (right hqb hα))
    · obtain ⟨n1, n2, κ3, h1, h2⟩ := Fr.leaves ok.seq_left (cl.seq_left ok) hp
        (fun h => ok.t_out (by simp [inner, h])) hα
      have hb := right (hqb.path ok.seq_right (cl.seq_right ok) h1) h2
      rcases iha ok.seq_left (cl.seq_left ok) (en.seq_left ok) hp hh.1 hqa h1 hout.2.1 hq2a hβ with
        h | ⟨k, x, κ3, h1, h2⟩
      · exact .inl (both h hb)
      · exact .inr ⟨k, x, κ3, h1, .inl h2⟩
    · rcases ihb ok.seq_right (cl.seq_right ok) (en.seq_right ok) hp hh.2 hqb hα hout.2.2 hq2b hβ with
        h | ⟨k, x, κ3, h1, h2⟩
      · exact .inl (both (left fun ha => ok.seq_disjoint ha hp) h)
      · exact .inr ⟨k, x, κ3, h1, .inr h2⟩
  | loop s' x t' q' body ih =>
    intro s t n m p q κ κ1 κ2 κ' ok cl en hp hh hq hα hout hq2 hβ
    obtain ⟨e1, e2, g1, g2, g3, g4⟩ := ok.loop_ends
    simp only [inner, heads, List.mem_cons, not_or] at hp hh hout
    have hp := hp.resolve_left hh.1
    obtain ⟨n1, n2, κ3, h1, h2⟩ := Fr.leaves ok.loop_body (cl.loop_body ok) hp g4 hα
    rcases ih ok.loop_body (cl.loop_body ok) (en.loop_body ok) hp hh.2 (fun l hl => hq l (List.mem_cons.2 (.inr hl)))
      h1 hout.2 (fun l hl => hq2 l (List.mem_cons.2 (.inr hl))) hβ with h | ⟨k, y, κ4, h3, h4⟩
    · exact .inr ⟨n1, x, κ3, h1, .inl ⟨rfl, h⟩⟩
    · exact .inr ⟨k, y, κ4, h3, .inr h4⟩

/-- An ε-path from a state that is not the head of a loop back to it goes through the end of the fragment, or gets to a
repeated part that reads the empty word. -/
theorem Fr.round {fr : Fr} : ∀ {s t n p : Nat} {κ κ' : Counts}, fr.Ok s t → fr.Closed E →
    fr.Entered E → p ∈ fr.inner → p ∉ fr.heads → fr.Quiet κ p → Path E (n + 1) p κ [] p κ' →
    (∃ n1 n2 κ1, Path E n1 p κ [] t κ1 ∧ Path E n2 t κ1 [] p κ') ∨
      ∃ k x κ3, Path E k p κ [] x κ3 ∧ fr.Null x := by
  induction fr with
  | eps | lit => intro s t n p κ κ' _ _ _ hp; simp [inner] at hp
  | alt a b iha ihb =>
    intro s t n p κ κ' ok cl en hp hh hq hpath
    simp only [inner, heads, List.mem_append, not_or] at hp hh
    rcases hp with hp | hp
    · rcases iha ok.alt_left (cl.alt_left ok) (en.alt_left ok) hp hh.1 (fun l hl => hq l (List.mem_append.2 (.inl hl)))
        hpath with h | ⟨k, x, κ3, h1, h2⟩
      · exact .inl h
      · exact .inr ⟨k, x, κ3, h1, .inl h2⟩
    · rcases ihb ok.alt_right (cl.alt_right ok) (en.alt_right ok) hp hh.2
        (fun l hl => hq l (List.mem_append.2 (.inr hl))) hpath with h | ⟨k, x, κ3, h1, h2⟩
      · exact .inl h
      · exact .inr ⟨k, x, κ3, h1, .inr h2⟩
  | seq a mid b iha ihb =>
    intro s t n p κ κ' ok cl en hp hh hq hpath
    have hqa : a.Quiet κ p := fun l hl => hq l (List.mem_append.2 (.inl hl))
    have hqb : b.Quiet κ p := fun l hl => hq l (List.mem_append.2 (.inr hl))
    simp only [inner, heads, List.mem_append, List.mem_cons, not_or] at hp hh
    -- from the middle to a state that is not behind it
    have right : ∀ {n : Nat} {κ : Counts}, p ∉ b.inner → Path E (n + 1) mid κ [] p κ' →
        ∃ n1 n2 κ1, Path E n1 mid κ [] t κ1 ∧ Path E n2 t κ1 [] p κ' := by
      intro n κ hpb hpath
      rcases hpath.nil_cases with ⟨h, _⟩ | ⟨n', d, κ0, _, hs, hpath⟩
      · omega
      obtain ⟨i, he⟩ := hs.edge
      rcases edge_target ok.seq_right.shape (cl.seq_mid ok he) with rfl | hd
      · exact ⟨1, n', κ0, .single hs, hpath⟩
      · obtain ⟨n1, n2, κ1, h1, h2⟩ := Fr.leaves ok.seq_right (cl.seq_right ok) hd hpb hpath
        exact ⟨n1 + 1, n2, κ1, .cons hs h1, h2⟩
    rcases hp with rfl | hp | hp
    · exact .inl (right ok.seq_right.s_out hpath)
    · rcases iha ok.seq_left (cl.seq_left ok) (en.seq_left ok) hp hh.1 hqa hpath with
        ⟨n1, n2, κ1, h1, h2⟩ | ⟨k, x, κ3, h1, h2⟩
      · cases n2 with
        | zero =>
          cases h2
          exact absurd hp ok.seq_left.t_out
        | succ n2 =>
          obtain ⟨m1, m2, κ3, h3, h4⟩ := right (ok.seq_disjoint hp) h2
          exact .inl ⟨n1 + m1, m2, κ3, h1.append h3, h4⟩
      · exact .inr ⟨k, x, κ3, h1, .inl h2⟩
    · rcases ihb ok.seq_right (cl.seq_right ok) (en.seq_right ok) hp hh.2 hqb hpath with h | ⟨k, x, κ3, h1, h2⟩
      · exact .inl h
      · exact .inr ⟨k, x, κ3, h1, .inr h2⟩
  | loop s' x t' q' body ih =>
    intro s t n p κ κ' ok cl en hp hh hq hpath
    simp only [inner, heads, List.mem_cons, not_or] at hp hh
    have hp := hp.resolve_left hh.1
    have hqb : body.Quiet κ p := fun l hl => hq l (List.mem_cons.2 (.inr hl))
    rcases ih ok.loop_body (cl.loop_body ok) (en.loop_body ok) hp hh.2 hqb hpath with
      ⟨n1, n2, κ1, h1, h2⟩ | ⟨k, y, κ3, h1, h2⟩
    · rcases Fr.through ok.loop_body (cl.loop_body ok) (en.loop_body ok) hp hh.2 hqb h1 ok.loop_body.s_out
        (hqb.path ok.loop_body (cl.loop_body ok) h1) h2 with h | ⟨k, y, κ4, h3, h4⟩
      · exact .inr ⟨n1, x, κ1, h1, .inl ⟨rfl, h⟩⟩
      · exact .inr ⟨k, y, κ4, h3, .inr h4⟩
    · exact .inr ⟨k, y, κ3, h1, .inr h2⟩

/-- An ε-path from the head of a loop into the loop and back to the head: the loop repeats the empty word. -/
theorem Fr.head_round {fr : Fr} : ∀ {s t n p d : Nat} {κ κ' : Counts}, fr.Ok s t → fr.Closed E →
    p ∈ fr.heads → fr.Quiet κ p → E p .eps d → Path E n d (κ.bump p) [] p κ' → fr.Null p := by
  induction fr with
  | eps | lit => intro s t n p d κ κ' _ _ hp; simp [heads] at hp
  | alt a b iha ihb =>
    intro s t n p d κ κ' ok cl hp hq he hpath
    rcases List.mem_append.1 hp with hp | hp
    · exact .inl (iha ok.alt_left (cl.alt_left ok) hp (fun l hl => hq l (List.mem_append.2 (.inl hl))) he hpath)
    · exact .inr (ihb ok.alt_right (cl.alt_right ok) hp (fun l hl => hq l (List.mem_append.2 (.inr hl))) he hpath)
  | seq a m b iha ihb =>
    intro s t n p d κ κ' ok cl hp hq he hpath
    rcases List.mem_append.1 hp with hp | hp
    · exact .inl (iha ok.seq_left (cl.seq_left ok) hp (fun l hl => hq l (List.mem_append.2 (.inl hl))) he hpath)
    · exact .inr (ihb ok.seq_right (cl.seq_right ok) hp (fun l hl => hq l (List.mem_append.2 (.inr hl))) he hpath)
  | loop s' x t' q' body ih =>
    intro s t n p d κ κ' ok cl hp hq he hpath
    have hqb : body.Quiet κ p := fun l hl => hq l (List.mem_cons.2 (.inr hl))
    rcases List.mem_cons.1 hp with rfl | hp
    · rcases cl.loop_head ok he with ⟨h, _⟩ | h
      · cases h
      · exact .inl ⟨rfl, Fr.lang_nil ok.loop_body (cl.loop_body ok) (.eps h) hpath ok.loop_body.s_out
          (hqb.zero ok.loop_body.s_out)⟩
    · exact .inr (ih ok.loop_body (cl.loop_body ok) hp hqb he hpath)

variable {nfa : Nfa} {rs : List (Fr × Nat)}

omit [Unicode] in
theorem Bundle.entered (b : Bundle nfa rs) {r : Fr × Nat} (hr : r ∈ rs) : r.1.Entered nfa.HasEdge := by
  intro x i y he hy
  obtain ⟨r', hr', he'⟩ := (b.edges x i y).1 he
  have hy' : y ∈ r'.2 :: r'.1.inner := List.mem_cons.2 (Fr.edge_target (b.shape r' hr') he')
  rw [b.unique hr hr' (x := y) (by simp [hy]) hy']
  exact he'

/-- A state that was left along an ε-edge is not entered again before a character is read. -/
theorem Bundle.no_return (b : Bundle nfa rs) {n p d : Nat} {κ κ' : Counts}
    (av : ∀ r ∈ rs, r.1.Avoids nfa.HasEdge p κ) (hq : Quiets rs κ p) (he : nfa.HasEdge p .eps d) :
    ¬ Path nfa.HasEdge n d (κ.bump p) [] p κ' := by
  intro hp
  have hpath : Path nfa.HasEdge (n + 1) p κ [] p κ' := .cons (u := []) (.eps he) hp
  have hin : ∃ r ∈ rs, p ∈ r.1.inner := by
    have : ∃ x i, nfa.HasEdge x i p := by
      rcases hp.end_target with rfl | h
      · exact ⟨_, _, he⟩
      · exact h
    obtain ⟨x, i, h⟩ := this
    obtain ⟨r, hr, h⟩ := b.target h
    rcases List.mem_cons.1 h with rfl | h
    · exact absurd he (b.final_no_edge hr)
    · exact ⟨r, hr, h⟩
  obtain ⟨r, hr, hin⟩ := hin
  by_cases hh : p ∈ r.1.heads
  · exact av r hr 0 p κ (.refl _ _) (Fr.head_round (b.ok hr) (b.closed hr) hh (hq r hr) he hp)
  · rcases Fr.round (b.ok hr) (b.closed hr) (b.entered hr) hin hh (hq r hr) hpath with
      ⟨n1, n2, κ1, h1, h2⟩ | ⟨k, x, κ3, h1, h2⟩
    · rcases h2.nil_cases with ⟨_, h, _⟩ | ⟨_, _, _, _, hs, _⟩
      · exact (b.ok hr).t_out (h ▸ hin)
      · obtain ⟨i, h⟩ := hs.edge
        exact b.final_no_edge hr h
    · exact av r hr k x κ3 h1 h2

end Pango.Fsm
