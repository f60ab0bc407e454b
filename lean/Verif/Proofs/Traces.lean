import Verif.Proofs.Frag

/-!
# Traces: the steps of a path, one by one
-/

namespace Pango.Fsm

open Pango Pango.Regex

/-- A step: where from, along which edge, where to, and what it reads. -/
abbrev Mark := Nat × Input × Nat × List Char

/-- What the steps read. -/
def spelled (T : List Mark) : List Char := T.flatMap fun x => x.2.2.2

theorem spelled_append (T U : List Mark) : spelled (T ++ U) = spelled T ++ spelled U := List.flatMap_append

theorem spelled_cons (x : Mark) (T : List Mark) : spelled (x :: T) = x.2.2.2 ++ spelled T := rfl

variable [Unicode]

/-- One step, as in `CStep`, and its mark. -/
inductive TStep (E : Nat → Input → Nat → Prop) : Nat → Counts → Mark → Nat → Counts → Prop
  | eps {p d : Nat} {κ : Counts} : E p .eps d → TStep E p κ (p, .eps, d, []) d (κ.bump p)
  | quant {p d : Nat} {κ : Counts} {q : Quant} :
      E p (.quantified q) d → q.isSatisfied (κ p) = true → TStep E p κ (p, .quantified q, d, []) d (κ.reset p)
  | char {p d : Nat} {κ : Counts} {l : Lit} {c : Char} :
      E p (.literal l) d → l.contains c = true → TStep E p κ (p, .literal l, d, [c]) d (κ.bump p)

/-- A path and its trace. -/
inductive TPath (E : Nat → Input → Nat → Prop) : Nat → Counts → List Mark → Nat → Counts → Prop
  | refl (p : Nat) (κ : Counts) : TPath E p κ [] p κ
  | cons {p d p' : Nat} {κ κ1 κ' : Counts} {x : Mark} {T : List Mark} :
      TStep E p κ x d κ1 → TPath E d κ1 T p' κ' → TPath E p κ (x :: T) p' κ'

variable {E F : Nat → Input → Nat → Prop}

theorem TStep.restrict {p d : Nat} {κ κ1 : Counts} {x : Mark} (hs : TStep E p κ x d κ1)
    (h : ∀ i y, E p i y → F p i y) : TStep F p κ x d κ1 := by
  cases hs with
  | eps h1 => exact .eps (h _ _ h1)
  | quant h1 h2 => exact .quant (h _ _ h1) h2
  | char h1 h2 => exact .char (h _ _ h1) h2

theorem TStep.or {G H : Nat → Input → Nat → Prop} {p d : Nat} {κ κ1 : Counts} {x : Mark}
    (hs : TStep E p κ x d κ1) (h : ∀ i y, E p i y → G p i y ∨ H p i y) :
    TStep G p κ x d κ1 ∨ TStep H p κ x d κ1 := by
  cases hs with
  | eps h1 => exact (h _ _ h1).imp .eps .eps
  | quant h1 h2 => exact (h _ _ h1).imp (.quant · h2) (.quant · h2)
  | char h1 h2 => exact (h _ _ h1).imp (.char · h2) (.char · h2)

theorem TPath.append {p p1 p2 : Nat} {κ κ1 κ2 : Counts} {T U : List Mark}
    (h1 : TPath E p κ T p1 κ1) (h2 : TPath E p1 κ1 U p2 κ2) : TPath E p κ (T ++ U) p2 κ2 := by
  induction h1 with
  | refl => exact h2
  | cons hs _ ih => exact .cons hs (ih h2)

/-! ## The traces of a fragment -/

/-- The traces of the paths through a fragment. -/
def Fr.Traces : Fr → List Mark → Prop
  | .eps s t, T => T = [(s, .eps, t, [])]
  | .lit s t l, T => ∃ c, T = [(s, .literal l, t, [c])] ∧ l.contains c = true
  | .alt a b, T => a.Traces T ∨ b.Traces T
  | .seq a _ b, T => ∃ U V, T = U ++ V ∧ a.Traces U ∧ b.Traces V
  | .loop s x t q body, T => ∃ ws : List (List Mark), T = (s, .eps, x, []) :: (ws.flatten ++ [(x, .quantified q, t, [])]) ∧
      q.isSatisfied ws.length = true ∧ ∀ u ∈ ws, body.Traces u

/-- Traces that begin and end anywhere in a fragment, or more. -/
def Fr.Mid : Fr → List Mark → Prop
  | .eps s t, T => T = [] ∨ T = [(s, .eps, t, [])]
  | .lit s t l, T => T = [] ∨ ∃ c, T = [(s, .literal l, t, [c])]
  | .alt a b, T => a.Mid T ∨ b.Mid T
  | .seq a _ b, T => ∃ U V, T = U ++ V ∧ a.Mid U ∧ b.Mid V
  | .loop s x t q body, T => ∃ A U : List Mark, ∃ ws : List (List Mark), ∃ V Z : List Mark,
      T = A ++ (U ++ (ws.flatten ++ (V ++ Z))) ∧ (A = [] ∨ A = [(s, .eps, x, [])]) ∧ body.Mid U ∧
      (∀ u ∈ ws, body.Traces u) ∧ body.Mid V ∧ (Z = [] ∨ Z = [(x, .quantified q, t, [])])

theorem Fr.mid_nil (fr : Fr) : fr.Mid [] := by
  induction fr with
  | eps => exact .inl rfl
  | lit => exact .inl rfl
  | alt a b iha _ => exact .inl iha
  | seq a m b iha ihb => exact ⟨[], [], rfl, iha, ihb⟩
  | loop s x t q body ih => exact ⟨[], [], [], [], [], rfl, .inl rfl, ih, by simp, ih, .inl rfl⟩

theorem Fr.Traces.mid {fr : Fr} : ∀ {T : List Mark}, fr.Traces T → fr.Mid T := by
  induction fr with
  | eps => exact fun h => .inr h
  | lit => rintro T ⟨c, h, _⟩; exact .inr ⟨c, h⟩
  | alt a b iha ihb => exact fun h => h.imp iha ihb
  | seq a m b iha ihb =>
    rintro T ⟨U, V, rfl, h1, h2⟩
    exact ⟨U, V, rfl, iha h1, ihb h2⟩
  | loop s x t q body ih =>
    rintro T ⟨ws, rfl, _, h⟩
    exact ⟨[_], [], ws, [], [_], rfl, .inr rfl, body.mid_nil, h, body.mid_nil, .inr rfl⟩

/-- What happens on a path from the head of a loop. -/
theorem Fr.rounds_of {body : Fr} {s' x t' s t : Nat} {q : Quant} (ok : (Fr.loop s' x t' q body).Ok s t)
    (cl : (Fr.loop s' x t' q body).Closed E)
    (ih : ∀ {κ κ0 κ' : Counts} {d p' : Nat} {m : Mark} {T : List Mark}, TStep body.Edge x κ m d κ0 →
      TPath E d κ0 T p' κ' → (∀ h ∈ body.heads, κ h = 0) →
      body.Mid (m :: T) ∨ ∃ κ1 T1 T2, m :: T = T1 ++ T2 ∧ T2.length ≤ T.length ∧ body.Traces T1 ∧ TPath E x κ1 T2 p' κ' ∧
        κ1 x = κ x + 1 ∧ (∀ h ∈ body.heads, κ1 h = 0) ∧ ∀ y, y ≠ x → y ∉ body.inner → κ1 y = κ y)
    {p' : Nat} {κ' : Counts} : ∀ (k : Nat) (T : List Mark), T.length ≤ k → ∀ (κ : Counts), TPath E x κ T p' κ' →
      (∀ h ∈ body.heads, κ h = 0) → ∃ ws : List (List Mark), (∀ u ∈ ws, body.Traces u) ∧
        ((∃ V, T = ws.flatten ++ V ∧ body.Mid V) ∨
          ∃ κ1 T2, T = ws.flatten ++ (x, .quantified q, t', []) :: T2 ∧ q.isSatisfied (κ x + ws.length) = true ∧
            TPath E t' κ1 T2 p' κ' ∧ κ1 x = 0 ∧ (∀ h ∈ body.heads, κ1 h = 0) ∧
            ∀ y, y ≠ x → y ∉ body.inner → κ1 y = κ y) := by
  obtain ⟨e1, rfl, sx, tx, sb, tb⟩ := ok.loop_ends
  intro k
  induction k with
  | zero =>
    intro T hk κ hp hz
    obtain rfl := List.length_eq_zero_iff.1 (Nat.le_zero.1 hk)
    exact ⟨[], by simp, .inl ⟨[], rfl, body.mid_nil⟩⟩
  | succ k ihk =>
    intro T hk κ hp hz
    cases hp with
    | refl => exact ⟨[], by simp, .inl ⟨[], rfl, body.mid_nil⟩⟩
    | @cons _ d _ _ κ1 _ m T hs hp =>
      have hexit : TStep (fun _ i y => i = .quantified q ∧ y = t') x κ m d κ1 ∨ TStep body.Edge x κ m d κ1 :=
        hs.or (fun i y h => cl.loop_head ok h)
      rcases hexit with h | h
      · cases h with
        | eps h => cases h.1
        | char h _ => cases h.1
        | @quant _ _ q' h hq =>
          obtain ⟨h1, rfl⟩ := h
          cases h1
          refine ⟨[], by simp, .inr ⟨_, T, rfl, by simpa using hq, hp, κ.reset_self _, ?_, ?_⟩⟩
          · intro h hh
            rw [κ.reset_ne (by rintro rfl; exact ok.loop_body.s_out (heads_inner hh))]
            exact hz h hh
          · intro y hy _
            exact κ.reset_ne hy
      · rcases ih h hp hz with hm | ⟨κ2, T1, T2, e, hn, hl, hp2, h2, h3, h4⟩
        · exact ⟨[], by simp, .inl ⟨_, rfl, hm⟩⟩
        · rw [List.length_cons] at hk
          obtain ⟨ws, hw, hrest⟩ := ihk T2 (by omega) κ2 hp2 h3
          refine ⟨T1 :: ws, ?_, ?_⟩
          · intro u hu
            rcases List.mem_cons.1 hu with rfl | hu
            · exact hl
            · exact hw u hu
          · rw [e, List.flatten_cons]
            rcases hrest with ⟨V, rfl, hV⟩ | ⟨κ3, T3, rfl, hq, hp3, g2, g3, g4⟩
            · exact .inl ⟨V, by rw [List.append_assoc], hV⟩
            · refine .inr ⟨κ3, T3, by rw [List.append_assoc], ?_, hp3, g2, g3,
                fun y hy hn => by rw [g4 y hy hn, h4 y hy hn]⟩
              rw [List.length_cons, ← Nat.add_assoc, Nat.add_right_comm, ← h2]
              exact hq

/-- A path that enters a fragment stays in it, or goes through it. -/
theorem Fr.begun {fr : Fr} : ∀ {s t : Nat} {κ κ0 κ' : Counts} {d p' : Nat} {m : Mark} {T : List Mark},
    fr.Ok s t → fr.Closed E → TStep fr.Edge s κ m d κ0 → TPath E d κ0 T p' κ' → (∀ h ∈ fr.heads, κ h = 0) →
    fr.Mid (m :: T) ∨ ∃ κ1 T1 T2, m :: T = T1 ++ T2 ∧ T2.length ≤ T.length ∧ fr.Traces T1 ∧ TPath E t κ1 T2 p' κ' ∧
      κ1 s = κ s + 1 ∧ (∀ h ∈ fr.heads, κ1 h = 0) ∧ ∀ y, y ≠ s → y ∉ fr.inner → κ1 y = κ y := by
  induction fr with
  | eps s' t' =>
    intro s t κ κ0 κ' d p' m T ok cl hs hp hz
    obtain ⟨rfl, rfl⟩ := ok.shape
    cases hs with
    | eps h =>
      obtain ⟨_, _, rfl⟩ := h
      exact .inr ⟨_, [_], T, rfl, Nat.le_refl _, rfl, hp, κ.bump_self _, by simp [heads], fun y hy _ => κ.bump_ne hy⟩
    | quant h _ => cases h.2.1
    | char h _ => cases h.2.1
  | lit s' t' l =>
    intro s t κ κ0 κ' d p' m T ok cl hs hp hz
    obtain ⟨rfl, rfl⟩ := ok.shape
    cases hs with
    | eps h => cases h.2.1
    | quant h _ => cases h.2.1
    | @char _ _ l' c h hc =>
      obtain ⟨_, h2, rfl⟩ := h
      cases h2
      exact .inr ⟨_, [_], T, rfl, Nat.le_refl _, ⟨c, rfl, hc⟩, hp, κ.bump_self _, by simp [heads],
        fun y hy _ => κ.bump_ne hy⟩
  | alt a b iha ihb =>
    intro s t κ κ0 κ' d p' m T ok cl hs hp hz
    simp only [heads, inner, List.mem_append, not_or] at hz ⊢
    rcases hs.or (G := a.Edge) (H := b.Edge) (fun i y h => h) with hs | hs
    · rcases iha ok.alt_left (cl.alt_left ok) hs hp (fun h hh => hz h (.inl hh)) with
        hm | ⟨κ1, T1, T2, e, hn, hl, hp2, h2, h3, h4⟩
      · exact .inl (.inl hm)
      refine .inr ⟨κ1, T1, T2, e, hn, .inl hl, hp2, h2, ?_, fun y hy hn => h4 y hy hn.1⟩
      rintro h (hh | hh)
      · exact h3 h hh
      · have hb := heads_inner hh
        rw [h4 h ?_ ?_]
        · exact hz h (.inr hh)
        · rintro rfl; exact ok.alt_right.s_out hb
        · exact fun ha => ok.alt_disjoint ha hb
    · rcases ihb ok.alt_right (cl.alt_right ok) hs hp (fun h hh => hz h (.inr hh)) with
        hm | ⟨κ1, T1, T2, e, hn, hl, hp2, h2, h3, h4⟩
      · exact .inl (.inr hm)
      refine .inr ⟨κ1, T1, T2, e, hn, .inr hl, hp2, h2, ?_, fun y hy hn => h4 y hy hn.2⟩
      rintro h (hh | hh)
      · have ha := heads_inner hh
        rw [h4 h ?_ ?_]
        · exact hz h (.inl hh)
        · rintro rfl; exact ok.alt_left.s_out ha
        · exact ok.alt_disjoint ha
      · exact h3 h hh
  | seq a m' b iha ihb =>
    intro s t κ κ0 κ' d p' m T ok cl hs hp hz
    simp only [heads, inner, List.mem_append, List.mem_cons, not_or] at hz ⊢
    have s_out : s ≠ m' ∧ s ∉ a.inner ∧ s ∉ b.inner := by
      have := ok.s_out
      simpa only [inner, List.mem_append, List.mem_cons, not_or] using this
    have hs : TStep a.Edge s κ m d κ0 := hs.restrict (by
      rintro i y (h | h)
      · exact h
      · rcases edge_source ok.seq_right.shape h with h' | h'
        · exact absurd h' s_out.1
        · exact absurd h' s_out.2.2)
    rcases iha ok.seq_left (cl.seq_left ok) hs hp (fun h hh => hz h (.inl hh)) with
      hm | ⟨κ1, T1, T2, e, hn, hl, hp2, h2, h3, h4⟩
    · exact .inl ⟨_, [], (List.append_nil _).symm, hm, b.mid_nil⟩
    have hzb : ∀ h ∈ b.heads, κ1 h = 0 := by
      intro h hh
      have hb := heads_inner hh
      rw [h4 h ?_ ?_]
      · exact hz h (.inr hh)
      · rintro rfl; exact s_out.2.2 hb
      · exact fun ha => ok.seq_disjoint ha hb
    rw [e]
    cases hp2 with
    | refl => exact .inl ⟨T1, [], rfl, hl.mid, b.mid_nil⟩
    | @cons _ d1 _ _ κ2 _ m1 T2 hs1 hp3 =>
      have hs1 : TStep b.Edge m' κ1 m1 d1 κ2 := hs1.restrict (fun i y h => cl.seq_mid ok h)
      rcases ihb ok.seq_right (cl.seq_right ok) hs1 hp3 hzb with hm | ⟨κ3, X1, X2, e', hn', hl', hp4, g2, g3, g4⟩
      · exact .inl ⟨T1, _, rfl, hl.mid, hm⟩
      rw [List.length_cons] at hn
      refine .inr ⟨κ3, T1 ++ X1, X2, by rw [e', List.append_assoc], by omega, ⟨T1, X1, rfl, hl, hl'⟩, hp4, ?_, ?_, ?_⟩
      · rw [g4 s s_out.1 s_out.2.2, h2]
      · rintro h (hh | hh)
        · have ha := heads_inner hh
          rw [g4 h ?_ ?_]
          · exact h3 h hh
          · rintro rfl; exact ok.seq_left.t_out ha
          · exact ok.seq_disjoint ha
        · exact g3 h hh
      · intro y hy hn
        rw [g4 y hn.1 hn.2.2, h4 y hy hn.2.1]
  | loop s' x t' q body ih =>
    intro s t κ κ0 κ' d p' m T ok cl hs hp hz
    obtain ⟨rfl, rfl, sx, tx, sb, tb⟩ := ok.loop_ends
    simp only [heads, inner, List.mem_cons, not_or] at hz ⊢
    have hfirst : TStep (fun _ i y => i = .eps ∧ y = x) s' κ m d κ0 := hs.restrict (by
      rintro i y (h | h | h)
      · exact h.2
      · exact absurd h.1 sx
      · rcases edge_source ok.loop_body.shape h with h' | h'
        · exact absurd h' sx
        · exact absurd h' sb)
    cases hfirst with
    | quant h _ => cases h.1
    | char h _ => cases h.1
    | eps h =>
      obtain ⟨_, rfl⟩ := h
      obtain ⟨ws, hw, hrest⟩ := Fr.rounds_of ok cl (ih ok.loop_body (cl.loop_body ok)) _ T (Nat.le_refl _) _ hp (by
        intro h hh
        rw [κ.bump_ne (by rintro rfl; exact sb (heads_inner hh))]
        exact hz h (.inr hh))
      rcases hrest with ⟨V, rfl, hV⟩ | ⟨κ1, T2, rfl, hq, hp2, h2, h3, h4⟩
      · exact .inl ⟨[_], [], ws, V, [], by simp, .inr rfl, body.mid_nil, hw, hV, .inl rfl⟩
      have hx0 : κ.bump s' d = 0 := by rw [κ.bump_ne (Ne.symm sx)]; exact hz d (.inl rfl)
      rw [hx0, Nat.zero_add] at hq
      refine .inr ⟨κ1, _, T2, ?_, ?_, ⟨ws, rfl, hq, hw⟩, hp2, ?_, ?_, ?_⟩
      · simp
      · simp only [List.length_append, List.length_cons]; omega
      · rw [h4 s' sx sb, κ.bump_self]
      · rintro h (rfl | hh)
        · exact h2
        · exact h3 h hh
      · intro y hy hn
        rw [h4 y hn.1 hn.2, κ.bump_ne hy]

/-- A path that begins inside of a fragment stays in it, or leaves it. -/
theorem Fr.inside {fr : Fr} : ∀ {s t p : Nat} {κ κ' : Counts} {p' : Nat} {T : List Mark},
    fr.Ok s t → fr.Closed E → p ∈ fr.inner → TPath E p κ T p' κ' → (∀ h ∈ fr.heads, κ h = 0) →
    fr.Mid T ∨ ∃ κ1 T1 T2, T = T1 ++ T2 ∧ fr.Mid T1 ∧ TPath E t κ1 T2 p' κ' ∧
      (∀ h ∈ fr.heads, κ1 h = 0) ∧ ∀ y, y ∉ fr.inner → κ1 y = κ y := by
  induction fr with
  | eps s' t' => intro s t p κ κ' p' T _ _ h; simp [inner] at h
  | lit s' t' l => intro s t p κ κ' p' T _ _ h; simp [inner] at h
  | alt a b iha ihb =>
    intro s t p κ κ' p' T ok cl hin hp hz
    simp only [heads, inner, List.mem_append, not_or] at hin hz ⊢
    rcases hin with hin | hin
    · rcases iha ok.alt_left (cl.alt_left ok) hin hp (fun h hh => hz h (.inl hh)) with
        hm | ⟨κ1, T1, T2, e, hl, hp2, h3, h4⟩
      · exact .inl (.inl hm)
      refine .inr ⟨κ1, T1, T2, e, .inl hl, hp2, ?_, fun y hn => h4 y hn.1⟩
      rintro h (hh | hh)
      · exact h3 h hh
      · rw [h4 h fun ha => ok.alt_disjoint ha (heads_inner hh)]
        exact hz h (.inr hh)
    · rcases ihb ok.alt_right (cl.alt_right ok) hin hp (fun h hh => hz h (.inr hh)) with
        hm | ⟨κ1, T1, T2, e, hl, hp2, h3, h4⟩
      · exact .inl (.inr hm)
      refine .inr ⟨κ1, T1, T2, e, .inr hl, hp2, ?_, fun y hn => h4 y hn.2⟩
      rintro h (hh | hh)
      · rw [h4 h (ok.alt_disjoint (heads_inner hh))]
        exact hz h (.inl hh)
      · exact h3 h hh
  | seq a m' b iha ihb =>
    intro s t p κ κ' p' T ok cl hin hp hz
    simp only [heads, inner, List.mem_append, List.mem_cons, not_or] at hin hz ⊢
    have fromMid : ∀ {κ1 : Counts} {T2 : List Mark}, TPath E m' κ1 T2 p' κ' → (∀ h ∈ a.heads, κ1 h = 0) →
        (∀ h ∈ b.heads, κ1 h = 0) → b.Mid T2 ∨ ∃ κ2 T3 T4, T2 = T3 ++ T4 ∧ b.Mid T3 ∧ TPath E t κ2 T4 p' κ' ∧
          (∀ h, h ∈ a.heads ∨ h ∈ b.heads → κ2 h = 0) ∧ ∀ y, y ≠ m' → y ∉ b.inner → κ2 y = κ1 y := by
      intro κ1 T2 hp2 hza hzb
      cases hp2 with
      | refl => exact .inl b.mid_nil
      | @cons _ d1 _ _ κ2 _ m1 T2 hs1 hp3 =>
        have hs1 : TStep b.Edge m' κ1 m1 d1 κ2 := hs1.restrict (fun i y h => cl.seq_mid ok h)
        rcases Fr.begun ok.seq_right (cl.seq_right ok) hs1 hp3 hzb with hm | ⟨κ3, X1, X2, e', hn', hl', hp4, g2, g3, g4⟩
        · exact .inl hm
        refine .inr ⟨κ3, X1, X2, e', hl'.mid, hp4, ?_, g4⟩
        rintro h (hh | hh)
        · have ha := heads_inner hh
          rw [g4 h (by rintro rfl; exact ok.seq_left.t_out ha) (ok.seq_disjoint ha)]
          exact hza h hh
        · exact g3 h hh
    rcases hin with rfl | hin | hin
    · rcases fromMid hp (fun h hh => hz h (.inl hh)) (fun h hh => hz h (.inr hh)) with
        hm | ⟨κ2, T3, T4, rfl, h1, h2, h3, h4⟩
      · exact .inl ⟨[], T, rfl, a.mid_nil, hm⟩
      · exact .inr ⟨κ2, T3, T4, rfl, ⟨[], T3, rfl, a.mid_nil, h1⟩, h2, h3, fun y hn => h4 y hn.1 hn.2.2⟩
    · rcases iha ok.seq_left (cl.seq_left ok) hin hp (fun h hh => hz h (.inl hh)) with
        hm | ⟨κ1, T1, T2, rfl, hl, hp2, h3, h4⟩
      · exact .inl ⟨_, [], (List.append_nil _).symm, hm, b.mid_nil⟩
      have hzb : ∀ h ∈ b.heads, κ1 h = 0 := by
        intro h hh
        rw [h4 h fun ha => ok.seq_disjoint ha (heads_inner hh)]
        exact hz h (.inr hh)
      rcases fromMid hp2 h3 hzb with hm | ⟨κ2, T3, T4, rfl, g1, g2, g3, g4⟩
      · exact .inl ⟨T1, T2, rfl, hl, hm⟩
      · exact .inr ⟨κ2, T1 ++ T3, T4, by rw [List.append_assoc], ⟨T1, T3, rfl, hl, g1⟩, g2, g3,
          fun y hn => by rw [g4 y hn.1 hn.2.2, h4 y hn.2.1]⟩
    · rcases ihb ok.seq_right (cl.seq_right ok) hin hp (fun h hh => hz h (.inr hh)) with
        hm | ⟨κ1, T1, T2, rfl, hl, hp2, h3, h4⟩
      · exact .inl ⟨[], T, rfl, a.mid_nil, hm⟩
      refine .inr ⟨κ1, T1, T2, rfl, ⟨[], T1, rfl, a.mid_nil, hl⟩, hp2, ?_, fun y hn => h4 y hn.2.2⟩
      rintro h (hh | hh)
      · rw [h4 h (ok.seq_disjoint (heads_inner hh))]
        exact hz h (.inl hh)
      · exact h3 h hh
  | loop s' x t' q body ih =>
    intro s t p κ κ' p' T ok cl hin hp hz
    obtain ⟨rfl, rfl, sx, tx, sb, tb⟩ := ok.loop_ends
    simp only [heads, inner, List.mem_cons, not_or] at hin hz ⊢
    have fromHead : ∀ {κ1 : Counts} {T2 : List Mark}, TPath E x κ1 T2 p' κ' → (∀ h ∈ body.heads, κ1 h = 0) → ∀ U,
        body.Mid U → (Fr.loop s' x t' q body).Mid (U ++ T2) ∨ ∃ κ2 T3 T4, U ++ T2 = T3 ++ T4 ∧
          (Fr.loop s' x t' q body).Mid T3 ∧ TPath E t' κ2 T4 p' κ' ∧ (∀ h, h = x ∨ h ∈ body.heads → κ2 h = 0) ∧
          ∀ y, y ≠ x → y ∉ body.inner → κ2 y = κ1 y := by
      intro κ1 T2 hp2 hzb U hU
      obtain ⟨ws, hw, hrest⟩ := Fr.rounds_of ok cl (Fr.begun ok.loop_body (cl.loop_body ok)) _ T2 (Nat.le_refl _) _ hp2 hzb
      rcases hrest with ⟨V, rfl, hV⟩ | ⟨κ3, T3, rfl, hq, hp3, h2, h3, h4⟩
      · exact .inl ⟨[], U, ws, V, [], by simp, .inl rfl, hU, hw, hV, .inl rfl⟩
      refine .inr ⟨κ3, U ++ (ws.flatten ++ [(x, .quantified q, t', [])]), T3, by simp, ?_, hp3, ?_, h4⟩
      · exact ⟨[], U, ws, [], [_], by simp, .inl rfl, hU, hw, body.mid_nil, .inr rfl⟩
      · rintro h (rfl | hh)
        · exact h2
        · exact h3 h hh
    rcases hin with rfl | hin
    · rcases fromHead hp (fun h hh => hz h (.inr hh)) [] body.mid_nil with hm | ⟨κ2, T3, T4, h1, h2, h3, h4, h5⟩
      · exact .inl hm
      · exact .inr ⟨κ2, T3, T4, h1, h2, h3, h4, fun y hn => h5 y hn.1 hn.2⟩
    · rcases ih ok.loop_body (cl.loop_body ok) hin hp (fun h hh => hz h (.inr hh)) with
        hm | ⟨κ1, T1, T2, rfl, hl, hp2, h3, h4⟩
      · exact .inl ⟨[], T, [], [], [], by simp, .inl rfl, hm, by simp, body.mid_nil, .inl rfl⟩
      rcases fromHead hp2 h3 T1 hl with hm | ⟨κ2, T3, T4, g1, g2, g3, g4, g5⟩
      · exact .inl hm
      · exact .inr ⟨κ2, T3, T4, g1, g2, g3, g4, fun y hn => by rw [g5 y hn.1 hn.2, h4 y hn.2]⟩

end Pango.Fsm
