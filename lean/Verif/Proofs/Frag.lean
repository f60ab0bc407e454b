import Verif.Proofs.Build

/-!
# Paths through fragments

Paths of configurations (a state and how often each state was left) through an automaton that contains
a fragment, and the words they read.
-/

namespace Pango.Fsm

open Pango Pango.Regex

/-! ## Structure of fragments -/

/-- The states with counters that matter. -/
def Fr.heads : Fr → List Nat
  | .eps _ _ => []
  | .lit _ _ _ => []
  | .alt a b => a.heads ++ b.heads
  | .seq a _ b => a.heads ++ b.heads
  | .loop _ x _ _ body => x :: body.heads

theorem Fr.heads_inner {fr : Fr} {x : Nat} (h : x ∈ fr.heads) : x ∈ fr.inner := by
  induction fr with
  | eps | lit => simp [heads] at h
  | alt a b iha ihb =>
    simp only [heads, inner, List.mem_append] at h ⊢
    exact h.imp iha ihb
  | seq a m b iha ihb =>
    simp only [heads, inner, List.mem_append, List.mem_cons] at h ⊢
    exact .inr (h.imp iha ihb)
  | loop s x t q body ih =>
    simp only [heads, inner, List.mem_cons] at h ⊢
    exact h.imp_right ih

theorem Fr.edge_source {fr : Fr} {s t x y : Nat} {i : Input} (hs : fr.Shape s t) (h : fr.Edge x i y) :
    x = s ∨ x ∈ fr.inner := by
  induction fr generalizing s t with
  | eps | lit => exact .inl (h.1.trans hs.1)
  | alt a b iha ihb =>
    simp only [inner, List.mem_append]
    rcases h with h | h
    · exact (iha hs.1 h).imp_right .inl
    · exact (ihb hs.2 h).imp_right .inr
  | seq a m b iha ihb =>
    simp only [inner, List.mem_append, List.mem_cons]
    rcases h with h | h
    · exact (iha hs.1 h).imp_right (fun h => .inr (.inl h))
    · rcases ihb hs.2 h with h | h
      · exact .inr (.inl h)
      · exact .inr (.inr (.inr h))
  | loop s' x' t' q body ih =>
    simp only [inner, List.mem_cons]
    rcases h with h | h | h
    · exact .inl (h.1.trans hs.1)
    · exact .inr (.inl h.1)
    · exact .inr (ih hs.2.2 h)

theorem Fr.edge_target {fr : Fr} {s t x y : Nat} {i : Input} (hs : fr.Shape s t) (h : fr.Edge x i y) :
    y = t ∨ y ∈ fr.inner := by
  induction fr generalizing s t with
  | eps | lit => exact .inl (h.2.2.trans hs.2)
  | alt a b iha ihb =>
    simp only [inner, List.mem_append]
    rcases h with h | h
    · exact (iha hs.1 h).imp_right .inl
    · exact (ihb hs.2 h).imp_right .inr
  | seq a m b iha ihb =>
    simp only [inner, List.mem_append, List.mem_cons]
    rcases h with h | h
    · rcases iha hs.1 h with h | h
      · exact .inr (.inl h)
      · exact .inr (.inr (.inl h))
    · exact (ihb hs.2 h).imp_right (fun h => .inr (.inr h))
  | loop s' x' t' q body ih =>
    simp only [inner, List.mem_cons]
    rcases h with h | h | h
    · exact .inr (.inl h.2.2)
    · exact .inl (h.2.2.trans hs.2.1)
    · exact .inr (ih hs.2.2 h)

/-- The fragment leads from `s` to `t`, and its own states are different from each other and from
these. -/
structure Fr.Ok (fr : Fr) (s t : Nat) : Prop where
  shape : fr.Shape s t
  nodup : fr.inner.Nodup
  s_out : s ∉ fr.inner
  t_out : t ∉ fr.inner

/-- The own states of the fragment have only the edges of the fragment. -/
def Fr.Closed (E : Nat → Input → Nat → Prop) (fr : Fr) : Prop :=
  ∀ x ∈ fr.inner, ∀ i y, E x i y → fr.Edge x i y

section sub

variable {E : Nat → Input → Nat → Prop} {s t : Nat}

theorem Fr.Ok.alt_left {a b : Fr} (h : (Fr.alt a b).Ok s t) : a.Ok s t := by
  obtain ⟨h1, h2, h3, h4⟩ := h
  simp only [inner, List.mem_append, not_or, List.nodup_append] at h2 h3 h4
  exact ⟨h1.1, h2.1, h3.1, h4.1⟩

theorem Fr.Ok.alt_right {a b : Fr} (h : (Fr.alt a b).Ok s t) : b.Ok s t := by
  obtain ⟨h1, h2, h3, h4⟩ := h
  simp only [inner, List.mem_append, not_or, List.nodup_append] at h2 h3 h4
  exact ⟨h1.2, h2.2.1, h3.2, h4.2⟩

theorem Fr.Ok.alt_disjoint {a b : Fr} (h : (Fr.alt a b).Ok s t) {x : Nat} (ha : x ∈ a.inner) :
    x ∉ b.inner := by
  have := h.nodup
  simp only [inner, List.nodup_append] at this
  exact fun hb => this.2.2 x ha x hb rfl

theorem Fr.Ok.seq_left {a b : Fr} {m : Nat} (h : (Fr.seq a m b).Ok s t) : a.Ok s m := by
  obtain ⟨h1, h2, h3, h4⟩ := h
  simp only [inner, List.mem_append, List.mem_cons, not_or, List.nodup_append, List.nodup_cons] at h2 h3 h4
  exact ⟨h1.1, h2.2.1, h3.2.1, h2.1.1⟩

theorem Fr.Ok.seq_right {a b : Fr} {m : Nat} (h : (Fr.seq a m b).Ok s t) : b.Ok m t := by
  obtain ⟨h1, h2, h3, h4⟩ := h
  simp only [inner, List.mem_append, List.mem_cons, not_or, List.nodup_append, List.nodup_cons] at h2 h3 h4
  exact ⟨h1.2, h2.2.2.1, h2.1.2, h4.2.2⟩

theorem Fr.Ok.seq_disjoint {a b : Fr} {m : Nat} (h : (Fr.seq a m b).Ok s t) {x : Nat}
    (ha : x ∈ a.inner) : x ∉ b.inner := by
  have := h.nodup
  simp only [inner, List.nodup_append, List.nodup_cons] at this
  exact fun hb => this.2.2.2 x ha x hb rfl

theorem Fr.Ok.seq_mid {a b : Fr} {m : Nat} (h : (Fr.seq a m b).Ok s t) : s ≠ m ∧ t ≠ m := by
  obtain ⟨h1, h2, h3, h4⟩ := h
  simp only [inner, List.mem_cons, not_or] at h3 h4
  exact ⟨h3.1, h4.1⟩

theorem Fr.Ok.loop_body {body : Fr} {s' x t' : Nat} {q : Quant} (h : (Fr.loop s' x t' q body).Ok s t) :
    body.Ok x x := by
  obtain ⟨h1, h2, h3, h4⟩ := h
  simp only [inner, List.nodup_cons] at h2
  exact ⟨h1.2.2, h2.2, h2.1, h2.1⟩

theorem Fr.Ok.loop_ends {body : Fr} {s' x t' : Nat} {q : Quant} (h : (Fr.loop s' x t' q body).Ok s t) :
    s' = s ∧ t' = t ∧ s ≠ x ∧ t ≠ x ∧ s ∉ body.inner ∧ t ∉ body.inner := by
  obtain ⟨h1, h2, h3, h4⟩ := h
  simp only [inner, List.mem_cons, not_or] at h3 h4
  exact ⟨h1.1, h1.2.1, h3.1, h4.1, h3.2, h4.2⟩

theorem Fr.Closed.alt_left {a b : Fr} (h : (Fr.alt a b).Ok s t) (hc : (Fr.alt a b).Closed E) :
    a.Closed E := by
  intro x hx i y he
  rcases hc x (by simp [inner, hx]) i y he with h' | h'
  · exact h'
  · rcases edge_source h.alt_right.shape h' with rfl | h''
    · exact absurd hx h.alt_left.s_out
    · exact absurd h'' (h.alt_disjoint hx)

theorem Fr.Closed.alt_right {a b : Fr} (h : (Fr.alt a b).Ok s t) (hc : (Fr.alt a b).Closed E) :
    b.Closed E := by
  intro x hx i y he
  rcases hc x (by simp [inner, hx]) i y he with h' | h'
  · rcases edge_source h.alt_left.shape h' with rfl | h''
    · exact absurd hx h.alt_right.s_out
    · exact absurd hx (h.alt_disjoint h'')
  · exact h'

theorem Fr.Closed.seq_left {a b : Fr} {m : Nat} (h : (Fr.seq a m b).Ok s t)
    (hc : (Fr.seq a m b).Closed E) : a.Closed E := by
  intro x hx i y he
  rcases hc x (by simp [inner, hx]) i y he with h' | h'
  · exact h'
  · rcases edge_source h.seq_right.shape h' with rfl | h''
    · exact absurd hx h.seq_left.t_out
    · exact absurd h'' (h.seq_disjoint hx)

theorem Fr.Closed.seq_right {a b : Fr} {m : Nat} (h : (Fr.seq a m b).Ok s t)
    (hc : (Fr.seq a m b).Closed E) : b.Closed E := by
  intro x hx i y he
  rcases hc x (by simp [inner, hx]) i y he with h' | h'
  · rcases edge_source h.seq_left.shape h' with rfl | h''
    · exact absurd (by simp [inner, hx]) h.s_out
    · exact absurd hx (h.seq_disjoint h'')
  · exact h'

/-- The state in the middle has the edges of the second part only. -/
theorem Fr.Closed.seq_mid {a b : Fr} {m : Nat} (h : (Fr.seq a m b).Ok s t)
    (hc : (Fr.seq a m b).Closed E) {i : Input} {y : Nat} (he : E m i y) : b.Edge m i y := by
  rcases hc m (by simp [inner]) i y he with h' | h'
  · rcases edge_source h.seq_left.shape h' with h'' | h''
    · exact absurd h''.symm h.seq_mid.1
    · exact absurd h'' h.seq_left.t_out
  · exact h'

theorem Fr.Closed.loop_body {body : Fr} {s' x t' : Nat} {q : Quant}
    (h : (Fr.loop s' x t' q body).Ok s t) (hc : (Fr.loop s' x t' q body).Closed E) : body.Closed E := by
  intro y hy i z he
  obtain ⟨e1, e2, h1, h2, h3, h4⟩ := h.loop_ends
  rcases hc y (by simp [inner, hy]) i z he with h' | h' | h'
  · rw [h'.1, e1] at hy; exact absurd hy h3
  · rw [h'.1] at hy; exact absurd hy h.loop_body.s_out
  · exact h'

theorem Fr.Closed.loop_head {body : Fr} {s' x t' : Nat} {q : Quant}
    (h : (Fr.loop s' x t' q body).Ok s t) (hc : (Fr.loop s' x t' q body).Closed E) {i : Input} {y : Nat}
    (he : E x i y) : (i = .quantified q ∧ y = t) ∨ body.Edge x i y := by
  obtain ⟨e1, e2, h1, h2, h3, h4⟩ := h.loop_ends
  rcases hc x (by simp [inner]) i y he with h' | h' | h'
  · exact absurd (e1 ▸ h'.1.symm) h1
  · exact .inl ⟨h'.2.1, h'.2.2.trans e2⟩
  · exact .inr h'

end sub

/-! ## Configurations and paths -/

variable [Unicode]

/-- How often each state was left. -/
abbrev Counts := Nat → Nat

def Counts.bump (κ : Counts) (p : Nat) : Counts := fun x => if x = p then κ p + 1 else κ x
def Counts.reset (κ : Counts) (p : Nat) : Counts := fun x => if x = p then 0 else κ x

omit [Unicode] in
theorem Counts.bump_self (κ : Counts) (p : Nat) : κ.bump p p = κ p + 1 := by simp [bump]
omit [Unicode] in
theorem Counts.bump_ne (κ : Counts) {p x : Nat} (h : x ≠ p) : κ.bump p x = κ x := by simp [bump, h]
omit [Unicode] in
theorem Counts.reset_self (κ : Counts) (p : Nat) : κ.reset p p = 0 := by simp [reset]
omit [Unicode] in
theorem Counts.reset_ne (κ : Counts) {p x : Nat} (h : x ≠ p) : κ.reset p x = κ x := by simp [reset, h]

/-- One step: along an ε-edge, along a quantified edge whose quantifier allows it, or reading a
character. -/
inductive CStep (E : Nat → Input → Nat → Prop) : Nat → Counts → List Char → Nat → Counts → Prop
  | eps {p d : Nat} {κ : Counts} : E p .eps d → CStep E p κ [] d (κ.bump p)
  | quant {p d : Nat} {κ : Counts} {q : Quant} :
      E p (.quantified q) d → q.isSatisfied (κ p) = true → CStep E p κ [] d (κ.reset p)
  | char {p d : Nat} {κ : Counts} {l : Lit} {c : Char} :
      E p (.literal l) d → l.contains c = true → CStep E p κ [c] d (κ.bump p)

/-- A path with a number of steps and the word it reads. -/
inductive Path (E : Nat → Input → Nat → Prop) : Nat → Nat → Counts → List Char → Nat → Counts → Prop
  | refl (p : Nat) (κ : Counts) : Path E 0 p κ [] p κ
  | cons {n p d p' : Nat} {κ κ1 κ' : Counts} {u w : List Char} :
      CStep E p κ u d κ1 → Path E n d κ1 w p' κ' → Path E (n + 1) p κ (u ++ w) p' κ'

variable {E F : Nat → Input → Nat → Prop}

theorem CStep.mono (h : ∀ x i y, E x i y → F x i y) {p d : Nat} {κ κ1 : Counts} {u : List Char}
    (hs : CStep E p κ u d κ1) : CStep F p κ u d κ1 := by
  cases hs with
  | eps h1 => exact .eps (h _ _ _ h1)
  | quant h1 h2 => exact .quant (h _ _ _ h1) h2
  | char h1 h2 => exact .char (h _ _ _ h1) h2

theorem CStep.edge {p d : Nat} {κ κ1 : Counts} {u : List Char} (h : CStep E p κ u d κ1) :
    ∃ i, E p i d := by
  cases h <;> exact ⟨_, ‹_›⟩

/-- A step uses an edge; if that edge is in `F` then it is a step of `F`. -/
theorem CStep.restrict {p d : Nat} {κ κ1 : Counts} {u : List Char} (hs : CStep E p κ u d κ1)
    (h : ∀ i y, E p i y → F p i y) : CStep F p κ u d κ1 := by
  cases hs with
  | eps h1 => exact .eps (h _ _ h1)
  | quant h1 h2 => exact .quant (h _ _ h1) h2
  | char h1 h2 => exact .char (h _ _ h1) h2

theorem CStep.or {G H : Nat → Input → Nat → Prop} {p d : Nat} {κ κ1 : Counts} {u : List Char}
    (hs : CStep E p κ u d κ1) (h : ∀ i y, E p i y → G p i y ∨ H p i y) :
    CStep G p κ u d κ1 ∨ CStep H p κ u d κ1 := by
  cases hs with
  | eps h1 => exact (h _ _ h1).imp .eps .eps
  | quant h1 h2 => exact (h _ _ h1).imp (.quant · h2) (.quant · h2)
  | char h1 h2 => exact (h _ _ h1).imp (.char · h2) (.char · h2)

theorem CStep.others {p d x : Nat} {κ κ1 : Counts} {u : List Char} (hs : CStep E p κ u d κ1)
    (h : x ≠ p) : κ1 x = κ x := by
  cases hs with
  | eps => exact κ.bump_ne h
  | quant => exact κ.reset_ne h
  | char => exact κ.bump_ne h

theorem Path.single {p d : Nat} {κ κ1 : Counts} {u : List Char} (h : CStep E p κ u d κ1) :
    Path E 1 p κ u d κ1 := by
  have := Path.cons h (.refl d κ1)
  simpa using this

theorem Path.append {n m p p1 p2 : Nat} {κ κ1 κ2 : Counts} {u v : List Char}
    (h1 : Path E n p κ u p1 κ1) (h2 : Path E m p1 κ1 v p2 κ2) : Path E (n + m) p κ (u ++ v) p2 κ2 := by
  induction h1 with
  | refl => simpa using h2
  | cons hs _ ih =>
    have := Path.cons hs (ih h2)
    rwa [List.append_assoc, Nat.add_right_comm]

/-! ## The words of a fragment -/

/-- The words of a fragment. -/
def Fr.Lang : Fr → List Char → Prop
  | .eps _ _, w => w = []
  | .lit _ _ l, w => ∃ c, w = [c] ∧ l.contains c = true
  | .alt a b, w => a.Lang w ∨ b.Lang w
  | .seq a _ b, w => ∃ u v, w = u ++ v ∧ a.Lang u ∧ b.Lang v
  | .loop _ _ _ q body, w =>
    ∃ ws : List (List Char), w = ws.flatten ∧ q.isSatisfied ws.length = true ∧ ∀ u ∈ ws, body.Lang u

/-- Every word of the fragment is read on a path through it.  The path leaves `s` once, sets the
counters of the fragment back, and changes no counters elsewhere. -/
theorem Fr.complete {fr : Fr} : ∀ {s t : Nat} {κ : Counts} {w : List Char}, fr.Ok s t →
    (∀ x i y, fr.Edge x i y → E x i y) → fr.Lang w → (∀ h ∈ fr.heads, κ h = 0) →
    ∃ n κ', Path E n s κ w t κ' ∧ κ' s = κ s + 1 ∧ (∀ h ∈ fr.heads, κ' h = 0) ∧
      ∀ y, y ≠ s → y ∉ fr.inner → κ' y = κ y := by
  induction fr with
  | eps s' t' =>
    intro s t κ w ok hE hw hz
    obtain ⟨rfl, rfl⟩ := ok.shape
    simp only [Lang] at hw
    subst hw
    exact ⟨1, _, .single (.eps (hE _ _ _ ⟨rfl, rfl, rfl⟩)), κ.bump_self _, by simp [heads],
      fun y hy _ => κ.bump_ne hy⟩
  | lit s' t' l =>
    intro s t κ w ok hE hw hz
    obtain ⟨rfl, rfl⟩ := ok.shape
    obtain ⟨c, rfl, hc⟩ := hw
    exact ⟨1, _, .single (.char (hE _ _ _ ⟨rfl, rfl, rfl⟩) hc), κ.bump_self _, by simp [heads],
      fun y hy _ => κ.bump_ne hy⟩
  | alt a b iha ihb =>
    intro s t κ w ok hE hw hz
    simp only [heads, inner, List.mem_append] at hz ⊢
    rcases hw with hw | hw
    · obtain ⟨n, κ', h1, h2, h3, h4⟩ := iha ok.alt_left (fun x i y h => hE x i y (.inl h)) hw
        (fun h hh => hz h (.inl hh))
      refine ⟨n, κ', h1, h2, ?_, fun y hy hn => h4 y hy (fun h => hn (.inl h))⟩
      rintro h (hh | hh)
      · exact h3 h hh
      · have hb := heads_inner hh
        rw [h4 h ?_ ?_]
        · exact hz h (.inr hh)
        · rintro rfl; exact ok.alt_right.s_out hb
        · exact fun ha => ok.alt_disjoint ha hb
    · obtain ⟨n, κ', h1, h2, h3, h4⟩ := ihb ok.alt_right (fun x i y h => hE x i y (.inr h)) hw
        (fun h hh => hz h (.inr hh))
      refine ⟨n, κ', h1, h2, ?_, fun y hy hn => h4 y hy (fun h => hn (.inr h))⟩
      rintro h (hh | hh)
      · have ha := heads_inner hh
        rw [h4 h ?_ ?_]
        · exact hz h (.inl hh)
        · rintro rfl; exact ok.alt_left.s_out ha
        · exact ok.alt_disjoint ha
      · exact h3 h hh
  | seq a m b iha ihb =>
    intro s t κ w ok hE hw hz
    simp only [heads, inner, List.mem_append, List.mem_cons] at hz ⊢
    obtain ⟨u, v, rfl, hu, hv⟩ := hw
    obtain ⟨n, κ1, h1, h2, h3, h4⟩ := iha ok.seq_left (fun x i y h => hE x i y (.inl h)) hu
      (fun h hh => hz h (.inl hh))
    have s_out : s ≠ m ∧ s ∉ a.inner ∧ s ∉ b.inner := by
      have := ok.s_out
      simpa only [inner, List.mem_append, List.mem_cons, not_or] using this
    have hzb : ∀ h ∈ b.heads, κ1 h = 0 := by
      intro h hh
      have hb := heads_inner hh
      rw [h4 h ?_ ?_]
      · exact hz h (.inr hh)
      · rintro rfl; exact s_out.2.2 hb
      · exact fun ha => ok.seq_disjoint ha hb
    obtain ⟨n', κ2, g1, g2, g3, g4⟩ := ihb ok.seq_right (fun x i y h => hE x i y (.inr h)) hv hzb
    refine ⟨n + n', κ2, h1.append g1, ?_, ?_, ?_⟩
    · rw [g4 s s_out.1 s_out.2.2, h2]
    · rintro h (hh | hh)
      · have ha := heads_inner hh
        rw [g4 h ?_ ?_]
        · exact h3 h hh
        · rintro rfl; exact ok.seq_left.t_out ha
        · exact ok.seq_disjoint ha
      · exact g3 h hh
    · intro y hy hn
      simp only [not_or] at hn
      rw [g4 y hn.1 hn.2.2, h4 y hy hn.2.1]
  | loop s' x t' q body ih =>
    intro s t κ w ok hE hw hz
    obtain ⟨rfl, rfl, sx, tx, sb, tb⟩ := ok.loop_ends
    obtain ⟨ws, rfl, hq, hws⟩ := hw
    simp only [heads, inner, List.mem_cons] at hz ⊢
    -- from the head, any number of times around
    have key : ∀ (ws : List (List Char)) (κ : Counts), (∀ u ∈ ws, body.Lang u) →
        (∀ h ∈ body.heads, κ h = 0) →
        ∃ n κ', Path E n x κ ws.flatten x κ' ∧ κ' x = κ x + ws.length ∧
          (∀ h ∈ body.heads, κ' h = 0) ∧ ∀ y, y ≠ x → y ∉ body.inner → κ' y = κ y := by
      intro ws
      induction ws with
      | nil => intro κ _ hz; exact ⟨0, κ, .refl _ _, rfl, hz, fun _ _ _ => rfl⟩
      | cons u ws ihw =>
        intro κ hl hz
        obtain ⟨n, κ1, h1, h2, h3, h4⟩ := ih ok.loop_body (fun x i y h => hE x i y (.inr (.inr h)))
          (hl u (by simp)) hz
        obtain ⟨n', κ2, g1, g2, g3, g4⟩ := ihw κ1 (fun u hu => hl u (by simp [hu])) h3
        refine ⟨n + n', κ2, by simpa using h1.append g1, ?_, g3, ?_⟩
        · rw [g2, h2, List.length_cons]; omega
        · intro y hy hn; rw [g4 y hy hn, h4 y hy hn]
    obtain ⟨n, κ1, h1, h2, h3, h4⟩ := key ws (κ.bump s') hws (by
      intro h hh
      rw [κ.bump_ne (by rintro rfl; exact sb (heads_inner hh))]
      exact hz h (.inr hh))
    have hx0 : κ.bump s' x = 0 := by rw [κ.bump_ne (Ne.symm sx)]; exact hz x (.inl rfl)
    rw [hx0, Nat.zero_add] at h2
    have p1 : Path E 1 s' κ [] x (κ.bump s') := .single (.eps (hE _ _ _ (.inl ⟨rfl, rfl, rfl⟩)))
    have p2 : Path E 1 x κ1 [] t' (κ1.reset x) :=
      .single (.quant (hE _ _ _ (.inr (.inl ⟨rfl, rfl, rfl⟩))) (by rw [h2]; exact hq))
    refine ⟨1 + n + 1, κ1.reset x, ?_, ?_, ?_, ?_⟩
    · simpa using (p1.append h1).append p2
    · rw [κ1.reset_ne sx, h4 s' sx sb, κ.bump_self]
    · rintro h (rfl | hh)
      · exact κ1.reset_self h
      · have hb := heads_inner hh
        rw [κ1.reset_ne (by rintro rfl; exact ok.loop_body.s_out hb)]
        exact h3 h hh
    · intro y hy hn
      simp only [not_or] at hn
      rw [κ1.reset_ne hn.1, h4 y hn.1 hn.2, κ.bump_ne hy]

/-- A path that enters a fragment and ends outside of it goes through `t`, and the part up to there
reads a word of the fragment. -/
theorem Fr.sound {fr : Fr} : ∀ {s t : Nat} {κ κ0 κ' : Counts} {n d p' : Nat} {u w : List Char},
    fr.Ok s t → fr.Closed E → CStep fr.Edge s κ u d κ0 → Path E n d κ0 w p' κ' → p' ∉ fr.inner →
    (∀ h ∈ fr.heads, κ h = 0) →
    ∃ n2 κ1 w1 w2, u ++ w = w1 ++ w2 ∧ n2 ≤ n ∧ fr.Lang w1 ∧ Path E n2 t κ1 w2 p' κ' ∧
      κ1 s = κ s + 1 ∧ (∀ h ∈ fr.heads, κ1 h = 0) ∧ ∀ y, y ≠ s → y ∉ fr.inner → κ1 y = κ y := by
  induction fr with
  | eps s' t' =>
    intro s t κ κ0 κ' n d p' u w ok cl hs hp hout hz
    obtain ⟨rfl, rfl⟩ := ok.shape
    cases hs with
    | eps h =>
      obtain ⟨_, _, rfl⟩ := h
      exact ⟨n, _, [], w, rfl, Nat.le_refl _, rfl, hp, κ.bump_self _, by simp [heads],
        fun y hy _ => κ.bump_ne hy⟩
    | quant h _ => cases h.2.1
    | char h _ => cases h.2.1
  | lit s' t' l =>
    intro s t κ κ0 κ' n d p' u w ok cl hs hp hout hz
    obtain ⟨rfl, rfl⟩ := ok.shape
    cases hs with
    | eps h => cases h.2.1
    | quant h _ => cases h.2.1
    | @char _ _ l' c h hc =>
      obtain ⟨_, h2, rfl⟩ := h
      cases h2
      exact ⟨n, _, [c], w, rfl, Nat.le_refl _, ⟨c, rfl, hc⟩, hp, κ.bump_self _, by simp [heads],
        fun y hy _ => κ.bump_ne hy⟩
  | alt a b iha ihb =>
    intro s t κ κ0 κ' n d p' u w ok cl hs hp hout hz
    simp only [heads, inner, List.mem_append, not_or] at hz hout ⊢
    rcases hs.or (G := a.Edge) (H := b.Edge) (fun i y h => h) with hs | hs
    · obtain ⟨n2, κ1, w1, w2, e, hn, hl, hp2, h2, h3, h4⟩ := iha ok.alt_left (cl.alt_left ok) hs hp hout.1
        (fun h hh => hz h (.inl hh))
      refine ⟨n2, κ1, w1, w2, e, hn, .inl hl, hp2, h2, ?_, fun y hy hn => h4 y hy hn.1⟩
      rintro h (hh | hh)
      · exact h3 h hh
      · have hb := heads_inner hh
        rw [h4 h ?_ ?_]
        · exact hz h (.inr hh)
        · rintro rfl; exact ok.alt_right.s_out hb
        · exact fun ha => ok.alt_disjoint ha hb
    · obtain ⟨n2, κ1, w1, w2, e, hn, hl, hp2, h2, h3, h4⟩ := ihb ok.alt_right (cl.alt_right ok) hs hp
        hout.2 (fun h hh => hz h (.inr hh))
      refine ⟨n2, κ1, w1, w2, e, hn, .inr hl, hp2, h2, ?_, fun y hy hn => h4 y hy hn.2⟩
      rintro h (hh | hh)
      · have ha := heads_inner hh
        rw [h4 h ?_ ?_]
        · exact hz h (.inl hh)
        · rintro rfl; exact ok.alt_left.s_out ha
        · exact ok.alt_disjoint ha
      · exact h3 h hh
  | seq a m b iha ihb =>
    intro s t κ κ0 κ' n d p' u w ok cl hs hp hout hz
    simp only [heads, inner, List.mem_append, List.mem_cons, not_or] at hz hout ⊢
    have s_out : s ≠ m ∧ s ∉ a.inner ∧ s ∉ b.inner := by
      have := ok.s_out
      simpa only [inner, List.mem_append, List.mem_cons, not_or] using this
    have hs : CStep a.Edge s κ u d κ0 := hs.restrict (by
      rintro i y (h | h)
      · exact h
      · rcases edge_source ok.seq_right.shape h with h' | h'
        · exact absurd h' s_out.1
        · exact absurd h' s_out.2.2)
    obtain ⟨n2, κ1, w1, w2, e, hn, hl, hp2, h2, h3, h4⟩ := iha ok.seq_left (cl.seq_left ok) hs hp
      hout.2.1 (fun h hh => hz h (.inl hh))
    have hzb : ∀ h ∈ b.heads, κ1 h = 0 := by
      intro h hh
      have hb := heads_inner hh
      rw [h4 h ?_ ?_]
      · exact hz h (.inr hh)
      · rintro rfl; exact s_out.2.2 hb
      · exact fun ha => ok.seq_disjoint ha hb
    cases hp2 with
    | refl => exact absurd rfl hout.1
    | @cons n3 _ d1 _ _ κ2 _ u1 v1 hs1 hp3 =>
      have hs1 : CStep b.Edge m κ1 u1 d1 κ2 := hs1.restrict (fun i y h => cl.seq_mid ok h)
      obtain ⟨n4, κ3, x1, x2, e', hn', hl', hp4, g2, g3, g4⟩ := ihb ok.seq_right (cl.seq_right ok) hs1 hp3
        hout.2.2 hzb
      refine ⟨n4, κ3, w1 ++ x1, x2, by rw [e, e', List.append_assoc], by omega, ⟨w1, x1, rfl, hl, hl'⟩,
        hp4, ?_, ?_, ?_⟩
      · rw [g4 s s_out.1 s_out.2.2, h2]
      · rintro h (hh | hh)
        · have ha := heads_inner hh
          rw [g4 h ?_ ?_]
          · exact h3 h hh
          · rintro rfl; exact ok.seq_left.t_out ha
          · exact ok.seq_disjoint ha
        · exact g3 h hh
      · intro y hy hn
        rw [g4 y hn.1 hn.2.2, h4 y hy hn.2.1]
  | loop s' x t' q body ih =>
    intro s t κ κ0 κ' n d p' u w ok cl hs hp hout hz
    obtain ⟨rfl, rfl, sx, tx, sb, tb⟩ := ok.loop_ends
    simp only [heads, inner, List.mem_cons, not_or] at hz hout ⊢
    -- from the head
    have key : ∀ (k n : Nat), n ≤ k → ∀ (κ : Counts) (w : List Char), Path E n x κ w p' κ' →
        (∀ h ∈ body.heads, κ h = 0) →
        ∃ n2 κ1 w2, ∃ ws : List (List Char), w = ws.flatten ++ w2 ∧ n2 ≤ n ∧
          (∀ u ∈ ws, body.Lang u) ∧ q.isSatisfied (κ x + ws.length) = true ∧ Path E n2 t' κ1 w2 p' κ' ∧
          κ1 x = 0 ∧ (∀ h ∈ body.heads, κ1 h = 0) ∧ ∀ y, y ≠ x → y ∉ body.inner → κ1 y = κ y := by
      intro k
      induction k with
      | zero =>
        intro n hn κ w hp hz
        obtain rfl : n = 0 := by omega
        cases hp
        exact absurd rfl hout.1
      | succ k ihk =>
        intro n hn κ w hp hz
        cases hp with
        | refl => exact absurd rfl hout.1
        | @cons n1 _ d1 _ _ κ1 _ u1 v1 hs1 hp1 =>
          have hexit : CStep (fun _ i y => i = .quantified q ∧ y = t') x κ u1 d1 κ1 ∨
              CStep body.Edge x κ u1 d1 κ1 := hs1.or (fun i y h => cl.loop_head ok h)
          rcases hexit with h | h
          · cases h with
            | eps h => cases h.1
            | char h _ => cases h.1
            | @quant _ _ q' h hq =>
              obtain ⟨h1, rfl⟩ := h
              cases h1
              refine ⟨n1, _, v1, [], rfl, by omega, by simp, by simpa using hq, hp1, κ.reset_self _, ?_, ?_⟩
              · intro h hh
                rw [κ.reset_ne (by rintro rfl; exact ok.loop_body.s_out (heads_inner hh))]
                exact hz h hh
              · intro y hy _
                exact κ.reset_ne hy
          · obtain ⟨n2, κ2, w1, w2, e, hn2, hl, hp2, h2, h3, h4⟩ := ih ok.loop_body (cl.loop_body ok) h
              hp1 hout.2 hz
            obtain ⟨n3, κ3, w3, ws, e', hn3, hl', hq, hp3, g2, g3, g4⟩ := ihk n2 (by omega) κ2 w2 hp2 h3
            refine ⟨n3, κ3, w3, w1 :: ws, by rw [e, e']; simp, by omega, ?_, ?_, hp3, g2, g3,
              fun y hy hn => by rw [g4 y hy hn, h4 y hy hn]⟩
            · intro u hu
              rcases List.mem_cons.1 hu with rfl | hu
              · exact hl
              · exact hl' u hu
            · rw [List.length_cons, ← Nat.add_assoc, Nat.add_right_comm, ← h2]
              exact hq
    have hfirst : CStep (fun _ i y => i = .eps ∧ y = x) s' κ u d κ0 := hs.restrict (by
      rintro i y (h | h | h)
      · exact h.2
      · exact absurd h.1 sx
      · rcases edge_source ok.loop_body.shape h with h' | h'
        · exact absurd h' sx
        · exact absurd h' sb)
    cases hfirst with
    | quant h _ => cases h.1
    | char h _ => cases h.1
    | eps h =>
      obtain ⟨_, rfl⟩ := h
      obtain ⟨n2, κ1, w2, ws, e, hn, hl, hq, hp2, h2, h3, h4⟩ := key n n (Nat.le_refl _) _ w hp (by
        intro h hh
        rw [κ.bump_ne (by rintro rfl; exact sb (heads_inner hh))]
        exact hz h (.inr hh))
      have hx0 : κ.bump s' d = 0 := by rw [κ.bump_ne (Ne.symm sx)]; exact hz d (.inl rfl)
      rw [hx0, Nat.zero_add] at hq
      refine ⟨n2, κ1, ws.flatten, w2, by simpa using e, hn, ⟨ws, rfl, hq, hl⟩, hp2, ?_, ?_, ?_⟩
      · rw [h4 s' sx sb, κ.bump_self]
      · rintro h (rfl | hh)
        · exact h2
        · exact h3 h hh
      · intro y hy hn
        rw [h4 y hn.1 hn.2, κ.bump_ne hy]

end Pango.Fsm
