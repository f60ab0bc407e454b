import Verif.Proofs.Paths

/-!
# ε-paths are bounded if no repeated expression matches the empty string
-/

namespace Pango.Fsm

open Pango Pango.Regex

/-- The loops of a fragment: the state that counts, and the states of the body. -/
def Fr.loops : Fr → List (Nat × List Nat)
  | .eps _ _ => []
  | .lit _ _ _ => []
  | .alt a b => a.loops ++ b.loops
  | .seq a _ b => a.loops ++ b.loops
  | .loop _ x _ _ body => (x, body.inner) :: body.loops

/-- Counters of loops other than those around the current state are zero. -/
def Fr.Quiet (fr : Fr) (κ : Counts) (p : Nat) : Prop :=
  ∀ l ∈ fr.loops, p ≠ l.1 → p ∉ l.2 → κ l.1 = 0

theorem Fr.loops_inner {fr : Fr} {l : Nat × List Nat} (h : l ∈ fr.loops) :
    l.1 ∈ fr.inner ∧ ∀ x ∈ l.2, x ∈ fr.inner := by
  induction fr with
  | eps | lit => simp [loops] at h
  | alt a b iha ihb =>
    simp only [loops, inner, List.mem_append] at h ⊢
    rcases h with h | h
    · exact ⟨.inl (iha h).1, fun x hx => .inl ((iha h).2 x hx)⟩
    · exact ⟨.inr (ihb h).1, fun x hx => .inr ((ihb h).2 x hx)⟩
  | seq a m b iha ihb =>
    simp only [loops, inner, List.mem_append, List.mem_cons] at h ⊢
    rcases h with h | h
    · exact ⟨.inr (.inl (iha h).1), fun x hx => .inr (.inl ((iha h).2 x hx))⟩
    · exact ⟨.inr (.inr (ihb h).1), fun x hx => .inr (.inr ((ihb h).2 x hx))⟩
  | loop s x t q body ih =>
    simp only [loops, inner, List.mem_cons] at h ⊢
    rcases h with rfl | h
    · exact ⟨.inl rfl, fun x hx => .inr hx⟩
    · exact ⟨.inr (ih h).1, fun x hx => .inr ((ih h).2 x hx)⟩

theorem Fr.heads_loops {fr : Fr} {x : Nat} (h : x ∈ fr.heads) : ∃ l ∈ fr.loops, l.1 = x := by
  induction fr with
  | eps | lit => simp [heads] at h
  | alt a b iha ihb =>
    simp only [loops, heads, List.mem_append] at h ⊢
    rcases h with h | h
    · obtain ⟨l, h1, h2⟩ := iha h; exact ⟨l, .inl h1, h2⟩
    · obtain ⟨l, h1, h2⟩ := ihb h; exact ⟨l, .inr h1, h2⟩
  | seq a m b iha ihb =>
    simp only [loops, heads, List.mem_append] at h ⊢
    rcases h with h | h
    · obtain ⟨l, h1, h2⟩ := iha h; exact ⟨l, .inl h1, h2⟩
    · obtain ⟨l, h1, h2⟩ := ihb h; exact ⟨l, .inr h1, h2⟩
  | loop s x' t q body ih =>
    simp only [loops, heads, List.mem_cons] at h ⊢
    rcases h with rfl | h
    · exact ⟨_, .inl rfl, rfl⟩
    · obtain ⟨l, h1, h2⟩ := ih h; exact ⟨l, .inr h1, h2⟩

/-- Outside of the fragment all its counters are zero. -/
theorem Fr.Quiet.zero {fr : Fr} {κ : Counts} {p : Nat} (h : fr.Quiet κ p) (hp : p ∉ fr.inner) :
    ∀ x ∈ fr.heads, κ x = 0 := by
  intro x hx
  obtain ⟨l, hl, rfl⟩ := heads_loops hx
  obtain ⟨h1, h2⟩ := loops_inner hl
  exact h l hl (fun e => hp (e ▸ h1)) (fun e => hp (h2 p e))

/-- The only way out of a loop is the quantified edge. -/
theorem Fr.loop_exit {E : Nat → Input → Nat → Prop} {fr : Fr} : ∀ {s t p d : Nat} {i : Input}
    {l : Nat × List Nat}, fr.Ok s t → fr.Closed E → l ∈ fr.loops → (p = l.1 ∨ p ∈ l.2) → E p i d →
    d = l.1 ∨ d ∈ l.2 ∨ (p = l.1 ∧ ∃ q, i = .quantified q) := by
  induction fr with
  | eps | lit => intro s t p d i l ok cl hl; simp [loops] at hl
  | alt a b iha ihb =>
    intro s t p d i l ok cl hl hp he
    rcases List.mem_append.1 hl with hl | hl
    · exact iha ok.alt_left (cl.alt_left ok) hl hp he
    · exact ihb ok.alt_right (cl.alt_right ok) hl hp he
  | seq a m b iha ihb =>
    intro s t p d i l ok cl hl hp he
    rcases List.mem_append.1 hl with hl | hl
    · exact iha ok.seq_left (cl.seq_left ok) hl hp he
    · exact ihb ok.seq_right (cl.seq_right ok) hl hp he
  | loop s' x t' q body ih =>
    intro s t p d i l ok cl hl hp he
    rcases List.mem_cons.1 hl with rfl | hl
    · rcases hp with rfl | hp
      · rcases cl.loop_head ok he with h | h
        · exact .inr (.inr ⟨rfl, q, h.1⟩)
        · rcases edge_target ok.loop_body.shape h with h | h
          · exact .inl h
          · exact .inr (.inl h)
      · rcases edge_target ok.loop_body.shape (cl.loop_body ok p hp i d he) with h | h
        · exact .inl h
        · exact .inr (.inl h)
    · exact ih ok.loop_body (cl.loop_body ok) hl hp he

variable [Unicode] {E : Nat → Input → Nat → Prop}

theorem Fr.Quiet.step {fr : Fr} {s t p d : Nat} {κ κ1 : Counts} {u : List Char} (ok : fr.Ok s t)
    (cl : fr.Closed E) (h : fr.Quiet κ p) (hs : CStep E p κ u d κ1) : fr.Quiet κ1 d := by
  intro l hl hd1 hd2
  by_cases hp : p = l.1 ∨ p ∈ l.2
  · cases hs with
    | eps he =>
      rcases loop_exit ok cl hl hp he with h' | h' | ⟨_, q, h'⟩
      · exact absurd h' hd1
      · exact absurd h' hd2
      · cases h'
    | char he _ =>
      rcases loop_exit ok cl hl hp he with h' | h' | ⟨_, q, h'⟩
      · exact absurd h' hd1
      · exact absurd h' hd2
      · cases h'
    | quant he _ =>
      rcases loop_exit ok cl hl hp he with h' | h' | ⟨rfl, _⟩
      · exact absurd h' hd1
      · exact absurd h' hd2
      · exact κ.reset_self _
  · simp only [not_or] at hp
    rw [hs.others (Ne.symm hp.1)]
    exact h l hl hp.1 hp.2

theorem Fr.Quiet.path {fr : Fr} {s t n p p' : Nat} {κ κ' : Counts} {w : List Char} (ok : fr.Ok s t)
    (cl : fr.Closed E) (h : fr.Quiet κ p) (hp : Path E n p κ w p' κ') : fr.Quiet κ' p' := by
  induction hp with
  | refl => exact h
  | cons hs _ ih => exact ih (h.step ok cl hs)

/-- No repeated expression matches the empty string. -/
def Fr.NonNull : Fr → Prop
  | .eps _ _ => True
  | .lit _ _ _ => True
  | .alt a b => a.NonNull ∧ b.NonNull
  | .seq a _ b => a.NonNull ∧ b.NonNull
  | .loop _ _ _ _ body => ¬ body.Lang [] ∧ body.NonNull

/-- A bound for ε-paths within a fragment. -/
def Fr.bound : Fr → Nat
  | .eps _ _ => 0
  | .lit _ _ _ => 0
  | .alt a b => a.bound + b.bound
  | .seq a _ b => a.bound + 1 + b.bound
  | .loop _ _ _ _ body => body.bound + 1 + body.bound

theorem Path.nil_cases {n p p' : Nat} {κ κ' : Counts} (h : Path E n p κ [] p' κ') :
    (n = 0 ∧ p = p' ∧ κ = κ') ∨ ∃ m d κ1, n = m + 1 ∧ CStep E p κ [] d κ1 ∧ Path E m d κ1 [] p' κ' := by
  generalize hw : ([] : List Char) = w at h
  cases h with
  | refl => exact .inl ⟨rfl, rfl, rfl⟩
  | cons hs hp =>
    obtain ⟨rfl, rfl⟩ := List.append_eq_nil_iff.1 hw.symm
    exact .inr ⟨_, _, _, rfl, hs, hp⟩

/-- The path is short, or goes through `t` early. -/
def Early (E : Nat → Input → Nat → Prop) (bound n p : Nat) (κ : Counts) (t p' : Nat) (κ' : Counts) :
    Prop :=
  n ≤ bound ∨ ∃ n1 n2 κ1, n = n1 + n2 ∧ n1 ≤ bound ∧ Path E n1 p κ [] t κ1 ∧ Path E n2 t κ1 [] p' κ'

theorem Early.le {a b n p t p' : Nat} {κ κ' : Counts} (h : Early E a n p κ t p' κ') (hab : a ≤ b) :
    Early E b n p κ t p' κ' := by
  rcases h with h | ⟨n1, n2, κ1, h1, h2, h3⟩
  · exact .inl (by omega)
  · exact .inr ⟨n1, n2, κ1, h1, by omega, h3⟩

/-- After entering a fragment. -/
theorem early_enter {fr : Fr} {s t n d p' : Nat} {κ κ0 κ' : Counts} (ok : fr.Ok s t)
    (inside : ∀ {n p p' : Nat} {κ κ' : Counts}, fr.Quiet κ p → p ∈ fr.inner → Path E n p κ [] p' κ' →
      Early E fr.bound n p κ t p' κ')
    (hs : CStep fr.Edge s κ [] d κ0) (hq : fr.Quiet κ0 d) (hp : Path E n d κ0 [] p' κ') :
    Early E fr.bound n d κ0 t p' κ' := by
  obtain ⟨i, he⟩ := hs.edge
  rcases Fr.edge_target ok.shape he with rfl | h
  · exact .inr ⟨0, n, κ0, by omega, by omega, .refl _ _, hp⟩
  · exact inside hq h hp

/-- ε-paths that begin inside of a fragment end or leave it early. -/
theorem Fr.early {fr : Fr} : ∀ {s t n p p' : Nat} {κ κ' : Counts}, fr.Ok s t → fr.Closed E →
    fr.NonNull → fr.Quiet κ p → p ∈ fr.inner → Path E n p κ [] p' κ' →
    Early E fr.bound n p κ t p' κ' := by
  induction fr with
  | eps | lit => intro s t n p p' κ κ' _ _ _ _ hp; simp [inner] at hp
  | alt a b iha ihb =>
    intro s t n p p' κ κ' ok cl nn hq hp hpath
    have hqa : a.Quiet κ p := fun l hl => hq l (List.mem_append.2 (.inl hl))
    have hqb : b.Quiet κ p := fun l hl => hq l (List.mem_append.2 (.inr hl))
    rcases List.mem_append.1 hp with hp | hp
    · exact (iha ok.alt_left (cl.alt_left ok) nn.1 hqa hp hpath).le (by simp [bound])
    · exact (ihb ok.alt_right (cl.alt_right ok) nn.2 hqb hp hpath).le (by simp [bound])
  | seq a m b iha ihb =>
    intro s t n p p' κ κ' ok cl nn hq hp hpath
    have hqa : a.Quiet κ p := fun l hl => hq l (List.mem_append.2 (.inl hl))
    have hqb : b.Quiet κ p := fun l hl => hq l (List.mem_append.2 (.inr hl))
    -- from the middle
    have mid : ∀ {n : Nat} {κ : Counts}, b.Quiet κ m → Path E n m κ [] p' κ' →
        Early E (1 + b.bound) n m κ t p' κ' := by
      intro n κ hq hpath
      rcases hpath.nil_cases with ⟨rfl, _⟩ | ⟨n', d, κ0, rfl, hs, hp'⟩
      · exact .inl (by omega)
      · have hs' : CStep b.Edge m κ [] d κ0 := hs.restrict (fun i y h => cl.seq_mid ok h)
        rcases early_enter ok.seq_right (fun hq hin hp => ihb ok.seq_right (cl.seq_right ok) nn.2 hq hin hp)
          hs' (hq.step ok.seq_right (cl.seq_right ok) hs) hp' with h | ⟨n1, n2, κ1, h1, h2, h3, h4⟩
        · exact .inl (by omega)
        · exact .inr ⟨n1 + 1, n2, κ1, by omega, by omega, .cons hs h3, h4⟩
    rcases List.mem_cons.1 hp with rfl | hp
    · exact (mid hqb hpath).le (by simp only [bound]; omega)
    · rcases List.mem_append.1 hp with hp | hp
      · rcases iha ok.seq_left (cl.seq_left ok) nn.1 hqa hp hpath with h | ⟨n1, n2, κ1, h1, h2, h3, h4⟩
        · exact .inl (by simp only [bound]; omega)
        · rcases mid (hqb.path ok.seq_right (cl.seq_right ok) h3) h4 with h | ⟨m1, m2, κ2, g1, g2, g3, g4⟩
          · exact .inl (by simp only [bound]; omega)
          · exact .inr ⟨n1 + m1, m2, κ2, by omega, by simp only [bound]; omega, h3.append g3, g4⟩
      · exact (ihb ok.seq_right (cl.seq_right ok) nn.2 hqb hp hpath).le (by simp only [bound]; omega)
  | loop s' x t' q body ih =>
    intro s t n p p' κ κ' ok cl nn hq hp hpath
    have hqb : body.Quiet κ p := fun l hl => hq l (List.mem_cons.2 (.inr hl))
    -- from the head
    have head : ∀ {n : Nat} {κ : Counts}, body.Quiet κ x → Path E n x κ [] p' κ' →
        Early E (1 + body.bound) n x κ t p' κ' := by
      intro n κ hq hpath
      rcases hpath.nil_cases with ⟨rfl, _⟩ | ⟨n', d, κ0, rfl, hs, hp'⟩
      · exact .inl (by omega)
      · have hor : CStep (fun _ i y => i = .quantified q ∧ y = t) x κ [] d κ0 ∨
            CStep body.Edge x κ [] d κ0 := hs.or (fun i y h => cl.loop_head ok h)
        rcases hor with h | hb
        · obtain ⟨i, _, rfl⟩ := h.edge
          exact .inr ⟨1, n', κ0, by omega, by omega, .single hs, hp'⟩
        · have hqd := hq.step ok.loop_body (cl.loop_body ok) hs
          rcases early_enter ok.loop_body
            (fun hq hin hp => ih ok.loop_body (cl.loop_body ok) nn.2 hq hin hp) hb hqd hp' with
              h | ⟨n1, n2, κ1, h1, h2, h3, h4⟩
          · exact .inl (by omega)
          · -- the body would match the empty string
            obtain ⟨_, _, w1, w2, e, _, hl, _⟩ := Fr.sound ok.loop_body (cl.loop_body ok) hb h3
              ok.loop_body.s_out (hq.zero ok.loop_body.s_out)
            obtain ⟨rfl, rfl⟩ := List.append_eq_nil_iff.1 e.symm
            exact absurd hl nn.1
    rcases List.mem_cons.1 hp with rfl | hp
    · exact (head hqb hpath).le (by simp only [bound]; omega)
    · rcases ih ok.loop_body (cl.loop_body ok) nn.2 hqb hp hpath with h | ⟨n1, n2, κ1, h1, h2, h3, h4⟩
      · exact .inl (by simp only [bound]; omega)
      · rcases head (hqb.path ok.loop_body (cl.loop_body ok) h3) h4 with h | ⟨m1, m2, κ2, g1, g2, g3, g4⟩
        · exact .inl (by simp only [bound]; omega)
        · exact .inr ⟨n1 + m1, m2, κ2, by omega, by simp only [bound]; omega, h3.append g3, g4⟩

/-! ## The whole automaton -/

/-- Counters are quiet in all fragments. -/
def Quiets (rs : List (Fr × Nat)) (κ : Counts) (p : Nat) : Prop := ∀ r ∈ rs, r.1.Quiet κ p

omit [Unicode] in
theorem quiets_zero (rs : List (Fr × Nat)) (p : Nat) : Quiets rs (fun _ => 0) p :=
  fun _ _ _ _ _ _ => rfl

theorem Quiets.path {nfa : Nfa} {rs : List (Fr × Nat)} (b : Bundle nfa rs) {n p p' : Nat}
    {κ κ' : Counts} {w : List Char} (h : Quiets rs κ p) (hp : Path nfa.HasEdge n p κ w p' κ') :
    Quiets rs κ' p' := fun r hr => (h r hr).path (b.ok hr) (b.closed hr) hp

/-- A bound for ε-paths in the whole automaton. -/
def totalBound (rs : List (Fr × Nat)) : Nat := 1 + (rs.map (fun r => r.1.bound)).sum

theorem bound_le_total {rs : List (Fr × Nat)} {r : Fr × Nat} (hr : r ∈ rs) :
    1 + r.1.bound ≤ totalBound rs := by
  unfold totalBound
  induction rs with
  | nil => simp at hr
  | cons a rs ih =>
    rcases List.mem_cons.1 hr with rfl | hr
    · simp
    · have := ih hr; simp; omega

theorem Bundle.eps_bounded {nfa : Nfa} {rs : List (Fr × Nat)} (b : Bundle nfa rs)
    (nn : ∀ r ∈ rs, r.1.NonNull) {n p p' : Nat} {κ κ' : Counts} (hq : Quiets rs κ p)
    (hp : Path nfa.HasEdge n p κ [] p' κ') : n ≤ totalBound rs := by
  -- from inside of a fragment
  have inside : ∀ {r : Fr × Nat} {n p : Nat} {κ : Counts}, r ∈ rs → r.1.Quiet κ p →
      p ∈ r.2 :: r.1.inner → Path nfa.HasEdge n p κ [] p' κ' → n ≤ r.1.bound := by
    intro r n p κ hr hq hin hp
    have stop : ∀ {n : Nat} {κ : Counts}, Path nfa.HasEdge n r.2 κ [] p' κ' → n = 0 := by
      intro n κ hp
      rcases hp.nil_cases with ⟨rfl, _⟩ | ⟨_, _, _, _, hs, _⟩
      · rfl
      · obtain ⟨i, he⟩ := hs.edge
        exact absurd he (b.final_no_edge hr)
    rcases List.mem_cons.1 hin with rfl | hin
    · rw [stop hp]; omega
    · rcases Fr.early (b.ok hr) (b.closed hr) (nn r hr) hq hin hp with h | ⟨n1, n2, κ1, h1, h2, _, h4⟩
      · exact h
      · have := stop h4; omega
  rcases hp.nil_cases with ⟨rfl, _⟩ | ⟨m, d, κ1, rfl, hs, hp'⟩
  · omega
  · obtain ⟨i, he⟩ := hs.edge
    obtain ⟨r, hr, he'⟩ := (b.edges _ _ _).1 he
    have hd : d ∈ r.2 :: r.1.inner := by
      rcases Fr.edge_target (b.shape r hr) he' with h | h
      · simp [h]
      · simp [h]
    have := inside hr ((hq r hr).step (b.ok hr) (b.closed hr) hs) hd hp'
    have := bound_le_total hr
    omega

end Pango.Fsm
