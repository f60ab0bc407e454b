import Verif.Proofs.FragClass

/-!
# Fragments in which the next character decides how to go on
-/

namespace Pango.Fsm

open Pango Pango.Regex

section

variable [Unicode]

/-- The character can be the first one that is read in the fragment. -/
def Fr.Ahead : Fr → Char → Prop
  | .eps _ _, _ => False
  | .lit _ _ l, c => l.contains c = true
  | .alt a b, c => a.Ahead c ∨ b.Ahead c
  | .seq a _ b, c => a.Ahead c ∨ (a.Nul ∧ b.Ahead c)
  | .loop _ _ _ _ body, c => body.Ahead c

/-- The character can be read next, in the fragment or behind it. -/
def Fr.Next (fr : Fr) (behind : Char → Prop) (c : Char) : Prop := fr.Ahead c ∨ (fr.Nul ∧ behind c)

/-- If the characters can be read behind the fragment: it is always clear how to read the next character. -/
def Fr.OneWay : Fr → (Char → Prop) → Prop
  | .eps _ _, _ => True
  | .lit _ _ _, _ => True
  | .alt a b, behind => a.OneWay behind ∧ b.OneWay behind ∧ ∀ c, a.Next behind c → ¬ b.Next behind c
  | .seq a _ b, behind => a.OneWay (b.Next behind) ∧ b.OneWay behind
  | .loop _ _ _ _ body, behind => body.OneWay (fun c => body.Ahead c ∨ behind c) ∧ ∀ c, body.Ahead c → ¬ behind c

theorem Fr.Next.mono {fr : Fr} {f g : Char → Prop} (h : ∀ c, f c → g c) {c : Char} : fr.Next f c → fr.Next g c :=
  Or.imp_right fun ⟨h1, h2⟩ => ⟨h1, h c h2⟩

theorem Fr.OneWay.mono {fr : Fr} : ∀ {f g : Char → Prop}, (∀ c, f c → g c) → fr.OneWay g → fr.OneWay f := by
  induction fr with
  | eps | lit => exact fun _ _ => trivial
  | alt a b iha ihb =>
    exact fun h h1 => ⟨iha h h1.1, ihb h h1.2.1, fun c h2 h3 => h1.2.2 c (h2.mono h) (h3.mono h)⟩
  | seq a m b iha ihb => exact fun h h1 => ⟨iha (fun c => Next.mono h) h1.1, ihb h h1.2⟩
  | loop s x t q body ih =>
    exact fun h h1 => ⟨ih (fun c => Or.imp_right (h c)) h1.1, fun c h2 h3 => h1.2 c h2 (h c h3)⟩

variable {E : Nat → Input → Nat → Prop} {c : Char}

/-- The character can be read next. -/
inductive Can (E : Nat → Input → Nat → Prop) (c : Char) : Nat → Counts → Prop
  | char {p d : Nat} {κ : Counts} {l : Lit} : E p (.literal l) d → l.contains c = true → Can E c p κ
  | eps {p d : Nat} {κ : Counts} : E p .eps d → Can E c d (κ.bump p) → Can E c p κ
  | quant {p d : Nat} {κ : Counts} {q : Quant} : E p (.quantified q) d → q.isSatisfied (κ p) = true →
      Can E c d (κ.reset p) → Can E c p κ

/-- On this edge the character can be read next. -/
def Leads (E : Nat → Input → Nat → Prop) (c : Char) (p : Nat) (κ : Counts) : Input → Nat → Prop
  | .literal l, _ => l.contains c = true
  | .eps, d => Can E c d (κ.bump p)
  | .quantified q, d => q.isSatisfied (κ p) = true ∧ Can E c d (κ.reset p)

theorem Can.leads {p : Nat} {κ : Counts} (h : Can E c p κ) : ∃ i d, E p i d ∧ Leads E c p κ i d := by
  cases h with
  | char h1 h2 => exact ⟨_, _, h1, h2⟩
  | eps h1 h2 => exact ⟨_, _, h1, h2⟩
  | quant h1 h2 h3 => exact ⟨_, _, h1, h2, h3⟩

variable {Q : Nat → Counts → Prop}

/-- What is kept by steps without reading. -/
def Kept (E : Nat → Input → Nat → Prop) (Q : Nat → Counts → Prop) : Prop :=
  ∀ p κ d κ1, Q p κ → CStep E p κ [] d κ1 → Q d κ1

private theorem at_head {s t s' x t' : Nat} {q : Quant} {body : Fr} (hk : Kept E Q) (ok : (Fr.loop s' x t' q body).Ok s t)
    (cl : (Fr.loop s' x t' q body).Closed E) {behind : Char → Prop} (hb : ∀ κ, Q t κ → Can E c t κ → behind c)
    (first : ∀ κ i d, Q x κ → body.Edge x i d → Leads E c x κ i d → body.Ahead c) {κ : Counts} (hq : Q x κ)
    (h : Can E c x κ) : body.Ahead c ∨ (q.isSatisfied (κ x) = true ∧ behind c) := by
  obtain ⟨i, d, h1, h2⟩ := h.leads
  rcases cl.loop_head ok h1 with ⟨rfl, rfl⟩ | h3
  · exact .inr ⟨h2.1, hb _ (hk _ _ _ _ hq (.quant h1 h2.1)) h2.2⟩
  · exact .inl (first κ i d hq h3 h2)

theorem Fr.leads_next {fr : Fr} (hk : Kept E Q) : ∀ {s t : Nat} {behind : Char → Prop}, fr.Ok s t → fr.Closed E →
    fr.NonNull → (∀ x i y, fr.Edge x i y → E x i y) → (∀ p κ, Q p κ → fr.Quiet κ p) →
    (∀ κ, Q t κ → Can E c t κ → behind c) → ∀ κ i d, Q s κ → fr.Edge s i d → Leads E c s κ i d →
    fr.Next behind c := by
  induction fr with
  | eps s' t' =>
    intro s t behind ok _ _ hE _ hb κ i d hq he hl
    obtain ⟨rfl, rfl⟩ := ok.shape
    have h1 := hE _ _ _ he
    obtain ⟨_, rfl, rfl⟩ := he
    exact .inr ⟨trivial, hb _ (hk _ _ _ _ hq (.eps h1)) hl⟩
  | lit s' t' l =>
    intro s t behind _ _ _ _ _ _ κ i d _ he hl
    obtain ⟨_, rfl, _⟩ := he
    exact .inl hl
  | alt a b iha ihb =>
    intro s t behind ok cl nn hE hQ hb κ i d hq he hl
    rcases he with he | he
    · exact (iha ok.alt_left (cl.alt_left ok) nn.1 (fun x i y h => hE x i y (.inl h))
        (fun p κ h l hl => hQ p κ h l (List.mem_append.2 (.inl hl))) hb κ i d hq he hl).imp .inl (And.imp_left .inl)
    · exact (ihb ok.alt_right (cl.alt_right ok) nn.2 (fun x i y h => hE x i y (.inr h))
        (fun p κ h l hl => hQ p κ h l (List.mem_append.2 (.inr hl))) hb κ i d hq he hl).imp .inr (And.imp_left .inr)
  | seq a m b iha ihb =>
    intro s t behind ok cl nn hE hQ hb κ i d hq he hl
    have he : a.Edge s i d := by
      rcases he with he | he
      · exact he
      · rcases edge_source ok.seq_right.shape he with h | h
        · exact absurd h ok.seq_mid.1
        · exact absurd (by simp [inner, h]) ok.s_out
    have mid : ∀ κ, Q m κ → Can E c m κ → b.Next behind c := by
      intro κ hq h
      obtain ⟨i, d, h1, h2⟩ := h.leads
      exact ihb ok.seq_right (cl.seq_right ok) nn.2 (fun x i y h => hE x i y (.inr h))
        (fun p κ h l hl => hQ p κ h l (List.mem_append.2 (.inr hl))) hb κ i d hq (cl.seq_mid ok h1) h2
    rcases iha ok.seq_left (cl.seq_left ok) nn.1 (fun x i y h => hE x i y (.inl h))
        (fun p κ h l hl => hQ p κ h l (List.mem_append.2 (.inl hl))) mid κ i d hq he hl with h | ⟨h1, h2 | ⟨h2, h3⟩⟩
    · exact .inl (.inl h)
    · exact .inl (.inr ⟨h1, h2⟩)
    · exact .inr ⟨⟨h1, h2⟩, h3⟩
  | loop s' x t' q body ih =>
    intro s t behind ok cl nn hE hQ hb κ i d hq he hl
    obtain ⟨rfl, rfl, h1, h2, h3, h4⟩ := ok.loop_ends
    rcases he with he | he | he
    · have hs := hE _ _ _ (.inl he)
      obtain ⟨_, rfl, rfl⟩ := he
      have hz : κ d = 0 := hQ _ _ hq (d, body.inner) (by simp [loops]) h1 h3
      have hz' : (κ.bump s') d = 0 := by rw [κ.bump_ne (Ne.symm h1), hz]
      have first : ∀ κ i e, Q d κ → body.Edge d i e → Leads E c d κ i e → body.Ahead c := by
        intro κ i e hq he hl
        rcases ih (behind := fun c => True) ok.loop_body (cl.loop_body ok) nn.2 (fun x i y h => hE x i y (.inr (.inr h)))
          (fun p κ h l hl => hQ p κ h l (List.mem_cons.2 (.inr hl))) (fun _ _ _ => trivial) κ i e hq he hl with h | h
        · exact h
        · exact absurd (nul_lang h.1) nn.1
      rcases at_head hk ok cl hb first (hk _ _ _ _ hq (.eps hs)) hl with h | ⟨h5, h6⟩
      · exact .inl h
      · rw [hz'] at h5
        exact .inr ⟨h5, h6⟩
    · exact absurd he.1 h1
    · rcases edge_source ok.loop_body.shape he with h | h
      · exact absurd h h1
      · exact absurd h h3

/-- The next character decides which edge to take. -/
theorem Fr.leads_unique {fr : Fr} (hk : Kept E Q) : ∀ {s t : Nat} {behind : Char → Prop}, fr.Ok s t → fr.Closed E →
    fr.NonNull → (∀ x i y, fr.Edge x i y → E x i y) → (∀ p κ, Q p κ → fr.Quiet κ p) →
    (∀ κ, Q t κ → Can E c t κ → behind c) → fr.OneWay behind →
    (∀ p ∈ fr.inner, ∀ κ i d i' d', Q p κ → E p i d → E p i' d' → Leads E c p κ i d → Leads E c p κ i' d' →
      i = i' ∧ d = d') ∧
    ∀ κ i d i' d', Q s κ → fr.Edge s i d → fr.Edge s i' d' → Leads E c s κ i d → Leads E c s κ i' d' →
      i = i' ∧ d = d' := by
  induction fr with
  | eps s' t' =>
    intro s t behind ok _ _ _ _ _ _
    refine ⟨by simp [inner], ?_⟩
    rintro κ i d i' d' _ ⟨_, rfl, rfl⟩ ⟨_, rfl, rfl⟩ _ _
    exact ⟨rfl, rfl⟩
  | lit s' t' l =>
    intro s t behind ok _ _ _ _ _ _
    refine ⟨by simp [inner], ?_⟩
    rintro κ i d i' d' _ ⟨_, rfl, rfl⟩ ⟨_, rfl, rfl⟩ _ _
    exact ⟨rfl, rfl⟩
  | alt a b iha ihb =>
    intro s t behind ok cl nn hE hQ hb ow
    have hEa : ∀ x i y, a.Edge x i y → E x i y := fun x i y h => hE x i y (.inl h)
    have hEb : ∀ x i y, b.Edge x i y → E x i y := fun x i y h => hE x i y (.inr h)
    have hQa : ∀ p κ, Q p κ → a.Quiet κ p := fun p κ h l hl => hQ p κ h l (List.mem_append.2 (.inl hl))
    have hQb : ∀ p κ, Q p κ → b.Quiet κ p := fun p κ h l hl => hQ p κ h l (List.mem_append.2 (.inr hl))
    obtain ⟨a1, a2⟩ := iha ok.alt_left (cl.alt_left ok) nn.1 hEa hQa hb ow.1
    obtain ⟨b1, b2⟩ := ihb ok.alt_right (cl.alt_right ok) nn.2 hEb hQb hb ow.2.1
    have na := Fr.leads_next hk ok.alt_left (cl.alt_left ok) nn.1 hEa hQa hb
    have nb := Fr.leads_next hk ok.alt_right (cl.alt_right ok) nn.2 hEb hQb hb
    refine ⟨fun p hp => ?_, fun κ i d i' d' hq h1 h2 h3 h4 => ?_⟩
    · rcases List.mem_append.1 hp with hp | hp
      · exact a1 p hp
      · exact b1 p hp
    · rcases h1 with h1 | h1 <;> rcases h2 with h2 | h2
      · exact a2 κ i d i' d' hq h1 h2 h3 h4
      · exact absurd (nb κ i' d' hq h2 h4) (ow.2.2 c (na κ i d hq h1 h3))
      · exact absurd (nb κ i d hq h1 h3) (ow.2.2 c (na κ i' d' hq h2 h4))
      · exact b2 κ i d i' d' hq h1 h2 h3 h4
  | seq a m b iha ihb =>
    intro s t behind ok cl nn hE hQ hb ow
    have hEa : ∀ x i y, a.Edge x i y → E x i y := fun x i y h => hE x i y (.inl h)
    have hEb : ∀ x i y, b.Edge x i y → E x i y := fun x i y h => hE x i y (.inr h)
    have hQa : ∀ p κ, Q p κ → a.Quiet κ p := fun p κ h l hl => hQ p κ h l (List.mem_append.2 (.inl hl))
    have hQb : ∀ p κ, Q p κ → b.Quiet κ p := fun p κ h l hl => hQ p κ h l (List.mem_append.2 (.inr hl))
    have mid : ∀ κ, Q m κ → Can E c m κ → b.Next behind c := by
      intro κ hq h
      obtain ⟨i, d, h1, h2⟩ := h.leads
      exact Fr.leads_next hk ok.seq_right (cl.seq_right ok) nn.2 hEb hQb hb κ i d hq (cl.seq_mid ok h1) h2
    obtain ⟨a1, a2⟩ := iha ok.seq_left (cl.seq_left ok) nn.1 hEa hQa mid ow.1
    obtain ⟨b1, b2⟩ := ihb ok.seq_right (cl.seq_right ok) nn.2 hEb hQb hb ow.2
    have he : ∀ i d, (Fr.seq a m b).Edge s i d → a.Edge s i d := by
      intro i d he
      rcases he with he | he
      · exact he
      · rcases edge_source ok.seq_right.shape he with h | h
        · exact absurd h ok.seq_mid.1
        · exact absurd (by simp [inner, h]) ok.s_out
    refine ⟨fun p hp => ?_, fun κ i d i' d' hq h1 h2 h3 h4 => a2 κ i d i' d' hq (he _ _ h1) (he _ _ h2) h3 h4⟩
    rcases List.mem_cons.1 hp with rfl | hp
    · exact fun κ i d i' d' hq h1 h2 h3 h4 => b2 κ i d i' d' hq (cl.seq_mid ok h1) (cl.seq_mid ok h2) h3 h4
    · rcases List.mem_append.1 hp with hp | hp
      · exact a1 p hp
      · exact b1 p hp
  | loop s' x t' q body ih =>
    intro s t behind ok cl nn hE hQ hb ow
    obtain ⟨rfl, rfl, h1, h2, h3, h4⟩ := ok.loop_ends
    have hEb : ∀ x i y, body.Edge x i y → E x i y := fun x i y h => hE x i y (.inr (.inr h))
    have hQb : ∀ p κ, Q p κ → body.Quiet κ p := fun p κ h l hl => hQ p κ h l (List.mem_cons.2 (.inr hl))
    have first : ∀ κ i e, Q x κ → body.Edge x i e → Leads E c x κ i e → body.Ahead c := by
      intro κ i e hq he hl
      rcases Fr.leads_next hk (behind := fun c => True) ok.loop_body (cl.loop_body ok) nn.2 hEb hQb
        (fun _ _ _ => trivial) κ i e hq he hl with h | h
      · exact h
      · exact absurd (nul_lang h.1) nn.1
    obtain ⟨b1, b2⟩ := ih ok.loop_body (cl.loop_body ok) nn.2 hEb hQb
      (fun κ hq h => (at_head hk ok cl hb first hq h).imp_right And.right) ow.1
    refine ⟨fun p hp => ?_, fun κ i d i' d' hq e1 e2 _ _ => ?_⟩
    · rcases List.mem_cons.1 hp with rfl | hp
      · intro κ i d i' d' hq e1 e2 l1 l2
        have exits : ∀ {d}, E p (.quantified q) d → d = t' → Leads E c p κ (.quantified q) d → behind c := by
          rintro d e rfl hl
          exact hb _ (hk _ _ _ _ hq (.quant e hl.1)) hl.2
        rcases cl.loop_head ok e1 with ⟨rfl, rfl⟩ | g1 <;> rcases cl.loop_head ok e2 with ⟨rfl, rfl⟩ | g2
        · exact ⟨rfl, rfl⟩
        · exact absurd (exits e1 rfl l1) (ow.2 c (first κ _ _ hq g2 l2))
        · exact absurd (exits e2 rfl l2) (ow.2 c (first κ _ _ hq g1 l1))
        · exact b2 κ i d i' d' hq g1 g2 l1 l2
      · exact b1 p hp
    · have he : ∀ {i d}, (Fr.loop s' x t' q body).Edge s' i d → i = .eps ∧ d = x := by
        rintro i d (he | he | he)
        · exact he.2
        · exact absurd he.1 h1
        · rcases edge_source ok.loop_body.shape he with h | h
          · exact absurd h h1
          · exact absurd h h3
      obtain ⟨rfl, rfl⟩ := he e1
      obtain ⟨rfl, rfl⟩ := he e2
      exact ⟨rfl, rfl⟩

end

/-! ## Levels -/

/-- Every edge leads down, apart from those inside of an outermost loop. -/
def Fr.Ranks (rk : Nat → Nat) : Fr → Prop
  | .eps s t => rk t < rk s
  | .lit s t _ => rk t < rk s
  | .alt a b => a.Ranks rk ∧ b.Ranks rk
  | .seq a _ b => a.Ranks rk ∧ b.Ranks rk
  | .loop s x t _ body => rk t < rk x ∧ rk x < rk s ∧ ∀ p ∈ body.inner, rk p = rk x

theorem Fr.Ranks.congr {rk rk' : Nat → Nat} {fr : Fr} : ∀ {s t : Nat}, fr.Shape s t →
    (∀ p, p = s ∨ p = t ∨ p ∈ fr.inner → rk p = rk' p) → fr.Ranks rk → fr.Ranks rk' := by
  induction fr with
  | eps s' t' =>
    rintro s t ⟨rfl, rfl⟩ h h1
    simp only [Ranks] at h1 ⊢
    rwa [← h _ (.inl rfl), ← h _ (.inr (.inl rfl))]
  | lit s' t' l =>
    rintro s t ⟨rfl, rfl⟩ h h1
    simp only [Ranks] at h1 ⊢
    rwa [← h _ (.inl rfl), ← h _ (.inr (.inl rfl))]
  | alt a b iha ihb =>
    intro s t hs h h1
    refine ⟨iha hs.1 (fun p hp => h p ?_) h1.1, ihb hs.2 (fun p hp => h p ?_) h1.2⟩ <;> simp only [inner, List.mem_append]
    · exact hp.imp_right (Or.imp_right .inl)
    · exact hp.imp_right (Or.imp_right .inr)
  | seq a m b iha ihb =>
    intro s t hs h h1
    refine ⟨iha hs.1 (fun p hp => h p ?_) h1.1, ihb hs.2 (fun p hp => h p ?_) h1.2⟩ <;>
      simp only [inner, List.mem_append, List.mem_cons] <;> rcases hp with hp | hp | hp <;> simp [hp]
  | loop s' x t' q body ih =>
    rintro s t ⟨rfl, rfl, _⟩ h ⟨h1, h2, h3⟩
    have hx := h x (by simp [inner])
    have hs := h s' (.inl rfl)
    have ht := h t' (.inr (.inl rfl))
    refine ⟨by omega, by omega, fun p hp => ?_⟩
    rw [← h p (by simp [inner, hp]), ← hx]
    exact h3 p hp

/-- How many levels are needed. -/
def Fr.height : Fr → Nat
  | .eps _ _ => 1
  | .lit _ _ _ => 1
  | .alt a b => a.height + b.height
  | .seq a _ b => a.height + b.height
  | .loop _ _ _ _ _ => 2

theorem Fr.exists_ranks {fr : Fr} : ∀ {s t : Nat} (hi lo : Nat), fr.Ok s t → s ≠ t → lo + fr.height ≤ hi →
    ∃ rk : Nat → Nat, fr.Ranks rk ∧ rk s = hi ∧ rk t = lo ∧ ∀ p, rk p ≤ hi := by
  induction fr with
  | eps s' t' =>
    intro s t hi lo ok hst h
    obtain ⟨rfl, rfl⟩ := ok.shape
    refine ⟨fun p => if p = s' then hi else lo, ?_, by simp, by simp [Ne.symm hst], fun p => ?_⟩
    · simp only [Ranks, height, if_neg (Ne.symm hst), if_pos] at h ⊢
      omega
    · simp only
      split <;> omega
  | lit s' t' l =>
    intro s t hi lo ok hst h
    obtain ⟨rfl, rfl⟩ := ok.shape
    refine ⟨fun p => if p = s' then hi else lo, ?_, by simp, by simp [Ne.symm hst], fun p => ?_⟩
    · simp only [Ranks, height, if_neg (Ne.symm hst), if_pos] at h ⊢
      omega
    · simp only
      split <;> omega
  | alt a b iha ihb =>
    intro s t hi lo ok hst h
    simp only [height] at h
    obtain ⟨ra, a1, a2, a3, a4⟩ := iha hi lo ok.alt_left hst (by omega)
    obtain ⟨rb, b1, b2, b3, b4⟩ := ihb hi lo ok.alt_right hst (by omega)
    refine ⟨fun p => if p ∈ a.inner then ra p else rb p, ⟨?_, ?_⟩, ?_, ?_, fun p => ?_⟩
    · refine a1.congr ok.alt_left.shape fun p hp => ?_
      rcases hp with rfl | rfl | hp
      · simp only [if_neg ok.alt_left.s_out, a2, b2]
      · simp only [if_neg ok.alt_left.t_out, a3, b3]
      · simp only [if_pos hp]
    · refine b1.congr ok.alt_right.shape fun p hp => ?_
      rcases hp with rfl | rfl | hp
      · simp only [if_neg ok.alt_left.s_out]
      · simp only [if_neg ok.alt_left.t_out]
      · rw [if_neg fun h => ok.alt_disjoint h hp]
    · simp only [if_neg ok.alt_left.s_out, b2]
    · simp only [if_neg ok.alt_left.t_out, b3]
    · simp only
      split
      · exact a4 p
      · exact b4 p
  | seq a m b iha ihb =>
    intro s t hi lo ok hst h
    simp only [height] at h
    obtain ⟨ra, a1, a2, a3, a4⟩ := iha hi (lo + b.height) ok.seq_left ok.seq_mid.1 (by omega)
    obtain ⟨rb, b1, b2, b3, b4⟩ := ihb (lo + b.height) lo ok.seq_right (Ne.symm ok.seq_mid.2) (by omega)
    have sb : s ∉ b.inner := fun h => ok.s_out (by simp [inner, h])
    have ta : t ∉ a.inner := fun h => ok.t_out (by simp [inner, h])
    refine ⟨fun p => if p = s ∨ p ∈ a.inner then ra p else rb p, ⟨?_, ?_⟩, ?_, ?_, fun p => ?_⟩
    · refine a1.congr ok.seq_left.shape fun p hp => ?_
      rcases hp with rfl | rfl | hp
      · simp
      · rw [if_neg (not_or.2 ⟨Ne.symm ok.seq_mid.1, ok.seq_left.t_out⟩), a3, b2]
      · simp [hp]
    · refine b1.congr ok.seq_right.shape fun p hp => ?_
      rcases hp with rfl | rfl | hp
      · rw [if_neg (not_or.2 ⟨Ne.symm ok.seq_mid.1, ok.seq_left.t_out⟩)]
      · rw [if_neg (not_or.2 ⟨Ne.symm hst, ta⟩)]
      · have e : p ≠ s := fun e => sb (e ▸ hp)
        rw [if_neg (not_or.2 ⟨e, fun h => ok.seq_disjoint h hp⟩)]
    · simp [a2]
    · show (if t = s ∨ t ∈ a.inner then ra t else rb t) = lo
      rw [if_neg (not_or.2 ⟨Ne.symm hst, ta⟩), b3]
    · simp only
      split
      · exact a4 p
      · exact Nat.le_trans (b4 p) (by omega)
  | loop s' x t' q body ih =>
    intro s t hi lo ok hst h
    obtain ⟨rfl, rfl, h1, h2, h3, h4⟩ := ok.loop_ends
    simp only [height] at h
    refine ⟨fun p => if p = s' then hi else if p = t' then lo else lo + 1, ⟨?_, ?_, fun p hp => ?_⟩, by simp,
      by simp [Ne.symm hst], fun p => ?_⟩
    · simp [Ne.symm h1, Ne.symm h2, Ne.symm hst]
    · simp [Ne.symm h1, Ne.symm h2]
      omega
    · have e1 : p ≠ s' := fun e => h3 (e ▸ hp)
      have e2 : p ≠ t' := fun e => h4 (e ▸ hp)
      simp [Ne.symm h1, Ne.symm h2, e1, e2]
    · simp only
      split
      · omega
      · split <;> omega

section

variable [Unicode]

/-- In every outermost loop the next character decides how to go on inside of it. -/
def Fr.LoopsOneWay : Fr → Prop
  | .eps _ _ => True
  | .lit _ _ _ => True
  | .alt a b => a.LoopsOneWay ∧ b.LoopsOneWay
  | .seq a _ b => a.LoopsOneWay ∧ b.LoopsOneWay
  | .loop _ _ _ _ body => body.OneWay body.Ahead

variable {E : Nat → Input → Nat → Prop} {c : Char} {Q : Nat → Counts → Prop} {rk : Nat → Nat}

omit [Unicode] in
theorem Fr.Ranks.le {fr : Fr} : ∀ {s t x y : Nat} {i : Input}, fr.Shape s t → fr.Ranks rk → fr.Edge x i y →
    rk y ≤ rk x := by
  induction fr with
  | eps s' t' => rintro s t x y i _ h ⟨rfl, _, rfl⟩; exact Nat.le_of_lt h
  | lit s' t' l => rintro s t x y i _ h ⟨rfl, _, rfl⟩; exact Nat.le_of_lt h
  | alt a b iha ihb => exact fun hs h he => he.elim (iha hs.1 h.1) (ihb hs.2 h.2)
  | seq a m b iha ihb => exact fun hs h he => he.elim (iha hs.1 h.1) (ihb hs.2 h.2)
  | loop s' x t' q body ih =>
    rintro s t y z i ⟨_, _, hs⟩ ⟨h1, h2, h3⟩ (⟨rfl, _, rfl⟩ | ⟨rfl, _, rfl⟩ | he)
    · omega
    · omega
    · have : ∀ p, p = x ∨ p ∈ body.inner → rk p = rk x := by
        rintro p (rfl | hp)
        · rfl
        · exact h3 p hp
      exact Nat.le_of_eq ((this _ (edge_target hs he)).trans (this _ (edge_source hs he)).symm)

/-- The edges that do not lead down. -/
def Flat (E : Nat → Input → Nat → Prop) (rk : Nat → Nat) (x : Nat) (i : Input) (y : Nat) : Prop := E x i y ∧ rk y = rk x

omit [Unicode] in
theorem Fr.Ranks.start {fr : Fr} : ∀ {s t y : Nat} {i : Input}, fr.Ok s t → fr.Ranks rk → fr.Edge s i y →
    rk y < rk s := by
  induction fr with
  | eps s' t' => rintro s t y i _ h ⟨rfl, _, rfl⟩; exact h
  | lit s' t' l => rintro s t y i _ h ⟨rfl, _, rfl⟩; exact h
  | alt a b iha ihb => exact fun ok h he => he.elim (iha ok.alt_left h.1) (ihb ok.alt_right h.2)
  | seq a m b iha ihb =>
    intro s t y i ok h he
    rcases he with he | he
    · exact iha ok.seq_left h.1 he
    · rcases edge_source ok.seq_right.shape he with h | h
      · exact absurd h ok.seq_mid.1
      · exact absurd (by simp [inner, h]) ok.s_out
  | loop s' x t' q body ih =>
    intro s t y i ok h he
    obtain ⟨rfl, rfl, h1, h2, h3, h4⟩ := ok.loop_ends
    rcases he with ⟨_, _, rfl⟩ | he | he
    · exact h.2.1
    · exact absurd he.1 h1
    · rcases edge_source ok.loop_body.shape he with h | h
      · exact absurd h h1
      · exact absurd h h3

/-- Of the edges that do not lead down, the next character decides which one to take. -/
theorem Fr.flat_unique {fr : Fr} (hk : Kept E Q) : ∀ {s t : Nat}, fr.Ok s t → fr.Closed E → fr.NonNull →
    (∀ x i y, fr.Edge x i y → E x i y) → (∀ p κ, Q p κ → fr.Quiet κ p) → fr.Ranks rk → fr.LoopsOneWay →
    ∀ p ∈ fr.inner, ∀ κ i d i' d', Q p κ → Flat E rk p i d → Flat E rk p i' d' →
      Leads (Flat E rk) c p κ i d → Leads (Flat E rk) c p κ i' d' → i = i' ∧ d = d' := by
  induction fr with
  | eps | lit => simp [inner]
  | alt a b iha ihb =>
    intro s t ok cl nn hE hQ h ow p hp
    rcases List.mem_append.1 hp with hp | hp
    · exact iha ok.alt_left (cl.alt_left ok) nn.1 (fun x i y h => hE x i y (.inl h))
        (fun p κ h l hl => hQ p κ h l (List.mem_append.2 (.inl hl))) h.1 ow.1 p hp
    · exact ihb ok.alt_right (cl.alt_right ok) nn.2 (fun x i y h => hE x i y (.inr h))
        (fun p κ h l hl => hQ p κ h l (List.mem_append.2 (.inr hl))) h.2 ow.2 p hp
  | seq a m b iha ihb =>
    intro s t ok cl nn hE hQ h ow p hp
    rcases List.mem_cons.1 hp with rfl | hp
    · intro κ i d i' d' _ f1
      exact absurd f1.2 (Nat.ne_of_lt (h.2.start ok.seq_right (cl.seq_mid ok f1.1)))
    · rcases List.mem_append.1 hp with hp | hp
      · exact iha ok.seq_left (cl.seq_left ok) nn.1 (fun x i y h => hE x i y (.inl h))
          (fun p κ h l hl => hQ p κ h l (List.mem_append.2 (.inl hl))) h.1 ow.1 p hp
      · exact ihb ok.seq_right (cl.seq_right ok) nn.2 (fun x i y h => hE x i y (.inr h))
          (fun p κ h l hl => hQ p κ h l (List.mem_append.2 (.inr hl))) h.2 ow.2 p hp
  | loop s' x t' q body ih =>
    intro s t ok cl nn hE hQ h ow
    have level : ∀ p, p = x ∨ p ∈ body.inner → rk p = rk x := by
      rintro p (rfl | hp)
      · rfl
      · exact h.2.2 p hp
    have hE' : ∀ y i z, body.Edge y i z → Flat E rk y i z := fun y i z he =>
      ⟨hE y i z (.inr (.inr he)),
        (level _ (edge_target ok.loop_body.shape he)).trans (level _ (edge_source ok.loop_body.shape he)).symm⟩
    have hk' : Kept (Flat E rk) Q := fun p κ d κ1 hq hs => hk p κ d κ1 hq (hs.mono fun _ _ _ h => h.1)
    have cl' : body.Closed (Flat E rk) := fun y hy i z h => cl.loop_body ok y hy i z h.1
    have hQb : ∀ p κ, Q p κ → body.Quiet κ p := fun p κ h l hl => hQ p κ h l (List.mem_cons.2 (.inr hl))
    have head : ∀ i d, Flat E rk x i d → body.Edge x i d := by
      intro i d hf
      rcases cl.loop_head ok hf.1 with ⟨_, h1⟩ | h1
      · have h2 := hf.2
        have h3 := h.1
        rw [h1, ok.loop_ends.2.1] at *
        omega
      · exact h1
    have first : ∀ κ, Q x κ → Can (Flat E rk) c x κ → body.Ahead c := by
      intro κ hq hc
      obtain ⟨i, d, h1, h2⟩ := hc.leads
      rcases Fr.leads_next hk' (behind := fun c => True) ok.loop_body cl' nn.2 hE' hQb
        (fun _ _ _ => trivial) κ i d hq (head i d h1) h2 with h | h
      · exact h
      · exact absurd (nul_lang h.1) nn.1
    obtain ⟨b1, b2⟩ := Fr.leads_unique hk' ok.loop_body cl' nn.2 hE' hQb first ow
    intro p hp
    rcases List.mem_cons.1 hp with rfl | hp
    · exact fun κ i d i' d' hq f1 f2 => b2 κ i d i' d' hq (head _ _ f1) (head _ _ f2)
    · exact b1 p hp

end

end Pango.Fsm
