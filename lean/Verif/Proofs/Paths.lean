import Verif.Proofs.Frag

/-!
# Paths from the start state of an automaton of several fragments
-/

namespace Pango.Fsm

open Pango Pango.Regex

section bundle

variable {nfa : Nfa} {rs : List (Fr × Nat)}

theorem flatMap_nodup_eq {α β : Type} {f : α → List β} {l : List α} (h : (l.flatMap f).Nodup)
    {a b : α} (ha : a ∈ l) (hb : b ∈ l) {x : β} (hxa : x ∈ f a) (hxb : x ∈ f b) : a = b := by
  induction l with
  | nil => simp at ha
  | cons c l ih =>
    simp only [List.flatMap_cons, List.nodup_append] at h
    rcases List.mem_cons.1 ha with ha' | ha' <;> rcases List.mem_cons.1 hb with hb' | hb'
    · rw [ha', hb']
    · rw [ha'] at hxa
      exact absurd rfl (h.2.2 x hxa x (List.mem_flatMap.2 ⟨b, hb', hxb⟩))
    · rw [hb'] at hxb
      exact absurd rfl (h.2.2 x hxb x (List.mem_flatMap.2 ⟨a, ha', hxa⟩))
    · exact ih h.2.1 ha' hb'

theorem flatMap_nodup_mem {α β : Type} {f : α → List β} {l : List α} (h : (l.flatMap f).Nodup)
    {a : α} (ha : a ∈ l) : (f a).Nodup := by
  induction l with
  | nil => simp at ha
  | cons c l ih =>
    simp only [List.flatMap_cons, List.nodup_append] at h
    rcases List.mem_cons.1 ha with rfl | ha
    · exact h.1
    · exact ih h.2.1 ha

theorem Bundle.ok (b : Bundle nfa rs) {r : Fr × Nat} (hr : r ∈ rs) : r.1.Ok 0 r.2 := by
  have hn := List.nodup_cons.1 b.nodup
  have h1 := List.nodup_cons.1 (flatMap_nodup_mem hn.2 hr)
  refine ⟨b.shape r hr, h1.2, ?_, h1.1⟩
  intro h0
  exact hn.1 (List.mem_flatMap.2 ⟨r, hr, by simp [h0]⟩)

theorem Bundle.final_ne (b : Bundle nfa rs) {r : Fr × Nat} (hr : r ∈ rs) : r.2 ≠ 0 := by
  intro h0
  exact (List.nodup_cons.1 b.nodup).1 (List.mem_flatMap.2 ⟨r, hr, by simp [h0]⟩)

/-- A state is in one fragment only. -/
theorem Bundle.unique (b : Bundle nfa rs) {r r' : Fr × Nat} (hr : r ∈ rs) (hr' : r' ∈ rs) {x : Nat}
    (h : x ∈ r.2 :: r.1.inner) (h' : x ∈ r'.2 :: r'.1.inner) : r = r' :=
  flatMap_nodup_eq (List.nodup_cons.1 b.nodup).2 hr hr' h h'

theorem Bundle.closed (b : Bundle nfa rs) {r : Fr × Nat} (hr : r ∈ rs) : r.1.Closed nfa.HasEdge := by
  intro x hx i y he
  obtain ⟨r', hr', he'⟩ := (b.edges x i y).1 he
  rcases Fr.edge_source (b.shape r' hr') he' with rfl | h
  · exact absurd hx (b.ok hr).s_out
  · rw [b.unique hr hr' (x := x) (by simp [hx]) (by simp [h])]
    exact he'

theorem Bundle.final_no_edge (b : Bundle nfa rs) {r : Fr × Nat} (hr : r ∈ rs) {i : Input} {y : Nat} :
    ¬ nfa.HasEdge r.2 i y := by
  intro he
  obtain ⟨r', hr', he'⟩ := (b.edges _ i y).1 he
  rcases Fr.edge_source (b.shape r' hr') he' with h | h
  · exact b.final_ne hr h
  · have := b.unique hr hr' (x := r.2) (by simp) (by simp [h])
    subst this
    exact (b.ok hr).t_out h

/-- Only the start state, the final states of the fragments and their own states have edges into
them. -/
theorem Bundle.target (b : Bundle nfa rs) {x y : Nat} {i : Input} (h : nfa.HasEdge x i y) :
    ∃ r ∈ rs, y ∈ r.2 :: r.1.inner := by
  obtain ⟨r, hr, he⟩ := (b.edges x i y).1 h
  refine ⟨r, hr, ?_⟩
  rcases Fr.edge_target (b.shape r hr) he with h | h
  · simp [h]
  · simp [h]

variable [Unicode]

theorem Path.end_target {E : Nat → Input → Nat → Prop} {n p p' : Nat} {κ κ' : Counts} {w : List Char}
    (h : Path E n p κ w p' κ') : p' = p ∨ ∃ x i, E x i p' := by
  induction h with
  | refl => exact .inl rfl
  | cons hs hp ih =>
    rcases ih with rfl | h
    · obtain ⟨i, h⟩ := hs.edge
      exact .inr ⟨_, _, h⟩
    · exact .inr h

/-- The words that lead from the start state to a final state. -/
theorem Bundle.paths (b : Bundle nfa rs) {f : Nat} (hf : nfa.IsFinal f) (w : List Char) :
    (∃ n κ', Path nfa.HasEdge n 0 (fun _ => 0) w f κ') ↔ ∃ r ∈ rs, r.2 = f ∧ r.1.Lang w := by
  constructor
  · rintro ⟨n, κ', hp⟩
    -- `f` is the end of a fragment
    have hf' : ∃ r ∈ rs, f = r.2 := by
      have h0 : f ≠ 0 := by
        rintro rfl
        rcases (b.finals 0).1 hf with h | ⟨r, hr, h⟩
        · cases h
        · exact b.final_ne hr h.symm
      rcases hp.end_target with h | ⟨x, i, h⟩
      · exact absurd h h0
      · obtain ⟨r, hr, hm⟩ := b.target h
        rcases List.mem_cons.1 hm with h | h
        · exact ⟨r, hr, h⟩
        · rcases (b.finals f).1 hf with rfl | h'
          · have := b.two r hr 1 h
            omega
          · exact h'
    obtain ⟨r, hr, hfr⟩ := hf'
    have hf0 := hfr ▸ b.final_ne hr
    cases hp with
    | refl => exact absurd rfl hf0
    | @cons n _ d _ _ κ1 _ u w hs hp =>
      obtain ⟨r', hr', hs'⟩ : ∃ r' ∈ rs, CStep r'.1.Edge 0 (fun _ => 0) u d κ1 := by
        cases hs with
        | eps h => obtain ⟨r', hr', h⟩ := (b.edges _ _ _).1 h; exact ⟨r', hr', .eps h⟩
        | quant h hq => obtain ⟨r', hr', h⟩ := (b.edges _ _ _).1 h; exact ⟨r', hr', .quant h hq⟩
        | char h hc => obtain ⟨r', hr', h⟩ := (b.edges _ _ _).1 h; exact ⟨r', hr', .char h hc⟩
      subst hfr
      have hout : r.2 ∉ r'.1.inner := by
        intro h
        have := b.unique hr hr' (x := r.2) (by simp) (by simp [h])
        subst this
        exact (b.ok hr).t_out h
      obtain ⟨n2, κ2, w1, w2, e, _, hl, hp2, _⟩ := Fr.sound (b.ok hr') (b.closed hr') hs' hp hout
        (fun _ _ => rfl)
      generalize hp' : r'.2 = p2 at hp2
      generalize hp'' : r.2 = p3 at hp2
      cases hp2 with
      | refl =>
        have := b.unique hr hr' (x := r.2) (by simp) (by simp [hp', hp''])
        subst this
        exact ⟨r, hr, hp'', by rw [e, List.append_nil]; exact hl⟩
      | cons hs _ =>
        subst hp'
        obtain ⟨i, h⟩ := hs.edge
        exact absurd h (b.final_no_edge hr')
  · rintro ⟨r, hr, rfl, hl⟩
    obtain ⟨n, κ', h, _⟩ := Fr.complete (E := nfa.HasEdge) (κ := fun _ => 0) (b.ok hr)
      (fun x i y h => (b.edges x i y).2 ⟨r, hr, h⟩) hl (fun _ _ => rfl)
    exact ⟨n, κ', h⟩

end bundle

/-! ## Starting in the static closure with all counters zero -/

section start

variable (E : Nat → Input → Nat → Prop)

/-- What the closure of the start state follows: ε-edges, and quantified edges that zero departures
allow. -/
inductive SReach : Nat → Nat → Prop
  | refl (p : Nat) : SReach p p
  | eps {p x d : Nat} : SReach p x → E x .eps d → SReach p d
  | quant {p x d : Nat} {q : Quant} :
      SReach p x → E x (.quantified q) d → q.isSatisfied 0 = true → SReach p d

/-- The counter of `x` matters: a quantifier other than `*` looks at it. -/
def Counted (x : Nat) : Prop := ∃ q d, q ≠ Quant.asterisk ∧ E x (.quantified q) d

/-- The counters that matter agree. -/
def Agree (κ κ' : Counts) : Prop := ∀ x, Counted E x → κ x = κ' x

/-- No counter that matters is at a state in the closure of the start state with an ε-edge. -/
def StartOk (p : Nat) : Prop := ∀ x d, SReach E p x → Counted E x → ¬ E x .eps d

variable {E}

theorem isSatisfied_agree {κ κ' : Counts} (h : Agree E κ κ') {x d : Nat} {q : Quant}
    (he : E x (.quantified q) d) : q.isSatisfied (κ x) = q.isSatisfied (κ' x) := by
  by_cases hq : q = .asterisk
  · subst hq; rfl
  · rw [h x ⟨q, d, hq, he⟩]

theorem Agree.bump {κ κ' : Counts} (h : Agree E κ κ') (p : Nat) : Agree E (κ.bump p) (κ'.bump p) := by
  intro x hx
  simp only [Counts.bump]
  split
  · subst_vars; rw [h _ hx]
  · exact h x hx

theorem Agree.reset {κ κ' : Counts} (h : Agree E κ κ') (p : Nat) :
    Agree E (κ.reset p) (κ'.reset p) := by
  intro x hx
  simp only [Counts.reset]
  split
  · rfl
  · exact h x hx

theorem Agree.symm {κ κ' : Counts} (h : Agree E κ κ') : Agree E κ' κ := fun x hx => (h x hx).symm

variable [Unicode]

theorem CStep.agree {p d : Nat} {κ κ1 κ2 : Counts} {u : List Char} (hs : CStep E p κ u d κ1)
    (h : Agree E κ κ2) : ∃ κ3, CStep E p κ2 u d κ3 ∧ Agree E κ1 κ3 := by
  cases hs with
  | eps he => exact ⟨_, .eps he, h.bump p⟩
  | quant he hq => exact ⟨_, .quant he (by rw [← isSatisfied_agree h he]; exact hq), h.reset p⟩
  | char he hc => exact ⟨_, .char he hc, h.bump p⟩

theorem Path.agree {n p p' : Nat} {κ κ' κ2 : Counts} {w : List Char} (hp : Path E n p κ w p' κ')
    (h : Agree E κ κ2) : ∃ κ3, Path E n p κ2 w p' κ3 ∧ Agree E κ' κ3 := by
  induction hp generalizing κ2 with
  | refl => exact ⟨κ2, .refl _ _, h⟩
  | cons hs _ ih =>
    obtain ⟨κ3, h1, h2⟩ := hs.agree h
    obtain ⟨κ4, h3, h4⟩ := ih h2
    exact ⟨κ4, .cons h1 h3, h4⟩

/-- Everything in the static closure is reached by a path that leaves the counters that matter at
zero. -/
theorem SReach.path {p x : Nat} (ok : StartOk E p) (h : SReach E p x) :
    ∃ n κ, Path E n p (fun _ => 0) [] x κ ∧ Agree E κ (fun _ => 0) := by
  induction h with
  | refl => exact ⟨0, _, .refl _ _, fun _ _ => rfl⟩
  | @eps x d h he ih =>
    obtain ⟨n, κ, h1, h2⟩ := ih
    refine ⟨n + 1, _, h1.append (.single (.eps he)), ?_⟩
    intro y hy
    by_cases hyx : y = x
    · subst hyx; exact absurd he (ok y d h hy)
    · rw [κ.bump_ne hyx]; exact h2 y hy
  | @quant x d q h he hq ih =>
    obtain ⟨n, κ, h1, h2⟩ := ih
    refine ⟨n + 1, _, h1.append (.single (.quant he (by rw [isSatisfied_agree h2 he]; exact hq))), ?_⟩
    intro y hy
    by_cases hyx : y = x
    · subst hyx; exact κ.reset_self y
    · rw [κ.reset_ne hyx]; exact h2 y hy

/-- A path that begins with a character, or is empty. -/
inductive CharPath (E : Nat → Input → Nat → Prop) : Nat → Counts → List Char → Nat → Counts → Prop
  | refl (p : Nat) (κ : Counts) : CharPath E p κ [] p κ
  | char {p d p' n : Nat} {κ κ1 κ' : Counts} {c : Char} {w : List Char} :
      CStep E p κ [c] d κ1 → Path E n d κ1 w p' κ' → CharPath E p κ (c :: w) p' κ'

theorem CharPath.toPath {p p' : Nat} {κ κ' : Counts} {w : List Char} (h : CharPath E p κ w p' κ') :
    ∃ n, Path E n p κ w p' κ' := by
  cases h with
  | refl => exact ⟨0, .refl _ _⟩
  | char hs hp => exact ⟨_, .cons hs hp⟩

/-- The words read from the static closure with counters zero are those read from the start state. -/
theorem start_paths {p f : Nat} (ok : StartOk E p) (w : List Char) :
    (∃ x κ', SReach E p x ∧ CharPath E x (fun _ => 0) w f κ') ↔
      ∃ n κ', Path E n p (fun _ => 0) w f κ' := by
  constructor
  · rintro ⟨x, κ', hx, hp⟩
    obtain ⟨n, κ, h1, h2⟩ := hx.path ok
    obtain ⟨m, hp⟩ := hp.toPath
    obtain ⟨κ3, h3, _⟩ := hp.agree h2.symm
    exact ⟨n + m, κ3, h1.append h3⟩
  · rintro ⟨n, κ', hp⟩
    -- walk along the ε-steps
    have key : ∀ (n : Nat) (x : Nat) (κ κ' : Counts) (w : List Char), Path E n x κ w f κ' →
        SReach E p x → Agree E κ (fun _ => 0) →
        ∃ x κ', SReach E p x ∧ CharPath E x (fun _ => 0) w f κ' := by
      intro n
      induction n with
      | zero =>
        intro x κ κ' w hp hx _
        cases hp
        exact ⟨_, _, hx, .refl _ _⟩
      | succ n ih =>
        intro x κ κ' w hp hx ha
        cases hp with
        | @cons _ _ d _ _ κ1 _ u w hs hp =>
          cases hs with
          | eps he =>
            refine ih d _ κ' w hp (hx.eps he) ?_
            intro y hy
            by_cases hyx : y = x
            · subst hyx; exact absurd he (ok y d hx hy)
            · rw [κ.bump_ne hyx]; exact ha y hy
          | quant he hq =>
            refine ih d _ κ' w hp (hx.quant he (by rw [← isSatisfied_agree ha he]; exact hq)) ?_
            intro y hy
            by_cases hyx : y = x
            · subst hyx; exact κ.reset_self y
            · rw [κ.reset_ne hyx]; exact ha y hy
          | char he hc =>
            have hs : CStep E x κ [_] d (κ.bump x) := .char he hc
            obtain ⟨κ2, h1, h2⟩ := hs.agree ha
            obtain ⟨κ3, h3, _⟩ := hp.agree h2
            exact ⟨x, κ3, hx, .char h1 h3⟩
    exact key n p _ κ' w hp (.refl p) (fun _ _ => rfl)

end start

/-! ## When the static closure is good -/

/-- What the static closure reaches among the own states of a fragment. -/
def Fr.Nul : Fr → Prop
  | .eps _ _ => True
  | .lit _ _ _ => False
  | .alt a b => a.Nul ∨ b.Nul
  | .seq a _ b => a.Nul ∧ b.Nul
  | .loop _ _ _ q _ => q.isSatisfied 0 = true

def Fr.Start : Fr → Nat → Prop
  | .eps _ _, _ => False
  | .lit _ _ _, _ => False
  | .alt a b, x => a.Start x ∨ b.Start x
  | .seq a m b, x => a.Start x ∨ (a.Nul ∧ (x = m ∨ b.Start x))
  | .loop _ h _ _ body, x => x = h ∨ body.Start x

/-- The fragment begins with literals. -/
def Fr.LitStart : Fr → Prop
  | .eps _ _ => False
  | .lit _ _ _ => True
  | .alt a b => a.LitStart ∧ b.LitStart
  | .seq a _ _ => a.LitStart
  | .loop _ _ _ _ _ => False

/-- Counted repetitions at the start of the fragment have bodies that begin with literals. -/
def Fr.HeadOk : Fr → Prop
  | .eps _ _ => True
  | .lit _ _ _ => True
  | .alt a b => a.HeadOk ∧ b.HeadOk
  | .seq a _ b => a.HeadOk ∧ (a.Nul → b.HeadOk)
  | .loop _ _ _ q body => body.HeadOk ∧ (q = .asterisk ∨ body.LitStart)

theorem Fr.start_inner {fr : Fr} {x : Nat} (h : fr.Start x) : x ∈ fr.inner := by
  induction fr with
  | eps | lit => exact h.elim
  | alt a b iha ihb =>
    simp only [inner, List.mem_append]
    exact h.imp iha ihb
  | seq a m b iha ihb =>
    simp only [inner, List.mem_append, List.mem_cons]
    rcases h with h | ⟨_, h | h⟩
    · exact .inr (.inl (iha h))
    · exact .inl h
    · exact .inr (.inr (ihb h))
  | loop s x' t q body ih =>
    simp only [inner, List.mem_cons]
    exact h.imp_right ih

/-- The edges the static closure follows. -/
def Static : Input → Prop
  | .literal _ => False
  | .eps => True
  | .quantified q => q.isSatisfied 0 = true

theorem Fr.start_step {fr : Fr} : ∀ {s t x d : Nat} {i : Input}, fr.Ok s t → (x = s ∨ fr.Start x) →
    fr.Edge x i d → Static i → fr.Start d ∨ (d = t ∧ fr.Nul) := by
  induction fr with
  | eps s' t' =>
    intro s t x d i ok hx he hi
    exact .inr ⟨he.2.2.trans ok.shape.2, trivial⟩
  | lit s' t' l =>
    intro s t x d i ok hx he hi
    rw [he.2.1] at hi
    exact hi.elim
  | alt a b iha ihb =>
    intro s t x d i ok hx he hi
    have ha : a.Edge x i d → (x = s ∨ a.Start x) := by
      intro he
      rcases edge_source ok.alt_left.shape he with h | h
      · exact .inl h
      · rcases hx with h' | h' | h'
        · exact .inl h'
        · exact .inr h'
        · exact absurd (start_inner h') (ok.alt_disjoint h)
    have hb : b.Edge x i d → (x = s ∨ b.Start x) := by
      intro he
      rcases edge_source ok.alt_right.shape he with h | h
      · exact .inl h
      · rcases hx with h' | h' | h'
        · exact .inl h'
        · exact absurd h (ok.alt_disjoint (start_inner h'))
        · exact .inr h'
    rcases he with he | he
    · rcases iha ok.alt_left (ha he) he hi with h | h
      · exact .inl (.inl h)
      · exact .inr ⟨h.1, .inl h.2⟩
    · rcases ihb ok.alt_right (hb he) he hi with h | h
      · exact .inl (.inr h)
      · exact .inr ⟨h.1, .inr h.2⟩
  | seq a m b iha ihb =>
    intro s t x d i ok hx he hi
    have s_out : s ≠ m ∧ s ∉ a.inner ∧ s ∉ b.inner := by
      have := ok.s_out
      simpa only [inner, List.mem_append, List.mem_cons, not_or] using this
    rcases he with he | he
    · have : x = s ∨ a.Start x := by
        rcases hx with h | h | ⟨_, h | h⟩
        · exact .inl h
        · exact .inr h
        · subst h
          rcases edge_source ok.seq_left.shape he with h | h
          · exact absurd h.symm s_out.1
          · exact absurd h ok.seq_left.t_out
        · have hb := start_inner h
          rcases edge_source ok.seq_left.shape he with h | h
          · subst h; exact absurd hb s_out.2.2
          · exact absurd hb (ok.seq_disjoint h)
      rcases iha ok.seq_left this he hi with h | ⟨h1, h2⟩
      · exact .inl (.inl h)
      · exact .inl (.inr ⟨h2, .inl h1⟩)
    · have : a.Nul ∧ (x = m ∨ b.Start x) := by
        rcases hx with h | h | h
        · subst h
          rcases edge_source ok.seq_right.shape he with h | h
          · exact absurd h s_out.1
          · exact absurd h s_out.2.2
        · have ha := start_inner h
          rcases edge_source ok.seq_right.shape he with h | h
          · subst h; exact absurd ha ok.seq_left.t_out
          · exact absurd h (ok.seq_disjoint ha)
        · exact h
      rcases ihb ok.seq_right this.2 he hi with h | ⟨h1, h2⟩
      · exact .inl (.inr ⟨this.1, .inr h⟩)
      · exact .inr ⟨h1, this.1, h2⟩
  | loop s' h t' q body ih =>
    intro s t x d i ok hx he hi
    obtain ⟨rfl, rfl, sx, tx, sb, tb⟩ := ok.loop_ends
    rcases he with he | he | he
    · exact .inl (.inl he.2.2)
    · rw [he.2.1] at hi
      exact .inr ⟨he.2.2, hi⟩
    · have : x = h ∨ body.Start x := by
        rcases hx with h' | h'
        · subst h'
          rcases edge_source ok.loop_body.shape he with h | h
          · exact absurd h sx
          · exact absurd h sb
        · exact h'
      rcases ih ok.loop_body this he hi with h | ⟨h, _⟩
      · exact .inl (.inr h)
      · exact .inl (.inl h)

/-- No quantified edge leaves the start of a fragment. -/
theorem Fr.quant_inner {fr : Fr} : ∀ {s t x d : Nat} {q : Quant}, fr.Shape s t →
    fr.Edge x (.quantified q) d → x ∈ fr.inner := by
  induction fr with
  | eps | lit => intro s t x d q ok he; cases he.2.1
  | alt a b iha ihb =>
    intro s t x d q ok he
    simp only [inner, List.mem_append]
    exact he.imp (iha ok.1) (ihb ok.2)
  | seq a m b iha ihb =>
    intro s t x d q ok he
    simp only [inner, List.mem_append, List.mem_cons]
    exact .inr (he.imp (iha ok.1) (ihb ok.2))
  | loop s' h t' q' body ih =>
    intro s t x d q ok he
    simp only [inner, List.mem_cons]
    rcases he with he | he | he
    · cases he.2.1
    · exact .inl he.1
    · exact .inr (ih ok.2.2 he)

theorem Fr.litStart_no_eps {fr : Fr} : ∀ {s t d : Nat}, fr.Ok s t → fr.LitStart →
    ¬ fr.Edge s .eps d := by
  induction fr with
  | eps => intro s t d ok h; exact h.elim
  | lit => intro s t d ok h he; cases he.2.1
  | alt a b iha ihb =>
    intro s t d ok h he
    rcases he with he | he
    · exact iha ok.alt_left h.1 he
    · exact ihb ok.alt_right h.2 he
  | seq a m b iha ihb =>
    intro s t d ok h he
    rcases he with he | he
    · exact iha ok.seq_left h he
    · rcases edge_source ok.seq_right.shape he with h | h
      · exact ok.seq_mid.1 h
      · exact ok.s_out (by simp [inner, h])
  | loop => intro s t d ok h; exact h.elim

theorem Fr.headOk_spec {fr : Fr} : ∀ {s t x d d' : Nat} {q : Quant}, fr.Ok s t → fr.HeadOk → fr.Start x →
    fr.Edge x (.quantified q) d → q ≠ .asterisk → ¬ fr.Edge x .eps d' := by
  induction fr with
  | eps | lit => intro s t x d d' q ok h hx; exact hx.elim
  | alt a b iha ihb =>
    intro s t x d d' q ok h hx he hq he'
    rcases hx with hx | hx
    · have hin := start_inner hx
      have hsub : ∀ {i y}, (Fr.alt a b).Edge x i y → a.Edge x i y := by
        rintro i y (h | h)
        · exact h
        · rcases edge_source ok.alt_right.shape h with rfl | h
          · exact absurd hin ok.alt_left.s_out
          · exact absurd h (ok.alt_disjoint hin)
      exact iha ok.alt_left h.1 hx (hsub he) hq (hsub he')
    · have hin := start_inner hx
      have hsub : ∀ {i y}, (Fr.alt a b).Edge x i y → b.Edge x i y := by
        rintro i y (h | h)
        · rcases edge_source ok.alt_left.shape h with rfl | h
          · exact absurd hin ok.alt_right.s_out
          · exact absurd hin (ok.alt_disjoint h)
        · exact h
      exact ihb ok.alt_right h.2 hx (hsub he) hq (hsub he')
  | seq a m b iha ihb =>
    intro s t x d d' q ok h hx he hq he'
    have s_out : s ≠ m ∧ s ∉ a.inner ∧ s ∉ b.inner := by
      have := ok.s_out
      simpa only [inner, List.mem_append, List.mem_cons, not_or] using this
    rcases hx with hx | ⟨hnul, hx⟩
    · have hin := start_inner hx
      have hsub : ∀ {i y}, (Fr.seq a m b).Edge x i y → a.Edge x i y := by
        rintro i y (h | h)
        · exact h
        · rcases edge_source ok.seq_right.shape h with rfl | h
          · exact absurd hin ok.seq_left.t_out
          · exact absurd h (ok.seq_disjoint hin)
      exact iha ok.seq_left h.1 hx (hsub he) hq (hsub he')
    · have hsub : ∀ {i y}, (Fr.seq a m b).Edge x i y → b.Edge x i y := by
        rintro i y (h' | h')
        · rcases hx with hx | hx
          · subst hx
            rcases edge_source ok.seq_left.shape h' with h | h
            · exact absurd h.symm s_out.1
            · exact absurd h ok.seq_left.t_out
          · have hin := start_inner hx
            rcases edge_source ok.seq_left.shape h' with rfl | h
            · exact absurd hin s_out.2.2
            · exact absurd hin (ok.seq_disjoint h)
        · exact h'
      rcases hx with hx | hx
      · subst hx
        exact absurd (quant_inner ok.seq_right.shape (hsub he)) ok.seq_right.s_out
      · exact ihb ok.seq_right (h.2 hnul) hx (hsub he) hq (hsub he')
  | loop s' h t' q' body ih =>
    intro s t x d d' q ok hh hx he hq he'
    obtain ⟨rfl, rfl, sx, tx, sb, tb⟩ := ok.loop_ends
    rcases hx with rfl | hx
    · -- the head: its quantified edge is the one of the loop
      have hq' : q = q' := by
        rcases he with he | he | he
        · cases he.2.1
        · cases he.2.1; rfl
        · exact absurd (quant_inner ok.loop_body.shape he) ok.loop_body.s_out
      subst hq'
      rcases he' with he' | he' | he'
      · exact sx he'.1.symm
      · cases he'.2.1
      · exact litStart_no_eps ok.loop_body (hh.2.resolve_left hq) he'
    · have hin := start_inner hx
      have hsub : ∀ {i y}, (Fr.loop s' h t' q' body).Edge x i y → body.Edge x i y := by
        rintro i y (h' | h' | h')
        · rw [h'.1] at hin; exact absurd hin sb
        · rw [h'.1] at hin; exact absurd hin ok.loop_body.s_out
        · exact h'
      exact ih ok.loop_body hh.1 hx (hsub he) hq (hsub he')

/-- If all fragments are good at the start, then the automaton is. -/
theorem Bundle.startOk {nfa : Nfa} {rs : List (Fr × Nat)} (b : Bundle nfa rs)
    (h : ∀ r ∈ rs, r.1.HeadOk) : StartOk nfa.HasEdge 0 := by
  have hreach : ∀ p x, SReach nfa.HasEdge p x → p = 0 →
      x = 0 ∨ ∃ r ∈ rs, x = r.2 ∨ r.1.Start x := by
    intro p x hx
    have step : ∀ {x d i}, (x = 0 ∨ ∃ r ∈ rs, x = r.2 ∨ r.1.Start x) → nfa.HasEdge x i d → Static i →
        (d = 0 ∨ ∃ r ∈ rs, d = r.2 ∨ r.1.Start d) := by
      intro x d i hx he hi
      obtain ⟨r, hr, he'⟩ := (b.edges x i d).1 he
      have hx' : x = 0 ∨ r.1.Start x := by
        rcases hx with h | ⟨r', hr', rfl | h⟩
        · exact .inl h
        · exact absurd he (b.final_no_edge hr')
        · rcases Fr.edge_source (b.shape r hr) he' with h' | h'
          · exact .inl h'
          · have := b.unique hr hr' (x := x) (by simp [h']) (by simp [Fr.start_inner h])
            subst this
            exact .inr h
      rcases Fr.start_step (b.ok hr) hx' he' hi with h | ⟨h, _⟩
      · exact .inr ⟨r, hr, .inr h⟩
      · exact .inr ⟨r, hr, .inl h⟩
    induction hx with
    | refl => exact .inl
    | eps _ he ih => exact fun hp => step (ih hp) he trivial
    | quant _ he hq ih => exact fun hp => step (ih hp) he hq
  intro x d hx hc he
  obtain ⟨q, d', hq, he'⟩ := hc
  rcases hreach 0 x hx rfl with rfl | ⟨r, hr, rfl | hs⟩
  · obtain ⟨r, hr, h'⟩ := (b.edges _ _ _).1 he'
    exact (b.ok hr).s_out (Fr.quant_inner (b.shape r hr) h')
  · exact b.final_no_edge hr he
  · have hin := Fr.start_inner hs
    exact Fr.headOk_spec (b.ok hr) (h r hr) hs (b.closed hr x hin _ _ he') hq (b.closed hr x hin _ _ he)

end Pango.Fsm
