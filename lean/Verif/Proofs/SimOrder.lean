import Verif.Model.SimOrder
import Verif.Proofs.Safe

/-!
# The order of iterations does not matter to the simulator
-/

namespace Pango.Fsm

open Pango Pango.Regex

section Worklist

variable {α : Type} [DecidableEq α] {ord : HashOrder} {step : α → Outcome (List α)}

theorem HashOrder.mem {β : Type} (ord : HashOrder) {n : List Nat} {l : List β} {a : β} :
    a ∈ ord.shuffle n β l ↔ a ∈ l := (ord.perm n β l).mem_iff

theorem worklistH_ok {n : Nat} : ∀ {now now' : Nat} {queue result res : List α},
    worklistH ord step n now queue result = .ok (res, now') → (∀ a ∈ queue, a ∈ result) →
    (∀ a ∈ result, a ∉ queue → ∃ news, step a = .ok news ∧ ∀ b ∈ news, b ∈ result) →
    (∀ a ∈ result, a ∈ res) ∧
    (∀ a ∈ res, ∃ news, step a = .ok news ∧ ∀ b ∈ news, b ∈ res) ∧
    (∀ b ∈ res, b ∈ result ∨ ∃ a ∈ queue, Reaches step a b) ∧
    res.length + queue.length ≤ n + result.length := by
  have done : ∀ {n now now' : Nat} {result res : List α}, ord.shuffle [now] α result = res →
      (∀ a ∈ result, a ∉ ([] : List α) → ∃ news, step a = .ok news ∧ ∀ b ∈ news, b ∈ result) →
      (∀ a ∈ result, a ∈ res) ∧
      (∀ a ∈ res, ∃ news, step a = .ok news ∧ ∀ b ∈ news, b ∈ res) ∧
      (∀ b ∈ res, b ∈ result ∨ ∃ a ∈ ([] : List α), Reaches step a b) ∧
      res.length + ([] : List α).length ≤ n + result.length := by
    rintro n now now' result res rfl hc
    refine ⟨fun a ha => (HashOrder.mem ord).2 ha, ?_, fun b hb => .inl ((HashOrder.mem ord).1 hb), ?_⟩
    · intro a ha
      obtain ⟨news, h1, h2⟩ := hc a ((HashOrder.mem ord).1 ha) (by simp)
      exact ⟨news, h1, fun b hb => (HashOrder.mem ord).2 (h2 b hb)⟩
    · rw [(ord.perm [now] α result).length_eq]
      simp
  induction n with
  | zero =>
    intro now now' queue result res h hq hc
    cases queue with
    | nil =>
      simp only [worklistH, Outcome.ok.injEq, Prod.mk.injEq] at h
      exact done (now' := now') h.1 hc
    | cons a q => simp [worklistH] at h
  | succ n ih =>
    intro now now' queue result res h hq hc
    cases queue with
    | nil =>
      simp only [worklistH, Outcome.ok.injEq, Prod.mk.injEq] at h
      exact done (now' := now') h.1 hc
    | cons a q =>
      simp only [worklistH, Outcome.bind_eq_ok] at h
      obtain ⟨news, hs, h⟩ := h
      obtain ⟨d, e, h2, h3, h4⟩ := foldl_insert (ord.shuffle [now] α news) q result
      rw [e] at h
      have h2' : ∀ b ∈ d, b ∈ news := fun b hb => (HashOrder.mem ord).1 (h2 b hb).1
      have hq' : ∀ x ∈ q ++ d, x ∈ result ++ d := by
        intro x hx
        rcases List.mem_append.1 hx with hx | hx
        · exact List.mem_append.2 (.inl (hq x (by simp [hx])))
        · exact List.mem_append.2 (.inr hx)
      have hc' : ∀ x ∈ result ++ d, x ∉ q ++ d →
          ∃ news, step x = .ok news ∧ ∀ b ∈ news, b ∈ result ++ d := by
        intro x hx hxq
        simp only [List.mem_append, not_or] at hxq hx
        rcases hx with hx | hx
        · by_cases hxa : x = a
          · subst hxa; exact ⟨news, hs, fun b hb => h3 b ((HashOrder.mem ord).2 hb)⟩
          · obtain ⟨ns, h5, h6⟩ := hc x hx (by simp [hxa, hxq.1])
            exact ⟨ns, h5, fun b hb => List.mem_append.2 (.inl (h6 b hb))⟩
        · exact absurd hx hxq.2
      obtain ⟨r1, r2, r3, r4⟩ := ih h hq' hc'
      refine ⟨fun x hx => r1 x (List.mem_append.2 (.inl hx)), r2, ?_, ?_⟩
      · intro b hb
        rcases r3 b hb with hb | ⟨x, hx, hxb⟩
        · rcases List.mem_append.1 hb with hb | hb
          · exact .inl hb
          · exact .inr ⟨a, by simp, Reaches.refl.tail hs (h2' b hb)⟩
        · rcases List.mem_append.1 hx with hx | hx
          · exact .inr ⟨x, by simp [hx], hxb⟩
          · exact .inr ⟨a, by simp, (Reaches.refl.tail hs (h2' x hx)).trans hxb⟩
      · simp only [List.length_append, List.length_cons] at r4 ⊢
        omega

theorem worklistH_terminates {u : List α} (hu : ∀ a ∈ u, ∃ news, step a = .ok news ∧ ∀ b ∈ news, b ∈ u)
    {n : Nat} : ∀ {now : Nat} {queue result : List α}, (∀ a ∈ queue, a ∈ u) → (∀ a ∈ result, a ∈ u) →
    result.Nodup → queue.length + u.length ≤ n + result.length →
    ∃ res, worklistH ord step n now queue result = .ok res := by
  induction n with
  | zero =>
    intro now queue result hq hr hn hf
    cases queue with
    | nil => exact ⟨_, rfl⟩
    | cons a q =>
      have := nodup_subset_length hn hr
      simp at hf; omega
  | succ n ih =>
    intro now queue result hq hr hn hf
    cases queue with
    | nil => exact ⟨_, rfl⟩
    | cons a q =>
      obtain ⟨news, hs, hnews⟩ := hu a (hq a (by simp))
      obtain ⟨d, e, h2, h3, h4⟩ := foldl_insert (ord.shuffle [now] α news) q result
      have h2' : ∀ b ∈ d, b ∈ news := fun b hb => (HashOrder.mem ord).1 (h2 b hb).1
      simp only [worklistH, hs, Outcome.bind_ok, e]
      refine ih ?_ ?_ ?_ ?_
      · intro x hx
        rcases List.mem_append.1 hx with hx | hx
        · exact hq x (by simp [hx])
        · exact hnews x (h2' x hx)
      · intro x hx
        rcases List.mem_append.1 hx with hx | hx
        · exact hr x hx
        · exact hnews x (h2' x hx)
      · refine List.nodup_append.2 ⟨hn, h4, ?_⟩
        intro x hx y hy hxy
        subst hxy
        exact (h2 x hy).2 hx
      · simp at hf ⊢; omega

theorem worklistH_panic {P : α → Prop} (hs : ∀ a, P a → ∃ news, step a = .ok news ∧ ∀ b ∈ news, P b)
    {n : Nat} : ∀ {now : Nat} {queue result : List α}, (∀ a ∈ queue, P a) →
    worklistH ord step n now queue result ≠ .panic := by
  induction n with
  | zero => intro now queue result _; cases queue <;> simp [worklistH]
  | succ n ih =>
    intro now queue result hq
    cases queue with
    | nil => simp [worklistH]
    | cons a q =>
      obtain ⟨news, h1, h2⟩ := hs a (hq a (by simp))
      obtain ⟨d, e, h3, _⟩ := foldl_insert (ord.shuffle [now] α news) q result
      simp only [worklistH, h1, Outcome.bind_ok]
      rw [e]
      refine ih ?_
      intro x hx
      rcases List.mem_append.1 hx with hx | hx
      · exact hq x (by simp [hx])
      · exact h2 x ((HashOrder.mem ord).1 (h3 x hx).1)

/-- Two outcomes that are both values, or both unfinished. -/
inductive Same {β γ : Type} (R : β → γ → Prop) : Outcome β → Outcome γ → Prop
  | ok {b : β} {c : γ} : R b c → Same R (.ok b) (.ok c)
  | diverge : Same R .diverge .diverge

theorem Same.bind {β γ β' γ' : Type} {R : β → γ → Prop} {R' : β' → γ' → Prop} {x : Outcome β} {y : Outcome γ}
    {f : β → Outcome β'} {g : γ → Outcome γ'} (h : Same R x y) (hf : ∀ b c, R b c → Same R' (f b) (g c)) :
    Same R' (x >>= f) (y >>= g) := by
  cases h with
  | ok h => exact hf _ _ h
  | diverge => exact .diverge

/-- Two lists with the same members. -/
def SameMembers {β : Type} (l l' : List β) : Prop := ∀ b, b ∈ l ↔ b ∈ l'

theorem worklistH_same {P : α → Prop} (hs : ∀ a, P a → ∃ news, step a = .ok news ∧ ∀ b ∈ news, P b)
    (n now : Nat) {a : α} (ha : P a) :
    Same (fun r r' => SameMembers r.1 r' ∧ ∀ b ∈ r', P b)
      (worklistH ord step n now [a] [a]) (worklist step n [a] [a]) := by
  have hreach : ∀ b, Reaches step a b → P b := by
    intro b hb
    induction hb with
    | refl => exact ha
    | @tail b c news _ h1 h2 ih =>
      obtain ⟨news', h3, h4⟩ := hs b ih
      rw [h1] at h3
      cases h3
      exact h4 c h2
  have hok : ∀ b, Reaches step a b → ∃ news, step b = .ok news := fun b hb =>
    let ⟨news, h, _⟩ := hs b (hreach b hb); ⟨news, h⟩
  have memH : ∀ {res now'}, worklistH ord step n now [a] [a] = .ok (res, now') →
      (∀ b, b ∈ res ↔ Reaches step a b) ∧ res.length ≤ n := by
    intro res now' h
    obtain ⟨h1, h2, h3, h4⟩ := worklistH_ok h (by simp) (by simp)
    refine ⟨fun b => ⟨fun hb => ?_, fun hb => ?_⟩, by simpa using h4⟩
    · rcases h3 b hb with hb | ⟨x, hx, hxb⟩
      · rw [List.mem_singleton.1 hb]; exact .refl
      · rw [List.mem_singleton.1 hx] at hxb; exact hxb
    · induction hb with
      | refl => exact h1 a (by simp)
      | tail _ hs hm ih =>
        obtain ⟨ns, e, hn⟩ := h2 _ ih
        rw [hs] at e; cases e
        exact hn _ hm
  cases hH : worklistH ord step n now [a] [a] with
  | panic => exact absurd hH (worklistH_panic hs (by simpa using ha))
  | ok r =>
    obtain ⟨res, now'⟩ := r
    obtain ⟨h1, h2⟩ := memH hH
    obtain ⟨res', h'⟩ := (worklist_iff hok).2 ⟨res, fun b hb => (h1 b).2 hb, h2⟩
    rw [h']
    have h3 := (worklist_single h').1
    exact .ok ⟨fun b => (h1 b).trans (h3 b).symm, fun b hb => hreach b ((h3 b).1 hb)⟩
  | diverge =>
    cases h' : worklist step n [a] [a] with
    | panic => exact absurd h' (worklist_panic hs (by simpa using ha))
    | diverge => exact .diverge
    | ok res =>
      exfalso
      obtain ⟨h3, h4, _⟩ := worklist_single h'
      have hlen := worklist_length h'
      simp only [List.length_singleton] at hlen
      obtain ⟨r, hr⟩ := worklistH_terminates (ord := ord) (step := step) (u := res) (n := n) (now := now)
        (queue := [a]) (result := [a]) (by
          intro b hb
          obtain ⟨news, hn⟩ := hok b ((h3 b).1 hb)
          exact ⟨news, hn, fun c hc => (h3 c).2 (((h3 b).1 hb).tail hn hc)⟩)
        (by simpa using (h3 a).2 .refl) (by simpa using (h3 a).2 .refl) (by simp)
        (by simp only [List.length_singleton]; omega)
      rw [hH] at hr
      cases hr

end Worklist

theorem flatMapH_same {α β : Type} {P : β → Prop} {f : Nat → α → Outcome (List β × Nat)}
    {g : α → Outcome (List β)} {l l' : List α}
    (hl : SameMembers l l')
    (h : ∀ a ∈ l, ∀ now, Same (fun r r' => SameMembers r.1 r' ∧ ∀ b ∈ r', P b) (f now a) (g a)) (now : Nat) :
    Same (fun r r' => SameMembers r.1 r' ∧ ∀ b ∈ r', P b) (flatMapH f now l) (flatMapOutcome g l') := by
  -- with the same list
  have key : ∀ (l : List α), (∀ a ∈ l, ∀ now, Same (fun r r' => SameMembers r.1 r' ∧ ∀ b ∈ r', P b) (f now a) (g a)) →
      ∀ now, Same (fun r r' => SameMembers r.1 r' ∧ ∀ b ∈ r', P b) (flatMapH f now l) (flatMapOutcome g l) := by
    intro l
    induction l with
    | nil => intro _ now; exact .ok ⟨fun _ => Iff.rfl, by simp⟩
    | cons a l ih =>
      intro h now
      refine (h a (by simp) now).bind ?_
      rintro ⟨bs, now1⟩ bs' ⟨h1, h1'⟩
      refine (ih (fun x hx => h x (by simp [hx])) now1).bind ?_
      rintro ⟨cs, now2⟩ cs' ⟨h2, h2'⟩
      refine .ok ⟨fun b => ?_, fun b hb => ?_⟩
      · simp only [List.mem_append]
        exact or_congr (h1 b) (h2 b)
      · rcases List.mem_append.1 hb with hb | hb
        · exact h1' b hb
        · exact h2' b hb
  -- with another list with the same members
  have swap : ∀ (l l' : List α), SameMembers l l' → (∀ a ∈ l, g a ≠ .panic) →
      (∀ a ∈ l, ∀ bs, g a = .ok bs → ∀ b ∈ bs, P b) →
      Same (fun r r' => SameMembers r r' ∧ ∀ b ∈ r', P b) (flatMapOutcome g l) (flatMapOutcome g l') := by
    intro l l' hll hp hP
    have mono : ∀ {l l' : List α}, SameMembers l l' → ∀ {r}, flatMapOutcome g l = .ok r →
        ∃ r', flatMapOutcome g l' = .ok r' := by
      intro l l' h r hr
      obtain ⟨h1, _⟩ := flatMapOutcome_ok hr
      exact flatMapOutcome_of_ok fun a ha => h1 a ((h a).2 ha)
    have nop := flatMapOutcome_panic hp
    have nop' := flatMapOutcome_panic (f := g) (l := l') (fun a ha => hp a ((hll a).2 ha))
    cases hx : flatMapOutcome g l with
    | panic => exact absurd hx nop
    | ok r =>
      obtain ⟨r', hr'⟩ := mono hll hx
      rw [hr']
      obtain ⟨_, h2⟩ := flatMapOutcome_ok hx
      obtain ⟨_, h4⟩ := flatMapOutcome_ok hr'
      refine .ok ⟨fun b => ?_, fun b hb => ?_⟩
      · rw [h2, h4]
        constructor
        · rintro ⟨a, ha, x⟩; exact ⟨a, (hll a).1 ha, x⟩
        · rintro ⟨a, ha, x⟩; exact ⟨a, (hll a).2 ha, x⟩
      · obtain ⟨a, ha, bs, h5, h6⟩ := (h4 b).1 hb
        exact hP a ((hll a).2 ha) bs h5 b h6
    | diverge =>
      cases hx' : flatMapOutcome g l' with
      | panic => exact absurd hx' nop'
      | diverge => exact .diverge
      | ok r' =>
        obtain ⟨r, hr⟩ := mono (fun a => (hll a).symm) hx'
        rw [hr] at hx
        cases hx
  have h1 := key l h now
  have h2 := swap l l' hl
    (fun a ha hp => by have := h a ha 0; rw [hp] at this; generalize f 0 a = x at this; cases this)
    (fun a ha bs hb => by
      have := h a ha 0
      rw [hb] at this
      generalize f 0 a = x at this
      cases this with
      | ok h => exact h.2)
  generalize flatMapH f now l = x at h1 ⊢
  generalize flatMapOutcome g l = y at h1 h2
  generalize flatMapOutcome g l' = z at h2 ⊢
  cases h1 with
  | ok h1 =>
    cases h2 with
    | ok h2 => exact .ok ⟨fun b => (h1.1 b).trans (h2.1 b), h2.2⟩
  | diverge => cases h2; exact .diverge

variable [Unicode] {nfa : Nfa}

/-- The runs of the two models. -/
def SameRuns (nfa : Nfa) (s : Nat × List Run) (runs : List Run) : Prop :=
  SameMembers s.2 runs ∧ InStates nfa runs

omit [Unicode] in
theorem initRunsH_same (w : Wf nfa) (ord : HashOrder) (fuel : Nat) :
    Same (SameRuns nfa) (nfa.initRunsH ord fuel) (nfa.initRuns fuel) := by
  unfold Nfa.initRunsH Nfa.initRuns Nfa.staticClosure
  refine (worklistH_same (P := fun x => x < nfa.states.length) ?_ fuel 0 w.start).bind ?_
  · intro a ha
    obtain ⟨news, h1, h2⟩ := static_step w ha
    refine ⟨news, h1, fun d hd => ?_⟩
    rcases (h2 d).1 hd with h | ⟨q, h, _⟩
    · exact (w.edge_lt h).2
    · exact (w.edge_lt h).2
  · rintro ⟨ids, now⟩ ids' ⟨h1, h2⟩
    refine .ok ⟨fun r => ?_, fun r hr => ?_⟩
    · simp only [List.mem_map]
      constructor
      · rintro ⟨x, hx, rfl⟩; exact ⟨x, (h1 x).1 hx, rfl⟩
      · rintro ⟨x, hx, rfl⟩; exact ⟨x, (h1 x).2 hx, rfl⟩
    · obtain ⟨x, hx, rfl⟩ := List.mem_map.1 hr
      exact h2 x hx

theorem feedRunsH_same (w : Wf nfa) (ord : HashOrder) (fuel : Nat) {s : Nat × List Run} {runs : List Run}
    (h : SameRuns nfa s runs) (c : Char) :
    Same (fun r r' => SameMembers r.1 r' ∧ InStates nfa r')
      (nfa.feedRunsH ord fuel s.1 s.2 c) (nfa.feedRuns fuel runs c) := by
  unfold Nfa.feedRunsH Nfa.feedRuns InStates
  refine flatMapH_same (P := fun r : Run => r.state < nfa.states.length) h.1 ?_ s.1
  intro r hr now
  have hst := w.getState (h.2 r ((h.1 r).1 hr))
  rw [hst, Outcome.bind_ok, Outcome.bind_ok]
  refine flatMapH_same (fun d => HashOrder.mem ord) ?_ _
  intro d hd now
  unfold Nfa.epsClosureH
  rw [epsClosure_eq]
  refine worklistH_same (P := fun r : Run => r.state < nfa.states.length) ?_ fuel now ?_
  · intro a ha
    obtain ⟨news, h1, h2⟩ := epsStep_wf w ha
    refine ⟨news, h1, fun s hs => ?_⟩
    obtain ⟨i, h⟩ := ((h2 s).1 hs).edge
    exact (w.edge_lt h).2
  · have := (charMoves_wf w hst c _).1 ⟨d, (HashOrder.mem ord).1 hd, rfl⟩
    obtain ⟨i, h⟩ := this.edge
    exact (w.edge_lt h).2

omit [Unicode] in
theorem isAccepting_same (w : Wf nfa) {runs runs' : List Run} (h : SameMembers runs runs')
    (hi : InStates nfa runs') : ∃ b, nfa.isAccepting runs = .ok b ∧ nfa.isAccepting runs' = .ok b := by
  obtain ⟨b, h1, h2⟩ := isAccepting_ok (nfa := nfa) (runs := runs)
    (fun r hr => ⟨_, w.getState (hi r ((h r).1 hr))⟩)
  obtain ⟨b', h3, h4⟩ := isAccepting_ok (nfa := nfa) (runs := runs') (fun r hr => ⟨_, w.getState (hi r hr)⟩)
  have : b = b' := by
    rw [Bool.eq_iff_iff, h2, h4]
    constructor
    · rintro ⟨r, hr, x⟩; exact ⟨r, (h r).1 hr, x⟩
    · rintro ⟨r, hr, x⟩; exact ⟨r, (h r).2 hr, x⟩
  exact ⟨b, h1, this ▸ h3⟩

theorem canFeed_same (w : Wf nfa) {runs runs' : List Run} (h : SameMembers runs runs')
    (hi : InStates nfa runs') (c : Char) :
    ∃ b, nfa.canFeed runs c = .ok b ∧ nfa.canFeed runs' c = .ok b := by
  obtain ⟨b, h1, h2⟩ := canFeed_ok (nfa := nfa) (runs := runs) (c := c)
    (fun r hr => ⟨_, w.getState (hi r ((h r).1 hr))⟩)
  obtain ⟨b', h3, h4⟩ := canFeed_ok (nfa := nfa) (runs := runs') (c := c)
    (fun r hr => ⟨_, w.getState (hi r hr)⟩)
  have : b = b' := by
    rw [Bool.eq_iff_iff, h2, h4]
    constructor
    · rintro ⟨r, hr, x⟩; exact ⟨r, (h r).1 hr, x⟩
    · rintro ⟨r, hr, x⟩; exact ⟨r, (h r).2 hr, x⟩
  exact ⟨b, h1, this ▸ h3⟩

omit [Unicode] in
theorem currentFinals_same (w : Wf nfa) {runs runs' : List Run} (h : SameMembers runs runs')
    (hi : InStates nfa runs') : nfa.currentFinals runs = nfa.currentFinals runs' := by
  have hi' : InStates nfa runs := fun r hr => hi r ((h r).1 hr)
  -- two strictly increasing lists with the same members
  have key : ∀ (l l' : List Nat), l.Pairwise (· < ·) → l'.Pairwise (· < ·) → SameMembers l l' → l = l' := by
    intro l
    induction l with
    | nil =>
      intro l' _ _ hm
      cases l' with
      | nil => rfl
      | cons a _ => exact absurd ((hm a).2 (by simp)) (by simp)
    | cons a l ih =>
      intro l' h1 h2 hm
      cases l' with
      | nil => exact absurd ((hm a).1 (by simp)) (by simp)
      | cons b l' =>
        rw [List.pairwise_cons] at h1 h2
        have hab : a = b := by
          have ha := (hm a).1 (by simp)
          have hb := (hm b).2 (by simp)
          rcases List.mem_cons.1 ha with h | ha
          · exact h
          · rcases List.mem_cons.1 hb with h | hb
            · exact h.symm
            · have := h1.1 b hb
              have := h2.1 a ha
              omega
        subst hab
        refine congrArg _ (ih l' h1.2 h2.2 fun x => ?_)
        constructor
        · intro hx
          rcases List.mem_cons.1 ((hm x).1 (by simp [hx])) with rfl | h
          · exact absurd (h1.1 x hx) (by omega)
          · exact h
        · intro hx
          rcases List.mem_cons.1 ((hm x).2 (by simp [hx])) with rfl | h
          · exact absurd (h2.1 x hx) (by omega)
          · exact h
  refine key _ _ (Lex.currentFinals_sorted nfa runs) (Lex.currentFinals_sorted nfa runs') fun f => ?_
  rw [Lex.mem_currentFinals w hi', Lex.mem_currentFinals w hi]
  constructor
  · rintro ⟨h1, r, hr, h2⟩; exact ⟨h1, r, (h r).1 hr, h2⟩
  · rintro ⟨h1, r, hr, h2⟩; exact ⟨h1, r, (h r).2 hr, h2⟩

end Pango.Fsm

namespace Pango.Lex

open Pango Pango.Fsm Pango.Regex

variable {σ τ K : Type}

/-- Two machines that give the same answers. -/
structure Alike (m : Machine σ) (m' : Machine τ) (R : σ → τ → Prop) : Prop where
  start : Same R m.start m'.start
  canFeed : ∀ {s t} c, R s t → ∃ b, m.canFeed s c = .ok b ∧ m'.canFeed t c = .ok b
  feed : ∀ {s t} c, R s t → Same (fun x y => R x.1 y.1 ∧ x.2 = y.2) (m.feed s c) (m'.feed t c)
  isAccepting : ∀ {s t}, R s t → m.isAccepting s = m'.isAccepting t
  finals : ∀ {s t}, R s t → m.finals s = m'.finals t

theorem Alike.lexLoop {m : Machine σ} {m' : Machine τ} {R : σ → τ → Prop} (A : Alike m m' R)
    (gs : Generators K) : ∀ {s : σ} {t : τ} {kind : Option K} {it : InputIter}, R s t →
    lexLoop m gs s kind it = lexLoop m' gs t kind it := by
  intro s t kind it
  induction hn : it.pending using Nat.strongRecOn generalizing s t kind it with
  | ind n ih =>
    intro hR
    rw [Lex.lexLoop, Lex.lexLoop]
    split
    · rename_i ch it1 hnext
      obtain ⟨b, h1, h2⟩ := A.canFeed ch hR
      rw [h1, h2]
      cases b with
      | false => rfl
      | true =>
        simp only
        have hf := A.feed ch hR
        generalize m.feed s ch = x at hf ⊢
        generalize m'.feed t ch = y at hf ⊢
        cases hf with
        | diverge => rfl
        | @ok x y h =>
          obtain ⟨s', b⟩ := x
          obtain ⟨t', b'⟩ := y
          obtain ⟨hR', hb⟩ := h
          simp only at hR' hb
          subst hb
          cases b with
          | false =>
            simp only
            exact ih _ (hn ▸ InputIter.pending_next hnext) rfl hR'
          | true =>
            simp only [A.finals hR']
            split
            · rfl
            · split
              · rfl
              · refine ih _ ?_ rfl hR'
                rw [InputIter.pending_accept, ← hn]
                exact InputIter.pending_next hnext
    · rw [A.isAccepting hR]

theorem Alike.lexNext {m : Machine σ} {m' : Machine τ} {R : σ → τ → Prop} (A : Alike m m' R)
    (gs : Generators K) (it : InputIter) : lexNext m gs it = lexNext m' gs it := by
  rw [Lex.lexNext, Lex.lexNext]
  have := A.start
  generalize m.start = x at this ⊢
  generalize m'.start = y at this ⊢
  cases this with
  | diverge => rfl
  | ok h => exact A.lexLoop gs h

theorem nfaMachineH_alike [Unicode] {nfa : Nfa} (w : Wf nfa) (ord : HashOrder) (fuel : Nat) :
    Alike (nfaMachineH ord nfa fuel) (nfaMachine nfa fuel) (SameRuns nfa) := by
  refine ⟨initRunsH_same w ord fuel, fun c h => canFeed_same w h.1 h.2 c, ?_, ?_, ?_⟩
  · intro s t c h
    show Same _ (nfa.feedH ord fuel s c) (nfa.feed fuel t c)
    unfold Nfa.feedH Nfa.feed
    refine (feedRunsH_same w ord fuel h c).bind ?_
    rintro ⟨runs, now⟩ runs' ⟨h1, h2⟩
    obtain ⟨b, h3, h4⟩ := isAccepting_same w h1 h2
    simp only [h3, h4, Outcome.bind_ok]
    exact .ok ⟨⟨h1, h2⟩, rfl⟩
  · intro s t h
    obtain ⟨b, h3, h4⟩ := isAccepting_same w h.1 h.2
    exact h3.trans h4.symm
  · intro s t h
    exact currentFinals_same w h.1 h.2

end Pango.Lex
