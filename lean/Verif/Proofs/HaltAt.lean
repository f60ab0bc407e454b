import Verif.Proofs.PathFirst
import Verif.Proofs.Prefix

/-!
# On which strings the closures end

A closure runs forever exactly if it gets to the head of a loop whose body reads the empty word.
-/

namespace Pango.Fsm

open Pango Pango.Regex Pango.Spec Pango.Props

variable [Unicode] {E : Nat → Input → Nat → Prop}

/-- The state is the head of a loop whose body reads the empty word. -/
def Fr.Null : Fr → Nat → Prop
  | .eps _ _, _ => False
  | .lit _ _ _, _ => False
  | .alt a b, x => a.Null x ∨ b.Null x
  | .seq a _ b, x => a.Null x ∨ b.Null x
  | .loop _ h _ _ body, x => (x = h ∧ body.Lang []) ∨ body.Null x

theorem Fr.null_inner {fr : Fr} {x : Nat} (h : fr.Null x) : x ∈ fr.inner := by
  induction fr with
  | eps | lit => exact h.elim
  | alt a b iha ihb =>
    simp only [inner, List.mem_append]
    exact h.imp iha ihb
  | seq a m b iha ihb =>
    simp only [inner, List.mem_append, List.mem_cons]
    exact .inr (h.imp iha ihb)
  | loop s x' t q body ih =>
    simp only [inner, List.mem_cons]
    exact h.imp (fun h => h.1) ih

/-- No ε-path from here gets to such a state. -/
def Fr.Avoids (E : Nat → Input → Nat → Prop) (fr : Fr) (p : Nat) (κ : Counts) : Prop :=
  ∀ n x κ', Path E n p κ [] x κ' → ¬ fr.Null x

theorem Fr.Avoids.path {fr : Fr} {p p1 n : Nat} {κ κ1 : Counts} (h : fr.Avoids E p κ)
    (hp : Path E n p κ [] p1 κ1) : fr.Avoids E p1 κ1 := by
  intro m x κ' hp'
  exact h (n + m) x κ' (hp.append hp')

/-- ε-paths that begin inside of a fragment and avoid such states end or leave it early. -/
theorem Fr.early_at {fr : Fr} : ∀ {s t n p p' : Nat} {κ κ' : Counts}, fr.Ok s t → fr.Closed E →
    fr.Avoids E p κ → fr.Quiet κ p → p ∈ fr.inner → Path E n p κ [] p' κ' →
    Early E fr.bound n p κ t p' κ' := by
  induction fr with
  | eps | lit => intro s t n p p' κ κ' _ _ _ _ hp; simp [inner] at hp
  | alt a b iha ihb =>
    intro s t n p p' κ κ' ok cl nn hq hp hpath
    have hqa : a.Quiet κ p := fun l hl => hq l (List.mem_append.2 (.inl hl))
    have hqb : b.Quiet κ p := fun l hl => hq l (List.mem_append.2 (.inr hl))
    have nna : a.Avoids E p κ := fun n x κ' h hn => nn n x κ' h (.inl hn)
    have nnb : b.Avoids E p κ := fun n x κ' h hn => nn n x κ' h (.inr hn)
    rcases List.mem_append.1 hp with hp | hp
    · exact (iha ok.alt_left (cl.alt_left ok) nna hqa hp hpath).le (by simp [bound])
    · exact (ihb ok.alt_right (cl.alt_right ok) nnb hqb hp hpath).le (by simp [bound])
  | seq a m b iha ihb =>
    intro s t n p p' κ κ' ok cl nn hq hp hpath
    have hqa : a.Quiet κ p := fun l hl => hq l (List.mem_append.2 (.inl hl))
    have hqb : b.Quiet κ p := fun l hl => hq l (List.mem_append.2 (.inr hl))
    have nna : a.Avoids E p κ := fun n x κ' h hn => nn n x κ' h (.inl hn)
    have nnb : b.Avoids E p κ := fun n x κ' h hn => nn n x κ' h (.inr hn)
    -- from the middle
    have mid : ∀ {n : Nat} {κ : Counts}, b.Quiet κ m → b.Avoids E m κ → Path E n m κ [] p' κ' →
        Early E (1 + b.bound) n m κ t p' κ' := by
      intro n κ hq nn hpath
      rcases hpath.nil_cases with ⟨rfl, _⟩ | ⟨n', d, κ0, rfl, hs, hp'⟩
      · exact .inl (by omega)
      · have hs' : CStep b.Edge m κ [] d κ0 := hs.restrict (fun i y h => cl.seq_mid ok h)
        have nn' : b.Avoids E d κ0 := nn.path (.single hs)
        obtain ⟨i, he⟩ := hs'.edge
        have := Fr.edge_target ok.seq_right.shape he
        have hd : Early E b.bound n' d κ0 t p' κ' := by
          rcases this with rfl | h
          · exact .inr ⟨0, n', κ0, by omega, by omega, .refl _ _, hp'⟩
          · exact ihb ok.seq_right (cl.seq_right ok) nn' (hq.step ok.seq_right (cl.seq_right ok) hs) h hp'
        rcases hd with h | ⟨n1, n2, κ1, h1, h2, h3, h4⟩
        · exact .inl (by omega)
        · exact .inr ⟨n1 + 1, n2, κ1, by omega, by omega, .cons hs h3, h4⟩
    rcases List.mem_cons.1 hp with rfl | hp
    · exact (mid hqb nnb hpath).le (by simp only [bound]; omega)
    · rcases List.mem_append.1 hp with hp | hp
      · rcases iha ok.seq_left (cl.seq_left ok) nna hqa hp hpath with h | ⟨n1, n2, κ1, h1, h2, h3, h4⟩
        · exact .inl (by simp only [bound]; omega)
        · rcases mid (hqb.path ok.seq_right (cl.seq_right ok) h3) (nnb.path h3) h4 with
            h | ⟨m1, m2, κ2, g1, g2, g3, g4⟩
          · exact .inl (by simp only [bound]; omega)
          · exact .inr ⟨n1 + m1, m2, κ2, by omega, by simp only [bound]; omega, h3.append g3, g4⟩
      · exact (ihb ok.seq_right (cl.seq_right ok) nnb hqb hp hpath).le (by simp only [bound]; omega)
  | loop s' x t' q body ih =>
    intro s t n p p' κ κ' ok cl nn hq hp hpath
    have hqb : body.Quiet κ p := fun l hl => hq l (List.mem_cons.2 (.inr hl))
    -- from the head
    have head : ∀ {n : Nat} {κ : Counts}, body.Quiet κ x → (Fr.loop s' x t' q body).Avoids E x κ →
        Path E n x κ [] p' κ' → Early E (1 + body.bound) n x κ t p' κ' := by
      intro n κ hq nn hpath
      rcases hpath.nil_cases with ⟨rfl, _⟩ | ⟨n', d, κ0, rfl, hs, hp'⟩
      · exact .inl (by omega)
      · have hor : CStep (fun _ i y => i = .quantified q ∧ y = t) x κ [] d κ0 ∨
            CStep body.Edge x κ [] d κ0 := hs.or (fun i y h => cl.loop_head ok h)
        rcases hor with h | hb
        · obtain ⟨i, _, rfl⟩ := h.edge
          exact .inr ⟨1, n', κ0, by omega, by omega, .single hs, hp'⟩
        · have hqd := hq.step ok.loop_body (cl.loop_body ok) hs
          have nn' : body.Avoids E d κ0 := fun n x κ' h hn => nn.path (.single hs) n x κ' h (.inr hn)
          obtain ⟨i, he⟩ := hb.edge
          have hd : Early E body.bound n' d κ0 x p' κ' := by
            rcases Fr.edge_target ok.loop_body.shape he with rfl | h
            · exact .inr ⟨0, n', κ0, by omega, by omega, .refl _ _, hp'⟩
            · exact ih ok.loop_body (cl.loop_body ok) nn' hqd h hp'
          rcases hd with h | ⟨n1, n2, κ1, h1, h2, h3, h4⟩
          · exact .inl (by omega)
          · -- the body would match the empty string
            obtain ⟨_, _, w1, w2, e, _, hl, _⟩ := Fr.sound ok.loop_body (cl.loop_body ok) hb h3
              ok.loop_body.s_out (hq.zero ok.loop_body.s_out)
            obtain ⟨rfl, rfl⟩ := List.append_eq_nil_iff.1 e.symm
            exact absurd (.inl ⟨rfl, hl⟩) (nn 0 x κ (.refl _ _))
    rcases List.mem_cons.1 hp with rfl | hp
    · exact (head hqb nn hpath).le (by simp only [bound]; omega)
    · have nnb : body.Avoids E p κ := fun n x κ' h hn => nn n x κ' h (.inr hn)
      rcases ih ok.loop_body (cl.loop_body ok) nnb hqb hp hpath with h | ⟨n1, n2, κ1, h1, h2, h3, h4⟩
      · exact .inl (by simp only [bound]; omega)
      · rcases head (hqb.path ok.loop_body (cl.loop_body ok) h3) (nn.path h3) h4 with
          h | ⟨m1, m2, κ2, g1, g2, g3, g4⟩
        · exact .inl (by simp only [bound]; omega)
        · exact .inr ⟨n1 + m1, m2, κ2, by omega, by simp only [bound]; omega, h3.append g3, g4⟩

variable {nfa : Nfa} {rs : List (Fr × Nat)}

theorem Bundle.eps_bounded_at (b : Bundle nfa rs) {n p p' : Nat} {κ κ' : Counts}
    (nn : ∀ r ∈ rs, r.1.Avoids nfa.HasEdge p κ) (hq : Quiets rs κ p)
    (hp : Path nfa.HasEdge n p κ [] p' κ') : n ≤ totalBound rs := by
  -- from inside of a fragment
  have inside : ∀ {r : Fr × Nat} {n p : Nat} {κ : Counts}, r ∈ rs → r.1.Avoids nfa.HasEdge p κ →
      r.1.Quiet κ p → p ∈ r.2 :: r.1.inner → Path nfa.HasEdge n p κ [] p' κ' → n ≤ r.1.bound := by
    intro r n p κ hr nn hq hin hp
    have stop : ∀ {n : Nat} {κ : Counts}, Path nfa.HasEdge n r.2 κ [] p' κ' → n = 0 := by
      intro n κ hp
      rcases hp.nil_cases with ⟨rfl, _⟩ | ⟨_, _, _, _, hs, _⟩
      · rfl
      · obtain ⟨i, he⟩ := hs.edge
        exact absurd he (b.final_no_edge hr)
    rcases List.mem_cons.1 hin with rfl | hin
    · rw [stop hp]; omega
    · rcases Fr.early_at (b.ok hr) (b.closed hr) nn hq hin hp with h | ⟨n1, n2, κ1, h1, h2, _, h4⟩
      · exact h
      · have := stop h4; omega
  rcases hp.nil_cases with ⟨rfl, _⟩ | ⟨m, d, κ1, rfl, hs, hp'⟩
  · omega
  · obtain ⟨i, he⟩ := hs.edge
    obtain ⟨r, hr, he'⟩ := (b.edges _ _ _).1 he
    have hd : d ∈ r.2 :: r.1.inner := by
      rcases Fr.edge_target (b.shape r hr) he' with h | h
      · simp [h]
      · simp [h]
    have := inside hr ((nn r hr).path (.single hs)) ((hq r hr).step (b.ok hr) (b.closed hr) hs) hd hp'
    have := bound_le_total hr
    omega

/-- Closures that avoid such states end. -/
theorem Bundle.epsClosure_at (b : Bundle nfa rs) {fuel : Nat} (hf : simFuel nfa rs ≤ fuel) {r : Run}
    (nn : ∀ r' ∈ rs, r'.1.Avoids nfa.HasEdge r.state r.counts)
    (hs : r.counters.Sorted) (hq : Quiets rs r.counts r.state)
    (hl : r.state < nfa.states.length) : ∃ res, nfa.epsClosure fuel r = .ok res := by
  rw [epsClosure_eq]
  refine worklist_terminates (u := reachList nfa (totalBound rs) r) ?_ ?_ ?_ (by simp) ?_
  · intro a ha
    obtain ⟨k, hk, h⟩ := mem_reachList.1 ha
    obtain ⟨h1, h2⟩ := h.path b.wf hs
    have hst := b.wf.getState (b.state_lt h2 hl)
    have hstep : ∃ news, epsStep nfa a = .ok news := ⟨_, by simp only [epsStep, hst]; rfl⟩
    obtain ⟨news, hn⟩ := hstep
    refine ⟨news, hn, fun c hc => mem_reachList.2 ⟨k + 1, ?_, h.snoc hn hc⟩⟩
    have hpath := ((h.snoc hn hc).path b.wf hs).2
    exact b.eps_bounded_at nn hq hpath
  · intro a ha
    rw [List.mem_singleton.1 ha]
    exact mem_reachList.2 ⟨0, by omega, .refl _⟩
  · intro a ha
    rw [List.mem_singleton.1 ha]
    exact mem_reachList.2 ⟨0, by omega, .refl _⟩
  · have := reachList_length (nfa := nfa) (n := totalBound rs) (r := r)
    simp only [simFuel] at hf
    simp only [List.length_singleton]
    omega

/-! ## Closures that do not end -/

/-- The head of such a loop comes back to itself, with a larger counter. -/
theorem Fr.null_round {fr : Fr} : ∀ {s t x : Nat} {κ : Counts}, fr.Ok s t → fr.Closed E →
    (∀ x i y, fr.Edge x i y → E x i y) → fr.Null x → fr.Quiet κ x →
    ∃ n κ', Path E n x κ [] x κ' ∧ κ' x = κ x + 1 := by
  induction fr with
  | eps | lit => intro s t x κ ok cl hE h; exact h.elim
  | alt a b iha ihb =>
    intro s t x κ ok cl hE h hq
    rcases h with h | h
    · exact iha ok.alt_left (cl.alt_left ok) (fun x i y h => hE x i y (.inl h)) h
        (fun l hl => hq l (List.mem_append.2 (.inl hl)))
    · exact ihb ok.alt_right (cl.alt_right ok) (fun x i y h => hE x i y (.inr h)) h
        (fun l hl => hq l (List.mem_append.2 (.inr hl)))
  | seq a m b iha ihb =>
    intro s t x κ ok cl hE h hq
    rcases h with h | h
    · exact iha ok.seq_left (cl.seq_left ok) (fun x i y h => hE x i y (.inl h)) h
        (fun l hl => hq l (List.mem_append.2 (.inl hl)))
    · exact ihb ok.seq_right (cl.seq_right ok) (fun x i y h => hE x i y (.inr h)) h
        (fun l hl => hq l (List.mem_append.2 (.inr hl)))
  | loop s' h t' q body ih =>
    intro s t x κ ok cl hE hn hq
    have hqb : body.Quiet κ x := fun l hl => hq l (List.mem_cons.2 (.inr hl))
    have hEb : ∀ x i y, body.Edge x i y → E x i y := fun x i y h => hE x i y (.inr (.inr h))
    rcases hn with ⟨rfl, hl⟩ | hn
    · obtain ⟨n, κ', h1, h2, _⟩ := Fr.complete (E := E) ok.loop_body hEb hl (hqb.zero ok.loop_body.s_out)
      exact ⟨n, κ', h1, h2⟩
    · exact ih ok.loop_body (cl.loop_body ok) hEb hn hqb

/-- Around such a loop any number of times. -/
theorem Bundle.null_rounds (b : Bundle nfa rs) {r : Fr × Nat} (hr : r ∈ rs) {x : Nat} (hx : r.1.Null x)
    (k : Nat) : ∀ {κ : Counts}, Quiets rs κ x → ∃ n κ', Path nfa.HasEdge n x κ [] x κ' ∧ κ' x = κ x + k := by
  induction k with
  | zero => intro κ _; exact ⟨0, κ, .refl _ _, rfl⟩
  | succ k ih =>
    intro κ hq
    obtain ⟨n, κ1, h1, h2⟩ := Fr.null_round (b.ok hr) (b.closed hr)
      (fun x i y h => (b.edges x i y).2 ⟨r, hr, h⟩) hx (hq r hr)
    obtain ⟨m, κ2, h3, h4⟩ := ih (hq.path b h1)
    exact ⟨n + m, κ2, h1.append h3, by omega⟩

/-- Closures that get to such a state do not end. -/
theorem Bundle.epsClosure_never (b : Bundle nfa rs) {s t : Run} (hs : s.counters.Sorted)
    (hq : Quiets rs s.counts s.state) (hl : s.state < nfa.states.length) (h : ER nfa s t)
    {r : Fr × Nat} (hr : r ∈ rs) (hn : r.1.Null t.state) (fuel : Nat) (res : List Run) :
    nfa.epsClosure fuel s ≠ .ok res := by
  intro hres
  rw [epsClosure_eq] at hres
  have hmem := (worklist_single hres).1
  obtain ⟨_, n, hp⟩ := h.path b.wf hl hs
  have hqt := hq.path b hp
  have each : ∀ k, ∃ r' ∈ res, r'.counts t.state = t.counts t.state + k := by
    intro k
    obtain ⟨m, κ', h1, h2⟩ := b.null_rounds hr hn k hqt
    obtain ⟨r', h3, h4, h5, _⟩ := KReach.of_path b.wf hs (by simpa using hp.append h1)
    exact ⟨r', (hmem r').2 (reaches_iff_kreach.2 ⟨_, h3⟩), by rw [h5, h2]⟩
  -- more different runs than the result has
  have hsub : ∀ k ∈ List.range (res.length + 1), t.counts t.state + k ∈
      res.map (fun r' => r'.counts t.state) := by
    intro k _
    obtain ⟨r', h1, h2⟩ := each k
    exact List.mem_map.2 ⟨r', h1, h2⟩
  have := nodup_subset_length (l := (List.range (res.length + 1)).map (fun k => t.counts t.state + k))
    (u := res.map (fun r' => r'.counts t.state))
    (by
      refine List.Pairwise.map _ ?_ List.nodup_range
      intro a c hac h
      exact hac (by omega))
    (by
      intro a ha
      obtain ⟨k, hk, rfl⟩ := List.mem_map.1 ha
      exact hsub k hk)
  simp at this
  omega

/-! ## Whole strings -/

/-- After reading the word some run is at such a state. -/
def Bundle.Spinning (nfa : Nfa) (rs : List (Fr × Nat)) (w : List Char) : Prop :=
  w ≠ [] ∧ ∃ r, RunsAt nfa w r ∧ ∃ fr ∈ rs, fr.1.Null r.state

theorem Bundle.quiet_at (b : Bundle nfa rs) {w : List Char} {r : Run} (h : RunsAt nfa w r) :
    Quiets rs r.counts r.state := by
  obtain ⟨_, x, hx, hp⟩ := runsAt_paths b.wf b.start h
  obtain ⟨n, hp⟩ := hp.toPath
  exact (quiets_zero rs x).path b hp

theorem CharStep.cstep {r s : Run} {c : Char} (hr : r.counters.Sorted) (h : CharStep nfa r c s) :
    CStep nfa.HasEdge r.state r.counts [c] s.state s.counts ∧ s.counters.Sorted := by
  cases h with
  | @mk l d he hc =>
    obtain ⟨k1, k2, k3⟩ := r.take_eps hr d
    rw [k3]
    exact ⟨.char he hc, k2⟩

/-- Feeding ends if no run gets to such a state. -/
theorem Bundle.fed_next (b : Bundle nfa rs) {fuel : Nat} (hf : simFuel nfa rs ≤ fuel) {w : List Char}
    {runs : List Run} (h : Fed nfa fuel w runs) (c : Char) (hn : ¬ Bundle.Spinning nfa rs (w ++ [c])) :
    ∃ runs', Fed nfa fuel (w ++ [c]) runs' := by
  obtain ⟨runs', hruns⟩ : ∃ runs', nfa.feedRuns fuel runs c = .ok runs' := by
    unfold Nfa.feedRuns
    refine flatMapOutcome_of_ok fun r hr => ?_
    have hat := (h.mem b.wf r).1 hr
    have hst := b.wf.getState (hat.lt b.wf)
    rw [hst, Outcome.bind_ok]
    refine flatMapOutcome_of_ok fun d hd => ?_
    have hc := (charMoves_wf b.wf hst c _).1 ⟨d, hd, rfl⟩
    obtain ⟨h1, h2⟩ := hc.cstep (hat.path b.wf).1
    obtain ⟨i, he⟩ := h1.edge
    refine b.epsClosure_at hf ?_ h2 ((b.quiet_at hat).path b (.single h1)) (b.wf.edge_lt he).2
    intro r' hr' n x κ' hp hnull
    obtain ⟨t, h3, h4, _⟩ := KReach.of_path b.wf h2 hp
    refine hn ⟨by simp, t, .snoc hat hc ((reaches_iff_ER b.wf (b.wf.edge_lt he).2).1
      (reaches_iff_kreach.2 ⟨_, h3⟩)), r', hr', ?_⟩
    rw [h4]
    exact hnull
  obtain ⟨acc, h1, h2⟩ := feed_of_feedRuns hruns
  exact ⟨runs', h.feed h1⟩

/-- Feeding does not end if some run gets to such a state. -/
theorem Bundle.fed_never (b : Bundle nfa rs) {fuel : Nat} {w : List Char} {c : Char}
    (hn : Bundle.Spinning nfa rs (w ++ [c])) {runs runs' : List Run} {acc : Bool} (h : Fed nfa fuel w runs) :
    nfa.feed fuel runs c ≠ .ok (runs', acc) := by
  intro hfeed
  obtain ⟨_, t, ht, r', hr', hnull⟩ := hn
  obtain ⟨r, s, hat, hc, he⟩ := RunsAt.snoc_iff.1 ht
  have hr := (h.mem b.wf r).2 hat
  obtain ⟨h1, h2⟩ := hc.cstep (hat.path b.wf).1
  obtain ⟨i, hedge⟩ := h1.edge
  obtain ⟨h6, _⟩ := feed_ok hfeed
  obtain ⟨bs, h7⟩ := (flatMapOutcome_ok h6).1 r hr
  have hst := b.wf.getState (hat.lt b.wf)
  rw [hst, Outcome.bind_ok] at h7
  obtain ⟨d, hd, rfl⟩ := (charMoves_wf b.wf hst c s).2 hc
  obtain ⟨cs, h8⟩ := (flatMapOutcome_ok h7).1 d hd
  exact b.epsClosure_never h2 ((b.quiet_at hat).path b (.single h1)) (b.wf.edge_lt hedge).2 he hr' hnull
    fuel cs h8

theorem Bundle.fed_ends (b : Bundle nfa rs) (v : List Char) :
    (∃ fuel runs, Fed nfa fuel v runs) ↔ ∀ w, w <+: v → ¬ Bundle.Spinning nfa rs w := by
  constructor
  · rintro ⟨fuel, runs, h⟩
    induction h with
    | init =>
      intro w hw hs
      exact hs.1 (List.prefix_nil.1 hw)
    | @feed v c runs runs' acc h hf ih =>
      intro w hw hs
      by_cases hlen : w.length ≤ v.length
      · exact ih w (List.prefix_of_prefix_length_le hw (List.prefix_append v [c]) hlen) hs
      · have : w = v ++ [c] := hw.eq_of_length (by
          have := hw.length_le
          simp at this ⊢
          omega)
        subst this
        exact b.fed_never hs h hf
  · intro hv
    refine ⟨simFuel nfa rs, ?_⟩
    have key : ∀ n w, w <+: v → w.length = n → ∃ runs, Fed nfa (simFuel nfa rs) w runs := by
      intro n
      induction n with
      | zero =>
        intro w _ hw
        rw [List.length_eq_zero_iff.1 hw]
        obtain ⟨runs, h⟩ := initRuns_exists b.wf (fuel := simFuel nfa rs) (by simp [simFuel])
        exact ⟨runs, .init h⟩
      | succ n ih =>
        intro w hw hlen
        have hne : w ≠ [] := by rintro rfl; simp at hlen
        obtain ⟨w', c, rfl⟩ : ∃ w' c, w = w' ++ [c] :=
          ⟨w.dropLast, w.getLast hne, (List.dropLast_concat_getLast hne).symm⟩
        obtain ⟨runs, h⟩ := ih w' ((List.prefix_append _ _).trans hw) (by simpa using hlen)
        exact b.fed_next (Nat.le_refl _) h c (hv _ hw)
    exact key v.length v (List.prefix_refl _) rfl

theorem Bundle.simulate_ends (b : Bundle nfa rs) (v : List Char) :
    (∃ fuel acc, nfa.simulate fuel v = .ok acc) ↔ ∀ w, w <+: v → ¬ Bundle.Spinning nfa rs w := by
  rw [← b.fed_ends v]
  constructor
  · rintro ⟨fuel, acc, h⟩
    obtain ⟨runs, h, _⟩ := simulate_fed h
    exact ⟨fuel, runs, h⟩
  · rintro ⟨fuel, runs, h⟩
    obtain ⟨acc, h1, _⟩ := isAccepting_ok (nfa := nfa) (runs := runs)
      (fun r hr => ⟨_, b.wf.getState (((h.mem b.wf r).1 hr).lt b.wf)⟩)
    exact ⟨fuel, acc, fed_simulate h h1⟩

end Pango.Fsm
