import Verif.Proofs.Ways
import Verif.Proofs.Single

/-!
# Counting runs

If of the edges that do not lead down the next character decides which one to take, then there are few runs.
-/

namespace Pango.Fsm

open Pango Pango.Regex

/-! ## Lists -/

section Lists

variable {α β : Type}

theorem length_flatMap_split {g : α → List β} {P : α → Bool} {U W : Nat} : ∀ {l : List α},
    (∀ a ∈ l, P a = true → (g a).length ≤ U) → (∀ a ∈ l, P a = false → (g a).length ≤ W) →
    (l.flatMap g).length ≤ l.countP P * U + l.length * W := by
  intro l
  induction l with
  | nil => simp
  | cons a l ih =>
    intro h1 h2
    have := ih (fun b hb => h1 b (List.mem_cons_of_mem _ hb)) (fun b hb => h2 b (List.mem_cons_of_mem _ hb))
    rw [List.flatMap_cons, List.length_append, List.countP_cons, List.length_cons, Nat.add_mul, Nat.add_mul]
    cases h : P a with
    | true =>
      have := h1 a (by simp) h
      simp only [if_true]
      omega
    | false =>
      have := h2 a (by simp) h
      simp only [Bool.false_eq_true, if_false, Nat.zero_mul, Nat.add_zero]
      omega

theorem countP_flatMap_one {f : α → List β} {P : β → Bool} : ∀ {l : List α}, l.Nodup →
    (∀ a ∈ l, (f a).countP P ≤ 1) →
    (∀ a ∈ l, ∀ a' ∈ l, (∃ b ∈ f a, P b = true) → (∃ b ∈ f a', P b = true) → a = a') →
    (l.flatMap f).countP P ≤ 1 := by
  intro l
  induction l with
  | nil => simp
  | cons a l ih =>
    intro hn h1 h2
    obtain ⟨ha, hn⟩ := List.nodup_cons.1 hn
    rw [List.flatMap_cons, List.countP_append]
    by_cases h : ∃ b ∈ f a, P b = true
    · have : (l.flatMap f).countP P = 0 := by
        rw [List.countP_eq_zero]
        intro b hb hP
        obtain ⟨a', ha', hb⟩ := List.mem_flatMap.1 hb
        exact ha (h2 a (by simp) a' (List.mem_cons_of_mem _ ha') h ⟨b, hb, hP⟩ ▸ ha')
      have := h1 a (by simp)
      omega
    · have : (f a).countP P = 0 := by
        rw [List.countP_eq_zero]
        exact fun b hb hP => h ⟨b, hb, hP⟩
      have := ih hn (fun b hb => h1 b (List.mem_cons_of_mem _ hb))
        (fun b hb b' hb' => h2 b (List.mem_cons_of_mem _ hb) b' (List.mem_cons_of_mem _ hb'))
      omega

theorem flatMap_same {f g : α → List β} {l : List α} (h : ∀ a ∈ l, f a = g a) : l.flatMap f = l.flatMap g := by
  induction l with
  | nil => rfl
  | cons a l ih =>
    rw [List.flatMap_cons, List.flatMap_cons, h a (by simp), ih fun b hb => h b (List.mem_cons_of_mem _ hb)]

/-- What comes out after a word. -/
def outs (step : Char → α → List α) (out : α → List β) : List Char → α → List β
  | [], s => out s
  | c :: v, s => (step c s).flatMap (outs step out v)

theorem outs_length {step : Char → α → List α} {out : α → List β} {rank : α → Nat} {inv : α → Prop} {B M : Nat}
    (hinv : ∀ c s s', inv s → s' ∈ step c s → inv s') (hB : ∀ s, inv s → (out s).length ≤ B)
    (hM : ∀ c s, inv s → (step c s).length ≤ M) (hle : ∀ c s s', inv s → s' ∈ step c s → rank s' ≤ rank s)
    (one : ∀ c s, inv s → (step c s).countP (fun s' => rank s' == rank s) ≤ 1) :
    ∀ v s, inv s → (outs step out v s).length ≤ B * (1 + M * v.length) ^ rank s := by
  intro v
  induction v with
  | nil => intro s hs; simpa [outs] using hB s hs
  | cons c v ih =>
    intro s hs
    let X := 1 + M * v.length
    have hX : 1 ≤ X := by simp only [X]; omega
    have hY : 1 + M * (c :: v).length = X + M := by simp only [List.length_cons, Nat.mul_add, X]; omega
    rw [hY]
    have key : ((step c s).flatMap (outs step out v)).length ≤
        (step c s).countP (fun s' => rank s' == rank s) * (B * X ^ rank s) +
          (step c s).length * (if rank s = 0 then 0 else B * X ^ (rank s - 1)) := by
      refine length_flatMap_split (fun a ha hP => ?_) fun a ha hP => ?_
      · have := ih a (hinv c s a hs ha)
        rwa [eq_of_beq hP] at this
      · have h1 : rank a ≠ rank s := by simpa using hP
        have h2 := hle c s a hs ha
        rw [if_neg (by omega)]
        exact Nat.le_trans (ih a (hinv c s a hs ha)) (Nat.mul_le_mul_left _ (Nat.pow_le_pow_right hX (by omega)))
    have h1 := Nat.mul_le_mul_right (B * X ^ rank s) (one c s hs)
    rw [Nat.one_mul] at h1
    show ((step c s).flatMap (outs step out v)).length ≤ _
    cases hk : rank s with
    | zero =>
      rw [hk] at key h1
      simp only [if_true, Nat.mul_zero, Nat.add_zero] at key
      exact Nat.le_trans key (by simpa using h1)
    | succ k =>
      rw [hk] at key h1
      simp only [Nat.succ_ne_zero, if_false, Nat.add_sub_cancel] at key
      have h2 := Nat.mul_le_mul_right (B * X ^ k) (hM c s hs)
      have h3 : X ^ k ≤ (X + M) ^ k := Nat.pow_le_pow_left (by omega) k
      have h4 : ∀ P Y, B * (P * Y) + M * (B * P) = B * (P * (Y + M)) := by
        intro P Y
        rw [Nat.mul_add P, Nat.mul_add B, Nat.mul_left_comm M, Nat.mul_comm M P]
      calc _ ≤ B * X ^ (k + 1) + M * (B * X ^ k) := Nat.le_trans key (Nat.add_le_add h1 h2)
        _ = B * (X ^ k * (X + M)) := h4 _ _
        _ ≤ B * (X + M) ^ (k + 1) := Nat.mul_le_mul_left _ (Nat.mul_le_mul_right _ h3)

/-- The list, or nothing. -/
def okList : Outcome (List β) → List β
  | .ok l => l
  | _ => []

theorem flatMapOutcome_eq {f : α → Outcome (List β)} : ∀ {l : List α} {r : List β}, flatMapOutcome f l = .ok r →
    r = l.flatMap fun a => okList (f a) := by
  intro l
  induction l with
  | nil => intro r h; cases h; rfl
  | cons a l ih =>
    intro r h
    simp only [flatMapOutcome, Outcome.bind_eq_ok] at h
    obtain ⟨bs, h1, rest, h2, h3⟩ := h
    cases h3
    rw [List.flatMap_cons, h1, ← ih h2]
    rfl

end Lists

/-! ## No edge is there twice -/

/-- No edge is listed twice. -/
def Clean (nfa : Nfa) : Prop :=
  ∀ s ∈ nfa.states, (s.transitions.map Prod.fst).Nodup ∧ ∀ t ∈ s.transitions, t.2.Nodup

theorem NState.edges_nodup {s : NState} (h : (s.transitions.map Prod.fst).Nodup ∧ ∀ t ∈ s.transitions, t.2.Nodup) :
    s.edges.Nodup := by
  unfold NState.edges
  generalize s.transitions = ts at h
  induction ts with
  | nil => simp
  | cons t ts ih =>
    obtain ⟨h1, h2⟩ := h
    obtain ⟨h3, h4⟩ := List.nodup_cons.1 (by simpa only [List.map_cons] using h1)
    rw [List.flatMap_cons, List.nodup_append]
    refine ⟨?_, ih ⟨h4, fun t ht => h2 t (List.mem_cons_of_mem _ ht)⟩, ?_⟩
    · refine List.Pairwise.map _ (fun a b hab => ?_) (h2 t (by simp))
      simpa using hab
    · rintro e he e' he' rfl
      obtain ⟨d, _, rfl⟩ := List.mem_map.1 he
      obtain ⟨t', ht', he'⟩ := List.mem_flatMap.1 he'
      obtain ⟨d', _, he'⟩ := List.mem_map.1 he'
      have : t'.1 = t.1 := (Prod.mk.injEq .. ▸ he').1
      exact h3 (this ▸ List.mem_map_of_mem ht')

theorem insertTransition_keys {i j : Input} {d : Nat} : ∀ {ts : List (Input × List Nat)},
    j ∈ (insertTransition i d ts).map Prod.fst → j = i ∨ j ∈ ts.map Prod.fst := by
  intro ts
  induction ts with
  | nil => simp [insertTransition]
  | cons t ts ih =>
    obtain ⟨k, ds⟩ := t
    intro h
    simp only [insertTransition] at h
    split at h
    · exact .inr (by simpa using h)
    · rcases List.mem_cons.1 (by simpa only [List.map_cons] using h) with h | h
      · exact .inr (by simp [h])
      · rcases ih h with h | h
        · exact .inl h
        · exact .inr (by rw [List.map_cons]; exact List.mem_cons_of_mem _ h)

theorem insertTransition_clean {i : Input} {d : Nat} : ∀ {ts : List (Input × List Nat)},
    (ts.map Prod.fst).Nodup ∧ (∀ t ∈ ts, t.2.Nodup) →
    ((insertTransition i d ts).map Prod.fst).Nodup ∧ ∀ t ∈ insertTransition i d ts, t.2.Nodup := by
  intro ts
  induction ts with
  | nil => intro _; simp [insertTransition]
  | cons t ts ih =>
    obtain ⟨k, ds⟩ := t
    rintro ⟨h1, h2⟩
    have h1' := List.nodup_cons.1 (by simpa only [List.map_cons] using h1)
    simp only [insertTransition]
    split
    · refine ⟨h1, fun t ht => ?_⟩
      rcases List.mem_cons.1 ht with rfl | ht
      · have := h2 (k, ds) (by simp)
        simp only [setInsert]
        split
        · exact this
        · rename_i hd
          rw [List.nodup_append]
          refine ⟨this, by simp, ?_⟩
          rintro a ha b hb rfl
          exact hd (List.mem_singleton.1 hb ▸ ha)
      · exact h2 t (List.mem_cons_of_mem _ ht)
    · rename_i hk
      obtain ⟨h3, h4⟩ := ih ⟨h1'.2, fun t ht => h2 t (List.mem_cons_of_mem _ ht)⟩
      refine ⟨?_, fun t ht => ?_⟩
      · rw [List.map_cons, List.nodup_cons]
        refine ⟨fun h => ?_, h3⟩
        rcases insertTransition_keys h with h | h
        · exact hk h
        · exact h1'.1 h
      · rcases List.mem_cons.1 ht with rfl | ht
        · exact h2 (k, ds) (by simp)
        · exact h4 t ht

theorem mem_updateState {id : Nat} {f : NState → NState} : ∀ {l l' : List NState}, updateState id f l = some l' →
    ∀ s ∈ l', s ∈ l ∨ ∃ s' ∈ l, s = f s' := by
  intro l
  induction l with
  | nil => intro l' h; simp [updateState] at h
  | cons a l ih =>
    intro l' h s hs
    simp only [updateState] at h
    split at h
    · cases h
      rcases List.mem_cons.1 hs with rfl | hs
      · exact .inr ⟨a, by simp, rfl⟩
      · exact .inl (List.mem_cons_of_mem _ hs)
    · obtain ⟨l'', h1, rfl⟩ := Option.map_eq_some_iff.1 h
      rcases List.mem_cons.1 hs with rfl | hs
      · exact .inl (by simp)
      · rcases ih h1 s hs with h | ⟨s', h, e⟩
        · exact .inl (List.mem_cons_of_mem _ h)
        · exact .inr ⟨s', List.mem_cons_of_mem _ h, e⟩

theorem Clean.addTransition {nfa nfa' : Nfa} (h : Clean nfa) {x y : Nat} {i : Input}
    (ha : nfa.addTransition x y i = .ok nfa') : Clean nfa' := by
  unfold Nfa.addTransition at ha
  split at ha
  · rename_i states hs
    cases ha
    intro s hs'
    rcases mem_updateState hs s hs' with h' | ⟨s', h', rfl⟩
    · exact h s h'
    · exact insertTransition_clean (h s' h')
  · cases ha

theorem Clean.addState {nfa : Nfa} (h : Clean nfa) (fin : Bool) : Clean (nfa.addState fin).2 := by
  intro s hs
  rcases List.mem_append.1 hs with hs | hs
  · exact h s hs
  · rw [List.mem_singleton.1 hs]; simp

theorem Clean.insertQuantifierState {nfa : Nfa} (h : Clean nfa) {q : Quant} {x y : Nat} {r : Nat × Nfa}
    (ha : insertQuantifierState nfa q x y = .ok r) : Clean r.2 := by
  simp only [Fsm.insertQuantifierState, Nfa.addQuantifiedState, Outcome.bind_eq_ok] at ha
  obtain ⟨⟨z, n1⟩, ⟨n2, h1, h2⟩, n3, h3, h4⟩ := ha
  cases h2
  cases h4
  exact ((h.addState false).addTransition h1).addTransition h3

mutual

theorem Clean.expr {nfa nfa' : Nfa} (h : Clean nfa) : ∀ {e : Expr} {x y : Nat}, compileExpr e x y nfa = .ok nfa' → Clean nfa'
  | .concat es, x, y, ha => by
    rw [compileExpr] at ha
    exact Clean.exprs h ha
  | .empty, x, y, ha => by
    rw [compileExpr] at ha
    exact h.addTransition ha
  | .alt l r, x, y, ha => by
    rw [compileExpr, Outcome.bind_eq_ok] at ha
    obtain ⟨n1, h1, h2⟩ := ha
    exact Clean.expr (Clean.expr h h1) h2
  | .lit l none, x, y, ha => by
    rw [compileExpr] at ha
    exact h.addTransition ha
  | .lit l (some q), x, y, ha => by
    rw [compileExpr, Outcome.bind_eq_ok] at ha
    obtain ⟨⟨z, n1⟩, h1, h2⟩ := ha
    exact (h.insertQuantifierState h1).addTransition h2
  | .group e none, x, y, ha => by
    rw [compileExpr] at ha
    exact Clean.expr h ha
  | .group e (some q), x, y, ha => by
    rw [compileExpr, Outcome.bind_eq_ok] at ha
    obtain ⟨⟨z, n1⟩, h1, h2⟩ := ha
    exact Clean.expr (h.insertQuantifierState h1) h2

theorem Clean.exprs {nfa nfa' : Nfa} (h : Clean nfa) : ∀ {es : List Expr} {x y : Nat},
    compileConcat es x y nfa = .ok nfa' → Clean nfa'
  | [], x, y, ha => by
    rw [compileConcat] at ha
    cases ha
  | [e], x, y, ha => by
    rw [compileConcat] at ha
    exact Clean.expr h ha
  | e :: e' :: es, x, y, ha => by
    simp only [compileConcat, Outcome.bind_eq_ok] at ha
    obtain ⟨n1, h1, h2⟩ := ha
    exact Clean.exprs (Clean.expr (h.addState false) h1) h2

end

theorem nfaOfAst_clean {e : Expr} {nfa : Nfa} (h : nfaOfAst e = .ok nfa) : Clean nfa := by
  simp only [nfaOfAst, Compiler.addExpression, Outcome.bind_eq_ok] at h
  obtain ⟨c, ⟨n1, h1, h2⟩, h3⟩ := h
  cases h2
  have h4 : nfa = n1 := by
    revert h3
    simp only [Nfa.build]
    split
    · exact fun h3 => nomatch h3
    · split
      · exact fun h3 => nomatch h3
      · exact fun h3 => (Outcome.ok.inj h3).symm
  subst h4
  refine Clean.expr ?_ h1
  intro s hs
  simp [Compiler.new, Nfa.new, Nfa.addState] at hs
  rcases hs with rfl | rfl <;> simp

/-! ## Rides -/

/-- Steps without reading, the first one first. -/
inductive Ride (E : Nat → Input → Nat → Prop) : Run → Run → Prop
  | refl (r : Run) : Ride E r r
  | eps {r s : Run} {d : Nat} : E r.state .eps d → Ride E (r.takeTransition d false) s → Ride E r s
  | quant {r s : Run} {d : Nat} {q : Quant} : E r.state (.quantified q) d → q.isSatisfied (r.counts r.state) = true →
      Ride E (r.takeTransition d true) s → Ride E r s

theorem Ride.snoc {nfa : Nfa} {r s t : Run} (h : Ride nfa.HasEdge r s) (hs : EStep nfa s t) : Ride nfa.HasEdge r t := by
  induction h with
  | refl r =>
    cases hs with
    | eps h => exact .eps h (.refl _)
    | quant h hq => exact .quant h hq (.refl _)
  | eps h _ ih => exact .eps h (ih hs)
  | quant h hq _ ih => exact .quant h hq (ih hs)

theorem ER.ride {nfa : Nfa} {r s : Run} (h : ER nfa r s) : Ride nfa.HasEdge r s := by
  induction h with
  | refl => exact .refl _
  | tail _ hs ih => exact ih.snoc hs

section

variable {E : Nat → Input → Nat → Prop} {rk : Nat → Nat}

theorem Ride.rank_le (hle : ∀ x i y, E x i y → rk y ≤ rk x) {r s : Run} (h : Ride E r s) : rk s.state ≤ rk r.state := by
  induction h with
  | refl => exact Nat.le_refl _
  | eps h _ ih => exact Nat.le_trans ih (hle _ _ _ h)
  | quant h _ _ ih => exact Nat.le_trans ih (hle _ _ _ h)

theorem Ride.flat (hle : ∀ x i y, E x i y → rk y ≤ rk x) {r s : Run} (h : Ride E r s) (hr : rk s.state = rk r.state) :
    Ride (Flat E rk) r s := by
  induction h with
  | refl => exact .refl _
  | @eps r s d h h' ih =>
    have h1 : rk s.state ≤ rk d := h'.rank_le hle
    have h2 := hle _ _ _ h
    exact .eps ⟨h, by omega⟩ (ih (show rk s.state = rk d by omega))
  | @quant r s d q h hq h' ih =>
    have h1 : rk s.state ≤ rk d := h'.rank_le hle
    have h2 := hle _ _ _ h
    exact .quant ⟨h, by omega⟩ hq (ih (show rk s.state = rk d by omega))

variable [Unicode] {Q : Nat → Counts → Prop}

theorem Ride.can {c : Char} {l : Lit} {d : Nat} {r s : Run} (h : Ride E r s) (hs : r.counters.Sorted)
    (he : E s.state (.literal l) d) (hl : l.contains c = true) : Can E c r.state r.counts := by
  induction h with
  | refl => exact .char he hl
  | @eps r s d h _ ih =>
    obtain ⟨_, k2, k3⟩ := r.take_eps hs d
    exact .eps h (k3 ▸ ih k2 he)
  | @quant r s d q h hq _ ih =>
    obtain ⟨_, k2, k3⟩ := r.take_quant hs d
    exact .quant h hq (k3 ▸ ih k2 he)

theorem Ride.leads {c : Char} {l : Lit} {d z : Nat} {r s : Run} (h : Ride E (r.takeTransition z false) s)
    (hs : r.counters.Sorted) (he : E s.state (.literal l) d) (hl : l.contains c = true) :
    Leads E c r.state r.counts .eps z := by
  obtain ⟨_, k2, k3⟩ := r.take_eps hs z
  have := h.can k2 he hl
  rw [k3] at this
  exact this

theorem Ride.keeps (hk : Kept E Q) {r s : Run} (h : Ride E r s) (hs : r.counters.Sorted) (hq : Q r.state r.counts) :
    s.counters.Sorted ∧ Q s.state s.counts := by
  induction h with
  | refl => exact ⟨hs, hq⟩
  | @eps r s d h _ ih =>
    obtain ⟨_, k2, k3⟩ := r.take_eps hs d
    exact ih k2 (k3 ▸ hk _ _ _ _ hq (.eps h))
  | @quant r s d q h hsat _ ih =>
    obtain ⟨_, k2, k3⟩ := r.take_quant hs d
    exact ih k2 (k3 ▸ hk _ _ _ _ hq (.quant h hsat))

/-- The next character decides which edge to take. -/
def EdgeDecides (E : Nat → Input → Nat → Prop) (Q : Nat → Counts → Prop) : Prop :=
  ∀ c p κ i d i' d', Q p κ → E p i d → E p i' d' → Leads E c p κ i d → Leads E c p κ i' d' → i = i' ∧ d = d'

theorem Ride.unique (hk : Kept E Q) (det : EdgeDecides E Q) {c : Char} {l l' : Lit} {d d' : Nat} {r s s' : Run}
    (h : Ride E r s) (h' : Ride E r s') (hs : r.counters.Sorted) (hq : Q r.state r.counts)
    (he : E s.state (.literal l) d) (hl : l.contains c = true) (he' : E s'.state (.literal l') d')
    (hl' : l'.contains c = true) : s = s' ∧ l = l' ∧ d = d' := by
  induction h with
  | refl r =>
    cases h' with
    | refl =>
      obtain ⟨h1, h2⟩ := det c _ _ _ _ _ _ hq he he' hl hl'
      cases h1
      exact ⟨rfl, rfl, h2⟩
    | @eps _ _ z h1 h2 =>
      have := (det c _ _ _ _ _ _ hq he h1 hl (h2.leads hs he' hl')).1
      cases this
    | @quant _ _ z q h1 hsat h2 =>
      obtain ⟨_, k2, k3⟩ := r.take_quant hs z
      have := (det c _ _ _ _ _ _ hq he h1 hl ⟨hsat, k3 ▸ h2.can k2 he' hl'⟩).1
      cases this
  | @eps r s z h1 h2 ih =>
    obtain ⟨_, k2, k3⟩ := r.take_eps hs z
    have l1 : Leads E c r.state r.counts .eps z := h2.leads hs he hl
    cases h' with
    | refl =>
      have := (det c _ _ _ _ _ _ hq h1 he' l1 hl').1
      cases this
    | @eps _ _ z' g1 g2 =>
      obtain ⟨_, rfl⟩ := det c _ _ _ _ _ _ hq h1 g1 l1 (g2.leads hs he' hl')
      exact ih g2 k2 (k3 ▸ hk _ _ _ _ hq (.eps h1)) he
    | @quant _ _ z' q g1 hsat g2 =>
      obtain ⟨_, j2, j3⟩ := r.take_quant hs z'
      have := (det c _ _ _ _ _ _ hq h1 g1 l1 ⟨hsat, j3 ▸ g2.can j2 he' hl'⟩).1
      cases this
  | @quant r s z q h1 hsat h2 ih =>
    obtain ⟨_, k2, k3⟩ := r.take_quant hs z
    have l1 : Leads E c r.state r.counts (.quantified q) z := ⟨hsat, k3 ▸ h2.can k2 he hl⟩
    cases h' with
    | refl =>
      have := (det c _ _ _ _ _ _ hq h1 he' l1 hl').1
      cases this
    | @eps _ _ z' g1 g2 =>
      have := (det c _ _ _ _ _ _ hq h1 g1 l1 (g2.leads hs he' hl')).1
      cases this
    | @quant _ _ z' q' g1 gsat g2 =>
      obtain ⟨_, j2, j3⟩ := r.take_quant hs z'
      obtain ⟨_, rfl⟩ := det c _ _ _ _ _ _ hq h1 g1 l1
        (show Leads E c r.state r.counts (.quantified q') z' from ⟨gsat, j3 ▸ g2.can j2 he' hl'⟩)
      exact ih g2 k2 (k3 ▸ hk _ _ _ _ hq (.quant h1 hsat)) he

end

/-! ## The bound -/

section

variable [Unicode] {nfa : Nfa}

/-- The runs after a character, before ε-steps. -/
def movesOf (nfa : Nfa) (c : Char) (r : Run) : List Run :=
  match nfa.getState r.state with
  | .ok st => (st.charMoves c).map (r.takeTransition · false)
  | _ => []

omit [Unicode] in
def closureOf (nfa : Nfa) (fuel : Nat) (r : Run) : List Run := okList (nfa.epsClosure fuel r)

def stepOf (nfa : Nfa) (fuel : Nat) (c : Char) (r : Run) : List Run := (closureOf nfa fuel r).flatMap (movesOf nfa c)

theorem feedRuns_moves {fuel : Nat} {runs runs' : List Run} {c : Char} (h : nfa.feedRuns fuel runs c = .ok runs') :
    runs' = (runs.flatMap (movesOf nfa c)).flatMap (closureOf nfa fuel) := by
  have h1 := (flatMapOutcome_ok h).1
  rw [flatMapOutcome_eq h, List.flatMap_assoc]
  refine flatMap_same fun r hr => ?_
  obtain ⟨bs, h2⟩ := h1 r hr
  rw [h2]
  rw [Outcome.bind_eq_ok] at h2
  obtain ⟨st, h3, h4⟩ := h2
  show bs = _
  rw [flatMapOutcome_eq h4, movesOf, h3]
  simp only [List.flatMap_map]
  rfl

theorem feedAll_outs {fuel : Nat} : ∀ {v : List Char} {arrivals runs' : List Run} {last last' : Option Bool},
    nfa.feedAll fuel (arrivals.flatMap (closureOf nfa fuel)) last v = .ok (runs', last') →
    runs' = arrivals.flatMap (outs (stepOf nfa fuel) (closureOf nfa fuel) v) := by
  intro v
  induction v with
  | nil => intro arrivals runs' last last' h; cases h; rfl
  | cons c v ih =>
    intro arrivals runs' last last' h
    simp only [Nfa.feedAll, Outcome.bind_eq_ok] at h
    obtain ⟨⟨runs1, acc⟩, h1, h2⟩ := h
    have h3 := feedRuns_moves (feed_ok h1).1
    have e : (arrivals.flatMap (closureOf nfa fuel)).flatMap (movesOf nfa c) =
        arrivals.flatMap (stepOf nfa fuel c) := List.flatMap_assoc ..
    rw [e] at h3
    rw [h3] at h2
    rw [ih h2, List.flatMap_assoc]
    rfl

omit [Unicode] in
theorem closureOf_length (fuel : Nat) (r : Run) : (closureOf nfa fuel r).length ≤ fuel := by
  unfold closureOf
  cases h : nfa.epsClosure fuel r with
  | ok l => simpa [okList] using worklist_length h
  | _ => simp [okList]

theorem movesOf_length (c : Char) (r : Run) : (movesOf nfa c r).length ≤ nfa.degree := by
  unfold movesOf
  split
  · rename_i st h
    rw [List.length_map]
    exact Nat.le_trans (List.length_filterMap_le _ _) (edges_le_degree (getState_ok h).1)
  · simp

omit [Unicode] in
theorem closureOf_spec (w : Wf nfa) (fuel : Nat) {r : Run} (hr : r.state < nfa.states.length) :
    (closureOf nfa fuel r).Nodup ∧ ∀ s ∈ closureOf nfa fuel r, ER nfa r s := by
  unfold closureOf
  cases h : nfa.epsClosure fuel r with
  | ok l =>
    obtain ⟨h1, h2, _⟩ := worklist_single h
    exact ⟨h2, fun s hs => (reaches_iff_ER w hr).1 ((h1 s).1 hs)⟩
  | _ => simp [okList]

theorem mem_movesOf (w : Wf nfa) {c : Char} {r s : Run} (h : s ∈ movesOf nfa c r) :
    ∃ l d, nfa.HasEdge r.state (.literal l) d ∧ l.contains c = true ∧ s = r.takeTransition d false := by
  unfold movesOf at h
  split at h
  · rename_i st hst
    obtain ⟨d, hd, rfl⟩ := List.mem_map.1 h
    obtain ⟨l, he, hc⟩ := mem_charMoves.1 hd
    exact ⟨l, d, (w.hasEdge_iff hst).2 he, hc, rfl⟩
  · simp at h

/-- A run that is as it should be. -/
structure Proper (nfa : Nfa) (Q : Nat → Counts → Prop) (r : Run) : Prop where
  lt : r.state < nfa.states.length
  sorted : r.counters.Sorted
  keeps : Q r.state r.counts

/-- How an automaton must be for the bound. -/
structure Tame (nfa : Nfa) (Q : Nat → Counts → Prop) (rk : Nat → Nat) : Prop where
  wf : Wf nfa
  clean : Clean nfa
  kept : ∀ p κ u d κ1, Q p κ → CStep nfa.HasEdge p κ u d κ1 → Q d κ1
  le : ∀ x i y, nfa.HasEdge x i y → rk y ≤ rk x
  decides : EdgeDecides (Flat nfa.HasEdge rk) Q

variable {Q : Nat → Counts → Prop} {rk : Nat → Nat}

theorem Proper.move (t : Tame nfa Q rk) {r s : Run} (h : Proper nfa Q r) {c : Char} (hs : s ∈ movesOf nfa c r) :
    Proper nfa Q s := by
  obtain ⟨l, d, he, hl, rfl⟩ := mem_movesOf t.wf hs
  obtain ⟨_, k2, k3⟩ := r.take_eps h.sorted d
  exact ⟨(t.wf.edge_lt he).2, k2, k3 ▸ t.kept _ _ _ _ _ h.keeps (.char he hl)⟩

theorem Proper.ride (t : Tame nfa Q rk) {r s : Run} (h : Proper nfa Q r) (hs : ER nfa r s) : Proper nfa Q s := by
  obtain ⟨h1, h2⟩ := hs.ride.keeps (fun p κ d κ1 => t.kept p κ [] d κ1) h.sorted h.keeps
  exact ⟨hs.lt t.wf h.lt, h1, h2⟩

theorem stepOf_one (t : Tame nfa Q rk) (fuel : Nat) (c : Char) {r : Run} (h : Proper nfa Q r) :
    (stepOf nfa fuel c r).countP (fun s => rk s.state == rk r.state) ≤ 1 := by
  obtain ⟨hn, hm⟩ := closureOf_spec t.wf fuel h.lt
  have hk : Kept (Flat nfa.HasEdge rk) Q := fun p κ d κ1 hq hs => t.kept _ _ _ _ _ hq (hs.mono fun _ _ _ h => h.1)
  have same : ∀ s1 l1 d1 s2 l2 d2, s1 ∈ closureOf nfa fuel r → s2 ∈ closureOf nfa fuel r →
      nfa.HasEdge s1.state (.literal l1) d1 → nfa.HasEdge s2.state (.literal l2) d2 → l1.contains c = true →
      l2.contains c = true → rk d1 = rk r.state → rk d2 = rk r.state → s1 = s2 ∧ l1 = l2 ∧ d1 = d2 := by
    intro s1 l1 d1 s2 l2 d2 m1 m2 e1 e2 c1 c2 k1 k2
    have r1 := (hm _ m1).ride
    have r2 := (hm _ m2).ride
    have a1 := r1.rank_le t.le
    have a2 := r2.rank_le t.le
    have b1 := t.le _ _ _ e1
    have b2 := t.le _ _ _ e2
    exact (r1.flat t.le (by omega)).unique hk t.decides (r2.flat t.le (by omega)) h.sorted h.keeps
      ⟨e1, by omega⟩ c1 ⟨e2, by omega⟩ c2
  refine countP_flatMap_one hn (fun s hs => ?_) ?_
  · have hlt := (hm s hs).lt t.wf h.lt
    have hst := t.wf.getState hlt
    have hmem := (getState_ok hst).1
    have e : movesOf nfa c s = nfa.states[s.state].edges.flatMap
        (fun e => if e.1.canTake c then [s.takeTransition e.2 false] else []) := by
      rw [movesOf, hst]
      simp only [NState.charMoves]
      generalize nfa.states[s.state].edges = es
      induction es with
      | nil => rfl
      | cons x es ih =>
        rw [List.filterMap_cons, List.flatMap_cons, ← ih]
        split <;> rename_i hx <;> split at hx <;> simp_all
    rw [e]
    refine countP_flatMap_one (NState.edges_nodup (t.clean _ hmem)) (fun e _ => ?_) ?_
    · split
      · exact Nat.le_trans List.countP_le_length (by simp)
      · simp
    · rintro ⟨i1, d1⟩ h1 ⟨i2, d2⟩ h2 ⟨b1, hb1, p1⟩ ⟨b2, hb2, p2⟩
      split at hb1
      · split at hb2
        · rename_i g1 g2
          rw [List.mem_singleton] at hb1 hb2
          subst hb1 hb2
          have lit : ∀ {i : Input}, i.canTake c = true → ∃ l, i = .literal l ∧ l.contains c = true := by
            intro i hi
            cases i with
            | literal l => exact ⟨l, rfl, hi⟩
            | eps => cases hi
            | quantified q => cases hi
          obtain ⟨l1, rfl, c1⟩ := lit g1
          obtain ⟨l2, rfl, c2⟩ := lit g2
          obtain ⟨_, rfl, rfl⟩ := same s l1 d1 s l2 d2 hs hs ((t.wf.hasEdge_iff hst).2 h1) ((t.wf.hasEdge_iff hst).2 h2)
            c1 c2 (eq_of_beq p1) (eq_of_beq p2)
          rfl
        · simp at hb2
      · simp at hb1
  · rintro s1 m1 s2 m2 ⟨b1, hb1, p1⟩ ⟨b2, hb2, p2⟩
    obtain ⟨l1, d1, e1, c1, rfl⟩ := mem_movesOf t.wf hb1
    obtain ⟨l2, d2, e2, c2, rfl⟩ := mem_movesOf t.wf hb2
    exact (same s1 l1 d1 s2 l2 d2 m1 m2 e1 e2 c1 c2 (eq_of_beq p1) (eq_of_beq p2)).1

/-- There are few runs. -/
theorem Tame.feedAll_length (t : Tame nfa Q rk) {R : Nat} (hR : ∀ x, rk x ≤ R) {fuel : Nat} {v : List Char}
    {runs runs' : List Run} {last last' : Option Bool} (hp : ∀ r ∈ runs, Proper nfa Q r)
    (h : nfa.feedAll fuel runs last v = .ok (runs', last')) :
    runs'.length ≤ runs.length * (1 + nfa.degree * fuel) * (1 + fuel * nfa.degree * v.length) ^ R := by
  cases v with
  | nil =>
    cases h
    exact Nat.le_trans (Nat.le_mul_of_pos_right _ (by omega)) (Nat.le_mul_of_pos_right _ (Nat.pow_pos (by omega)))
  | cons c v =>
    simp only [Nfa.feedAll, Outcome.bind_eq_ok] at h
    obtain ⟨⟨runs1, acc⟩, h1, h2⟩ := h
    rw [feedRuns_moves (feed_ok h1).1] at h2
    have h3 := feedAll_outs h2
    have hs : ∀ s ∈ runs.flatMap (movesOf nfa c), Proper nfa Q s := by
      intro s hs
      obtain ⟨r, hr, hs⟩ := List.mem_flatMap.1 hs
      exact (hp r hr).move t hs
    have stepLe : ∀ (c : Char) (s s' : Run), Proper nfa Q s → s' ∈ stepOf nfa fuel c s →
        Proper nfa Q s' ∧ rk s'.state ≤ rk s.state := by
      intro c s s' hs hm
      obtain ⟨r, hr, hm⟩ := List.mem_flatMap.1 hm
      have he := (closureOf_spec t.wf fuel hs.lt).2 r hr
      refine ⟨(hs.ride t he).move t hm, ?_⟩
      obtain ⟨l, d, e, _, rfl⟩ := mem_movesOf t.wf hm
      exact Nat.le_trans (t.le _ _ _ e) (he.ride.rank_le t.le)
    have bound : ∀ s ∈ runs.flatMap (movesOf nfa c),
        (outs (stepOf nfa fuel) (closureOf nfa fuel) v s).length ≤ fuel * (1 + fuel * nfa.degree * v.length) ^ R := by
      intro s hm
      refine Nat.le_trans (outs_length (rank := fun s => rk s.state) (inv := Proper nfa Q) (B := fuel)
        (M := fuel * nfa.degree) (fun c s s' hs hm => (stepLe c s s' hs hm).1) (fun s _ => closureOf_length fuel s)
        (fun c s _ => ?_) (fun c s s' hs hm => (stepLe c s s' hs hm).2) (fun c s hs => stepOf_one t fuel c hs) v s
        (hs s hm)) (Nat.mul_le_mul_left _ (Nat.pow_le_pow_right (by omega) (hR _)))
      exact Nat.le_trans (flatMap_length_le fun a _ => movesOf_length c a) (Nat.mul_le_mul_right _ (closureOf_length _ _))
    rw [h3]
    refine Nat.le_trans (flatMap_length_le bound) ?_
    have e1 : (runs.flatMap (movesOf nfa c)).length ≤ runs.length * nfa.degree :=
      flatMap_length_le fun a _ => movesOf_length c a
    refine Nat.le_trans (Nat.mul_le_mul_right _ e1) ?_
    rw [← Nat.mul_assoc, Nat.mul_assoc runs.length]
    refine Nat.mul_le_mul (Nat.mul_le_mul_left _ (by omega)) (Nat.pow_le_pow_left ?_ _)
    rw [List.length_cons, Nat.mul_add (fuel * nfa.degree)]
    omega

end

end Pango.Fsm
