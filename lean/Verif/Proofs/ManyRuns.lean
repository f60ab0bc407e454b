import Verif.Spec.Repeats
import Verif.Proofs.Count
import Verif.Proofs.PathFirst

/-!
# Lower bounds for the number of runs
-/

namespace Pango.Fsm

open Pango Pango.Regex

variable {α β : Type}

theorem length_flatMap_mem {f : α → List β} : ∀ {l : List α} {a : α}, a ∈ l → (f a).length ≤ (l.flatMap f).length := by
  intro l
  induction l with
  | nil => simp
  | cons b l ih =>
    intro a ha
    rw [List.flatMap_cons, List.length_append]
    rcases List.mem_cons.1 ha with rfl | ha
    · omega
    · have := ih ha; omega

theorem length_flatMap_two {f : α → List β} : ∀ {l : List α} {a b : α}, a ≠ b → a ∈ l → b ∈ l →
    (f a).length + (f b).length ≤ (l.flatMap f).length := by
  intro l
  induction l with
  | nil => simp
  | cons d l ih =>
    intro a b hab ha hb
    rw [List.flatMap_cons, List.length_append]
    rcases List.mem_cons.1 ha with rfl | ha
    · rcases List.mem_cons.1 hb with rfl | hb
      · exact absurd rfl hab
      · have := length_flatMap_mem (f := f) (l := l) hb; omega
    · rcases List.mem_cons.1 hb with rfl | hb
      · have := length_flatMap_mem (f := f) (l := l) (by assumption); omega
      · have := ih hab ha hb; omega

section paths

variable [Unicode] {E : Nat → Input → Nat → Prop}

/-- A path that reads a character in the middle. -/
theorem Path.split_char {n p p' : Nat} {κ κ' : Counts} {u v : List Char} {c : Char}
    (h : Path E n p κ (u ++ c :: v) p' κ') :
    ∃ n1 n2 p1 d κ1 κ2, Path E n1 p κ u p1 κ1 ∧ CStep E p1 κ1 [c] d κ2 ∧ Path E n2 d κ2 v p' κ' := by
  generalize hv : u ++ c :: v = w at h
  induction h generalizing u with
  | refl => simp at hv
  | @cons n p d p' κ κ1 κ' a w' hs hp ih =>
    cases hs with
    | eps he =>
      obtain ⟨n1, n2, p1, d', κ2, κ3, h1, h2, h3⟩ := ih hv
      exact ⟨n1 + 1, n2, p1, d', κ2, κ3, by simpa using Path.cons (.eps he) h1, h2, h3⟩
    | quant he hq =>
      obtain ⟨n1, n2, p1, d', κ2, κ3, h1, h2, h3⟩ := ih hv
      exact ⟨n1 + 1, n2, p1, d', κ2, κ3, by simpa using Path.cons (.quant he hq) h1, h2, h3⟩
    | @char _ _ l c' he hc =>
      cases u with
      | nil =>
        simp only [List.nil_append] at hv
        obtain ⟨rfl, rfl⟩ := hv
        exact ⟨0, n, p, d, κ, _, .refl _ _, .char he hc, hp⟩
      | cons a u =>
        simp only [List.cons_append, List.cons.injEq, List.nil_append] at hv
        obtain ⟨rfl, hv⟩ := hv
        obtain ⟨n1, n2, p1, d', κ2, κ3, h1, h2, h3⟩ := ih hv
        exact ⟨n1 + 1, n2, p1, d', κ2, κ3, Path.cons (.char he hc) h1, h2, h3⟩

theorem Path.mono {F : Nat → Input → Nat → Prop} (hf : ∀ x i y, E x i y → F x i y) {n p p' : Nat} {κ κ' : Counts}
    {w : List Char} (h : Path E n p κ w p' κ') : Path F n p κ w p' κ' := by
  induction h with
  | refl => exact .refl _ _
  | cons hs _ ih => exact .cons (hs.mono hf) ih

theorem CStep.grows {x : Nat} (hx : ∀ q y, ¬ E x (.quantified q) y) {p d : Nat} {κ κ' : Counts} {w : List Char}
    (h : CStep E p κ w d κ') : κ x ≤ κ' x ∧ (p = x → κ x + 1 ≤ κ' x) := by
  by_cases e : x = p
  · subst e
    cases h with
    | eps _ => rw [κ.bump_self]; omega
    | quant h _ => exact absurd h (hx _ _)
    | char _ _ => rw [κ.bump_self]; omega
  · rw [h.others e]
    exact ⟨Nat.le_refl _, fun h => absurd h.symm e⟩

/-- A counter that is never set back only grows. -/
theorem Path.grows {x : Nat} (hx : ∀ q y, ¬ E x (.quantified q) y) {n p p' : Nat} {κ κ' : Counts} {w : List Char}
    (h : Path E n p κ w p' κ') : κ x ≤ κ' x ∧ (p = x → n ≠ 0 → κ x + 1 ≤ κ' x) := by
  induction h with
  | refl => exact ⟨Nat.le_refl _, fun _ h => absurd rfl h⟩
  | cons hs _ ih =>
    have := hs.grows hx
    exact ⟨by omega, fun e _ => by have := this.2 e; omega⟩

theorem CStep.char_inv {p d : Nat} {κ κ' : Counts} {c : Char} (h : CStep E p κ [c] d κ') :
    ∃ l, E p (.literal l) d ∧ l.contains c = true ∧ κ' = κ.bump p := by
  generalize hu : [c] = u at h
  cases h with
  | eps => cases hu
  | quant => cases hu
  | char he hc => cases hu; exact ⟨_, he, hc, rfl⟩

/-- A path that reads the character `c` after `u` and before `v`: the place and the counters then, and the edge that is
taken. -/
structure Branch (E : Nat → Input → Nat → Prop) (s t : Nat) (κ : Counts) (u : List Char) (c : Char) (v : List Char)
    (A : Counts → Prop) (x : (Nat × Counts) × (Lit × Nat)) : Prop where
  before : ∃ n, Path E n s κ u x.1.1 x.1.2
  edge : E x.1.1 (.literal x.2.1) x.2.2
  reads : x.2.1.contains c = true
  after : ∃ n κ', Path E n x.2.2 (x.1.2.bump x.1.1) v t κ' ∧ A κ'

/-- Two paths for a word that are different when they read some character. -/
def Fork (E : Nat → Input → Nat → Prop) (s t : Nat) (κ : Counts) (w : List Char) (A : Counts → Prop) : Prop :=
  ∃ u c v x y, w = u ++ c :: v ∧ x ≠ y ∧ Branch E s t κ u c v A x ∧ Branch E s t κ u c v A y

theorem Branch.of_path {s t n : Nat} {κ κ' : Counts} {u v : List Char} {c : Char} {A : Counts → Prop}
    (h : Path E n s κ (u ++ c :: v) t κ') (ha : A κ') : ∃ x, Branch E s t κ u c v A x := by
  obtain ⟨n1, n2, p, d, κ1, κ2, h1, h2, h3⟩ := h.split_char
  obtain ⟨l, h4, h5, rfl⟩ := h2.char_inv
  exact ⟨((p, κ1), (l, d)), ⟨_, h1⟩, h4, h5, _, _, h3, ha⟩

theorem Branch.mono {F : Nat → Input → Nat → Prop} (hf : ∀ x i y, E x i y → F x i y) {s t : Nat} {κ : Counts}
    {u v : List Char} {c : Char} {A : Counts → Prop} {x : (Nat × Counts) × (Lit × Nat)} (h : Branch E s t κ u c v A x) :
    Branch F s t κ u c v A x := by
  obtain ⟨⟨n, h1⟩, h2, h3, n', κ', h4, h5⟩ := h
  exact ⟨⟨n, h1.mono hf⟩, hf _ _ _ h2, h3, n', κ', h4.mono hf, h5⟩

theorem Branch.prepend {s s' t n : Nat} {κ κ0 : Counts} {u0 u v : List Char} {c : Char} {A : Counts → Prop}
    {x : (Nat × Counts) × (Lit × Nat)} (hp : Path E n s' κ0 u0 s κ) (h : Branch E s t κ u c v A x) :
    Branch E s' t κ0 (u0 ++ u) c v A x := by
  obtain ⟨⟨n, h1⟩, h2, h3, h4⟩ := h
  exact ⟨⟨_, hp.append h1⟩, h2, h3, h4⟩

theorem Branch.extend {s t t' : Nat} {κ : Counts} {u v v0 : List Char} {c : Char} {A B : Counts → Prop}
    {x : (Nat × Counts) × (Lit × Nat)} (h : Branch E s t κ u c v A x)
    (hx : ∀ κ', A κ' → ∃ n κ'', Path E n t κ' v0 t' κ'' ∧ B κ'') : Branch E s t' κ u c (v ++ v0) B x := by
  obtain ⟨h1, h2, h3, n', κ', h4, h5⟩ := h
  obtain ⟨n'', κ'', h6, h7⟩ := hx κ' h5
  exact ⟨h1, h2, h3, _, _, h4.append h6, h7⟩

theorem Fork.mono {F : Nat → Input → Nat → Prop} (hf : ∀ x i y, E x i y → F x i y) {s t : Nat} {κ : Counts}
    {w : List Char} {A : Counts → Prop} (h : Fork E s t κ w A) : Fork F s t κ w A := by
  obtain ⟨u, c, v, x, y, h1, h2, h3, h4⟩ := h
  exact ⟨u, c, v, x, y, h1, h2, h3.mono hf, h4.mono hf⟩

theorem Fork.prepend {s s' t n : Nat} {κ κ0 : Counts} {u0 w : List Char} {A : Counts → Prop}
    (hp : Path E n s' κ0 u0 s κ) (h : Fork E s t κ w A) : Fork E s' t κ0 (u0 ++ w) A := by
  obtain ⟨u, c, v, x, y, rfl, h2, h3, h4⟩ := h
  exact ⟨u0 ++ u, c, v, x, y, by simp, h2, h3.prepend hp, h4.prepend hp⟩

theorem Fork.extend {s t t' : Nat} {κ : Counts} {w v0 : List Char} {A B : Counts → Prop} (h : Fork E s t κ w A)
    (hx : ∀ κ', A κ' → ∃ n κ'', Path E n t κ' v0 t' κ'' ∧ B κ'') : Fork E s t' κ (w ++ v0) B := by
  obtain ⟨u, c, v, x, y, rfl, h2, h3, h4⟩ := h
  exact ⟨u, c, v ++ v0, x, y, by simp, h2, h3.extend hx, h4.extend hx⟩

/-- What a path through a fragment does to the counters. -/
def Fr.Done (fr : Fr) (s : Nat) (κ κ' : Counts) : Prop :=
  κ' s = κ s + 1 ∧ (∀ h ∈ fr.heads, κ' h = 0) ∧ ∀ y, y ≠ s → y ∉ fr.inner → κ' y = κ y

theorem Fr.passes {fr : Fr} {s t : Nat} {κ : Counts} {w : List Char} (ok : fr.Ok s t)
    (hE : ∀ x i y, fr.Edge x i y → E x i y) (hw : fr.Lang w) (hz : ∀ h ∈ fr.heads, κ h = 0) :
    ∃ n κ', Path E n s κ w t κ' ∧ fr.Done s κ κ' := Fr.complete ok hE hw hz

/-- What rounds of a loop do to the counters. -/
def Fr.DoneAll (body : Fr) (x k : Nat) (κ κ' : Counts) : Prop :=
  κ' x = κ x + k ∧ (∀ h ∈ body.heads, κ' h = 0) ∧ ∀ y, y ≠ x → y ∉ body.inner → κ' y = κ y

theorem Fr.around {body : Fr} {x : Nat} (ok : body.Ok x x) (hE : ∀ x i y, body.Edge x i y → E x i y)
    (ws : List (List Char)) {κ : Counts} (hws : ∀ u ∈ ws, body.Lang u) (hz : ∀ h ∈ body.heads, κ h = 0) :
    ∃ n κ', Path E n x κ ws.flatten x κ' ∧ body.DoneAll x ws.length κ κ' := Fr.rounds ok hE ws κ hws hz

omit [Unicode] in
theorem Fr.DoneAll.trans {body : Fr} {x i j : Nat} {κ κ1 κ2 : Counts} (h : body.DoneAll x i κ κ1)
    (h' : body.DoneAll x j κ1 κ2) : body.DoneAll x (i + j) κ κ2 :=
  ⟨by rw [h'.1, h.1]; omega, h'.2.1, fun y hy hn => by rw [h'.2.2 y hy hn, h.2.2 y hy hn]⟩

omit [Unicode] in
theorem Fr.Ok.no_quant {fr : Fr} {s t : Nat} (ok : fr.Ok s t) : ∀ q y, ¬ fr.Edge s (.quantified q) y :=
  fun _ _ h => ok.s_out (Fr.quant_inner ok.shape h)

/-- If a text can be divided in two ways then there are two different paths: they are not in the same place with the
same counters when they read some character. -/
theorem Fr.fork_rounds {body : Fr} {x : Nat} (ok : body.Ok x x) {cs r1 r2 : List (List Char)} {u v v2 : List Char}
    {c : Char} {κ : Counts} (hz : ∀ h ∈ body.heads, κ h = 0) (hcs : ∀ w ∈ cs, body.Lang w) (hr1 : ∀ w ∈ r1, body.Lang w)
    (hr2 : ∀ w ∈ r2, body.Lang w) (hu : body.Lang u) (hu2 : body.Lang (u ++ c :: v2)) (hne : u ≠ [])
    (h1 : r1.flatten = c :: v) (h2 : v2 ++ r2.flatten = v) :
    Fork body.Edge x x κ (cs.flatten ++ u ++ c :: v) fun κ' =>
      body.DoneAll x (cs.length + 1 + r1.length) κ κ' ∨ body.DoneAll x (cs.length + 1 + r2.length) κ κ' := by
  have hF : ∀ x i y, body.Edge x i y → body.Edge x i y := fun _ _ _ h => h
  obtain ⟨n0, κ0, a1, a2⟩ := Fr.around (E := body.Edge) ok hF cs hcs hz
  -- the first path
  obtain ⟨n1, κa, b1, b2⟩ := Fr.passes (E := body.Edge) ok hF hu a2.2.1
  obtain ⟨n2, κb, c1, c2⟩ := Fr.around (E := body.Edge) ok hF r1 hr1 b2.2.1
  rw [h1] at c1
  obtain ⟨⟨⟨p1, κ1⟩, l1, d1⟩, e⟩ := Branch.of_path (u := []) (A := fun κ' => κ' = κb) c1 rfl
  -- the second path
  obtain ⟨n3, κd, f1, f2⟩ := Fr.passes (E := body.Edge) ok hF hu2 a2.2.1
  obtain ⟨⟨⟨p2, κ2⟩, l2, d2⟩, g⟩ := Branch.of_path (A := fun κ' => κ' = κd) f1 rfl
  obtain ⟨n4, κe, k1, k2⟩ := Fr.around (E := body.Edge) ok hF r2 hr2 f2.2.1
  refine ⟨cs.flatten ++ u, c, v, ((p1, κ1), (l1, d1)), ((p2, κ2), (l2, d2)), rfl, ?_, ?_, ?_⟩
  · intro he
    simp only [Prod.mk.injEq] at he
    obtain ⟨⟨rfl, rfl⟩, rfl, rfl⟩ := he
    obtain ⟨m1, e1⟩ := e.before
    obtain ⟨m3, g1⟩ := g.before
    obtain ⟨m4, _, g3, rfl⟩ := g.after
    simp only at e1 g1 g3
    have l1 := g1.grows ok.no_quant
    have l2 := (CStep.char (κ := κ1) g.edge g.reads).grows ok.no_quant
    have l3 := g3.grows ok.no_quant
    have l4 := e1.grows ok.no_quant
    simp only at l2
    have m3ne : m3 ≠ 0 := by
      rintro rfl
      cases g1
      exact hne rfl
    have l5 := l1.2 rfl m3ne
    have e1' := b2.1
    have e2' := f2.1
    have hp : p1 ≠ x := fun h => by have := l2.2 h; omega
    have m1ne : m1 ≠ 0 := by
      rintro rfl
      cases e1
      exact hp rfl
    have := l4.2 rfl m1ne
    omega
  · have := (e.prepend (a1.append b1)).extend (v0 := []) (t' := x)
      (B := fun κ' => body.DoneAll x (cs.length + 1 + r1.length) κ κ' ∨
        body.DoneAll x (cs.length + 1 + r2.length) κ κ') fun κ' hk =>
      ⟨0, κ', .refl _ _, .inl (hk ▸ (a2.trans (j := 1) b2).trans c2)⟩
    simpa using this
  · rw [← h2]
    exact (g.prepend a1).extend fun κ' hk => ⟨n4, κe, hk ▸ k1, .inr ((a2.trans (j := 1) f2).trans k2)⟩

end paths

section runs

variable [Unicode] {nfa : Nfa} {rs : List (Fr × Nat)}

/-- The runs that come from a run by reading a word. -/
def runsFrom (nfa : Nfa) (fuel : Nat) : List Char → Run → List Run
  | [], r => [r]
  | c :: v, r => (movesOf nfa c r).flatMap (outs (stepOf nfa fuel) (closureOf nfa fuel) v)

theorem outs_runsFrom (fuel : Nat) : ∀ (v : List Char) (s : Run),
    outs (stepOf nfa fuel) (closureOf nfa fuel) v s = (closureOf nfa fuel s).flatMap (runsFrom nfa fuel v)
  | [], s => by
    show closureOf nfa fuel s = (closureOf nfa fuel s).flatMap fun r => [r]
    simp
  | c :: v, s => by
    simp only [outs, stepOf, List.flatMap_assoc]
    rfl

theorem outs_append (fuel : Nat) (v : List Char) : ∀ (u : List Char) (s : Run),
    outs (stepOf nfa fuel) (closureOf nfa fuel) (u ++ v) s =
      (outs (stepOf nfa fuel) (closureOf nfa fuel) u s).flatMap (runsFrom nfa fuel v)
  | [], s => outs_runsFrom fuel v s
  | c :: u, s => by
    simp only [List.cons_append, outs, List.flatMap_assoc]
    exact flatMap_same fun a _ => outs_append fuel v u a

/-- A run that can be closed. -/
structure Sound (nfa : Nfa) (rs : List (Fr × Nat)) (r : Run) : Prop where
  sorted : r.counters.Sorted
  quiet : Quiets rs r.counts r.state
  lt : r.state < nfa.states.length

theorem Sound.closed (b : Bundle nfa rs) (nn : ∀ r ∈ rs, r.1.NonNull) {fuel : Nat} (hf : simFuel nfa rs ≤ fuel)
    {s : Run} (hs : Sound nfa rs s) {n p : Nat} {κ : Counts} (h : Path nfa.HasEdge n s.state s.counts [] p κ) :
    ∃ r ∈ closureOf nfa fuel s, Sound nfa rs r ∧ r.state = p ∧ r.counts = κ := by
  obtain ⟨res, h1⟩ := b.epsClosure nn hf hs.sorted hs.quiet hs.lt
  obtain ⟨r, k1, k2, k3, k4⟩ := KReach.of_path b.wf hs.sorted h
  refine ⟨r, ?_, ⟨k4, ?_, ?_⟩, k2, k3⟩
  · rw [closureOf, h1]
    rw [epsClosure_eq] at h1
    exact ((worklist_single h1).1 r).2 (reaches_iff_kreach.2 ⟨_, k1⟩)
  · rw [k2, k3]; exact hs.quiet.path b h
  · rw [k2]; exact b.state_lt h hs.lt

theorem Sound.moved (b : Bundle nfa rs) {r : Run} (hr : Sound nfa rs r) {c : Char} {d : Nat} {κ : Counts}
    (h : CStep nfa.HasEdge r.state r.counts [c] d κ) :
    ∃ a ∈ movesOf nfa c r, Sound nfa rs a ∧ a.state = d ∧ a.counts = κ := by
  have hst := b.wf.getState hr.lt
  have hp := hr.quiet.path b (.single h)
  obtain ⟨i, he'⟩ := h.edge
  have hl := (b.wf.edge_lt he').2
  generalize hu : [c] = u at h
  cases h with
  | eps => cases hu
  | quant => cases hu
  | @char _ _ l c' he hc =>
    cases hu
    obtain ⟨k1, k2, k3⟩ := r.take_eps hr.sorted d
    refine ⟨r.takeTransition d false, ?_, ⟨k2, by rw [k1, k3]; exact hp, by rw [k1]; exact hl⟩, k1, k3⟩
    rw [movesOf, hst]
    exact List.mem_map_of_mem (mem_charMoves.2 ⟨l, (b.wf.hasEdge_iff hst).1 he, hc⟩)

/-- Every path is followed by a run. -/
theorem Sound.follow (b : Bundle nfa rs) (nn : ∀ r ∈ rs, r.1.NonNull) {fuel : Nat} (hf : simFuel nfa rs ≤ fuel) :
    ∀ {v : List Char} {s : Run}, Sound nfa rs s → ∀ {n p : Nat} {κ : Counts},
    Path nfa.HasEdge n s.state s.counts v p κ →
    ∃ r ∈ outs (stepOf nfa fuel) (closureOf nfa fuel) v s, Sound nfa rs r ∧ r.state = p ∧ r.counts = κ := by
  intro v
  induction v with
  | nil => intro s hs n p κ h; exact hs.closed b nn hf h
  | cons c v ih =>
    intro s hs n p κ h
    obtain ⟨n1, n2, p1, d, κ1, κ2, h1, h2, h3⟩ := Path.split_char (u := []) h
    obtain ⟨r, r1, r2, rfl, rfl⟩ := hs.closed b nn hf h1
    obtain ⟨a, a1, a2, rfl, rfl⟩ := r2.moved b h2
    obtain ⟨r', r3, r4⟩ := ih a2 h3
    exact ⟨r', List.mem_flatMap.2 ⟨a, List.mem_flatMap.2 ⟨r, r1, a1⟩, r3⟩, r4⟩

/-- Two edges lead to runs that are listed both. -/
theorem moves_two {r : Run} {st : NState} (hst : nfa.getState r.state = .ok st) {c : Char} {a b : Lit × Nat}
    (hab : a ≠ b) (ha : (.literal a.1, a.2) ∈ st.edges) (hb : (.literal b.1, b.2) ∈ st.edges)
    (ha' : a.1.contains c = true) (hb' : b.1.contains c = true) (f : Run → List β) :
    (f (r.takeTransition a.2 false)).length + (f (r.takeTransition b.2 false)).length ≤
      ((movesOf nfa c r).flatMap f).length := by
  have e : (movesOf nfa c r).flatMap f =
      st.edges.flatMap fun e => if e.1.canTake c then f (r.takeTransition e.2 false) else [] := by
    rw [movesOf, hst]
    simp only [NState.charMoves]
    generalize st.edges = es
    induction es with
    | nil => rfl
    | cons e es ih =>
      rw [List.flatMap_cons, ← ih]
      by_cases h : e.1.canTake c = true <;> simp [h]
  rw [e]
  have := length_flatMap_two (l := st.edges)
    (f := fun e : Input × Nat => if e.1.canTake c then f (r.takeTransition e.2 false) else []) (a := (.literal a.1, a.2))
    (b := (.literal b.1, b.2)) (fun h => hab (by cases a; cases b; cases h; rfl)) ha hb
  simpa [Input.canTake, ha', hb'] using this

/-- Reading a word for which there are two paths doubles the number of runs. -/
theorem Sound.doubles (b : Bundle nfa rs) (nn : ∀ r ∈ rs, r.1.NonNull) {fuel : Nat} (hf : simFuel nfa rs ≤ fuel)
    {A : Counts → Prop} {x : Nat} {w : List Char} (hw : ∀ κ, A κ → Fork nfa.HasEdge x x κ w A) :
    ∀ (n : Nat) {v : List Char} {s : Run}, Sound nfa rs s → ∀ {m : Nat} {κ : Counts},
    Path nfa.HasEdge m s.state s.counts v x κ → A κ →
    2 ^ n ≤ (outs (stepOf nfa fuel) (closureOf nfa fuel) (v ++ (List.replicate n w).flatten) s).length := by
  intro n
  induction n with
  | zero =>
    intro v s hs m κ h _
    obtain ⟨r, hr, _⟩ := hs.follow b nn hf h
    rw [List.replicate_zero, List.flatten_nil, List.append_nil]
    exact List.length_pos_of_mem hr
  | succ n ih =>
    intro v s hs m κ h hz
    obtain ⟨u, c, v1, y1, y2, h1, h2, h3, h4⟩ := hw κ hz
    have one : ∀ y, Branch nfa.HasEdge x x κ u c v1 A y →
        ∃ r ∈ outs (stepOf nfa fuel) (closureOf nfa fuel) (v ++ u) s, Sound nfa rs r ∧ (r.state, r.counts) = y.1 ∧
        ∀ r', Sound nfa rs r' → (r'.state, r'.counts) = y.1 → r'.takeTransition y.2.2 false ∈ movesOf nfa c r' ∧
          2 ^ n ≤ (outs (stepOf nfa fuel) (closureOf nfa fuel) (v1 ++ (List.replicate n w).flatten)
            (r'.takeTransition y.2.2 false)).length := by
      rintro ⟨⟨p, κ1⟩, l, d⟩ ⟨⟨n1, g1⟩, g2, g3, n2, κ2, g4, g5⟩
      obtain ⟨r, k1, k2, k3, k4⟩ := hs.follow b nn hf (h.append g1)
      refine ⟨r, k1, k2, by rw [k3, k4], ?_⟩
      rintro r' s1 e
      simp only [Prod.mk.injEq] at e g2 g3 g4
      obtain ⟨rfl, rfl⟩ := e
      obtain ⟨a1, a2, a3⟩ := r'.take_eps s1.sorted d
      have hs' : CStep nfa.HasEdge r'.state r'.counts [c] d (r'.counts.bump r'.state) := .char g2 g3
      have hst := b.wf.getState s1.lt
      refine ⟨?_, ih (m := n2) (κ := κ2) ⟨a2, ?_, ?_⟩ ?_ g5⟩
      · rw [movesOf, hst]
        exact List.mem_map_of_mem (mem_charMoves.2 ⟨l, (b.wf.hasEdge_iff hst).1 g2, g3⟩)
      · rw [a1, a3]; exact s1.quiet.path b (.single hs')
      · rw [a1]; exact (b.wf.edge_lt g2).2
      · rw [a1, a3]; exact g4
    obtain ⟨a, a1, a2, a3, a4⟩ := one y1 h3
    obtain ⟨a', b1, b2, b3, b4⟩ := one y2 h4
    have e : v ++ (List.replicate (n + 1) w).flatten = (v ++ u) ++ c :: (v1 ++ (List.replicate n w).flatten) := by
      rw [List.replicate_succ, List.flatten_cons, h1]
      simp
    rw [e, outs_append, Nat.pow_succ]
    by_cases hd : y1.1 = y2.1
    · have hd2 : y1.2 ≠ y2.2 := fun h => h2 (Prod.ext hd h)
      have hst := b.wf.getState a2.lt
      have f1 : nfa.HasEdge a.state (.literal y1.2.1) y1.2.2 := by
        have := h3.edge
        rwa [← a3] at this
      have f2 : nfa.HasEdge a.state (.literal y2.2.1) y2.2.2 := by
        have := h4.edge
        rwa [← hd, ← a3] at this
      have g1 := (a4 a a2 a3).2
      have g2 := (b4 a a2 (a3.trans hd)).2
      have := moves_two hst hd2 ((b.wf.hasEdge_iff hst).1 f1) ((b.wf.hasEdge_iff hst).1 f2) h3.reads h4.reads
        (outs (stepOf nfa fuel) (closureOf nfa fuel) (v1 ++ (List.replicate n w).flatten))
      have k := length_flatMap_mem (f := runsFrom nfa fuel (c :: (v1 ++ (List.replicate n w).flatten))) a1
      simp only [runsFrom] at k ⊢
      omega
    · have hd' : a ≠ a' := by
        rintro rfl
        exact hd (a3.symm.trans b3)
      have := length_flatMap_two (f := runsFrom nfa fuel (c :: (v1 ++ (List.replicate n w).flatten))) hd' a1 b1
      have g1 := (a4 a a2 a3)
      have g2 := (b4 a' b2 b3)
      have k1 := length_flatMap_mem (l := movesOf nfa c a)
        (f := outs (stepOf nfa fuel) (closureOf nfa fuel) (v1 ++ (List.replicate n w).flatten)) g1.1
      have k2 := length_flatMap_mem (l := movesOf nfa c a')
        (f := outs (stepOf nfa fuel) (closureOf nfa fuel) (v1 ++ (List.replicate n w).flatten)) g2.1
      simp only [runsFrom] at this ⊢
      omega

/-- The same for the simulator. -/
theorem Bundle.doubles (b : Bundle nfa rs) (nn : ∀ r ∈ rs, r.1.NonNull) {fuel : Nat} (hf : simFuel nfa rs ≤ fuel)
    {A : Counts → Prop} {x : Nat} {w : List Char} (hw : ∀ κ, A κ → Fork nfa.HasEdge x x κ w A)
    {runs0 runs : List Run} (ht : Tracks nfa runs0 []) {last last' : Option Bool}
    {c : Char} {z : List Char} {n m p d : Nat} {κ0 κ : Counts} (hp : SReach nfa.HasEdge 0 p)
    (hs : CStep nfa.HasEdge p (fun _ => 0) [c] d κ0) (h : Path nfa.HasEdge m d κ0 z x κ) (ha : A κ)
    (hfeed : nfa.feedAll fuel runs0 last (c :: z ++ (List.replicate n w).flatten) = .ok (runs, last')) :
    2 ^ n ≤ runs.length := by
  obtain ⟨r, hr, rfl, e⟩ := ht.complete p p (fun _ => 0) hp (.refl _ _)
  rw [← e] at hs
  have sr : Sound nfa rs r := ⟨ht.sorted r hr, ht.quiet b hr, ht.lt b hr⟩
  obtain ⟨a, a1, a2, rfl, rfl⟩ := sr.moved b hs
  simp only [List.cons_append, Nfa.feedAll, Outcome.bind_eq_ok] at hfeed
  obtain ⟨⟨runs1, acc⟩, h1, h2⟩ := hfeed
  rw [feedRuns_moves (feed_ok h1).1] at h2
  rw [feedAll_outs h2]
  exact Nat.le_trans (a2.doubles b nn hf hw n h ha) (length_flatMap_mem (List.mem_flatMap.2 ⟨r, hr, a1⟩))

end runs

end Pango.Fsm
