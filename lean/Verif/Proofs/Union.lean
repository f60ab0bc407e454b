import Verif.Proofs.Runs
import Verif.Proofs.Matching

/-!
# The automaton of a lexer and the automata of its patterns

The automaton of a lexer contains a copy of the automaton of each of its patterns.  After reading a word its
runs are the runs of all of these.
-/

namespace Pango.Fsm

open Pango Pango.Regex Pango.Spec

/-! ## Renaming the states of a fragment -/

/-- The fragment with its states renamed. -/
def Fr.map (ρ : Nat → Nat) : Fr → Fr
  | .eps s t => .eps (ρ s) (ρ t)
  | .lit s t l => .lit (ρ s) (ρ t) l
  | .alt a b => .alt (a.map ρ) (b.map ρ)
  | .seq a m b => .seq (a.map ρ) (ρ m) (b.map ρ)
  | .loop s x t q body => .loop (ρ s) (ρ x) (ρ t) q (body.map ρ)

theorem Fr.map_edge {ρ : Nat → Nat} {fr : Fr} {x y : Nat} {i : Input} :
    (fr.map ρ).Edge x i y ↔ ∃ x' y', x = ρ x' ∧ y = ρ y' ∧ fr.Edge x' i y' := by
  induction fr with
  | eps s t =>
    constructor
    · rintro ⟨rfl, rfl, rfl⟩; exact ⟨s, t, rfl, rfl, rfl, rfl, rfl⟩
    · rintro ⟨_, _, rfl, rfl, rfl, rfl, rfl⟩; exact ⟨rfl, rfl, rfl⟩
  | lit s t l =>
    constructor
    · rintro ⟨rfl, rfl, rfl⟩; exact ⟨s, t, rfl, rfl, rfl, rfl, rfl⟩
    · rintro ⟨_, _, rfl, rfl, rfl, rfl, rfl⟩; exact ⟨rfl, rfl, rfl⟩
  | alt a b iha ihb =>
    constructor
    · rintro (h | h)
      · obtain ⟨x', y', h1, h2, h3⟩ := iha.1 h; exact ⟨x', y', h1, h2, .inl h3⟩
      · obtain ⟨x', y', h1, h2, h3⟩ := ihb.1 h; exact ⟨x', y', h1, h2, .inr h3⟩
    · rintro ⟨x', y', h1, h2, h3 | h3⟩
      · exact .inl (iha.2 ⟨x', y', h1, h2, h3⟩)
      · exact .inr (ihb.2 ⟨x', y', h1, h2, h3⟩)
  | seq a m b iha ihb =>
    constructor
    · rintro (h | h)
      · obtain ⟨x', y', h1, h2, h3⟩ := iha.1 h; exact ⟨x', y', h1, h2, .inl h3⟩
      · obtain ⟨x', y', h1, h2, h3⟩ := ihb.1 h; exact ⟨x', y', h1, h2, .inr h3⟩
    · rintro ⟨x', y', h1, h2, h3 | h3⟩
      · exact .inl (iha.2 ⟨x', y', h1, h2, h3⟩)
      · exact .inr (ihb.2 ⟨x', y', h1, h2, h3⟩)
  | loop s h t q body ih =>
    constructor
    · rintro (⟨rfl, rfl, rfl⟩ | ⟨rfl, rfl, rfl⟩ | h)
      · exact ⟨s, h, rfl, rfl, .inl ⟨rfl, rfl, rfl⟩⟩
      · exact ⟨h, t, rfl, rfl, .inr (.inl ⟨rfl, rfl, rfl⟩)⟩
      · obtain ⟨x', y', h1, h2, h3⟩ := ih.1 h; exact ⟨x', y', h1, h2, .inr (.inr h3)⟩
    · rintro ⟨x', y', rfl, rfl, ⟨rfl, rfl, rfl⟩ | ⟨rfl, rfl, rfl⟩ | h3⟩
      · exact .inl ⟨rfl, rfl, rfl⟩
      · exact .inr (.inl ⟨rfl, rfl, rfl⟩)
      · exact .inr (.inr (ih.2 ⟨x', y', rfl, rfl, h3⟩))

mutual

theorem frag_le (e : Expr) (s t n : Nat) : n ≤ (frag e s t n).2 := by
  match e with
  | .concat es => rw [frag]; exact fragConcat_le es s t n
  | .empty => simp [frag]
  | .alt l r =>
    have h1 := frag_le l s t n
    have h2 := frag_le r s t (frag l s t n).2
    simp only [frag]
    omega
  | .lit l none => simp [frag]
  | .lit l (some q) => simp [frag]
  | .group e none => rw [frag]; exact frag_le e s t n
  | .group e (some q) =>
    have h1 := frag_le e n n (n + 1)
    simp only [frag]
    omega

theorem fragConcat_le (es : List Expr) (s t n : Nat) : n ≤ (fragConcat es s t n).2 := by
  match es with
  | [] => simp [fragConcat]
  | [e] => rw [fragConcat]; exact frag_le e s t n
  | e :: e' :: es =>
    have h1 := frag_le e s n (n + 1)
    have h2 := fragConcat_le (e' :: es) n t (frag e s n (n + 1)).2
    rw [fragConcat.eq_3 _ _ _ _ _ (by simp)]
    simp only
    omega

end

section rename

variable {ρ : Nat → Nat} {d : Nat}

mutual

theorem frag_map (e : Expr) (s t n : Nat) (h : ∀ k, n ≤ k → ρ k = k + d) :
    frag e (ρ s) (ρ t) (n + d) = ((frag e s t n).1.map ρ, (frag e s t n).2 + d) := by
  match e with
  | .concat es => simp only [frag]; exact fragConcat_map es s t n h
  | .empty => simp [frag, Fr.map]
  | .alt l r =>
    have h1 := frag_map l s t n h
    have h2 := frag_map r s t (frag l s t n).2 (fun k hk => h k (by have := frag_le l s t n; omega))
    simp only [frag, h1, h2, Fr.map]
  | .lit l none => simp [frag, Fr.map]
  | .lit l (some q) =>
    simp only [frag, Fr.map, h n (Nat.le_refl n), Prod.mk.injEq, true_and]
    omega
  | .group e none => simp only [frag]; exact frag_map e s t n h
  | .group e (some q) =>
    have h1 := frag_map e n n (n + 1) (fun k hk => h k (by omega))
    rw [h n (Nat.le_refl n), Nat.add_right_comm] at h1
    simp only [frag, h1, Fr.map, h n (Nat.le_refl n)]

theorem fragConcat_map (es : List Expr) (s t n : Nat) (h : ∀ k, n ≤ k → ρ k = k + d) :
    fragConcat es (ρ s) (ρ t) (n + d) = ((fragConcat es s t n).1.map ρ, (fragConcat es s t n).2 + d) := by
  match es with
  | [] => simp [fragConcat, Fr.map]
  | [e] => simp only [fragConcat]; exact frag_map e s t n h
  | e :: e' :: es =>
    have h1 := frag_map e s n (n + 1) (fun k hk => h k (by omega))
    rw [h n (Nat.le_refl n), Nat.add_right_comm] at h1
    have h2 := fragConcat_map (e' :: es) n t (frag e s n (n + 1)).2
      (fun k hk => h k (by have := frag_le e s n (n + 1); omega))
    rw [h n (Nat.le_refl n)] at h2
    rw [fragConcat.eq_3 _ _ _ _ _ (by simp), fragConcat.eq_3 _ _ _ _ _ (by simp)]
    simp only [h1, h2, Fr.map, h n (Nat.le_refl n)]

end

end rename

/-- Where the states of the automaton of a single pattern are in the automaton of the lexer, `f` being the
final state there. -/
def shift (f k : Nat) : Nat := if k = 0 then 0 else k + (f - 1)

theorem shift_zero (f : Nat) : shift f 0 = 0 := rfl

theorem shift_lt {f a b : Nat} : shift f a < shift f b ↔ a < b := by
  unfold shift; split <;> split <;> omega

theorem shift_inj {f a b : Nat} : shift f a = shift f b ↔ a = b := by
  unfold shift; split <;> split <;> omega

theorem shift_one {f : Nat} (hf : 2 ≤ f) : shift f 1 = f := by simp [shift]; omega

theorem frag_shift (e : Expr) {f : Nat} (hf : 2 ≤ f) :
    (frag e 0 f (f + 1)).1 = (frag e 0 1 2).1.map (shift f) := by
  have := frag_map (ρ := shift f) (d := f - 1) e 0 1 2 (fun k hk => by unfold shift; split <;> omega)
  rw [shift_zero, shift_one hf, show 2 + (f - 1) = f + 1 by omega] at this
  rw [this]

/-! ## Renaming runs -/

/-- The counters with the states renamed. -/
def Counters.shift (f : Nat) (c : Counters) : Counters := c.map fun e => (Fsm.shift f e.1, e.2)

theorem Counters.count_shift (f : Nat) (c : Counters) (k : Nat) :
    (c.shift f).count (Fsm.shift f k) = c.count k := by
  induction c with
  | nil => rfl
  | cons e c ih =>
    obtain ⟨a, b⟩ := e
    simp only [Counters.shift, List.map_cons, Counters.count, shift_inj]
    split
    · rfl
    · exact ih

theorem Counters.update_shift (g : Nat → Nat) (f : Nat) (c : Counters) (k : Nat) :
    (c.shift f).update g (Fsm.shift f k) = (c.update g k).shift f := by
  induction c with
  | nil => rfl
  | cons e c ih =>
    obtain ⟨a, b⟩ := e
    simp only [Counters.shift, List.map_cons, Counters.update, shift_inj, shift_lt] at ih ⊢
    split
    · rfl
    · split
      · rfl
      · simp only [List.map_cons, ih]

/-- The run with the states renamed. -/
def Run.shift (f : Nat) (r : Run) : Run := ⟨Fsm.shift f r.state, r.counters.shift f⟩

theorem Run.take_shift (f : Nat) (r : Run) (d : Nat) (b : Bool) :
    (r.takeTransition d b).shift f = (r.shift f).takeTransition (Fsm.shift f d) b := by
  simp only [Run.shift, Run.takeTransition, Counters.update_shift]

theorem Counters.shift_inj {f : Nat} {c c' : Counters} (h : c.shift f = c'.shift f) : c = c' := by
  refine List.map_inj_right ?_ |>.1 h
  rintro ⟨a, b⟩ ⟨a', b'⟩ h
  simp only [Prod.mk.injEq, Fsm.shift_inj] at h
  simp [h]

theorem Run.shift_inj {f : Nat} {r r' : Run} (h : r.shift f = r'.shift f) : r = r' := by
  obtain ⟨a, b⟩ := r
  obtain ⟨a', b'⟩ := r'
  simp only [Run.shift, Run.mk.injEq, Fsm.shift_inj] at h
  rw [h.1, Counters.shift_inj h.2]

/-! ## One rule among others -/

/-- The automaton of one pattern inside the automaton of a lexer. -/
structure Part (nfa : Nfa) (rs : List (Fr × Nat)) (e : Expr) (f : Nat) (one : Nfa) : Prop where
  bundle : Bundle nfa rs
  mem : ((frag e 0 f (f + 1)).1, f) ∈ rs
  two : 2 ≤ f
  compiled : nfaOfAst e = .ok one
  single : Bundle one [((frag e 0 1 2).1, 1)]

section part

variable {nfa one : Nfa} {rs : List (Fr × Nat)} {e : Expr} {f : Nat}

theorem Part.edge (p : Part nfa rs e f one) {x y : Nat} {i : Input} :
    (frag e 0 f (f + 1)).1.Edge x i y ↔
      ∃ x' y', x = shift f x' ∧ y = shift f y' ∧ one.HasEdge x' i y' := by
  rw [frag_shift e p.two, Fr.map_edge]
  simp only [p.single.edges, List.mem_singleton, exists_eq_left]

/-- Edges of the pattern are edges of the lexer. -/
theorem Part.edge_in (p : Part nfa rs e f one) {x y : Nat} {i : Input} (h : one.HasEdge x i y) :
    nfa.HasEdge (shift f x) i (shift f y) :=
  (p.bundle.edges _ _ _).2 ⟨_, p.mem, p.edge.2 ⟨x, y, rfl, rfl, h⟩⟩

/-- States that edges lead to are in the fragment. -/
theorem Part.target (p : Part nfa rs e f one) {x y : Nat} {i : Input} (h : one.HasEdge x i y) :
    y ≠ 0 ∧ shift f y ∈ f :: (frag e 0 f (f + 1)).1.inner := by
  constructor
  · rintro rfl
    obtain ⟨r, hr, hy⟩ := p.single.target h
    exact (List.nodup_cons.1 p.single.nodup).1 (List.mem_flatMap.2 ⟨r, hr, hy⟩)
  · have := p.edge.2 ⟨x, y, rfl, rfl, h⟩
    rcases Fr.edge_target (p.bundle.shape _ p.mem) this with h | h
    · simp only at h; simp [h]
    · simp [h]

/-- Edges of the lexer that leave a state of the pattern are edges of the pattern. -/
theorem Part.edge_out (p : Part nfa rs e f one) {x y : Nat} {i : Input}
    (hx : shift f x ∈ f :: (frag e 0 f (f + 1)).1.inner) (h : nfa.HasEdge (shift f x) i y) :
    ∃ y', y = shift f y' ∧ one.HasEdge x i y' := by
  rcases List.mem_cons.1 hx with hx | hx
  · rw [hx] at h
    exact absurd h (p.bundle.final_no_edge p.mem)
  · obtain ⟨x', y', h1, h2, h3⟩ := p.edge.1 (p.bundle.closed p.mem _ hx _ _ h)
    rw [shift_inj.1 h1]
    exact ⟨y', h2, h3⟩

theorem Part.estep_in (p : Part nfa rs e f one) {r s : Run} (h : EStep one r s) :
    EStep nfa (r.shift f) (s.shift f) := by
  cases h with
  | eps h => rw [Run.take_shift]; exact .eps (p.edge_in h)
  | quant h hq =>
    rw [Run.take_shift]
    exact .quant (p.edge_in h) (by rw [Run.shift, Counters.count_shift]; exact hq)

theorem Part.er_in (p : Part nfa rs e f one) {r s : Run} (h : ER one r s) :
    ER nfa (r.shift f) (s.shift f) := by
  induction h with
  | refl => exact .refl
  | tail _ h ih => exact ih.tail (p.estep_in h)

theorem Part.estep_out (p : Part nfa rs e f one) {r s : Run}
    (hr : (r.shift f).state ∈ f :: (frag e 0 f (f + 1)).1.inner) (h : EStep nfa (r.shift f) s) :
    ∃ s', s = s'.shift f ∧ EStep one r s' := by
  cases h with
  | eps h =>
    obtain ⟨y, rfl, he⟩ := p.edge_out hr h
    exact ⟨_, (Run.take_shift f r y false).symm, .eps he⟩
  | quant h hq =>
    obtain ⟨y, rfl, he⟩ := p.edge_out hr h
    refine ⟨_, (Run.take_shift f r y true).symm, .quant he ?_⟩
    rwa [Run.shift, Counters.count_shift] at hq

theorem Part.er_out (p : Part nfa rs e f one) {r s : Run}
    (hr : (r.shift f).state ∈ f :: (frag e 0 f (f + 1)).1.inner) (h : ER nfa (r.shift f) s) :
    ∃ s', s = s'.shift f ∧ ER one r s' ∧ (s'.shift f).state ∈ f :: (frag e 0 f (f + 1)).1.inner := by
  generalize hr' : r.shift f = r' at h
  induction h with
  | refl => exact ⟨r, hr'.symm, .refl, hr⟩
  | tail _ hs ih =>
    obtain ⟨s', h1, h2, h3⟩ := ih
    subst h1
    obtain ⟨t', h4, h5⟩ := p.estep_out h3 hs
    obtain ⟨i, he⟩ := h5.edge
    exact ⟨t', h4, h2.tail h5, (p.target he).2⟩

variable [Unicode]

theorem Part.charStep_in (p : Part nfa rs e f one) {r s : Run} {c : Char} (h : CharStep one r c s) :
    CharStep nfa (r.shift f) c (s.shift f) := by
  cases h with
  | mk h hc => rw [Run.take_shift]; exact .mk (p.edge_in h) hc

/-- The runs of the pattern are runs of the lexer. -/
theorem Part.runs_in (p : Part nfa rs e f one) {w : List Char} {r : Run} (h : RunsAt one w r) :
    RunsAt nfa w (r.shift f) := by
  induction h with
  | @init x h =>
    rw [p.single.start] at h
    have : SReach nfa.HasEdge nfa.start (shift f x) := by
      rw [p.bundle.start]
      induction h with
      | refl => exact .refl _
      | eps _ he ih => exact ih.eps (p.edge_in he)
      | quant _ he hq ih => exact ih.quant (p.edge_in he) hq
    exact .init this
  | snoc _ h2 h3 ih => exact .snoc ih (p.charStep_in h2) (p.er_in h3)

end part

/-! ## All rules -/

/-- The automaton of a lexer, its fragments, and for each rule the automaton of its pattern. -/
structure Parts (nfa : Nfa) (rs : List (Fr × Nat)) (ps : List (Expr × Nat)) : Prop where
  bundle : Bundle nfa rs
  parts : rs = ps.map fun p => ((frag p.1 0 p.2 (p.2 + 1)).1, p.2)
  two : ∀ p ∈ ps, 2 ≤ p.2
  compiles : ∀ p ∈ ps, ¬ HasEmptySeq p.1

section parts

variable {nfa : Nfa} {rs : List (Fr × Nat)} {ps : List (Expr × Nat)}

theorem Parts.part (h : Parts nfa rs ps) {e : Expr} {f : Nat} (hp : (e, f) ∈ ps) :
    ∃ one, Part nfa rs e f one := by
  obtain ⟨one, h1, h2⟩ := nfaOfAst_bundle (h.compiles _ hp)
  exact ⟨one, h.bundle, by rw [h.parts]; exact List.mem_map.2 ⟨_, hp, rfl⟩, h.two _ hp, h1, h2⟩

theorem Parts.edge (h : Parts nfa rs ps) {x y : Nat} {i : Input} (he : nfa.HasEdge x i y) :
    ∃ e f one x' y', (e, f) ∈ ps ∧ Part nfa rs e f one ∧ x = shift f x' ∧ y = shift f y' ∧
      one.HasEdge x' i y' := by
  obtain ⟨r, hr, hedge⟩ := (h.bundle.edges _ _ _).1 he
  rw [h.parts] at hr
  obtain ⟨⟨e, f⟩, hp, rfl⟩ := List.mem_map.1 hr
  obtain ⟨one, p⟩ := h.part hp
  obtain ⟨x', y', h1, h2, h3⟩ := p.edge.1 hedge
  exact ⟨e, f, one, x', y', hp, p, h1, h2, h3⟩

theorem Parts.unique (h : Parts nfa rs ps) {e e' : Expr} {f f' : Nat} (hp : (e, f) ∈ ps)
    (hp' : (e', f') ∈ ps) {x : Nat} (hx : x ∈ f :: (frag e 0 f (f + 1)).1.inner)
    (hx' : x ∈ f' :: (frag e' 0 f' (f' + 1)).1.inner) : f = f' := by
  have := h.bundle.unique (r := ((frag e 0 f (f + 1)).1, f)) (r' := ((frag e' 0 f' (f' + 1)).1, f'))
    (by rw [h.parts]; exact List.mem_map.2 ⟨_, hp, rfl⟩)
    (by rw [h.parts]; exact List.mem_map.2 ⟨_, hp', rfl⟩) hx hx'
  exact congrArg Prod.snd this

variable [Unicode]

/-- The runs of a lexer are those of its patterns. -/
theorem Parts.runs_out (h : Parts nfa rs ps) {w : List Char} {r : Run} (hr : RunsAt nfa w r) :
    (w = [] ∧ r = ⟨0, []⟩) ∨ ∃ e f one r', (e, f) ∈ ps ∧ Part nfa rs e f one ∧ r = r'.shift f ∧
      RunsAt one w r' ∧ r.state ∈ f :: (frag e 0 f (f + 1)).1.inner := by
  induction hr with
  | @init x hx =>
    rw [h.bundle.start] at hx
    have : x = 0 ∨ ∃ e f one x', (e, f) ∈ ps ∧ Part nfa rs e f one ∧ x = shift f x' ∧
        SReach one.HasEdge 0 x' ∧ x ∈ f :: (frag e 0 f (f + 1)).1.inner := by
      have step : ∀ {x d : Nat} {i : Input}, (x = 0 ∨ ∃ e f one x', (e, f) ∈ ps ∧
          Part nfa rs e f one ∧ x = shift f x' ∧
          SReach one.HasEdge 0 x' ∧ x ∈ f :: (frag e 0 f (f + 1)).1.inner) → nfa.HasEdge x i d →
          (∀ {E : Nat → Input → Nat → Prop} {a b : Nat}, SReach E 0 a → E a i b → SReach E 0 b) →
          ∃ e f one x', (e, f) ∈ ps ∧ Part nfa rs e f one ∧ d = shift f x' ∧
          SReach one.HasEdge 0 x' ∧ d ∈ f :: (frag e 0 f (f + 1)).1.inner := by
        intro x d i hx he hstat
        rcases hx with rfl | ⟨e, f, one, x', hp, p, rfl, h1, h2⟩
        · obtain ⟨e, f, one, x', y', hp, p, h1, rfl, h3⟩ := h.edge he
          have : x' = 0 := by rw [← shift_zero f] at h1; exact (shift_inj.1 h1).symm
          subst this
          exact ⟨e, f, one, y', hp, p, rfl, hstat (.refl 0) h3, (p.target h3).2⟩
        · obtain ⟨y', rfl, h3⟩ := p.edge_out h2 he
          exact ⟨e, f, one, y', hp, p, rfl, hstat h1 h3, (p.target h3).2⟩
      induction hx with
      | refl => exact .inl rfl
      | eps _ he ih => exact .inr (step ih he (fun h1 h2 => h1.eps h2))
      | quant _ he hq ih => exact .inr (step ih he (fun h1 h2 => h1.quant h2 hq))
    rcases this with rfl | ⟨e, f, one, x', hp, p, rfl, h1, h2⟩
    · exact .inl ⟨rfl, rfl⟩
    · refine .inr ⟨e, f, one, ⟨x', []⟩, hp, p, rfl, .init ?_, h2⟩
      rw [p.single.start]
      exact h1
  | @snoc w c r s t hr hs ht ih =>
    refine .inr ?_
    have key : ∃ e f one s', (e, f) ∈ ps ∧ Part nfa rs e f one ∧ s = s'.shift f ∧
        (∃ r', RunsAt one w r' ∧ CharStep one r' c s') ∧
        s.state ∈ f :: (frag e 0 f (f + 1)).1.inner := by
      cases hs with
      | @mk l d he hc =>
        rcases ih with ⟨rfl, rfl⟩ | ⟨e, f, one, r', hp, p, rfl, h1, h2⟩
        · obtain ⟨e, f, one, x', y', hp, p, h1, rfl, h3⟩ := h.edge he
          have : x' = 0 := by
            simp only at h1
            rw [← shift_zero f] at h1; exact (shift_inj.1 h1).symm
          subst this
          refine ⟨e, f, one, (⟨0, []⟩ : Run).takeTransition y' false, hp, p, ?_,
            ⟨⟨0, []⟩, .init ?_, .mk h3 hc⟩, (p.target h3).2⟩
          · rw [Run.take_shift]; rfl
          · rw [p.single.start]; exact .refl 0
        · obtain ⟨y', rfl, h3⟩ := p.edge_out h2 he
          exact ⟨e, f, one, _, hp, p, (Run.take_shift f r' y' false).symm, ⟨r', h1, .mk h3 hc⟩,
            (p.target h3).2⟩
    obtain ⟨e, f, one, s', hp, p, rfl, ⟨r', h1, h2⟩, h3⟩ := key
    obtain ⟨t', rfl, h4, h5⟩ := p.er_out h3 ht
    exact ⟨e, f, one, t', hp, p, rfl, .snoc h1 h2 h4, h5⟩

/-- A final state of the lexer is reached exactly if the pattern it belongs to accepts. -/
theorem Parts.final_iff (h : Parts nfa rs ps) {e : Expr} {f : Nat} {one : Nfa} (hp : (e, f) ∈ ps)
    (p : Part nfa rs e f one) {w : List Char} :
    (∃ r, RunsAt nfa w r ∧ r.state = f) ↔ ∃ r, RunsAt one w r ∧ one.IsFinal r.state := by
  have h1 : ∀ k, one.IsFinal k ↔ k = 1 := by
    intro k; rw [p.single.finals]; simp
  constructor
  · rintro ⟨r, hr, hf⟩
    rcases h.runs_out hr with ⟨_, rfl⟩ | ⟨e', f', one', r', hp', p', rfl, h2, h3⟩
    · have := p.two; simp only at hf; omega
    · rw [hf] at h3
      have hff := h.unique hp hp' (x := f) (by simp) h3
      subst hff
      have hee : ((frag e 0 f (f + 1)).1, f) = ((frag e' 0 f (f + 1)).1, f) :=
        h.bundle.unique p.mem p'.mem (x := f) (by simp) (by simp)
      -- both patterns have the same fragment, hence the same automaton up to order of transitions
      have hfr : (frag e 0 f (f + 1)).1 = (frag e' 0 f (f + 1)).1 := (Prod.mk.inj hee).1
      have hr' : RunsAt nfa w (r'.shift f) := p'.runs_in h2
      have key : ∀ x i y, one'.HasEdge x i y → one.HasEdge x i y := by
        intro x i y he
        have h6 := p'.edge.2 ⟨x, y, rfl, rfl, he⟩
        rw [← hfr] at h6
        obtain ⟨x', y', h7, h8, h9⟩ := p.edge.1 h6
        rw [shift_inj.1 h7, shift_inj.1 h8]
        exact h9
      have hstep : ∀ {r s}, EStep one' r s → EStep one r s := by
        intro r s hs
        cases hs with
        | eps h => exact .eps (key _ _ _ h)
        | quant h hq => exact .quant (key _ _ _ h) hq
      have hrun : RunsAt one w r' := by
        clear hr hf h3 hr'
        induction h2 with
        | init hx =>
          refine .init ?_
          rw [p'.single.start] at hx
          rw [p.single.start]
          induction hx with
          | refl => exact .refl _
          | eps _ he ih => exact ih.eps (key _ _ _ he)
          | quant _ he hq ih => exact ih.quant (key _ _ _ he) hq
        | @snoc w c r s t _ hs ht ih =>
          refine .snoc (s := s) ih ?_ ?_
          · cases hs with
            | mk he hc => exact .mk (key _ _ _ he) hc
          · induction ht with
            | refl => exact .refl
            | tail _ he ih => exact ih.tail (hstep he)
      refine ⟨r', hrun, (h1 _).2 ?_⟩
      simp only [Run.shift] at hf
      rw [← shift_one p.two] at hf
      rw [shift_one p.two] at hf
      have : shift f r'.state = shift f 1 := by rw [hf, shift_one p.two]
      exact shift_inj.1 this
  · rintro ⟨r, hr, hf⟩
    refine ⟨r.shift f, p.runs_in hr, ?_⟩
    rw [Run.shift, (h1 _).1 hf, shift_one p.two]

/-- Runs end in final states of the rules only. -/
theorem Parts.final (h : Parts nfa rs ps) {w : List Char} {r : Run} (hr : RunsAt nfa w r)
    (hf : nfa.IsFinal r.state) : ∃ e, (e, r.state) ∈ ps := by
  have hs : r.state = 0 ∨ ∃ r' ∈ rs, r.state ∈ r'.2 :: r'.1.inner := by
    rcases h.runs_out hr with ⟨_, rfl⟩ | ⟨e', f', one', r', hp', p', rfl, h2, h3⟩
    · exact .inl rfl
    · exact .inr ⟨_, p'.mem, h3⟩
  have : ∃ r' ∈ rs, r.state = r'.2 := by
    rcases (h.bundle.finals _).1 hf with h1 | h1
    · exfalso
      rcases hs with hs | ⟨r', hr', hs⟩
      · omega
      · rcases List.mem_cons.1 hs with hs | hs
        · rw [h.parts] at hr'
          obtain ⟨p, hp, rfl⟩ := List.mem_map.1 hr'
          have := h.two p hp
          simp only at hs
          omega
        · have := h.bundle.two r' hr' _ hs
          omega
    · exact h1
  obtain ⟨r', hr', hs⟩ := this
  rw [h.parts] at hr'
  obtain ⟨⟨e, f⟩, hp, rfl⟩ := List.mem_map.1 hr'
  exact ⟨e, by rw [hs]; exact hp⟩

end parts

end Pango.Fsm
