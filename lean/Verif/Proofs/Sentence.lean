import Verif.Proofs.Cycle
import Verif.Proofs.TextMachine

/-!
# What has been read begins a sentence
-/

namespace Pango.Parse

open Pango Pango.Spec

variable {V T : Type} [TerminalEq T] {g : Grammar V T}

theorem forest_replicate_eps {k : Nat} {α : List (Sym V T)} {ns : List (Node V T)} {w : List T} (h : Forest g α ns w) :
    Forest g (List.replicate k .eps ++ α) ns w := by
  induction k with
  | zero => exact h
  | succ k ih => exact .eps ih

/-- What is on the stack can be completed to a sentence. -/
theorem viable_sentence (wf : WellFormed g) {γ : List (Sym V T)} {p : V × Item V T} (hv : Viable g γ p) :
    ∃ δ, (∀ v, .var v ∈ p.2.body.drop p.2.cursor ++ δ → ∃ β, (v, β) ∈ g.rules) ∧
      ∀ ns w, Forest g (γ ++ (p.2.body.drop p.2.cursor ++ δ)) ns w → ∃ n, ParseTree g n w := by
  induction hv with
  | @start β i hr hf =>
    obtain ⟨rfl, rest, h1, _⟩ := hf
    have h2 : i.body.drop i.cursor = rest := by rw [h1]; simp
    refine ⟨[], fun v hv => wf.closed _ _ v hr ?_, fun ns w h => ?_⟩
    · simp only [List.append_nil] at hv
      exact List.mem_of_mem_drop hv
    · rw [List.nil_append, List.append_nil, h2] at h
      exact ⟨_, parseTree_iff.2 ⟨_, _, hr, rfl, h1 ▸ forest_replicate_eps h⟩⟩
  | @expand γ h v i j β hv hrd hr hf ih =>
    obtain ⟨δ, h1, h2⟩ := ih
    obtain ⟨rfl, rest, h3, _⟩ := hf
    obtain ⟨pre, post, h4, h5⟩ := hrd
    have h6 : j.body.drop j.cursor = rest := by rw [h3]; simp
    have h7 : i.body.drop i.cursor = .var v :: post := by rw [h4, h5]; simp
    simp only [h7] at h1 h2
    refine ⟨post ++ δ, fun u hu => ?_, fun ns w h => ?_⟩
    · rcases List.mem_append.1 hu with hu | hu
      · exact wf.closed _ _ u hr (List.mem_of_mem_drop hu)
      · exact h1 u (by simp only [List.cons_append, List.mem_cons]; exact .inr hu)
    · simp only [h6] at h
      obtain ⟨n1, n2, w1, w2, rfl, rfl, k1, k2⟩ := forest_split h
      obtain ⟨n3, n4, w3, w4, rfl, rfl, k3, k4⟩ := forest_split k2
      have k5 : Forest g j.body n3 w3 := h3 ▸ forest_replicate_eps k3
      exact h2 _ _ (forest_append k1 (.var hr k5 k4))
  | @read γ h i j x hv ha ih =>
    obtain ⟨δ, h1, h2⟩ := ih
    obtain ⟨hb, pre, k, rest, h3, _, h4, h5⟩ := ha
    have h6 : i.body.drop i.cursor = x :: (List.replicate k .eps ++ rest) := by rw [h3, h4]; simp
    have h7 : j.body.drop j.cursor = rest := by
      rw [hb, h3, h5, show pre ++ x :: (List.replicate k Sym.eps ++ rest) =
        (pre ++ x :: List.replicate k Sym.eps) ++ rest by simp]
      exact List.drop_left' (by simp; omega)
    simp only [h6] at h1 h2
    refine ⟨δ, fun u hu => h1 u ?_, fun ns w h => ?_⟩
    · simp only [h7] at hu
      rcases List.mem_append.1 hu with hu | hu
      · simp [hu]
      · simp [hu]
    · simp only [h7] at h
      rw [List.append_assoc] at h
      obtain ⟨n1, n2, w1, w2, rfl, rfl, k1, k2⟩ := forest_split h
      have k3 : Forest g ([x] ++ (List.replicate k .eps ++ (rest ++ δ))) n2 w2 := by
        obtain ⟨n3, n4, w3, w4, rfl, rfl, k3, k4⟩ := forest_split k2
        exact forest_append k3 (forest_replicate_eps k4)
      exact h2 _ _ (by simpa using forest_append k1 k3)

theorem productive_all (h : Productive g) (hrefl : ∀ t : T, teq t t = true) {α : List (Sym V T)}
    (hα : ∀ v, .var v ∈ α → ∃ β, (v, β) ∈ g.rules) : ∃ ns w, Forest g α ns w := by
  induction α with
  | nil => exact ⟨[], [], .nil⟩
  | cons x α ih =>
    obtain ⟨ns, w, h1⟩ := ih fun v hv => hα v (List.mem_cons_of_mem _ hv)
    cases x with
    | eps => exact ⟨ns, w, .eps h1⟩
    | term t => exact ⟨_, _, .term (hrefl t) h1⟩
    | var v =>
      obtain ⟨β, hβ⟩ := hα v (by simp)
      obtain ⟨n, u, h2⟩ := h v β hβ
      exact ⟨_, _, forest_append h2 h1⟩

/-- The stack is one that can be got to by the items. -/
theorem Move.viable {x y : Conf V T} (h : Move g x y) : ∃ p, Viable g y.syms p := by
  cases h with
  | @shift γ ns hd i t u w' h1 h2 h3 =>
    obtain ⟨pre, post, h4, h5⟩ := h2
    exact ⟨_, .read h1 (advanced_iff.2 ⟨reads_iff.1 ⟨pre, post, h4, h5⟩, rfl⟩)⟩
  | @reduce γ ρ ns hd i t u w q h1 h2 h3 h4 h5 h6 h7 =>
    exact ⟨_, .read h6 (advanced_iff.2 ⟨reads_iff.1 h7, rfl⟩)⟩

theorem Moves.viable {k : Nat} {x y : Conf V T} (h : Moves g k x y) (hx : ∃ p, Viable g x.syms p) :
    ∃ p, Viable g y.syms p := by
  induction h with
  | refl => exact hx
  | step h1 _ ih => exact ih h1.viable

/-- If all tokens were read, they begin a sentence. -/
theorem read_sentence (wf : WellFormed g) (he : EpsFree g) (hp : Productive g) (hrefl : ∀ t : T, teq t t = true)
    {k : Nat} {w : List T} {y : Conf V T} (h : Moves g k ⟨[], [], w⟩ y) (hy : y.input = []) :
    ∃ rest n, ParseTree g n (w ++ rest) := by
  obtain ⟨β, hβ⟩ := wf.start
  obtain ⟨p, hv⟩ := h.viable ⟨_, .start hβ (fresh_iff.2 rfl)⟩
  obtain ⟨d, h1, h2⟩ := h.forest he (w := []) .nil
  rw [hy, List.append_nil] at h1
  simp only at h1
  subst h1
  obtain ⟨δ, h3, h4⟩ := viable_sentence wf hv
  obtain ⟨ns, rest, h5⟩ := productive_all hp hrefl h3
  obtain ⟨n, h6⟩ := h4 _ _ (forest_append h2 h5)
  exact ⟨rest, n, h6⟩

/-- The symbols that stand for the beginning of what a body stands for. -/
theorem forest_prefix (he : EpsFree g) {α : List (Sym V T)} {ns : List (Node V T)} {u : List T} (hf : Forest g α ns u) :
    ∀ {w rest : List T} {γ pre : List (Sym V T)} {h : V} {i : Item V T}, u = w ++ rest → w ≠ [] → Viable g γ (h, i) →
      i.body = pre ++ α → i.cursor = pre.length →
      ∃ δ t ms p, Viable g (γ ++ (δ ++ [.term t])) p ∧ Forest g (δ ++ [.term t]) ms w := by
  induction hf with
  | nil =>
    intro w rest γ pre h i hu hw
    exact absurd (List.append_eq_nil_iff.1 hu.symm).1 hw
  | eps _ _ =>
    intro w rest γ pre h i hu hw hv hb hc
    exact absurd (by rw [hb]; simp) (he _ _ (Viable_ok hv).rule)
  | @term t u α ns w' ht hf ih =>
    intro w rest γ pre h i hu hw hv hb hc
    have hv' := Viable.read hv (advanced_plain (he _ _ (Viable_ok hv).rule) hb hc)
    cases w with
    | nil => exact absurd rfl hw
    | cons a w1 =>
      rw [List.cons_append, List.cons.injEq] at hu
      obtain ⟨rfl, hu⟩ := hu
      by_cases h1 : w1 = []
      · subst h1
        exact ⟨[], t, _, _, hv', .term ht .nil⟩
      · obtain ⟨δ, t', ms, p, h2, h3⟩ := ih hu h1 hv' (pre := pre ++ [.term t]) (by simp [hb]) (by simp)
        exact ⟨.term t :: δ, t', _, p, by simpa using h2, .term ht h3⟩
  | @var v β α cs ns x w' hr hf1 hf2 ih1 ih2 =>
    intro w rest γ pre h i hu hw hv hb hc
    have inner : ∀ {r}, x = w ++ r → ∃ δ t ms p, Viable g (γ ++ (δ ++ [.term t])) p ∧ Forest g (δ ++ [.term t]) ms w :=
      fun hx => ih1 hx hw (.expand hv ⟨pre, α, hb, hc⟩ hr (fresh_plain (he _ _ hr))) (pre := []) rfl rfl
    rcases List.append_eq_append_iff.1 hu with ⟨a, h1, h2⟩ | ⟨a, h1, h2⟩
    · by_cases ha : a = []
      · subst ha
        exact inner (r := []) (by simpa using h1.symm)
      · have hv' := Viable.read hv (advanced_plain (he _ _ (Viable_ok hv).rule) hb hc)
        obtain ⟨δ, t', ms, p, h3, h4⟩ := ih2 h2 ha hv' (pre := pre ++ [.var v]) (by simp [hb]) (by simp)
        refine ⟨.var v :: δ, t', .mk (.var v) cs.reverse :: ms, p, by simpa using h3, ?_⟩
        rw [h1]
        exact .var hr hf1 h4
    · exact inner h1

/-- What begins a sentence is read. -/
theorem sentence_read (wf : WellFormed g) (he : EpsFree g) {w rest : List T} {n : Node V T}
    (h : ParseTree g n (w ++ rest)) : ∃ k y, Moves g k ⟨[], [], w⟩ y ∧ y.input = [] := by
  by_cases hw : w = []
  · subst hw
    exact ⟨0, _, .refl, rfl⟩
  · obtain ⟨β, cs, hr, _, hf⟩ := parseTree_iff.1 h
    obtain ⟨δ, t, ms, p, h1, h2⟩ := forest_prefix he hf rfl hw (.start hr (fresh_plain (he _ _ hr))) (pre := []) rfl rfl
    obtain ⟨k, h3⟩ := viable_moves wf he h1 (rest := []) h2 (by
      intro α v hα
      have := (List.append_inj' hα (s₁ := δ) (t₁ := [.term t]) rfl).2
      simp at this)
    rw [List.append_nil] at h3
    exact ⟨k, _, h3, rfl⟩

/-- The beginning of what a part of a body stands for is read, if no rule with epsilon is used for it. -/
theorem plain_prefix (wf : WellFormed g) {α : List (Sym V T)} {ns : List (Node V T)} {u : List T}
    (hf : Forest (dropEps g) α ns u) :
    ∀ {w rest : List T} {γ pre : List (Sym V T)} {h : V} {i : Item V T} {ms : List (Node V T)}, u = w ++ rest → w ≠ [] →
      Viable g γ (h, i) → Sym.eps ∉ i.body → i.body = pre ++ α → i.cursor = pre.length →
      ∃ k y, Moves g k ⟨γ, ms, w⟩ y ∧ y.input = [] := by
  induction hf with
  | nil =>
    intro w rest γ pre h i ms hu hw
    exact absurd (List.append_eq_nil_iff.1 hu.symm).1 hw
  | eps _ _ =>
    intro w rest γ pre h i ms hu hw hv he hb hc
    exact absurd (by rw [hb]; simp) he
  | @term t u α ns w' ht hf ih =>
    intro w rest γ pre h i ms hu hw hv he hb hc
    have hv' := Viable.read hv (advanced_plain he hb hc)
    cases w with
    | nil => exact absurd rfl hw
    | cons a w1 =>
      rw [List.cons_append, List.cons.injEq] at hu
      obtain ⟨rfl, hu⟩ := hu
      have h1 := Move.shift (ns := ms) (w := w1) hv ⟨pre, α, hb, hc⟩ ht
      by_cases h2 : w1 = []
      · exact ⟨_, _, .step h1 .refl, h2⟩
      · obtain ⟨k, y, h3, h4⟩ := ih (ms := .mk (.term u) [] :: ms) hu h2 hv' he (pre := pre ++ [.term t]) (by simp [hb]) (by simp)
        exact ⟨_, y, .step h1 h3, h4⟩
  | @var v β α cs ns x w' hr hf1 hf2 ih1 ih2 =>
    intro w rest γ pre h i ms hu hw hv he hb hc
    obtain ⟨hr1, hr2⟩ := mem_dropEps.1 hr
    have inner : ∀ {r}, x = w ++ r → ∃ k y, Moves g k ⟨γ, ms, w⟩ y ∧ y.input = [] :=
      fun hx => ih1 hx hw (.expand hv ⟨pre, α, hb, hc⟩ hr1 (fresh_plain hr2)) hr2 (pre := []) rfl rfl
    rcases List.append_eq_append_iff.1 hu with ⟨a, h1, h2⟩ | ⟨a, h1, h2⟩
    · by_cases ha : a = []
      · subst ha
        exact inner (r := []) (by simpa using h1.symm)
      · have hv' := Viable.read hv (advanced_plain he hb hc)
        have hα : α ≠ [] := by
          rintro rfl
          cases hf2
          exact ha (List.append_eq_nil_iff.1 h2.symm).1
        obtain ⟨t, b, r, h3, h4, h5⟩ := forest_starts wf hf2 (fun hm => he (by rw [hb]; simp [hm])) hα
        obtain ⟨b', a, rfl⟩ := List.exists_cons_of_ne_nil ha
        rw [h2, List.cons_append, List.cons.injEq] at h3
        obtain ⟨rfl, _⟩ := h3
        obtain ⟨k1, hk1⟩ := forest_moves wf (Forest.var hr hf1 .nil) (ms := ms) (rest := b' :: a) hv he (pre := pre) (post := α)
          (by simpa using hb) hc (by
            intro α' v' hα'
            obtain ⟨_, rfl⟩ : α' = [] ∧ v = v' := by
              cases α' with
              | nil => simpa using hα'
              | cons _ _ => simp at hα'
            refine ⟨t, b', a, rfl, h4, .here (h := h) (pre := pre) ?_ h5⟩
            have := (Viable_ok hv).rule
            simpa [hb] using this)
        obtain ⟨k2, y, h6, h7⟩ := ih2 (ms := .mk (.var v) cs.reverse :: ms) h2 ha hv' he (pre := pre ++ [.var v]) (by simp [hb])
          (by simp)
        refine ⟨_, y, Moves.trans (y := ⟨γ ++ [.var v], .mk (.var v) cs.reverse :: ms, b' :: a⟩) (k := k1) ?_ h6, h7⟩
        rw [h1]
        simpa using hk1
    · exact inner h1

/-- What begins a sentence is read, if it has a tree without rules with epsilon. -/
theorem plain_read (wf : WellFormed g) {w rest : List T} {n : Node V T} (h : ParseTree (dropEps g) n (w ++ rest)) :
    ∃ k y, Moves g k ⟨[], [], w⟩ y ∧ y.input = [] := by
  by_cases hw : w = []
  · subst hw
    exact ⟨0, _, .refl, rfl⟩
  · obtain ⟨β, cs, hr, _, hf⟩ := parseTree_iff.1 h
    obtain ⟨hr1, hr2⟩ := mem_dropEps.1 hr
    exact plain_prefix wf hf rfl hw (.start hr1 (fresh_plain hr2)) hr2 (pre := []) rfl rfl

variable [DecidableEq V] [DecidableEq T] [LawfulTerminalEq T] {c : Cfsm V T} {entry : Prop} {tbl : Table V T}

/-- A parser that has read all tokens asks for the next one. -/
theorem parse_hangs (ok : SlrOk g c entry tbl) {k : Nat} {w : List T} {y : Conf V T} (h : Moves g k ⟨[], [], w⟩ y)
    (hy : y.input = []) (fuel : Nat) : parseTokens tbl fuel w .diverge = .diverge := by
  rcases parse_run_stream ok fuel w .diverge (by simp) with h1 | ⟨k', _, x, s, h1, h2, h3, _⟩
  · exact h1
  · have h4 : ShiftReduces g k (.start w) ⟨y.syms, y.nodes, y.input⟩ := shiftReduces_iff.2 h
    obtain ⟨h5, h6⟩ := ShiftReduces.stops ok h1 h2 h4
    have h7 := ShiftReduces.last (fun h h' => ShiftReduce.det ok h h') h4 h1 hy
    have h8 := h6 (by omega)
    have := h3 (by rw [← h8]; exact hy)
    cases this

end Pango.Parse
