import Verif.Proofs.Sound

/-!
# Sentences are parsed

If the stack fits an item, and the input begins with the leaves of trees for the symbols behind the cursor, the
parser puts these trees on the stack, as long as the token behind them is in the follow set of a variable at their
end.
-/

namespace Pango.Parse

open Pango Pango.Spec

variable {V T : Type} {g : Grammar V T}

theorem mem_dropEps {v : V} {β : Body V T} : (v, β) ∈ (dropEps g).rules ↔ (v, β) ∈ g.rules ∧ Sym.eps ∉ β := by
  unfold dropEps
  simp only [List.mem_filter, List.all_eq_true]
  refine and_congr_right fun _ => ⟨fun h he => by simpa using h _ he, fun h x hx => ?_⟩
  cases x with
  | eps => exact absurd hx h
  | _ => rfl

theorem advanced_plain {i : Item V T} {x : Sym V T} (he : Sym.eps ∉ i.body) {pre post : List (Sym V T)}
    (h1 : i.body = pre ++ x :: post) (h2 : i.cursor = pre.length) : Advanced i x ⟨i.body, (pre ++ [x]).length⟩ := by
  refine ⟨rfl, pre, 0, post, by simpa using h1, ?_, h2, by simp⟩
  rintro r rfl
  apply he
  rw [h1]
  simp

theorem fresh_plain {β : Body V T} (he : Sym.eps ∉ β) : Fresh β ⟨β, 0⟩ := by
  refine ⟨rfl, β, by simp, ?_⟩
  rintro r rfl
  exact he (by simp)

/-- Reading a part of a body. -/
theorem viable_run {γ α pre post : List (Sym V T)} {h : V} {i : Item V T} (hv : Viable g γ (h, i))
    (he : Sym.eps ∉ i.body) (h1 : i.body = pre ++ (α ++ post)) (h2 : i.cursor = pre.length) :
    Viable g (γ ++ α) (h, ⟨i.body, (pre ++ α).length⟩) := by
  induction α generalizing γ pre i with
  | nil =>
    simp only [List.append_nil]
    rw [← h2]
    exact hv
  | cons x α ih =>
    have := ih (.read hv (advanced_plain he h1 h2)) he (pre := pre ++ [x]) (by simpa using h1) rfl
    simpa using this

/-- What can come behind a variable on the stack. -/
theorem viable_fol {γ : List (Sym V T)} {p : V × Item V T} (he : EpsFree g) (hv : Viable g γ p) {γ' : List (Sym V T)}
    {v : V} (hγ : γ = γ' ++ [.var v]) {t : T} (ht : Starts g t (p.2.body.drop p.2.cursor)) : Fol g t v := by
  induction hv with
  | start _ _ => simp at hγ
  | @expand γ h w i j β hv hr hβ hf ih =>
    refine ih hγ ?_
    obtain ⟨pre, post, h1, h2⟩ := hr
    simp only [h1, h2]
    rw [List.drop_left' rfl]
    obtain ⟨h3, rest, h4, _⟩ := hf
    refine .inVar hβ ?_
    simp only at ht
    have : j.cursor = 0 := by
      cases hj : j.cursor with
      | zero => rfl
      | succ n =>
        rw [hj, List.replicate_succ] at h4
        exact absurd (by rw [h4]; simp) (he _ _ hβ)
    rw [this, h3] at ht
    exact ht
  | @read γ h i j x hv ha _ =>
    obtain rfl := List.singleton_inj.1 (List.append_inj' hγ rfl).2
    obtain ⟨h1, pre, k, rest, h2, _, h4, h5⟩ := ha
    have hrule := (Viable_ok hv).rule
    simp only at hrule ht
    have hk : k = 0 := by
      cases k with
      | zero => rfl
      | succ n => exact absurd (by rw [h2]; simp) (he _ _ hrule)
    subst hk
    rw [h2] at hrule
    simp only [List.replicate_zero, List.nil_append] at hrule h2
    refine .here hrule ?_
    rw [h1, h5, h2] at ht
    have : pre ++ Sym.var v :: rest = (pre ++ [.var v]) ++ rest := by simp
    rw [this, List.drop_left' (by simp)] at ht
    exact ht

variable [TerminalEq T]

theorem forest_mono {g' : Grammar V T} (hg : ∀ r ∈ g.rules, r ∈ g'.rules) {α : List (Sym V T)}
    {ns : List (Node V T)} {w : List T} (h : Forest g α ns w) : Forest g' α ns w := by
  induction h with
  | nil => exact .nil
  | eps _ ih => exact .eps ih
  | term ht _ ih => exact .term ht ih
  | var hr _ _ ih1 ih2 => exact .var (hg _ hr) ih1 ih2

theorem forest_dropEps {α : List (Sym V T)} {ns : List (Node V T)} {w : List T} (he : EpsFree g) :
    Forest (dropEps g) α ns w ↔ Forest g α ns w :=
  ⟨forest_mono fun r hr => (List.mem_filter.1 hr).1, forest_mono fun r hr => mem_dropEps.2 ⟨hr, he _ _ hr⟩⟩

theorem forest_starts (wf : WellFormed g) {α : List (Sym V T)} {ns : List (Node V T)} {w : List T}
    (h : Forest (dropEps g) α ns w) (he : Sym.eps ∉ α) (hne : α ≠ []) :
    ∃ t u r, w = u :: r ∧ teq t u = true ∧ Starts g t α := by
  induction h with
  | nil => exact absurd rfl hne
  | eps _ _ => exact absurd (by simp) he
  | term ht _ _ => exact ⟨_, _, _, rfl, ht, .term⟩
  | var hr hc _ ih1 ih2 =>
    obtain ⟨h1, h2⟩ := mem_dropEps.1 hr
    obtain ⟨t, u, r, rfl, h3, h4⟩ := ih1 h2 (wf.nonempty _ _ h1)
    exact ⟨t, u, _, rfl, h3, .inVar h1 h4⟩

/-- The token behind the symbols is in the follow set of the variable at their end, if there is one. -/
def LookOk (g : Grammar V T) (α : List (Sym V T)) (rest : List T) : Prop :=
  ∀ α' v, α = α' ++ [.var v] → ∃ t u r, rest = u :: r ∧ teq t u = true ∧ Fol g t v

theorem lookOk_term {α : List (Sym V T)} {t : T} {rest : List T} : LookOk g (α ++ [.term t]) rest := by
  intro α' v h
  have := List.singleton_inj.1 (List.append_inj' h rfl).2
  cases this

theorem LookOk.cons {x : Sym V T} {α : List (Sym V T)} {rest : List T} (h : LookOk g (x :: α) rest) :
    LookOk g α rest := fun α' v hα => h (x :: α') v (by rw [hα]; rfl)

theorem forest_moves (wf : WellFormed g) {α : List (Sym V T)} {ns : List (Node V T)} {w : List T}
    (hf : Forest (dropEps g) α ns w) :
    ∀ {γ pre post : List (Sym V T)} {h : V} {i : Item V T} {ms : List (Node V T)} {rest : List T},
      Viable g γ (h, i) → Sym.eps ∉ i.body → i.body = pre ++ (α ++ post) → i.cursor = pre.length → LookOk g α rest →
      ∃ k, Moves g k ⟨γ, ms, w ++ rest⟩ ⟨γ ++ α, ns.reverse ++ ms, rest⟩ := by
  induction hf with
  | nil =>
    intros
    refine ⟨0, ?_⟩
    simp only [List.append_nil]
    exact .refl
  | eps _ _ =>
    intro γ pre post h i ms rest _ he hb _ _
    exact absurd (by rw [hb]; simp) he
  | @term t u α ns w ht _ ih =>
    intro γ pre post h i ms rest hv he hb hcur hlook
    obtain ⟨k, hk⟩ := ih (ms := .mk (.term u) [] :: ms) (.read hv (advanced_plain he hb hcur)) he (pre := pre ++ [.term t])
      (post := post) (by simpa using hb) rfl hlook.cons
    refine ⟨k + 1, .step (.shift hv ⟨pre, α ++ post, by simpa using hb, hcur⟩ ht) ?_⟩
    simpa using hk
  | @var v β α cs ns x w hr hc ha ih1 ih2 =>
    intro γ pre post h i ms rest hv he hb hcur hlook
    obtain ⟨hr1, hr2⟩ := mem_dropEps.1 hr
    have hreads : Reads i (.var v) := ⟨pre, α ++ post, by simpa using hb, hcur⟩
    have hrule := (Viable_ok hv).rule
    simp only at hrule
    have hα : Sym.eps ∉ α := fun hm => he (by rw [hb]; simp [hm])
    have hfol : ∃ t u r, w ++ rest = u :: r ∧ teq t u = true ∧ Fol g t v := by
      cases α with
      | nil =>
        cases ha
        exact hlook [] v rfl
      | cons y α =>
        obtain ⟨t, u, r, rfl, h1, h2⟩ := forest_starts wf ha hα (by simp)
        refine ⟨t, u, r ++ rest, rfl, h1, .here (h := h) (pre := pre) (rest := y :: α ++ post) ?_ (starts_append.2 (.inl h2))⟩
        rw [hb] at hrule
        simpa using hrule
    obtain ⟨t, u, r, h1, h2, h3⟩ := hfol
    have hv1 : Viable g γ (v, ⟨β, 0⟩) := .expand hv hreads hr1 (fresh_plain hr2)
    obtain ⟨k1, hk1⟩ := ih1 (ms := ms) (rest := w ++ rest) hv1 hr2 (pre := []) (post := []) (by simp) rfl (by
      intro β' v' hβ
      exact ⟨t, u, r, h1, h2, .up (hβ ▸ hr1) .nil h3⟩)
    have hv2 : Viable g (γ ++ β) (v, ⟨β, β.length⟩) := by
      have := viable_run hv1 hr2 (α := β) (pre := []) (post := []) (by simp) rfl
      simpa using this
    obtain ⟨k2, hk2⟩ := ih2 (ms := .mk (.var v) cs.reverse :: ms) (rest := rest) (.read hv (advanced_plain he hb hcur)) he
      (pre := pre ++ [.var v]) (post := post) (by simpa using hb) rfl hlook.cons
    have hred : Move g ⟨γ ++ β, cs.reverse ++ ms, w ++ rest⟩ ⟨γ ++ [.var v], .mk (.var v) cs.reverse :: ms, w ++ rest⟩ := by
      have hlen : cs.reverse.length = β.length := by simp [forest_length hc hr2]
      have := Move.reduce (ρ := β) (ns := cs.reverse ++ ms) (w := r) hv2 rfl h3 h2 rfl hv hreads
      simp only [List.take_left' hlen, List.drop_left' hlen, ← h1] at this
      exact this
    refine ⟨k1 + (1 + k2), ?_⟩
    rw [List.append_assoc]
    refine hk1.trans (hred.moves.trans ?_)
    simpa using hk2

/-- The parser gets to every string of symbols that it should get to. -/
theorem viable_moves (wf : WellFormed g) (he : EpsFree g) {γ : List (Sym V T)} {p : V × Item V T}
    (hv : Viable g γ p) : ∀ {ns : List (Node V T)} {w rest : List T}, Forest g γ ns w → LookOk g γ rest →
      ∃ k, Moves g k ⟨[], [], w ++ rest⟩ ⟨γ, ns.reverse, rest⟩ := by
  induction hv with
  | start _ _ =>
    intro ns w rest hf _
    cases hf
    exact ⟨0, .refl⟩
  | expand _ _ _ _ ih => exact ih
  | @read γ h i j x hv ha ih =>
    intro ns w rest hf hl
    obtain ⟨n1, n2, w1, w2, rfl, rfl, h1, h2⟩ := forest_split hf
    have hrule := (Viable_ok hv).rule
    simp only at hrule
    obtain ⟨_, pre, m, post, h3, _, h4, _⟩ := ha
    have hx : Sym.eps ∉ [x] := by
      intro hx
      rw [List.mem_singleton] at hx
      subst hx
      exact he _ _ hrule (by rw [h3]; simp)
    have hf2 := (forest_dropEps he).2 h2
    obtain ⟨t, u, r, hw, ht, hs⟩ := forest_starts wf hf2 hx (by simp)
    obtain ⟨k1, hk1⟩ := ih (rest := w2 ++ rest) h1 (by
      intro γ' v hγ
      refine ⟨t, u, r ++ rest, by rw [hw]; rfl, ht, viable_fol he hv hγ ?_⟩
      simp only [h3, h4]
      rw [List.drop_left' rfl]
      have := starts_append.2 (.inl hs : _ ∨ (Nullable g [x] ∧ Starts g t (List.replicate m .eps ++ post)))
      simpa using this)
    obtain ⟨k2, hk2⟩ := forest_moves wf hf2 (ms := n1.reverse) (rest := rest) hv (he _ _ hrule)
      (by simpa using h3) h4 (by
        intro α' v hα
        cases α' with
        | nil =>
          cases hα
          exact hl γ v rfl
        | cons y α' => simp at hα)
    refine ⟨k1 + k2, ?_⟩
    rw [List.append_assoc, List.reverse_append]
    exact hk1.trans hk2

variable [DecidableEq V] [DecidableEq T] [LawfulTerminalEq T] {c : Cfsm V T} {entry : Prop} {tbl : Table V T}

/-- With a rule of the start variable on the stack at the end of the input, the parser accepts. -/
theorem accepts_of_moves (ok : SlrOk g c entry tbl) (hentry : entry) {k : Nat} {w : List T} {γ : List (Sym V T)}
    {ns : List (Node V T)} (h : Moves g k ⟨[], [], w⟩ ⟨γ, ns, []⟩) {i : Item V T} (hv : Viable g γ (g.start, i))
    (hc : Complete i) (hlen : i.body.length ≤ γ.length) (n : Nat) :
    parseTokens tbl (n + 1 + k) w = .ok (some (.mk (.var g.start) (ns.take i.body.length))) := by
  obtain ⟨st, s, h1, h2⟩ := parseTokens_moves ok h (fin := .ok ())
  rw [h2]
  simp only [parseLoop]
  have hneed : Needs g entry γ (g.start, i) none := .accept hv hc hentry
  have hns := h1.length_nodes
  simp only at hns h1
  have hend := parseEof_ends ok h1 (n := n)
  revert hend
  generalize parseEof tbl (n + 1) st s.id = res
  intro hend
  cases hend with
  | panic _ h3 _ => cases h3
  | diverge _ h3 _ => cases h3
  | last h3 _ hd hr =>
    simp only [List.head?_nil] at hd
    generalize hk : (none : Option T) = key at hd
    cases hd with
    | noRow _ h4 => exact absurd (h4 _ _ hneed) (by subst hk; simp [keyEq])
    | error _ h4 => exact absurd (h4 _ _ hneed) (by subst hk; simp [keyEq])
    | acceptUnder h4 h5 h6 h7 =>
      cases (ok.needs_unique hneed (.accept h4 h5 h6) rfl).1
      omega
    | accept h4 h5 h6 h7 =>
      cases (ok.needs_unique hneed (.accept h4 h5 h6) rfl).1
      cases hr
      simp only
      rw [List.take_append_of_le_length (by omega)]
    | noGoto _ _ _ _ _ _ _ _ _ => cases hk
    | shift _ _ _ _ => cases hk
    | reduce _ _ _ _ _ _ _ _ _ => cases hk
    | under _ _ _ _ _ => cases hk

/-- A tree without epsilon rules whose root ends in a terminal is returned. -/
theorem parse_complete (wf : WellFormed g) (ok : SlrOk g c entry tbl) (hentry : entry) {β : Body V T} {t : T}
    {cs : List (Node V T)} {w : List T} (hrule : (g.start, β ++ [.term t]) ∈ g.rules) (he : Sym.eps ∉ β)
    (hf : Forest (dropEps g) (β ++ [.term t]) cs w) :
    ∃ k, ∀ n, parseTokens tbl (n + 1 + k) w = .ok (some (.mk (.var g.start) cs.reverse)) := by
  have he' : Sym.eps ∉ β ++ [Sym.term t] := by simp [he]
  have hv : Viable g [] (g.start, ⟨β ++ [.term t], 0⟩) := .start hrule (fresh_plain he')
  obtain ⟨k, hk⟩ := forest_moves wf hf (ms := []) (rest := []) hv he' (pre := []) (post := []) (by simp) rfl lookOk_term
  have hv' := viable_run hv he' (α := β ++ [.term t]) (pre := []) (post := []) (by simp) rfl
  refine ⟨k, fun n => ?_⟩
  simp only [List.nil_append, List.append_nil] at hk hv'
  rw [accepts_of_moves ok hentry hk hv' rfl (by simp)]
  have := forest_length hf he'
  simp only
  rw [List.take_of_length_le (by simp only [List.length_reverse]; omega)]

/-- Without epsilon: exactly when a tree is returned. -/
theorem parse_exact (wf : WellFormed g) (ok : SlrOk g c entry tbl) (he : EpsFree g) {w : List T} {r : Node V T} :
    (∃ n, parseTokens tbl n w = .ok (some r)) ↔
      entry ∧ ∃ γ ns pre u β cs t, w = pre ++ u ∧ Forest g γ ns pre ∧ Source g γ g.start ∧
        (g.start, β ++ [.term t]) ∈ g.rules ∧ r = .mk (.var g.start) cs.reverse ∧ Forest g (β ++ [.term t]) cs u := by
  constructor
  · rintro ⟨n, h⟩
    obtain ⟨γ, ns, pre, u, β, cs, t, h1, h2, h3, h4, h5, h6, h7, _⟩ := parse_sound wf ok he h
    exact ⟨h7, γ, ns, pre, u, β, cs, t, h1, h2, h3, h4, h5, h6⟩
  · rintro ⟨hentry, γ, ns, pre, u, β, cs, t, rfl, h2, h3, h4, rfl, h6⟩
    have he' := he _ _ h4
    have hv : Viable g γ (g.start, ⟨β ++ [.term t], 0⟩) := by
      rcases h3 with ⟨rfl, _⟩ | ⟨h, i, hv, hr⟩
      · exact .start h4 (fresh_plain he')
      · exact .expand hv hr h4 (fresh_plain he')
    have hf := (forest_dropEps he).2 h6
    obtain ⟨t', u', r', hu, ht, hs⟩ := forest_starts wf hf he' (by simp)
    obtain ⟨k1, hk1⟩ := viable_moves wf he hv (rest := u) h2 (by
      intro γ' v hγ
      exact ⟨t', u', r', hu, ht, viable_fol he hv hγ (by simpa using hs)⟩)
    obtain ⟨k2, hk2⟩ := forest_moves wf hf (ms := ns.reverse) (rest := []) hv he' (pre := []) (post := []) (by simp) rfl
      lookOk_term
    have hv' := viable_run hv he' (α := β ++ [.term t]) (pre := []) (post := []) (by simp) rfl
    rw [List.append_nil] at hk2
    refine ⟨0 + 1 + (k1 + k2), ?_⟩
    simp only [List.nil_append] at hv'
    rw [accepts_of_moves ok hentry (hk1.trans hk2) hv' rfl (by simp)]
    have := forest_length h6 he'
    simp only
    rw [List.take_left' (by simp only [List.length_reverse]; omega)]

end Pango.Parse
