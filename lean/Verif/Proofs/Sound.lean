import Verif.Proofs.Parse

/-!
# What is on the stack

The nodes on the stack are trees of the symbols on the stack, and their leaves are the tokens that have been read.
-/

namespace Pango.Parse

open Pango Pango.Spec

variable {V T : Type}

theorem tokensAll_append {a b : List (Node V T)} : tokensAll (a ++ b) = tokensAll b ++ tokensAll a := by
  induction a with
  | nil => simp [tokensAll]
  | cons n a ih => simp [tokensAll, ih]

variable [TerminalEq T] {g : Grammar V T}

theorem forest_append {α β : List (Sym V T)} {ns ms : List (Node V T)} {u w : List T} (h : Forest g α ns u)
    (h' : Forest g β ms w) : Forest g (α ++ β) (ns ++ ms) (u ++ w) := by
  induction h with
  | nil => exact h'
  | eps _ ih => exact .eps ih
  | term ht _ ih => exact .term ht ih
  | var hr hc _ _ ih =>
    rw [List.append_assoc]
    exact .var hr hc ih

theorem forest_split {α β : List (Sym V T)} {ns : List (Node V T)} {w : List T} (h : Forest g (α ++ β) ns w) :
    ∃ n1 n2 w1 w2, ns = n1 ++ n2 ∧ w = w1 ++ w2 ∧ Forest g α n1 w1 ∧ Forest g β n2 w2 := by
  induction α generalizing ns w with
  | nil => exact ⟨[], ns, [], w, rfl, rfl, .nil, h⟩
  | cons x α ih =>
    rw [List.cons_append] at h
    cases h with
    | eps h1 =>
      obtain ⟨n1, n2, w1, w2, rfl, rfl, h2, h3⟩ := ih h1
      exact ⟨n1, n2, w1, w2, rfl, rfl, .eps h2, h3⟩
    | term ht h1 =>
      obtain ⟨n1, n2, w1, w2, rfl, rfl, h2, h3⟩ := ih h1
      exact ⟨_ :: n1, n2, _ :: w1, w2, rfl, rfl, .term ht h2, h3⟩
    | var hr hc h1 =>
      obtain ⟨n1, n2, w1, w2, rfl, rfl, h2, h3⟩ := ih h1
      exact ⟨_ :: n1, n2, _ ++ w1, w2, rfl, by simp, .var hr hc h2, h3⟩

theorem forest_length {α : List (Sym V T)} {ns : List (Node V T)} {w : List T} (h : Forest g α ns w)
    (he : Sym.eps ∉ α) : ns.length = α.length := by
  induction h with
  | nil => rfl
  | eps _ _ => exact absurd (by simp) he
  | term _ _ ih => simp [ih (by simp at he; exact he)]
  | var _ _ _ _ ih => simp [ih (by simp at he; exact he)]

theorem forest_tokens {α : List (Sym V T)} {ns : List (Node V T)} {w : List T} (h : Forest g α ns w) :
    tokensAll ns.reverse = w := by
  induction h with
  | nil => rfl
  | eps _ ih => exact ih
  | term _ _ ih => simp [tokensAll_append, tokensAll, tokens, ih]
  | var _ _ _ ih1 ih2 => simp [tokensAll_append, tokensAll, tokens, ih1, ih2]

theorem parseTree_iff {n : Node V T} {w : List T} :
    ParseTree g n w ↔ ∃ β cs, (g.start, β) ∈ g.rules ∧ n = .mk (.var g.start) cs.reverse ∧ Forest g β cs w := by
  unfold ParseTree
  constructor
  · intro h
    generalize hα : [Sym.var g.start] = α at h
    generalize hn : [n] = ns at h
    cases h with
    | nil => cases hα
    | eps _ => cases hα
    | term _ _ => cases hα
    | var hr hc h2 =>
      cases hα
      cases hn
      cases h2
      exact ⟨_, _, hr, rfl, by simpa using hc⟩
  · rintro ⟨β, cs, h1, rfl, h2⟩
    simpa using Forest.var h1 h2 .nil

theorem parseTree_tokens {n : Node V T} {w : List T} (h : ParseTree g n w) : tokens n = w := by
  obtain ⟨β, cs, _, rfl, h2⟩ := parseTree_iff.1 h
  exact forest_tokens h2

/-! ## Steps -/

/-- No step makes or loses a token. -/
theorem Move.tokens {x y : Conf V T} (h : Move g x y) :
    tokensAll x.nodes ++ x.input = tokensAll y.nodes ++ y.input := by
  cases h with
  | shift _ _ _ => simp [tokensAll, Spec.tokens]
  | @reduce γ ρ ns hd i t u w q _ _ _ _ _ _ _ =>
    simp only [tokensAll, Spec.tokens]
    rw [← tokensAll_append, List.take_append_drop]

theorem Moves.tokens {k : Nat} {x y : Conf V T} (h : Moves g k x y) :
    tokensAll x.nodes ++ x.input = tokensAll y.nodes ++ y.input := by
  induction h with
  | refl => rfl
  | step h1 _ ih => exact h1.tokens.trans ih

/-- A complete item without epsilon: its body is on top of the stack. -/
theorem viable_complete {γ : List (Sym V T)} {h : V} {i : Item V T} (hv : Viable g γ (h, i)) (hc : Complete i)
    (he : Sym.eps ∉ i.body) : ∃ γ', γ = γ' ++ i.body ∧ Source g γ' h := by
  obtain ⟨γ', h1, h2⟩ := viable_split hv
  rw [complete_read hc he] at h1
  exact ⟨γ', h1, h2⟩

theorem forest_top {γ β : List (Sym V T)} {ns : List (Node V T)} {w : List T} (h : Forest g (γ ++ β) ns.reverse w)
    (he : Sym.eps ∉ β) : ∃ w1 w2, w = w1 ++ w2 ∧ Forest g γ (ns.drop β.length).reverse w1 ∧
      Forest g β (ns.take β.length).reverse w2 := by
  obtain ⟨n1, n2, w1, w2, h1, h2, h3, h4⟩ := forest_split h
  have h5 := forest_length h4 he
  have h6 : ns = n2.reverse ++ n1.reverse := by rw [← List.reverse_append, ← h1, List.reverse_reverse]
  refine ⟨w1, w2, h2, ?_, ?_⟩
  · rw [h6, List.drop_left' (by simp [h5])]
    simpa using h3
  · rw [h6, List.take_left' (by simp [h5])]
    simpa using h4

theorem Move.forest {x y : Conf V T} (he : EpsFree g) (h : Move g x y) {w : List T}
    (hf : Forest g x.syms x.nodes.reverse w) :
    ∃ d, x.input = d ++ y.input ∧ Forest g y.syms y.nodes.reverse (w ++ d) := by
  cases h with
  | @shift γ ns hd i t u w' h1 h2 h3 =>
    refine ⟨[u], rfl, ?_⟩
    simp only [List.reverse_cons]
    exact forest_append hf (.term h3 .nil)
  | @reduce γ ρ ns hd i t u w' q h1 h2 h3 h4 h5 h6 h7 =>
    refine ⟨[], rfl, ?_⟩
    have hrule := (Viable_ok h1).rule
    obtain ⟨γ', h8, _⟩ := viable_complete h1 h2 (he _ _ hrule)
    obtain ⟨rfl, rfl⟩ := List.append_inj' h8 h5
    obtain ⟨w1, w2, rfl, h9, h10⟩ := forest_top hf (he _ _ hrule)
    simp only [List.reverse_cons, List.append_nil]
    refine forest_append h9 ?_
    have := Forest.var hrule h10 .nil
    simpa using this

theorem Moves.forest {k : Nat} {x y : Conf V T} (he : EpsFree g) (h : Moves g k x y) {w : List T}
    (hf : Forest g x.syms x.nodes.reverse w) :
    ∃ d, x.input = d ++ y.input ∧ Forest g y.syms y.nodes.reverse (w ++ d) := by
  induction h generalizing w with
  | refl => exact ⟨[], rfl, by simpa using hf⟩
  | step h1 _ ih =>
    obtain ⟨d1, h2, h3⟩ := h1.forest he hf
    obtain ⟨d2, h4, h5⟩ := ih h3
    exact ⟨d1 ++ d2, by rw [h2, h4, List.append_assoc], by rw [← List.append_assoc]; exact h5⟩

theorem Move.input_ne {x y : Conf V T} (h : Move g x y) : x.input ≠ [] := by
  cases h <;> simp

/-- When the input has been read, the last step was to shift. -/
theorem Moves.last {k : Nat} {x y : Conf V T} (h : Moves g k x y) (hx : x.input ≠ []) (hy : y.input = []) :
    ∃ γ t, y.syms = γ ++ [.term t] := by
  induction h with
  | refl => exact absurd hy hx
  | @step k x y z h1 h2 ih =>
    by_cases hin : y.input = []
    · cases h2 with
      | step h3 _ => exact absurd hin h3.input_ne
      | refl =>
        cases h1 with
        | shift _ _ _ => exact ⟨_, _, rfl⟩
        | reduce _ _ _ _ _ _ _ => cases hin
    · exact ih hin hy

/-- An item of a variable that has not read anything. -/
theorem viable_inside {γ : List (Sym V T)} {p : V × Item V T} (he : EpsFree g) (hv : Viable g γ p) (hγ : γ ≠ [])
    (hp : p.2.cursor = 0) : Inside g p.1 := by
  induction hv with
  | start _ _ => exact absurd rfl hγ
  | @expand γ h v i j β hv hr hβ hf ih =>
    obtain ⟨pre, post, h1, h2⟩ := hr
    have hrule := (Viable_ok hv).rule
    simp only at hrule
    rw [h1] at hrule
    cases pre with
    | nil => exact .front hrule (ih hγ h2)
    | cons x pre => exact .behind hrule
  | @read γ h i j x hv ha _ =>
    obtain ⟨_, pre, k, rest, _, _, _, h4⟩ := ha
    simp only at hp
    omega

/-- If the start variable cannot begin inside of anything, what is below it is empty. -/
theorem source_start {γ : List (Sym V T)} (he : EpsFree g) (hs : Source g γ g.start) (hn : ¬ Inside g g.start) :
    γ = [] := by
  rcases hs with ⟨h, _⟩ | ⟨h, i, hv, hr⟩
  · exact h
  · apply Decidable.byContradiction
    intro hγ
    apply hn
    obtain ⟨pre, post, h1, h2⟩ := hr
    have hrule := (Viable_ok hv).rule
    simp only at hrule
    rw [h1] at hrule
    cases pre with
    | nil => exact .front hrule (viable_inside he hv hγ h2)
    | cons x pre => exact .behind hrule

variable [DecidableEq V] [DecidableEq T] [LawfulTerminalEq T]

/-- The first node of the stack. -/
def bottomNode (g : Grammar V T) : Node V T := .mk (.var g.start) []

/-- A run of the parser, as steps and an end. -/
theorem parseTokens_runs {c : Cfsm V T} {entry : Prop} {tbl : Table V T} (ok : SlrOk g c entry tbl) {fin : InputEnd}
    {n : Nat} {w : List T} :
    ∃ k γ ns w', Moves g k ⟨[], [], w⟩ ⟨γ, ns, w'⟩ ∧
      ((k = n ∧ parseTokens tbl n w fin = .diverge) ∨
        k < n ∧ Ends g c entry tbl (bottomNode g) fin γ ns w' (parseTokens tbl n w fin)) := by
  obtain ⟨s, h1, h2⟩ := ok.cfsm.reached_start
  have := parseLoop_runs ok (fin := fin) (n := n) (w := w)
    (StackOk.bottom (c := c) (b := bottomNode g) (reached_mem h2) h1)
  rw [h1, bottomNode, ← ok.start] at this
  rw [bottomNode, ← ok.start]
  exact this

/-- The steps determine the run. -/
theorem parseTokens_moves {c : Cfsm V T} {entry : Prop} {tbl : Table V T} (ok : SlrOk g c entry tbl) {fin : InputEnd}
    {k : Nat} {w : List T} {y : Conf V T} (h : Moves g k ⟨[], [], w⟩ y) :
    ∃ st s, StackOk c (bottomNode g) y.syms y.nodes st s ∧
      ∀ n, parseTokens tbl (n + k) w fin = parseLoop tbl fin n y.input st s.id := by
  obtain ⟨s, h1, h2⟩ := ok.cfsm.reached_start
  obtain ⟨st, s', h3, h4⟩ := h.does ok (fin := fin)
    (StackOk.bottom (c := c) (b := bottomNode g) (reached_mem h2) h1)
  refine ⟨st, s', h3, fun n => ?_⟩
  rw [← h4, parseTokens, h1, ok.start]
  rfl

/-- What it means that a tree is returned. -/
theorem parseTokens_some {c : Cfsm V T} {entry : Prop} {tbl : Table V T} (ok : SlrOk g c entry tbl) {fin : InputEnd}
    {n : Nat} {w : List T} {r : Node V T} (h : parseTokens tbl n w fin = .ok (some r)) :
    ∃ k γ ns i, Moves g k ⟨[], [], w⟩ ⟨γ, ns, []⟩ ∧ fin = .ok () ∧ Viable g γ (g.start, i) ∧ Complete i ∧ entry ∧
      i.body.length ≤ γ.length + 1 ∧ ns.length = γ.length ∧
      r = .mk (.var g.start) ((ns ++ [bottomNode g]).take i.body.length) := by
  obtain ⟨k, γ, ns, w', h1, ⟨_, h2⟩ | ⟨_, h2⟩⟩ := parseTokens_runs ok (fin := fin) (n := n) (w := w)
  · rw [h] at h2; cases h2
  · rw [h] at h2
    cases h2 with
    | panic _ _ h3 => cases h3
    | diverge _ _ h3 => cases h3
    | last hst hfin hd hr =>
      cases w' with
      | cons u w' =>
        simp only [List.head?_cons] at hd
        generalize hres : (Outcome.ok (some r) : Outcome (Option (Node V T))) = res at hr
        generalize hk : some u = key at hd
        cases hr with
        | error => cases hres
        | panic => cases hres
        | accept =>
          cases hd with
          | accept _ _ _ _ => cases hk
          | noGoto _ _ _ _ _ _ _ _ hq =>
            rcases hq with ⟨hq, _⟩ | ⟨hq, _⟩
            · cases hq
            · cases hq
      | nil =>
        simp only [List.head?_nil] at hd
        generalize hres : (Outcome.ok (some r) : Outcome (Option (Node V T))) = res at hr
        generalize hk : (none : Option T) = key at hd
        cases hr with
        | error => cases hres
        | panic => cases hres
        | accept =>
          cases hd with
          | accept h4 h5 h6 h7 =>
            cases hres
            exact ⟨k, γ, ns, _, h1, hfin rfl, h4, h5, h6, h7, hst.length_nodes, rfl⟩
          | noGoto _ _ _ _ _ _ _ _ hq => cases hk

/-- The leaves of the tree are the end of the input. -/
theorem parse_tokens_suffix {c : Cfsm V T} {entry : Prop} {tbl : Table V T} (ok : SlrOk g c entry tbl)
    {fin : InputEnd} {n : Nat} {w : List T} {r : Node V T} (h : parseTokens tbl n w fin = .ok (some r)) :
    ∃ pre, w = pre ++ tokens r := by
  obtain ⟨k, γ, ns, i, h1, _, _, _, _, _, _, rfl⟩ := parseTokens_some ok h
  have h2 := h1.tokens
  simp only [tokensAll, List.nil_append, List.append_nil] at h2
  refine ⟨tokensAll (ns.drop i.body.length), ?_⟩
  simp only [tokens]
  have h3 : tokensAll (ns ++ [bottomNode g]) = tokensAll ns := by
    simp [tokensAll_append, tokensAll, bottomNode, tokens]
  rw [h2, ← h3]
  have h4 : ns ++ [bottomNode g] = (ns ++ [bottomNode g]).take i.body.length ++ (ns ++ [bottomNode g]).drop i.body.length :=
    (List.take_append_drop ..).symm
  conv => lhs; rw [h4]
  rw [tokensAll_append]
  congr 1
  rw [List.drop_append]
  cases i.body.length - ns.length with
  | zero => simp [tokensAll_append, tokensAll, bottomNode, tokens]
  | succ m => simp

/-- Without epsilon, an accepted tree is a tree of the end of the input; its root ends in a terminal. -/
theorem parse_sound {c : Cfsm V T} {entry : Prop} {tbl : Table V T} (wf : WellFormed g) (ok : SlrOk g c entry tbl)
    (he : EpsFree g) {fin : InputEnd} {n : Nat} {w : List T} {r : Node V T}
    (h : parseTokens tbl n w fin = .ok (some r)) :
    ∃ γ ns pre u β cs t, w = pre ++ u ∧ Forest g γ ns pre ∧ Source g γ g.start ∧ (g.start, β ++ [.term t]) ∈ g.rules ∧
      r = .mk (.var g.start) cs.reverse ∧ Forest g (β ++ [.term t]) cs u ∧ entry ∧ fin = .ok () := by
  obtain ⟨k, γ, ns, i, h1, h2, h3, h4, h5, _, h6, rfl⟩ := parseTokens_some ok h
  have hrule := (Viable_ok h3).rule
  simp only at hrule
  have hne := wf.nonempty _ _ hrule
  obtain ⟨γ', rfl, h7⟩ := viable_complete h3 h4 (he _ _ hrule)
  obtain ⟨d, h8, h9⟩ := h1.forest he (w := []) .nil
  simp only [List.append_nil, List.nil_append] at h8 h9
  subst h8
  obtain ⟨w1, w2, rfl, h10, h11⟩ := forest_top h9 (he _ _ hrule)
  have hw : w1 ++ w2 ≠ [] := by
    intro h0
    generalize hx : (⟨γ' ++ i.body, ns, []⟩ : Conf V T) = x at h1
    cases h1 with
    | refl =>
      simp only [Conf.mk.injEq, List.append_eq_nil_iff] at hx
      exact hne hx.1.2
    | step hm _ => exact hm.input_ne h0
  obtain ⟨γ1, t, h12⟩ := h1.last hw rfl
  rcases List.eq_nil_or_concat i.body with hb | ⟨β, x, hb⟩
  · exact absurd hb hne
  · rw [List.concat_eq_append] at hb
    have : x = .term t := by
      simp only [hb, ← List.append_assoc] at h12
      exact List.singleton_inj.1 (List.append_inj' h12 rfl).2
    subst this
    refine ⟨γ', _, w1, w2, β, (ns.take i.body.length).reverse, t, rfl, h10, h7, hb ▸ hrule, ?_, hb ▸ h11, h5, h2⟩
    rw [List.reverse_reverse, List.take_append_of_le_length]
    rw [h6, List.length_append]
    omega

end Pango.Parse
