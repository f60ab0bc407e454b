import Verif.Proofs.Hollow

/-!
# Which parse trees are returned

A rule with epsilon takes more from the stack than it has put there.  The node that it makes ends where the right one
would end, but has more children, so that the parse tree in which it stands is not the one that is returned.
-/

namespace Pango.Parse

open Pango Pango.Spec

variable {V T : Type}

/-! ## Nodes inside of trees -/

/-- Trees, from right to left, with a token below every node. -/
inductive Solid : List (Node V T) → Prop
  | nil : Solid []
  | leaf {t : T} {ns : List (Node V T)} : Solid ns → Solid (.mk (.term t) [] :: ns)
  | var {v : V} {cs ns : List (Node V T)} : cs ≠ [] → Solid cs → Solid ns → Solid (.mk (.var v) cs :: ns)

/-- A node in the trees, with that many tokens to the right of it. -/
inductive OccIn : List (Node V T) → Node V T → Nat → Prop
  | here {n : Node V T} {ns : List (Node V T)} : OccIn (n :: ns) n 0
  | inside {x : Sym V T} {cs ns : List (Node V T)} {v : Node V T} {k : Nat} : OccIn cs v k → OccIn (.mk x cs :: ns) v k
  | skip {n : Node V T} {ns : List (Node V T)} {v : Node V T} {k : Nat} : OccIn ns v k →
      OccIn (n :: ns) v (k + (tokens n).length)

/-- A node at the right edge of the trees. -/
inductive Edge : List (Node V T) → Node V T → Prop
  | here {n : Node V T} {ns : List (Node V T)} : Edge (n :: ns) n
  | down {x : Sym V T} {cs ns : List (Node V T)} {v : Node V T} : Edge cs v → Edge (.mk x cs :: ns) v

theorem solid_append {ns ms : List (Node V T)} : Solid (ns ++ ms) ↔ Solid ns ∧ Solid ms := by
  induction ns with
  | nil => exact ⟨fun h => ⟨.nil, h⟩, fun h => h.2⟩
  | cons n ns ih =>
    constructor
    · intro h
      cases h with
      | leaf h => exact ⟨.leaf (ih.1 h).1, (ih.1 h).2⟩
      | var h1 h2 h => exact ⟨.var h1 h2 (ih.1 h).1, (ih.1 h).2⟩
    · rintro ⟨h, h'⟩
      cases h with
      | leaf h => exact .leaf (ih.2 ⟨h, h'⟩)
      | var h1 h2 h => exact .var h1 h2 (ih.2 ⟨h, h'⟩)

theorem solid_reverse {ns : List (Node V T)} : Solid ns.reverse ↔ Solid ns := by
  induction ns with
  | nil => rfl
  | cons n ns ih =>
    rw [List.reverse_cons, solid_append, ih, ← List.singleton_append (l := ns), solid_append, and_comm]

theorem solid_tokens {ns : List (Node V T)} (h : Solid ns) (hne : ns ≠ []) : tokensAll ns ≠ [] := by
  induction h with
  | nil => exact absurd rfl hne
  | leaf _ _ => simp [tokensAll, tokens]
  | var h1 _ _ ih _ => simp [tokensAll, tokens, ih h1]

theorem solid_head {n : Node V T} {ns : List (Node V T)} (h : Solid (n :: ns)) : 0 < (tokens n).length := by
  cases h with
  | leaf _ => simp [tokens]
  | var h1 h2 _ => simpa [tokens, List.length_pos_iff] using solid_tokens h2 h1

theorem solid_of_not_empty [TerminalEq T] {g : Grammar V T} {α : List (Sym V T)} {ns : List (Node V T)} {w : List T}
    (h : Forest g α ns w) (he : ∀ n ∈ ns, ¬ HasEmpty n) : Solid ns := by
  induction h with
  | nil => exact .nil
  | eps _ ih => exact ih he
  | term _ _ ih => exact .leaf (ih fun n hn => he n (by simp [hn]))
  | @var v β α cs ns x w _ _ _ ih1 ih2 =>
    have h0 := he _ List.mem_cons_self
    refine .var ?_ (solid_reverse.2 (ih1 fun n hn hh => h0 (.child (by simpa using hn) hh)))
      (ih2 fun n hn => he n (by simp [hn]))
    intro hcs
    rw [hcs] at h0
    exact h0 .here

theorem occIn_append {ns ms : List (Node V T)} {v : Node V T} {k : Nat} :
    OccIn (ns ++ ms) v k ↔ OccIn ns v k ∨ ∃ k', OccIn ms v k' ∧ k = k' + (tokensAll ns).length := by
  induction ns generalizing k with
  | nil =>
    refine ⟨fun h => .inr ⟨k, h, rfl⟩, ?_⟩
    rintro (h | ⟨k', h, rfl⟩)
    · cases h
    · exact h
  | cons n ns ih =>
    constructor
    · intro h
      cases h with
      | here => exact .inl .here
      | inside h => exact .inl (.inside h)
      | skip h =>
        rcases ih.1 h with h | ⟨k', h1, rfl⟩
        · exact .inl (.skip h)
        · exact .inr ⟨k', h1, by simp only [tokensAll, List.length_append]; omega⟩
    · rintro (h | ⟨k', h, rfl⟩)
      · cases h with
        | here => exact .here
        | inside h => exact .inside h
        | skip h => exact .skip (ih.2 (.inl h))
      · have := OccIn.skip (n := n) (ih.2 (.inr ⟨k', h, rfl⟩))
        simp only [tokensAll, List.length_append]
        rw [← Nat.add_assoc]
        exact this

theorem occIn_lt {ns : List (Node V T)} {v : Node V T} {k : Nat} (h : OccIn ns v k) (hs : Solid ns) :
    k < (tokensAll ns).length := by
  induction h with
  | here =>
    have := solid_head hs
    simp only [tokensAll, List.length_append]
    omega
  | inside h ih =>
    cases hs with
    | leaf _ => cases h
    | var _ h2 _ =>
      have := ih h2
      simp only [tokensAll, tokens, List.length_append]
      omega
  | skip h ih =>
    have : Solid _ := (solid_append (ns := [_]).1 hs).2
    have := ih this
    simp only [tokensAll, List.length_append]
    omega

theorem occIn_zero {ns : List (Node V T)} {v : Node V T} {k : Nat} (h : OccIn ns v k) (hs : Solid ns) (hk : k = 0) :
    Edge ns v := by
  induction h with
  | here => exact .here
  | inside h ih =>
    cases hs with
    | leaf _ => cases h
    | var _ h2 _ => exact .down (ih h2 hk)
  | skip h _ =>
    have := solid_head hs
    omega

theorem Edge.single {n : Node V T} {ns ms : List (Node V T)} {v : Node V T} (h : Edge (n :: ns) v) : Edge (n :: ms) v := by
  cases h with
  | here => exact .here
  | down h => exact .down h

/-- Of two nodes with as many tokens to their right, one is at the right edge of the other. -/
theorem occIn_unique {ns : List (Node V T)} {a b : Node V T} {k k' : Nat} (h : OccIn ns a k) (h' : OccIn ns b k')
    (hs : Solid ns) (hk : k = k') : Edge [a] b ∨ Edge [b] a := by
  induction h generalizing k' with
  | here => exact .inl (occIn_zero h' hs hk.symm).single
  | @inside x cs ns v k h ih =>
    cases h' with
    | here => exact .inr (occIn_zero (.inside h) hs hk).single
    | inside h' =>
      cases hs with
      | leaf _ => cases h
      | var _ h2 _ => exact ih h' h2 hk
    | skip h' =>
      cases hs with
      | leaf _ => cases h
      | var _ h2 _ =>
        have := occIn_lt h h2
        simp only [tokens] at hk
        omega
  | @skip n ns v k h ih =>
    have h0 := solid_head hs
    cases h' with
    | here => omega
    | inside h' =>
      cases hs with
      | leaf _ => cases h'
      | var _ h2 _ =>
        have := occIn_lt h' h2
        simp only [tokens] at hk
        omega
    | skip h' =>
      have : Solid _ := (solid_append (ns := [_]).1 hs).2
      exact ih h' this (by omega)

theorem Edge.size {ns : List (Node V T)} {v : Node V T} (h : Edge ns v) : sizeOf v < sizeOf ns := by
  induction h with
  | here => simp; omega
  | down _ ih => simp; omega

theorem Edge.same {x y : Sym V T} {l : Node V T} {cs ds : List (Node V T)}
    (h : Edge [.mk x (l :: cs)] (.mk y (l :: ds))) : cs = ds := by
  cases h with
  | here => rfl
  | down h =>
    have := (h.single (ms := [])).size
    simp at this
    omega

/-! ## Moves -/

variable [TerminalEq T] {g : Grammar V T}

theorem Move.solid {x y : Conf V T} (wf : WellFormed g) (h : Move g x y)
    (hx : x.nodes.length = x.syms.length ∧ Solid x.nodes) : y.nodes.length = y.syms.length ∧ Solid y.nodes := by
  obtain ⟨hl, hx⟩ := hx
  cases h with
  | shift h1 h2 h3 => exact ⟨by simpa using hl, .leaf hx⟩
  | @reduce γ ρ ns hd i t u w q h1 h2 h3 h4 h5 h6 h7 =>
    simp only [List.length_append] at hl
    simp only at hx
    rw [← List.take_append_drop i.body.length ns, solid_append] at hx
    refine ⟨by simp; omega, .var ?_ hx.1 hx.2⟩
    have hne : i.body.length ≠ 0 := by
      simpa using wf.nonempty _ _ (Viable_ok h1).rule
    intro hc
    have := congrArg List.length hc
    simp only [List.length_take, List.length_nil] at this
    omega

theorem Moves.solid {k : Nat} {x y : Conf V T} (wf : WellFormed g) (h : Moves g k x y)
    (hx : x.nodes.length = x.syms.length ∧ Solid x.nodes) : y.nodes.length = y.syms.length ∧ Solid y.nodes := by
  induction h with
  | refl => exact hx
  | step h1 _ ih => exact ih (h1.solid wf hx)

theorem Move.occIn {x y : Conf V T} (h : Move g x y) {v : Node V T} {k : Nat} (ho : OccIn x.nodes v k) :
    ∃ k', OccIn y.nodes v k' ∧ k + x.input.length = k' + y.input.length := by
  cases h with
  | shift _ _ _ => exact ⟨_, .skip ho, by simp [Spec.tokens]; omega⟩
  | @reduce γ ρ ns hd i t u w q _ _ _ _ _ _ _ =>
    simp only at ho
    rw [← List.take_append_drop i.body.length ns, occIn_append] at ho
    rcases ho with ho | ⟨k', ho, rfl⟩
    · exact ⟨k, .inside ho, rfl⟩
    · exact ⟨_, .skip ho, by simp [Spec.tokens]⟩

theorem Moves.occIn {n : Nat} {x y : Conf V T} (h : Moves g n x y) {v : Node V T} {k : Nat} (ho : OccIn x.nodes v k) :
    ∃ k', OccIn y.nodes v k' ∧ k + x.input.length = k' + y.input.length := by
  induction h generalizing k with
  | refl => exact ⟨k, ho, rfl⟩
  | step h1 _ ih =>
    obtain ⟨k1, h2, h3⟩ := h1.occIn ho
    obtain ⟨k2, h4, h5⟩ := ih h2
    exact ⟨k2, h4, h3.trans h5⟩

/-- When the input has been read, a token is on top. -/
theorem Moves.lastNode {k : Nat} {x y : Conf V T} (h : Moves g k x y) (hx : x.input ≠ []) (hy : y.input = []) :
    ∃ t ns, y.nodes = .mk (.term t) [] :: ns := by
  induction h with
  | refl => exact absurd hy hx
  | @step k x y z h1 h2 ih =>
    by_cases hin : y.input = []
    · cases h2 with
      | step h3 _ => exact absurd hin h3.input_ne
      | refl =>
        cases h1 with
        | shift _ _ _ => exact ⟨_, _, rfl⟩
        | reduce _ _ _ _ _ _ _ => cases hin
    · exact ih hin hy

/-! ## The run of a parse tree -/

/-- The symbols without epsilons. -/
def plain (α : List (Sym V T)) : List (Sym V T) := α.filter fun x => match x with | .eps => false | _ => true

theorem plain_self {α : List (Sym V T)} (h : Sym.eps ∉ α) : plain α = α := by
  rw [plain, List.filter_eq_self]
  intro x hx
  cases x with
  | eps => exact absurd hx h
  | term _ => rfl
  | var _ => rfl

theorem plain_lt {α : List (Sym V T)} (h : Sym.eps ∈ α) : (plain α).length < α.length := by
  rw [plain, List.length_filter_lt_length_iff_exists]
  exact ⟨.eps, h, by simp⟩

theorem forest_count {α : List (Sym V T)} {ns : List (Node V T)} {w : List T} (h : Forest g α ns w) :
    ns.length = (plain α).length := by
  induction h with
  | nil => rfl
  | eps _ ih => simpa [plain] using ih
  | term _ _ ih => simpa [plain] using ih
  | var _ _ _ _ ih => simpa [plain] using ih

/-- Symbols of which nothing must be left stand for no token. -/
theorem nullable_leaf {α : List (Sym V T)} {ns : List (Node V T)} {w : List T} (h : Forest g α ns w) (hn : Nullable g α)
    (t : T) : .mk (.term t) [] ∉ ns := by
  induction h with
  | nil => simp
  | eps _ ih =>
    cases hn with
    | eps hn => exact ih hn
  | term _ _ _ => cases hn
  | var _ _ _ _ ih =>
    cases hn with
    | var _ _ hn => simpa using ih hn

/-- The token behind the symbols is in the follow set of a variable behind which nothing must stand. -/
def LookAll (g : Grammar V T) (α : List (Sym V T)) (rest : List T) : Prop :=
  ∀ α' v β, α = α' ++ .var v :: β → Nullable g β → ∃ t u r, rest = u :: r ∧ teq t u = true ∧ Fol g t v

theorem LookAll.cons {x : Sym V T} {α : List (Sym V T)} {rest : List T} (h : LookAll g (x :: α) rest) :
    LookAll g α rest := fun α' v β hα => h (x :: α') v β (by rw [hα]; rfl)

theorem advanced_skip {i : Item V T} {x : Sym V T} {pre post : List (Sym V T)} (h1 : i.body = pre ++ x :: post)
    (h2 : i.cursor = pre.length) : Advanced i x ⟨i.body, pre.length + 1 + leadingEpsilons post⟩ := by
  obtain ⟨_, rest, h3, h4⟩ := fresh_iff.2 (rfl : Item.ofBody post = Item.ofBody post)
  exact ⟨rfl, pre, _, rest, by rw [h1]; exact congrArg (pre ++ x :: ·) h3, h4, h2, rfl⟩

/-- The parser gets to a complete rule with epsilon, before a token that makes it reduce; what the rule stands for is
on top of the stack, and is a node of the trees. -/
def Spoiled (g : Grammar V T) (x : Conf V T) (ns : List (Node V T)) (rest : List T) : Prop :=
  ∃ k γ v i cs ms t u r b, Moves g k x ⟨γ, cs ++ ms, u :: r⟩ ∧ Viable g γ (v, i) ∧ Complete i ∧ teq t u = true ∧
    Fol g t v ∧ cs ≠ [] ∧ cs.length < i.body.length ∧ (u :: r).length = b + rest.length ∧
    OccIn ns.reverse (.mk (.var v) cs) b

theorem forest_canon {α : List (Sym V T)} {ns : List (Node V T)} {w : List T} (hf : Forest g α ns w) :
    ∀ {γ pre post : List (Sym V T)} {h : V} {i : Item V T} {ms : List (Node V T)} {rest : List T},
      Solid ns → Viable g γ (h, i) → i.body = pre ++ (α ++ post) →
      i.cursor = pre.length + leadingEpsilons (α ++ post) → LookAll g α rest →
      (Forest (dropEps g) α ns w ∧ ∃ k, Moves g k ⟨γ, ms, w ++ rest⟩ ⟨γ ++ plain α, ns.reverse ++ ms, rest⟩ ∧
        Viable g (γ ++ plain α) (h, ⟨i.body, pre.length + α.length + leadingEpsilons post⟩)) ∨
      Spoiled g ⟨γ, ms, w ++ rest⟩ ns rest := by
  induction hf with
  | nil =>
    intro γ pre post h i ms rest _ hv hb hc _
    refine .inl ⟨.nil, 0, ?_, ?_⟩
    · simpa [plain] using Moves.refl
    · obtain ⟨b, c⟩ := i
      simp only [List.nil_append] at hc
      subst hc
      simpa [plain] using hv
  | @eps α ns w _ ih =>
    intro γ pre post h i ms rest hs hv hb hc hl
    rcases ih (ms := ms) hs hv (pre := pre ++ [.eps]) (post := post) (by simpa using hb)
      (by rw [hc]; simp [leadingEpsilons]; omega) hl.cons with ⟨h1, k, h2, h3⟩ | h1
    · refine .inl ⟨.eps h1, k, by simpa [plain] using h2, ?_⟩
      have e : pre.length + (Sym.eps :: α).length = (pre ++ [Sym.eps]).length + α.length := by simp; omega
      rw [e]
      simpa [plain] using h3
    · exact .inr h1
  | @term t u α ns w ht _ ih =>
    intro γ pre post h i ms rest hs hv hb hc hl
    have hb' : i.body = pre ++ .term t :: (α ++ post) := hb
    have hc' : i.cursor = pre.length := hc
    have hm : Move g ⟨γ, ms, u :: w ++ rest⟩ ⟨γ ++ [.term t], .mk (.term u) [] :: ms, w ++ rest⟩ :=
      .shift hv ⟨pre, α ++ post, hb', hc'⟩ ht
    have hs' : Solid ns := (solid_append (ns := [_]).1 hs).2
    rcases ih (ms := .mk (.term u) [] :: ms) hs' (.read hv (advanced_skip hb' hc')) (pre := pre ++ [.term t]) (post := post)
      (by simpa using hb) (by simp) hl.cons with ⟨h1, k, h2, h3⟩ | ⟨k, γ', v, j, cs, ms', t', u', r, b, h1, h2⟩
    · refine .inl ⟨.term ht h1, k + 1, .step hm ?_, ?_⟩
      · simpa [plain] using h2
      · have e : pre.length + (Sym.term t :: α).length = (pre ++ [Sym.term t]).length + α.length := by simp; omega
        rw [e]
        simpa [plain] using h3
    · obtain ⟨h2, h3, h4, h5, h6, h7, h8, h9⟩ := h2
      refine .inr ⟨k + 1, γ', v, j, cs, ms', t', u', r, b, .step hm h1, h2, h3, h4, h5, h6, h7, h8, ?_⟩
      rw [List.reverse_cons, occIn_append]
      exact .inl h9
  | @var v β α cs ns x w hr hc ha ih1 ih2 =>
    intro γ pre post h i ms rest hs hv hb hcur hl
    have hb' : i.body = pre ++ .var v :: (α ++ post) := hb
    have hcur' : i.cursor = pre.length := hcur
    have hreads : Reads i (.var v) := ⟨pre, α ++ post, hb', hcur'⟩
    have hrule := (Viable_ok hv).rule
    simp only [hb'] at hrule
    obtain ⟨hs1, hs2⟩ : Solid cs ∧ Solid ns := by
      cases hs with
      | var _ h1 h2 => exact ⟨solid_reverse.1 h1, h2⟩
    have hne : cs ≠ [] := by
      cases hs with
      | var h1 _ _ => simpa using h1
    obtain ⟨t, u, r, h1, h2, h3⟩ : ∃ t u r, w ++ rest = u :: r ∧ teq t u = true ∧ Fol g t v := by
      cases w with
      | nil => exact hl [] v α rfl ((forest_front ha).1 rfl)
      | cons u w =>
        obtain ⟨t, h1, h2⟩ := (forest_front ha).2 u w rfl
        exact ⟨t, u, _, rfl, h1, .here hrule (starts_append.2 (.inl h2))⟩
    have hv1 : Viable g γ (v, Item.ofBody β) := .expand hv hreads hr (fresh_iff.2 rfl)
    rw [List.append_assoc]
    rcases ih1 (ms := ms) (rest := w ++ rest) hs1 hv1 (pre := []) (post := []) (by simp [Item.ofBody])
      (by simp [Item.ofBody]) (fun α' v' β' hβ hn => ⟨t, u, r, h1, h2, .up (hβ ▸ hr) hn h3⟩)
      with ⟨h4, k1, h5, h6⟩ | ⟨k, γ', v', j, ds, ms', t', u', r', b, g1, g2, g3, g4, g5, g6, g7, g8, g9⟩
    · have h6' : Viable g (γ ++ plain β) (v, ⟨β, β.length⟩) := by simpa [Item.ofBody, leadingEpsilons] using h6
      by_cases he : Sym.eps ∈ β
      · refine .inr ⟨k1, γ ++ plain β, v, ⟨β, β.length⟩, cs.reverse, ms, t, u, r, w.length, h1 ▸ h5, h6', rfl, h2, h3,
          by simpa using hne, ?_, by rw [← h1, List.length_append], ?_⟩
        · have := plain_lt he
          rw [List.length_reverse, forest_count hc]
          exact this
        · rw [List.reverse_cons, occIn_append]
          exact .inr ⟨0, .here, by rw [forest_tokens ha]; omega⟩
      · rw [plain_self he] at h5 h6'
        have hlen : cs.reverse.length = β.length := by simp [forest_count hc, plain_self he]
        have hred : Move g ⟨γ ++ β, cs.reverse ++ ms, w ++ rest⟩
            ⟨γ ++ [.var v], .mk (.var v) cs.reverse :: ms, w ++ rest⟩ := by
          have := Move.reduce (ρ := β) (ns := cs.reverse ++ ms) (w := r) h6' rfl h3 h2 rfl hv hreads
          simp only [List.take_left' hlen, List.drop_left' hlen, ← h1] at this
          exact this
        rcases ih2 (ms := .mk (.var v) cs.reverse :: ms) (rest := rest) hs2 (.read hv (advanced_skip hb' hcur'))
          (pre := pre ++ [.var v]) (post := post) (by simpa using hb) (by simp) hl.cons
          with ⟨h7, k2, h8, h9⟩ | ⟨k, γ', v', j, ds, ms', t', u', r', b, g1, g2, g3, g4, g5, g6, g7, g8, g9⟩
        · refine .inl ⟨.var (mem_dropEps.2 ⟨hr, he⟩) h4 h7, k1 + (1 + k2), h5.trans (hred.moves.trans ?_), ?_⟩
          · simpa [plain] using h8
          · have e : pre.length + (Sym.var v :: α).length = (pre ++ [Sym.var v]).length + α.length := by simp; omega
            rw [e]
            simpa [plain] using h9
        · refine .inr ⟨k1 + (1 + k), γ', v', j, ds, ms', t', u', r', b, h5.trans (hred.moves.trans g1), g2, g3, g4, g5, g6,
            g7, g8, ?_⟩
          rw [List.reverse_cons, occIn_append]
          exact .inl g9
    · refine .inr ⟨k, γ', v', j, ds, ms', t', u', r', b + w.length, g1, g2, g3, g4, g5, g6, g7, ?_, ?_⟩
      · rw [g8, List.length_append]; omega
      · rw [List.reverse_cons, occIn_append]
        exact .inr ⟨b, .inside (by rw [← List.append_nil cs.reverse, occIn_append]; exact .inl g9), by rw [forest_tokens ha]⟩

variable [DecidableEq V] [DecidableEq T] [LawfulTerminalEq T] {c : Cfsm V T} {tbl : Table V T}

/-- Steps from the same configuration to one without further steps. -/
theorem Moves.join {entry : Prop} (ok : SlrOk g c entry tbl) {k m : Nat} {x y z : Conf V T} (h : Moves g k x y)
    (h' : Moves g m x z) (hz : ∀ z', ¬ Move g z z') : ∃ m', Moves g m' y z := by
  induction h generalizing m with
  | refl => exact ⟨m, h'⟩
  | step h1 _ ih =>
    cases h' with
    | refl => exact absurd h1 (hz _)
    | step h2 h3 =>
      cases Move.det ok h1 h2
      exact ih h3

/-- A returned parse tree of tokens ends in a token and uses no rule with epsilon. -/
theorem parse_plain {follow : List (V × List (Sym V T))} (wf : WellFormed g) (ok : SlrOk g c (Entry g follow) tbl)
    (huniq : ∀ γ p p' k k', Needs g (Entry g follow) γ p k → Needs g (Entry g follow) γ p' k' → keyEq k k' = true →
      p = p' ∧ k = k') {fin : InputEnd} {n : Nat} {u : T} {w : List T} {r : Node V T}
    (ht : ParseTree g r (u :: w)) (h : parseTokens tbl n (u :: w) fin = .ok (some r)) :
    ParseTree (dropEps g) r (u :: w) ∧ ∃ t cs, r = .mk (.var g.start) (.mk (.term t) [] :: cs) := by
  have hempty : ¬ HasEmpty r := fun he => parse_hollow wf ok huniq ht he h
  obtain ⟨k, γ, ns, i, hm, _, hv, hc, hentry, hle, hlen, rfl⟩ := parseTokens_some ok h
  obtain ⟨_, hsol⟩ := hm.solid wf ⟨rfl, .nil⟩
  simp only at hsol
  have hall : i.body.length ≤ ns.length := by
    by_cases hall : i.body.length ≤ ns.length
    · exact hall
    · rw [List.take_of_length_le (by simp; omega)] at hempty
      exact absurd (.child (n := bottomNode g) (by simp) .here) hempty
  rw [List.take_append_of_le_length hall] at ht hempty ⊢
  have htok : tokensAll ns = u :: w := by simpa [tokensAll] using hm.tokens.symm
  have hdrop : ns.drop i.body.length = [] := by
    by_cases hd : ns.drop i.body.length = []
    · exact hd
    · have h1 : tokensAll (ns.take i.body.length) = u :: w := by
        simpa [Spec.tokens] using parseTree_tokens ht
      have h2 := htok
      rw [← List.take_append_drop i.body.length ns] at h2 hsol
      rw [tokensAll_append, h1] at h2
      have := congrArg List.length h2
      simp only [List.length_append] at this
      exact absurd (List.length_eq_zero_iff.1 (by omega)) (solid_tokens (solid_append.1 hsol).2 hd)
  have htake : ns.take i.body.length = ns := by
    have := List.take_append_drop i.body.length ns
    rwa [hdrop, List.append_nil] at this
  rw [htake] at ht hempty ⊢
  obtain ⟨t, ds, hds⟩ := hm.lastNode (by simp) rfl
  simp only at hds
  refine ⟨?_, t, ds, by rw [hds]⟩
  obtain ⟨β, cs, hr, h1, h2⟩ := parseTree_iff.1 ht
  obtain rfl : ns = cs.reverse := by simpa using h1
  have hz : ∀ z, ¬ Move g ⟨γ, cs.reverse, []⟩ z := fun z hz => hz.input_ne rfl
  have hlook : LookAll g β [] := by
    rintro α' v β' rfl hn
    exfalso
    obtain ⟨n1, n2, w1, w2, rfl, _, _, h4⟩ := forest_split h2
    cases h4 with
    | @var _ _ _ _ n3 _ _ _ _ h5 =>
      rcases List.eq_nil_or_concat n3 with rfl | ⟨n4, m, rfl⟩
      · simp at hds
      · rw [List.concat_eq_append] at h5 hds
        simp only [List.reverse_append, List.reverse_cons, List.reverse_nil, List.nil_append, List.append_assoc,
          List.singleton_append, List.cons_append, List.cons.injEq] at hds
        exact nullable_leaf h5 hn t (by rw [hds.1]; simp)
  rcases forest_canon h2 (γ := []) (pre := []) (post := []) (i := Item.ofBody β) (ms := []) (rest := [])
    (solid_reverse.1 hsol) (.start hr (fresh_iff.2 rfl)) (by simp [Item.ofBody]) (by simp [Item.ofBody]) hlook
    with ⟨h3, k', h4, h5⟩ | ⟨k', γ', v, j, ds', ms, t', u', r, b, g1, g2, g3, g4, g5, g6, g7, g8, g9⟩
  · simp only [List.append_nil] at h4
    obtain ⟨m, h6⟩ := h4.join ok hm hz
    have h7 : γ = plain β := by
      generalize hx : (⟨[] ++ plain β, cs.reverse, []⟩ : Conf V T) = x at h6
      generalize hy : (⟨γ, cs.reverse, []⟩ : Conf V T) = y at h6
      cases h6 with
      | refl =>
        cases hx
        cases hy
        rfl
      | step h7 _ => exact absurd (by rw [← hx]) h7.input_ne
    subst h7
    have h8 := (huniq _ _ _ _ _ (.accept hv hc hentry) (.accept (i := ⟨β, β.length⟩)
      (by simpa [Item.ofBody, leadingEpsilons] using h5) rfl hentry) rfl).1
    cases h8
    have he : Sym.eps ∉ β := fun he => by
      have := plain_lt he
      simp only at hall
      omega
    exact parseTree_iff.2 ⟨β, cs, mem_dropEps.2 ⟨hr, he⟩, rfl, h3⟩
  · exfalso
    simp only [List.append_nil] at g1
    obtain ⟨m, h3⟩ := g1.join ok hm hz
    generalize hx : (⟨γ', ds' ++ ms, u' :: r⟩ : Conf V T) = x at h3
    generalize hy : (⟨γ, cs.reverse, []⟩ : Conf V T) = y at h3
    cases h3 with
    | refl =>
      have := congrArg Conf.input (hx.trans hy.symm)
      cases this
    | @step _ _ z _ h4 h5 =>
      have hl1 := g1.solid wf ⟨rfl, .nil⟩
      have hneed : Needs g (Entry g follow) γ' (v, j) (some t') := .reduce g2 g3 (inFollow_iff.2 g5)
      have hkey : ∀ {t1 : T}, teq t1 u' = true → keyEq (some t') (some t1) = true :=
        fun h => LawfulTerminalEq.trans _ _ _ g4 (LawfulTerminalEq.symm _ _ h)
      cases h4 with
      | shift f1 f2 f3 =>
        cases hx
        cases (huniq _ _ _ _ _ hneed (.shift f1 f2) (hkey f3)).1
        exact reads_not_complete f2 g3
      | @reduce γ1 ρ ns1 hd i1 t1 u1 w1 q f1 f2 f3 f4 f5 f6 f7 =>
        simp only [Conf.mk.injEq, List.cons.injEq] at hx
        obtain ⟨rfl, rfl, rfl, rfl⟩ := hx
        cases (huniq _ _ _ _ _ hneed (.reduce f1 f2 (inFollow_iff.2 f3)) (hkey f4)).1
        obtain ⟨b', h6, h7⟩ := h5.occIn (k := 0) .here
        rw [← hy] at h6 h7
        simp only [List.length_nil] at h7 g8
        obtain ⟨l, ds1, rfl⟩ := List.exists_cons_of_ne_nil g6
        have h8 : (l :: ds1 ++ ms).take j.body.length = l :: (ds1 ++ ms).take (j.body.length - 1) := by
          have : j.body.length = (j.body.length - 1) + 1 := by simp at g7; omega
          rw [this]
          rfl
        rw [h8] at h6
        have h9 : ds1 = (ds1 ++ ms).take (j.body.length - 1) := by
          rcases occIn_unique g9 h6 hsol (by simp only [List.length_cons] at h7 g8; omega) with h | h
          · exact h.same
          · exact h.same.symm
        have h10 := congrArg List.length h9
        simp only [List.length_append, List.length_cons] at hl1 g7 f5
        simp only [List.length_take, List.length_append] at h10
        omega

end Pango.Parse
