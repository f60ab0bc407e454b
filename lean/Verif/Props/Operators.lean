import Verif.Proofs.Operators
import Verif.Props.RegularTokens

/-!
# C106: tables of operators

For every table of operators, with any number of levels, the textbook's grammar can be used, and groups the operators
as the table says.
-/

namespace Pango.Props

open Pango Pango.Parse Pango.Spec

variable {O A : Type} [DecidableEq O] {tb : OpTable O} {a : A} {g : Grammar Nat (OpTok O A)}

instance : LawfulTerminalEq (OpTok O A) where
  refl t := by cases t <;> simp [teq]
  symm s t h := by
    cases s <;> cases t <;> simp [teq] at h ⊢
    exact h.symm
  trans s t u h h' := by
    cases s <;> cases t <;> simp [teq] at h <;> cases u <;> simp [teq] at h' ⊢
    exact h.trans h'

/-! ## The grammar -/

omit [DecidableEq O] in
private theorem rule_var {v w : Nat} {β : Body Nat (OpTok O A)} (h : OpRule tb a v β) (hw : .var w ∈ β) :
    w ≤ tb.length := by
  cases h with
  | next h => simp at hw; omega
  | left h => have := h.lt; simp at hw; omega
  | right h => have := h.lt; simp at hw; omega
  | before h => have := h.lt; simp at hw; omega
  | behind h => have := h.lt; simp at hw; omega
  | val => simp at hw
  | parens => simp at hw; omega

omit [DecidableEq O] in
private theorem rule_head {v : Nat} {β : Body Nat (OpTok O A)} (h : OpRule tb a v β) : v ≤ tb.length := by
  cases h with
  | next h => omega
  | left h => exact Nat.le_of_lt h.lt
  | right h => exact Nat.le_of_lt h.lt
  | before h => exact Nat.le_of_lt h.lt
  | behind h => exact Nat.le_of_lt h.lt
  | val => exact Nat.le_refl _
  | parens => exact Nat.le_refl _

/-- C106, the grammar of every table can be built. -/
theorem c106_grammar [DecidableEq A] (tb : OpTable O) (a : A) :
    ∃ g : Grammar Nat (OpTok O A), Built g ∧ g.start = 0 ∧ ∀ v β, (v, β) ∈ g.rules ↔ OpRule tb a v β := by
  let level : Nat → Fixity × List O → List (Nat × Body Nat (OpTok O A)) := fun i lv =>
    (i, [.var (i + 1)]) :: lv.2.map fun o => (i, match lv.1 with
      | .left => [.var i, .term (.op o), .var (i + 1)]
      | .right => [.var (i + 1), .term (.op o), .var i]
      | .before => [.term (.op o), .var i]
      | .behind => [.var i, .term (.op o)])
  let rules : List (Nat × Body Nat (OpTok O A)) := (tb.zipIdx.flatMap fun p => level p.2 p.1) ++
    [(tb.length, [.term (.val a)]), (tb.length, [.term .lpar, .var 0, .term .rpar])]
  have hrules : ∀ v β, (v, β) ∈ rules ↔ OpRule tb a v β := by
    intro v β
    constructor
    · intro h
      rcases List.mem_append.1 h with h | h
      · obtain ⟨⟨⟨f, ops⟩, i⟩, h1, h2⟩ := List.mem_flatMap.1 h
        have h3 : tb[i]? = some (f, ops) := by simpa using List.mem_zipIdx_iff_getElem?.1 h1
        rcases List.mem_cons.1 h2 with h2 | h2
        · cases h2
          exact .next (List.getElem?_eq_some_iff.1 h3).1
        · obtain ⟨o, h4, h5⟩ := List.mem_map.1 h2
          cases f <;> cases h5
          · exact .left ⟨_, h3, h4⟩
          · exact .right ⟨_, h3, h4⟩
          · exact .before ⟨_, h3, h4⟩
          · exact .behind ⟨_, h3, h4⟩
      · simp only [List.mem_cons, Prod.mk.injEq, List.not_mem_nil, or_false] at h
        rcases h with ⟨rfl, rfl⟩ | ⟨rfl, rfl⟩
        · exact .val
        · exact .parens
    · have get : ∀ {i lv r}, tb[i]? = some lv → r ∈ level i lv → r ∈ rules := by
        intro i lv r h1 h2
        exact List.mem_append_left _ (List.mem_flatMap.2 ⟨(lv, i), List.mem_zipIdx_iff_getElem?.2 (by simpa using h1), h2⟩)
      intro h
      cases h with
      | next h => exact get (List.getElem?_eq_getElem h) (List.mem_cons_self ..)
      | left h => obtain ⟨ops, h1, h2⟩ := h; exact get h1 (List.mem_cons_of_mem _ (List.mem_map.2 ⟨_, h2, rfl⟩))
      | right h => obtain ⟨ops, h1, h2⟩ := h; exact get h1 (List.mem_cons_of_mem _ (List.mem_map.2 ⟨_, h2, rfl⟩))
      | before h => obtain ⟨ops, h1, h2⟩ := h; exact get h1 (List.mem_cons_of_mem _ (List.mem_map.2 ⟨_, h2, rfl⟩))
      | behind h => obtain ⟨ops, h1, h2⟩ := h; exact get h1 (List.mem_cons_of_mem _ (List.mem_map.2 ⟨_, h2, rfl⟩))
      | val => exact List.mem_append_right _ (by simp)
      | parens => exact List.mem_append_right _ (by simp)
  have has : ∀ v, v ≤ tb.length → ∃ β, (v, β) ∈ rules := by
    intro v hv
    by_cases h : v < tb.length
    · exact ⟨_, (hrules _ _).2 (.next h)⟩
    · obtain rfl : v = tb.length := by omega
      exact ⟨_, (hrules _ _).2 .val⟩
  obtain ⟨g, h1, h2, h3⟩ := built_rules 0 rules (has 0 (by omega))
    (fun v β w h1 h2 => has w (rule_var ((hrules _ _).1 h1) h2))
    (fun v β h => by cases (hrules _ _).1 h <;> simp)
  exact ⟨g, h1, h2, fun v β => (h3 v β).trans (hrules v β)⟩

/-! ## The parser -/

private theorem op_epsFree (hr : ∀ v β, (v, β) ∈ g.rules ↔ OpRule tb a v β) : EpsFree g :=
  fun v β h => ((hr v β).1 h).noEps

private theorem op_notIn (hr : ∀ v β, (v, β) ∈ g.rules ↔ OpRule tb a v β) : NotIn g (tb.length + 1) .stop .never where
  head β h := by have := rule_head ((hr _ _).1 h); omega
  marker v β t h ht := by cases (hr _ _).1 h <;> simp at ht <;> (try rcases ht with rfl | rfl) <;> (try subst ht) <;> rfl
  never v β t h ht := by cases (hr _ _).1 h <;> simp at ht <;> (try rcases ht with rfl | rfl) <;> (try subst ht) <;> rfl
  differ := rfl

private theorem op_reachable (hs : g.start = 0) (hr : ∀ v β, (v, β) ∈ g.rules ↔ OpRule tb a v β) (v : Nat)
    (hv : v ≤ tb.length) : Reachable g v := by
  induction v with
  | zero => rw [← hs]; exact .start
  | succ v ih => exact .step (ih (by omega)) ((hr _ _).2 (.next (by omega))) (by simp)

private theorem op_first (hr : ∀ v β, (v, β) ∈ g.rules ↔ OpRule tb a v β) (v : Nat) (hv : v ≤ tb.length) :
    ∃ t, InFirst g [.var v] (.term t) := by
  have : ∀ n, n ≤ tb.length → Starts g (.val a) [.var (tb.length - n)] := by
    intro n hn
    induction n with
    | zero => exact .inVar ((hr _ _).2 .val) .term
    | succ n ih =>
      refine .inVar ((hr _ _).2 (.next (i := tb.length - (n + 1)) (by omega))) ?_
      have h := ih (by omega)
      have : tb.length - (n + 1) + 1 = tb.length - n := by omega
      rw [this]
      exact h
  have := this (tb.length - v) (by omega)
  rw [show tb.length - (tb.length - v) = v by omega] at this
  exact ⟨_, derives_starts.2 this⟩

variable [DecidableEq A]

/-- C106.  If no operator stands in two levels there is a parser for the grammar of the table, with an end marker,
whatever the iteration order. -/
theorem c106_parser (h1 : OneLevel tb) (hg : Built g) (hs : g.start = 0)
    (hr : ∀ v β, (v, β) ∈ g.rules ↔ OpRule tb a v β) :
    (∃ tbl, IsParser (withEnd g (tb.length + 1) .stop .never) tbl) ∧ ∃ bound, ∀ fuel ≥ bound, ∀ ord : HashOrder,
      ∃ tbl, slrNew (withEnd g (tb.length + 1) .stop .never) ord fuel = .ok tbl := by
  obtain ⟨h2, bound, h3⟩ := c86_table hg (op_epsFree hr) (op_notIn hr)
  have h4 := op_oneEntry h1 hs hr
  exact ⟨h2.2 h4, bound, fun fuel hf ord => (h3 fuel hf ord).2 h4⟩

/-! ## Trees and texts -/

/-- The trees stand for expressions, of which the tokens are texts. -/
private inductive Texts (tb : OpTable O) : List (Sym Nat (OpTok O A)) → List (Node Nat (OpTok O A)) → List (OpTok O A) → Prop
  | nil : Texts tb [] [] []
  | term {t u : OpTok O A} {α : List (Sym Nat (OpTok O A))} {ns : List (Node Nat (OpTok O A))} {w : List (OpTok O A)} :
      teq t u = true → Texts tb α ns w → Texts tb (.term t :: α) (.mk (.term u) [] :: ns) (u :: w)
  | var {v : Nat} {α : List (Sym Nat (OpTok O A))} {cs ns : List (Node Nat (OpTok O A))} {x w : List (OpTok O A)}
      {e : OpExpr O A} : Stands (.mk (.var v) cs) e → IsText tb v x e → Texts tb α ns w →
      Texts tb (.var v :: α) (.mk (.var v) cs :: ns) (x ++ w)

omit [DecidableEq A] in
private theorem texts_of_forest (hr : ∀ v β, (v, β) ∈ g.rules ↔ OpRule tb a v β) {α : List (Sym Nat (OpTok O A))}
    {ns : List (Node Nat (OpTok O A))} {w : List (OpTok O A)} (h : Forest g α ns w) (he : .eps ∉ α) : Texts tb α ns w := by
  have op : ∀ {o : O} {u : OpTok O A}, teq (OpTok.op (A := A) o) u = true → u = .op o := by
    intro o u h
    cases u <;> simp [teq] at h ⊢
    exact h.symm
  induction h with
  | nil => exact .nil
  | eps _ _ => simp at he
  | term h1 _ ih => exact .term h1 (ih (by simp_all))
  | @var v β α cs ns x w h1 h2 _ ih1 ih2 =>
    have h3 := (hr _ _).1 h1
    have h4 := ih1 h3.noEps
    have h5 := ih2 (by simp_all)
    clear ih1 ih2 h1 h2
    cases h3 with
    | next h6 =>
      cases h4 with
      | var h7 h8 h9 =>
        cases h9
        refine .var (.next h7) ?_ h5
        simpa using h8.tighter h6
    | left h6 =>
      cases h4 with
      | var h7 h8 h9 =>
        cases h9 with
        | term h10 h11 =>
          cases h11 with
          | var h12 h13 h14 =>
            cases h14
            obtain rfl := op h10
            refine .var (.binary h7 h12) ?_ h5
            simpa using IsText.left h6 h8 h13
    | right h6 =>
      cases h4 with
      | var h7 h8 h9 =>
        cases h9 with
        | term h10 h11 =>
          cases h11 with
          | var h12 h13 h14 =>
            cases h14
            obtain rfl := op h10
            refine .var (.binary h7 h12) ?_ h5
            simpa using IsText.right h6 h8 h13
    | before h6 =>
      cases h4 with
      | term h10 h11 =>
        cases h11 with
        | var h12 h13 h14 =>
          cases h14
          obtain rfl := op h10
          refine .var (.before h12) ?_ h5
          simpa using IsText.before h6 h13
    | behind h6 =>
      cases h4 with
      | var h7 h8 h9 =>
        cases h9 with
        | term h10 h11 =>
          cases h11
          obtain rfl := op h10
          exact .var (.behind h7) (.behind h6 h8) h5
    | val =>
      cases h4 with
      | @term _ u _ _ _ h10 h11 =>
        cases h11
        cases u <;> simp [teq] at h10
        exact .var .val .val h5
    | parens =>
      cases h4 with
      | @term _ u _ _ _ h6 h9 =>
        cases u <;> simp [teq] at h6
        cases h9 with
        | var h7 h8 h9 =>
          cases h9 with
          | @term _ u _ _ _ h10 h11 =>
            cases h11
            cases u <;> simp [teq] at h10
            exact .var (.parens h7) (.parens h8) h5

omit [DecidableEq A] in
private theorem text_of_tree (hr : ∀ v β, (v, β) ∈ g.rules ↔ OpRule tb a v β) {v : Nat} {m : Node Nat (OpTok O A)}
    {w : List (OpTok O A)} (h : Forest g [.var v] [m] w) : ∃ e, Stands m e ∧ IsText tb v w e := by
  cases texts_of_forest hr h (by simp) with
  | var h1 h2 h3 =>
    cases h3
    exact ⟨_, h1, by simpa using h2⟩

omit [DecidableEq A] in
private theorem tree_of_text (hr : ∀ v β, (v, β) ∈ g.rules ↔ OpRule tb a v β) {v : Nat} {w : List (OpTok O A)}
    {e : OpExpr O A} (h : IsText tb v w e) :
    ∃ cs, Forest g [.var v] [.mk (.var v) cs] w ∧ Stands (.mk (.var v) cs) e := by
  have node : ∀ {v β cs x}, OpRule tb a v β → Forest g β cs x → Forest g [.var v] [.mk (.var v) cs.reverse] x := by
    intro v β cs x h1 h2
    have := Forest.var ((hr _ _).2 h1) h2 .nil
    simpa using this
  have tok : ∀ t : OpTok O A, Forest g [.term t] [.mk (.term t) []] [t] := fun t => .term (LawfulTerminalEq.refl t) .nil
  induction h with
  | @val b =>
    have h1 : Forest g [.term (.val a)] [.mk (.term (.val b)) []] [.val b] := .term rfl .nil
    exact ⟨_, node .val h1, .val⟩
  | parens _ ih =>
    obtain ⟨cs, h1, h2⟩ := ih
    exact ⟨_, node .parens (forest_append (tok .lpar) (forest_append h1 (tok .rpar))), .parens h2⟩
  | tighter h3 _ ih =>
    obtain ⟨cs, h1, h2⟩ := ih
    exact ⟨_, node (.next h3) h1, .next h2⟩
  | left h3 _ _ ih1 ih2 =>
    obtain ⟨cs, h1, h2⟩ := ih1
    obtain ⟨ds, h4, h5⟩ := ih2
    exact ⟨_, node (.left h3) (forest_append h1 (forest_append (tok _) h4)), .binary h2 h5⟩
  | right h3 _ _ ih1 ih2 =>
    obtain ⟨cs, h1, h2⟩ := ih1
    obtain ⟨ds, h4, h5⟩ := ih2
    exact ⟨_, node (.right h3) (forest_append h1 (forest_append (tok _) h4)), .binary h2 h5⟩
  | before h3 _ ih =>
    obtain ⟨cs, h1, h2⟩ := ih
    exact ⟨_, node (.before h3) (forest_append (tok _) h1), .before h2⟩
  | behind h3 _ ih =>
    obtain ⟨cs, h1, h2⟩ := ih
    exact ⟨_, node (.behind h3) (forest_append h1 (tok _)), .behind h2⟩

omit [DecidableEq O] [DecidableEq A] in
/-- A tree stands for only one expression. -/
theorem stands_unique {m : Node Nat (OpTok O A)} {e e' : OpExpr O A} (h : Stands m e) (h' : Stands m e') : e = e' := by
  induction h generalizing e' with
  | val => cases h'; rfl
  | next _ ih => cases h' with | next h1 => exact ih h1
  | parens h2 ih =>
    cases h' with
    | parens h1 => exact ih h1
    | binary h1 _ => cases h1
  | binary h3 h4 ih1 ih2 =>
    cases h' with
    | parens _ => cases h3
    | binary h1 h2 => rw [ih1 h1, ih2 h2]
  | before h3 ih =>
    cases h' with
    | before h1 => rw [ih h1]
    | behind h1 => cases h1
  | behind h3 ih =>
    cases h' with
    | before h1 => cases h1
    | behind h1 => rw [ih h1]

/-- C106.  The parser returns on every input, after a number of iterations that is linear in its length: for a text of an
expression and the end marker a tree that stands for the expression, and for everything else an error. -/
theorem c106_reads (hg : Built g) (hs : g.start = 0) (hr : ∀ v β, (v, β) ∈ g.rules ↔ OpRule tb a v β)
    {tbl : Table Nat (OpTok O A)} (hp : IsParser (withEnd g (tb.length + 1) .stop .never) tbl)
    {input : List (OpTok O A)} (hi : .never ∉ input) {fuel : Nat}
    (hf : (2 * input.length + 1) * (g.rules.length + 4) < fuel) :
    (∃ w e m, input = w ++ [.stop] ∧ IsText tb 0 w e ∧ Stands m e ∧
      parseTokens tbl fuel input = .ok (some (.mk (.var (tb.length + 1)) [.mk (.term .stop) [], m]))) ∨
    ((¬ ∃ w e, input = w ++ [.stop] ∧ IsText tb 0 w e) ∧ parseTokens tbl fuel input = .ok none) := by
  obtain ⟨r, h1, h2⟩ := c86_reads hg (op_epsFree hr)
    (fun v β h => op_reachable hs hr v (rule_head ((hr _ _).1 h))) (fun v β h => op_first hr v (rule_head ((hr _ _).1 h)))
    (op_notIn hr) hp (input := input) (fuel := fuel) (by
      intro t ht
      cases t <;> first | rfl | exact absurd ht hi) hf
  have stop : ∀ {e' : OpTok O A}, teq OpTok.stop e' = true → e' = .stop := by
    intro e' h
    cases e' <;> simp [teq] at h ⊢
  cases r with
  | some n =>
    obtain ⟨w, e', m, rfl, h3, h4, rfl⟩ := (h2 n).1 rfl
    obtain rfl := stop h3
    obtain ⟨e, h5, h6⟩ := text_of_tree hr h4
    rw [hs] at h6
    exact .inl ⟨w, e, m, rfl, h6, h5, h1⟩
  | none =>
    refine .inr ⟨?_, h1⟩
    rintro ⟨w, e, rfl, h3⟩
    obtain ⟨cs, h4, _⟩ := tree_of_text hr h3
    have := (h2 (.mk (.var (tb.length + 1)) [.mk (.term .stop) [], .mk (.var 0) cs])).2
      ⟨w, .stop, _, rfl, rfl, by rw [ParseTree, hs]; exact h4, rfl⟩
    cases this

/-- C106.  A sequence of tokens is a text of at most one expression. -/
theorem c106_unique (h1 : OneLevel tb) {w : List (OpTok O A)} {e e' : OpExpr O A} (h : IsText tb 0 w e)
    (h' : IsText tb 0 w e') : e = e' := by
  have value : ∀ e : OpExpr O A, ∃ _ : A, True := by
    intro e
    induction e with
    | val a => exact ⟨a, trivial⟩
    | binary _ _ _ ih _ => exact ih
    | before _ _ ih => exact ih
    | behind _ _ ih => exact ih
  obtain ⟨a, _⟩ := value e
  obtain ⟨g, hg, hs, hr⟩ := c106_grammar tb a
  obtain ⟨⟨tbl, hp⟩, _⟩ := c106_parser h1 hg hs hr
  obtain ⟨cs, h2, h3⟩ := tree_of_text hr h
  obtain ⟨cs', h4, h5⟩ := tree_of_text hr h'
  have h6 := c86_unambiguous hg (op_epsFree hr) (op_notIn hr) hp (w := w) (m := .mk (.var 0) cs) (m' := .mk (.var 0) cs')
    (by rw [ParseTree, hs]; exact h2) (by rw [ParseTree, hs]; exact h4)
  rw [h6] at h3
  exact stands_unique h3 h5

/-! ## Writing and grouping -/

omit [DecidableEq O] [DecidableEq A] in
private theorem text_down {i j : Nat} (hij : i ≤ j) (hj : j ≤ tb.length) {w : List (OpTok O A)} {e : OpExpr O A}
    (h : IsText tb j w e) : IsText tb i w e := by
  induction j, hij using Nat.le_induction with
  | base => exact h
  | succ j hij ih => exact ih (by omega) (.tighter (by omega) h)

omit [DecidableEq A] in
private theorem index (h1 : OneLevel tb) {i : Nat} {f : Fixity} {o : O} (h : InLevel tb i f o) :
    (tb.findIdx fun lv => decide (o ∈ lv.2)) = i ∧ tb[i]?.map (·.1) = some f := by
  obtain ⟨ops, h2, h3⟩ := h
  refine ⟨?_, by simp [h2]⟩
  have hlt : (tb.findIdx fun lv => decide (o ∈ lv.2)) < tb.length :=
    List.findIdx_lt_length.2 ⟨(f, ops), List.mem_of_getElem? h2, by simpa using h3⟩
  have h4 := List.findIdx_getElem (w := hlt)
  exact h1 _ _ _ _ o ⟨_, List.getElem?_eq_getElem hlt, by simpa using h4⟩ ⟨ops, h2, h3⟩

omit [DecidableEq A] in
theorem isText_opText (h1 : OneLevel tb) {e : OpExpr O A} (he : FitsTable tb e) :
    ∀ k ≤ tb.length, IsText tb k (opText tb k e) e := by
  have close : ∀ {i k : Nat} {w : List (OpTok O A)} {e : OpExpr O A}, i < tb.length → k ≤ tb.length → IsText tb i w e →
      IsText tb k (inParens (decide (i < k)) w) e := by
    intro i k w e h2 h3 h4
    rw [inParens]
    by_cases h : i < k
    · rw [if_pos (by simpa using h)]
      exact text_down h3 (Nat.le_refl _) (.parens (text_down (Nat.zero_le _) (Nat.le_of_lt h2) h4))
    · rw [if_neg (by simpa using h)]
      exact text_down (by omega) (by omega) h4
  induction e with
  | val a => intro k hk; exact text_down hk (Nat.le_refl _) .val
  | binary l o r ih1 ih2 =>
    intro k hk
    obtain ⟨⟨i, h2⟩, h3, h4⟩ := he
    rcases h2 with h2 | h2
    · obtain ⟨h5, h6⟩ := index h1 h2
      simp only [opText, h5, h6]
      exact close h2.lt hk (.left h2 (ih1 h3 i (Nat.le_of_lt h2.lt)) (ih2 h4 (i + 1) h2.lt))
    · obtain ⟨h5, h6⟩ := index h1 h2
      simp only [opText, h5, h6, if_true]
      exact close h2.lt hk (.right h2 (ih1 h3 (i + 1) h2.lt) (ih2 h4 i (Nat.le_of_lt h2.lt)))
  | before o e ih =>
    intro k hk
    obtain ⟨⟨i, h2⟩, h3⟩ := he
    simp only [opText, (index h1 h2).1]
    exact close h2.lt hk (.before h2 (ih h3 i (Nat.le_of_lt h2.lt)))
  | behind e o ih =>
    intro k hk
    obtain ⟨⟨i, h2⟩, h3⟩ := he
    simp only [opText, (index h1 h2).1]
    exact close h2.lt hk (.behind h2 (ih h3 i (Nat.le_of_lt h2.lt)))

/-- C106.  Every expression can be written with parentheses only where they are needed, and is read back. -/
theorem c106_written (h1 : OneLevel tb) (hg : Built g) (hs : g.start = 0)
    (hr : ∀ v β, (v, β) ∈ g.rules ↔ OpRule tb a v β) {tbl : Table Nat (OpTok O A)}
    (hp : IsParser (withEnd g (tb.length + 1) .stop .never) tbl) {e : OpExpr O A} (he : FitsTable tb e) {fuel : Nat}
    (hf : (2 * ((opText tb 0 e).length + 1) + 1) * (g.rules.length + 4) < fuel) :
    ∃ m, Stands m e ∧ parseTokens tbl fuel (opText tb 0 e ++ [.stop]) =
      .ok (some (.mk (.var (tb.length + 1)) [.mk (.term .stop) [], m])) := by
  have htext := isText_opText h1 he 0 (Nat.zero_le _)
  have hnever : ∀ {k w} {e : OpExpr O A}, IsText tb k w e → OpTok.never ∉ w := by
    intro k w e h
    induction h <;> simp_all
  have hi : OpTok.never ∉ opText tb 0 e ++ [.stop] := by simpa using hnever htext
  rcases c106_reads hg hs hr hp hi (fuel := fuel) (by simpa using hf) with ⟨w, e', m, h2, h3, h4, h5⟩ | ⟨h2, _⟩
  · have h6 := (List.append_inj' h2 rfl).1
    rw [← h6] at h3
    exact ⟨m, c106_unique h1 h3 htext ▸ h4, h5⟩
  · exact absurd ⟨_, _, rfl, htext⟩ h2

omit [DecidableEq O] [DecidableEq A] in
/-- C106.  How two operators in a row are grouped: the one in the tighter level first, and in the same level from the
side of its fixity. -/
theorem c106_groups {i j : Nat} {f f' : Fixity} {o p : O} (ho : InLevel tb i f o) (hp : InLevel tb j f' p)
    (hf : f = .left ∨ f = .right) (hf' : f' = .left ∨ f' = .right) (x y z : A) :
    IsText tb 0 [.val x, .op o, .val y, .op p, .val z]
      (if i < j ∨ i = j ∧ f = .right then .binary (.val x) o (.binary (.val y) p (.val z))
        else .binary (.binary (.val x) o (.val y)) p (.val z)) := by
  have hv : ∀ (k : Nat) (x : A), k ≤ tb.length → IsText tb k [.val x] (.val x) :=
    fun k x hk => text_down hk (Nat.le_refl _) .val
  have hi := ho.lt
  have hj := hp.lt
  have two : ∀ {i f o} (_ : InLevel tb i f o) (_ : f = .left ∨ f = .right) (x y : A),
      IsText tb i [.val x, .op o, .val y] (.binary (.val x) o (.val y)) := by
    rintro i f o ho (rfl | rfl) x y
    · exact .left (u := [.val x]) (w := [.val y]) ho (hv _ _ (Nat.le_of_lt ho.lt)) (hv _ _ ho.lt)
    · exact .right (u := [.val x]) (w := [.val y]) ho (hv _ _ ho.lt) (hv _ _ (Nat.le_of_lt ho.lt))
  split
  · rename_i h
    refine text_down (Nat.zero_le _) (Nat.le_of_lt hi) ?_
    rcases hf with rfl | rfl
    · have : i < j := by simpa using h
      exact .left (u := [.val x]) (w := [.val y, .op p, .val z]) ho (hv _ _ (Nat.le_of_lt hi))
        (text_down this (Nat.le_of_lt hj) (two hp hf' y z))
    · have : i ≤ j := by omega
      exact .right (u := [.val x]) (w := [.val y, .op p, .val z]) ho (hv _ _ hi)
        (text_down this (Nat.le_of_lt hj) (two hp hf' y z))
  · rename_i h
    refine text_down (Nat.zero_le _) (Nat.le_of_lt hj) ?_
    rcases hf' with rfl | rfl
    · exact .left (u := [.val x, .op o, .val y]) (w := [.val z]) hp
        (text_down (by omega) (Nat.le_of_lt hi) (two ho hf x y)) (hv _ _ hj)
    · have : j < i := by
        rcases Nat.lt_trichotomy i j with h2 | rfl | h2
        · exact absurd (.inl h2) h
        · exact absurd (.inr ⟨rfl, ho.fixity hp⟩) h
        · exact h2
      exact .right (u := [.val x, .op o, .val y]) (w := [.val z]) hp
        (text_down this (Nat.le_of_lt hi) (two ho hf x y)) (hv _ _ (Nat.le_of_lt hj))

/-! ## A table for which the claims say something -/

/-- Comparison, sums, products, powers to the right, signs and factorials. -/
def arithmetic : OpTable String :=
  [(.left, ["=", "<"]), (.left, ["+", "-"]), (.left, ["*"]), (.right, ["^"]), (.before, ["~"]), (.behind, ["!"])]

theorem arithmetic_oneLevel : OneLevel arithmetic := by
  have split : ∀ {i f o}, InLevel arithmetic i f o → (i, o) ∈
      [(0, "="), (0, "<"), (1, "+"), (1, "-"), (2, "*"), (3, "^"), (4, "~"), (5, "!")] := by
    rintro i f o ⟨ops, h1, h2⟩
    have hi := (List.getElem?_eq_some_iff.1 h1).1
    simp only [arithmetic, List.length_cons, List.length_nil] at hi
    match i, hi, h1 with
    | 0, _, h1 | 1, _, h1 | 2, _, h1 | 3, _, h1 | 4, _, h1 | 5, _, h1 =>
      simp [arithmetic] at h1
      obtain ⟨rfl, rfl⟩ := h1
      simpa using h2
  intro i j f f' o h h'
  have h1 := split h
  have h2 := split h'
  simp only [List.mem_cons, Prod.mk.injEq, List.not_mem_nil, or_false] at h1 h2
  rcases h1 with ⟨rfl, rfl⟩ | ⟨rfl, rfl⟩ | ⟨rfl, rfl⟩ | ⟨rfl, rfl⟩ | ⟨rfl, rfl⟩ | ⟨rfl, rfl⟩ | ⟨rfl, rfl⟩ | ⟨rfl, rfl⟩ <;>
    · simp at h2
      exact h2.symm

/-- There is such a grammar and such a parser. -/
theorem arithmetic_parser : ∃ (g : Grammar Nat (OpTok String Nat)) (tbl : Table Nat (OpTok String Nat)), Built g ∧
    g.start = 0 ∧ (∀ v β, (v, β) ∈ g.rules ↔ OpRule arithmetic 0 v β) ∧ IsParser (withEnd g 7 .stop .never) tbl := by
  obtain ⟨g, hg, hs, hr⟩ := c106_grammar arithmetic 0
  obtain ⟨⟨tbl, hp⟩, _⟩ := c106_parser arithmetic_oneLevel hg hs hr
  exact ⟨g, tbl, hg, hs, hr, hp⟩

/-- `(1 - 2) - ((3 - 4) * (~5!))`. -/
def someExpr : OpExpr String Nat :=
  .binary (.binary (.val 1) "-" (.val 2)) "-"
    (.binary (.binary (.val 3) "-" (.val 4)) "*" (.before "~" (.behind (.val 5) "!")))

example : FitsTable arithmetic someExpr :=
  ⟨⟨1, .inl ⟨_, rfl, by simp⟩⟩, ⟨⟨1, .inl ⟨_, rfl, by simp⟩⟩, trivial, trivial⟩, ⟨2, .inl ⟨_, rfl, by simp⟩⟩,
    ⟨⟨1, .inl ⟨_, rfl, by simp⟩⟩, trivial, trivial⟩, ⟨4, _, rfl, by simp⟩, ⟨5, _, rfl, by simp⟩, trivial⟩

/-- Its text is `1 - 2 - (3 - 4) * ~ 5 !`. -/
example : opText arithmetic 0 someExpr =
    [.val 1, .op "-", .val 2, .op "-", .lpar, .val 3, .op "-", .val 4, .rpar, .op "*", .op "~", .val 5, .op "!"] := by
  decide

/-- `1 ^ 2 ^ 3` is `1 ^ (2 ^ 3)`, and `1 - 2 + 3` is `(1 - 2) + 3`. -/
example : IsText arithmetic 0 [.val 1, .op "^", .val 2, .op "^", .val 3]
      (.binary (.val 1) "^" (.binary (.val 2) "^" (.val 3))) ∧
    IsText arithmetic 0 [.val 1, .op "-", .val 2, .op "+", .val 3]
      (.binary (.binary (.val 1) "-" (.val 2)) "+" (.val 3)) :=
  ⟨c106_groups (i := 3) (j := 3) (f := .right) (f' := .right) ⟨_, rfl, by simp⟩ ⟨_, rfl, by simp⟩ (by simp) (by simp) 1 2 3,
    c106_groups (i := 1) (j := 1) (f := .left) (f' := .left) ⟨_, rfl, by simp⟩ ⟨_, rfl, by simp⟩ (by simp) (by simp) 1 2 3⟩

/-- An operator in two levels would do harm: `1 - 2 - 3` would have two meanings. -/
example : ∃ tb : OpTable String, ∃ e e' : OpExpr String Nat, e ≠ e' ∧
    IsText tb 0 [.val 1, .op "-", .val 2, .op "-", .val 3] e ∧ IsText tb 0 [.val 1, .op "-", .val 2, .op "-", .val 3] e' :=
  ⟨[(.left, ["-"]), (.right, ["-"])], _, _, fun h => by simp at h,
    c106_groups (i := 0) (j := 0) (f := .left) (f' := .left) ⟨_, rfl, by simp⟩ ⟨_, rfl, by simp⟩ (by simp) (by simp) 1 2 3,
    c106_groups (i := 1) (j := 1) (f := .right) (f' := .right) ⟨_, rfl, by simp⟩ ⟨_, rfl, by simp⟩ (by simp) (by simp) 1 2 3⟩

end Pango.Props
