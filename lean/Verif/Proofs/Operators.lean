import Verif.Proofs.EndMarker
import Verif.Spec.Operators

/-!
# The items of the grammar of a table of operators
-/

namespace Pango.Parse

open Pango Pango.Spec

variable {O A : Type} {tb : OpTable O} {a : A} {g : Grammar Nat (OpTok O A)}

theorem _root_.Pango.Spec.InLevel.fixity {i : Nat} {f f' : Fixity} {o o' : O} (h : InLevel tb i f o)
    (h' : InLevel tb i f' o') : f = f' := by
  obtain ⟨_, h1, _⟩ := h
  obtain ⟨_, h2, _⟩ := h'
  rw [h1] at h2
  cases h2
  rfl

theorem _root_.Pango.Spec.InLevel.lt {i : Nat} {f : Fixity} {o : O} (h : InLevel tb i f o) : i < tb.length := by
  obtain ⟨_, h1, _⟩ := h
  exact (List.getElem?_eq_some_iff.1 h1).1

theorem _root_.Pango.Spec.OpRule.noEps {v : Nat} {β : Body Nat (OpTok O A)} (h : OpRule tb a v β) : .eps ∉ β := by
  cases h <;> simp

/-- Behind the symbols a variable of the level can begin. -/
inductive Opens (tb : OpTable O) : List (Sym Nat (OpTok O A)) → Nat → Prop
  | nil {j : Nat} : Opens tb [] j
  | lpar {δ : List (Sym Nat (OpTok O A))} {j : Nat} : Opens tb (δ ++ [.term .lpar]) j
  | left {δ : List (Sym Nat (OpTok O A))} {i j : Nat} {o : O} : InLevel tb i .left o → i + 1 ≤ j →
      Opens tb (δ ++ [.term (.op o)]) j
  | right {δ : List (Sym Nat (OpTok O A))} {i j : Nat} {o : O} : InLevel tb i .right o → i ≤ j →
      Opens tb (δ ++ [.term (.op o)]) j
  | before {δ : List (Sym Nat (OpTok O A))} {i j : Nat} {o : O} : InLevel tb i .before o → i ≤ j →
      Opens tb (δ ++ [.term (.op o)]) j

theorem Opens.mono {γ : List (Sym Nat (OpTok O A))} {i j : Nat} (h : Opens tb γ i) (hij : i ≤ j) : Opens tb γ j := by
  cases h with
  | nil => exact .nil
  | lpar => exact .lpar
  | left h1 h2 => exact .left h1 (by omega)
  | right h1 h2 => exact .right h1 (by omega)
  | before h1 h2 => exact .before h1 (by omega)

/-- The items behind the symbols. -/
inductive OpItem (tb : OpTable O) (a : A) : List (Sym Nat (OpTok O A)) → Nat → Item Nat (OpTok O A) → Prop
  | fresh {γ : List (Sym Nat (OpTok O A))} {h : Nat} {β : Body Nat (OpTok O A)} : OpRule tb a h β → Opens tb γ h →
      OpItem tb a γ h ⟨β, 0⟩
  | next {δ : List (Sym Nat (OpTok O A))} {i : Nat} : i < tb.length → Opens tb δ i →
      OpItem tb a (δ ++ [.var (i + 1)]) i ⟨[.var (i + 1)], 1⟩
  | left1 {δ : List (Sym Nat (OpTok O A))} {i : Nat} {o : O} : InLevel tb i .left o → Opens tb δ i →
      OpItem tb a (δ ++ [.var i]) i ⟨[.var i, .term (.op o), .var (i + 1)], 1⟩
  | left2 {δ : List (Sym Nat (OpTok O A))} {i : Nat} {o : O} : InLevel tb i .left o →
      OpItem tb a (δ ++ [.term (.op o)]) i ⟨[.var i, .term (.op o), .var (i + 1)], 2⟩
  | left3 {δ : List (Sym Nat (OpTok O A))} {i : Nat} {o : O} : InLevel tb i .left o →
      OpItem tb a (δ ++ [.term (.op o)] ++ [.var (i + 1)]) i ⟨[.var i, .term (.op o), .var (i + 1)], 3⟩
  | right1 {δ : List (Sym Nat (OpTok O A))} {i : Nat} {o : O} : InLevel tb i .right o → Opens tb δ i →
      OpItem tb a (δ ++ [.var (i + 1)]) i ⟨[.var (i + 1), .term (.op o), .var i], 1⟩
  | right2 {δ : List (Sym Nat (OpTok O A))} {i : Nat} {o : O} : InLevel tb i .right o →
      OpItem tb a (δ ++ [.term (.op o)]) i ⟨[.var (i + 1), .term (.op o), .var i], 2⟩
  | right3 {δ : List (Sym Nat (OpTok O A))} {i : Nat} {o : O} : InLevel tb i .right o →
      OpItem tb a (δ ++ [.term (.op o)] ++ [.var i]) i ⟨[.var (i + 1), .term (.op o), .var i], 3⟩
  | before1 {δ : List (Sym Nat (OpTok O A))} {i : Nat} {o : O} : InLevel tb i .before o →
      OpItem tb a (δ ++ [.term (.op o)]) i ⟨[.term (.op o), .var i], 1⟩
  | before2 {δ : List (Sym Nat (OpTok O A))} {i : Nat} {o : O} : InLevel tb i .before o →
      OpItem tb a (δ ++ [.term (.op o)] ++ [.var i]) i ⟨[.term (.op o), .var i], 2⟩
  | behind1 {δ : List (Sym Nat (OpTok O A))} {i : Nat} {o : O} : InLevel tb i .behind o → Opens tb δ i →
      OpItem tb a (δ ++ [.var i]) i ⟨[.var i, .term (.op o)], 1⟩
  | behind2 {δ : List (Sym Nat (OpTok O A))} {i : Nat} {o : O} : InLevel tb i .behind o →
      OpItem tb a (δ ++ [.term (.op o)]) i ⟨[.var i, .term (.op o)], 2⟩
  | val {δ : List (Sym Nat (OpTok O A))} : OpItem tb a (δ ++ [.term (.val a)]) tb.length ⟨[.term (.val a)], 1⟩
  | parens1 {δ : List (Sym Nat (OpTok O A))} :
      OpItem tb a (δ ++ [.term .lpar]) tb.length ⟨[.term .lpar, .var 0, .term .rpar], 1⟩
  | parens2 {δ : List (Sym Nat (OpTok O A))} :
      OpItem tb a (δ ++ [.term .lpar] ++ [.var 0]) tb.length ⟨[.term .lpar, .var 0, .term .rpar], 2⟩
  | parens3 {δ : List (Sym Nat (OpTok O A))} :
      OpItem tb a (δ ++ [.term .rpar]) tb.length ⟨[.term .lpar, .var 0, .term .rpar], 3⟩

theorem viable_opItem (hs : g.start = 0) (hr : ∀ v β, (v, β) ∈ g.rules ↔ OpRule tb a v β)
    {γ : List (Sym Nat (OpTok O A))} {p : Nat × Item Nat (OpTok O A)} (h : Viable g γ p) : OpItem tb a γ p.1 p.2 := by
  have fresh : ∀ {v β i γ}, (v, β) ∈ g.rules → Fresh β i → Opens tb γ v → OpItem tb a γ v i := by
    intro v β i γ h1 h2 h3
    have h1 := (hr _ _).1 h1
    have : i = ⟨β, 0⟩ := by rw [fresh_iff.1 h2]; cases h1 <;> rfl
    subst this
    exact .fresh h1 h3
  induction h with
  | start h1 h2 => exact fresh h1 h2 .nil
  | @expand γ h v i j β h1 h2 h3 h4 ih =>
    refine fresh h3 h4 ?_
    rw [reads_iff] at h2
    simp only at ih
    cases ih with
    | fresh h5 h6 =>
      cases h5 <;> simp [Item.cursorSymbol] at h2 <;> subst h2 <;> first | exact h6 | exact h6.mono (by omega)
    | left2 h5 => simp [Item.cursorSymbol] at h2; subst h2; exact .left h5 (Nat.le_refl _)
    | right2 h5 => simp [Item.cursorSymbol] at h2; subst h2; exact .right h5 (Nat.le_refl _)
    | before1 h5 => simp [Item.cursorSymbol] at h2; subst h2; exact .before h5 (Nat.le_refl _)
    | parens1 => exact .lpar
    | next _ _ => simp [Item.cursorSymbol] at h2
    | left1 _ _ => simp [Item.cursorSymbol] at h2
    | left3 _ => simp [Item.cursorSymbol] at h2
    | right1 _ _ => simp [Item.cursorSymbol] at h2
    | right3 _ => simp [Item.cursorSymbol] at h2
    | before2 _ => simp [Item.cursorSymbol] at h2
    | behind1 _ _ => simp [Item.cursorSymbol] at h2
    | behind2 _ => simp [Item.cursorSymbol] at h2
    | val => simp [Item.cursorSymbol] at h2
    | parens2 => simp [Item.cursorSymbol] at h2
    | parens3 => simp [Item.cursorSymbol] at h2
  | @read γ h i j x h1 h2 ih =>
    obtain ⟨h3, rfl⟩ := advanced_iff.1 h2
    simp only at ih ⊢
    cases ih with
    | fresh h5 h6 =>
      cases h5 with
      | next h7 => simp [Item.cursorSymbol] at h3; subst h3; exact .next h7 h6
      | left h7 => simp [Item.cursorSymbol] at h3; subst h3; exact .left1 h7 h6
      | right h7 => simp [Item.cursorSymbol] at h3; subst h3; exact .right1 h7 h6
      | before h7 => simp [Item.cursorSymbol] at h3; subst h3; exact .before1 h7
      | behind h7 => simp [Item.cursorSymbol] at h3; subst h3; exact .behind1 h7 h6
      | val => simp [Item.cursorSymbol] at h3; subst h3; exact .val
      | parens => simp [Item.cursorSymbol] at h3; subst h3; exact .parens1
    | left1 h5 _ => simp [Item.cursorSymbol] at h3; subst h3; exact .left2 h5
    | left2 h5 => simp [Item.cursorSymbol] at h3; subst h3; exact .left3 h5
    | right1 h5 _ => simp [Item.cursorSymbol] at h3; subst h3; exact .right2 h5
    | right2 h5 => simp [Item.cursorSymbol] at h3; subst h3; exact .right3 h5
    | before1 h5 => simp [Item.cursorSymbol] at h3; subst h3; exact .before2 h5
    | behind1 h5 _ => simp [Item.cursorSymbol] at h3; subst h3; exact .behind2 h5
    | parens1 => simp [Item.cursorSymbol] at h3; subst h3; exact .parens2
    | parens2 => simp [Item.cursorSymbol] at h3; subst h3; exact .parens3
    | next _ _ => simp [Item.cursorSymbol] at h3
    | left3 _ => simp [Item.cursorSymbol] at h3
    | right3 _ => simp [Item.cursorSymbol] at h3
    | before2 _ => simp [Item.cursorSymbol] at h3
    | behind2 _ => simp [Item.cursorSymbol] at h3
    | val => simp [Item.cursorSymbol] at h3
    | parens3 => simp [Item.cursorSymbol] at h3

/-- What can stand behind a variable. -/
inductive Behind (tb : OpTable O) : OpTok O A → Nat → Prop
  | rpar {j : Nat} : Behind tb .rpar j
  | left {i j : Nat} {o : O} : InLevel tb i .left o → i ≤ j → Behind tb (.op o) j
  | right {i j : Nat} {o : O} : InLevel tb i .right o → i + 1 ≤ j → Behind tb (.op o) j
  | behind {i j : Nat} {o : O} : InLevel tb i .behind o → i ≤ j → Behind tb (.op o) j

theorem Behind.mono {t : OpTok O A} {i j : Nat} (h : Behind tb t i) (hij : i ≤ j) : Behind tb t j := by
  cases h with
  | rpar => exact .rpar
  | left h1 h2 => exact .left h1 (by omega)
  | right h1 h2 => exact .right h1 (by omega)
  | behind h1 h2 => exact .behind h1 (by omega)

theorem follow_op (hr : ∀ v β, (v, β) ∈ g.rules ↔ OpRule tb a v β) {v : Nat} {t : OpTok O A}
    (h : InFollow g v (.term t)) : Behind tb t v := by
  have starts : ∀ {u t : OpTok O A} {α : List (Sym Nat (OpTok O A))}, Starts g u (.term t :: α) → u = t := by
    intro u t α h
    cases h
    rfl
  have nullable : ∀ {t : OpTok O A} {α : List (Sym Nat (OpTok O A))}, ¬ Nullable g (.term t :: α) := by
    intro t α h
    cases h
  have split1 : ∀ {pre rest : List (Sym Nat (OpTok O A))} {x : Sym Nat (OpTok O A)} {v : Nat},
      [x] = pre ++ .var v :: rest → x = .var v ∧ rest = [] := by
    intro pre rest x v h
    cases pre <;> simp_all
  have split2 : ∀ {pre rest : List (Sym Nat (OpTok O A))} {x y : Sym Nat (OpTok O A)} {v : Nat},
      [x, y] = pre ++ .var v :: rest → (x = .var v ∧ rest = [y]) ∨ (y = .var v ∧ rest = []) := by
    intro pre rest x y v h
    cases pre with
    | nil => simp_all
    | cons z pre =>
      simp only [List.cons_append, List.cons.injEq] at h
      exact .inr (split1 h.2)
  have split3 : ∀ {pre rest : List (Sym Nat (OpTok O A))} {x y z : Sym Nat (OpTok O A)} {v : Nat},
      [x, y, z] = pre ++ .var v :: rest → (x = .var v ∧ rest = [y, z]) ∨ (y = .var v ∧ rest = [z]) ∨
        (z = .var v ∧ rest = []) := by
    intro pre rest x y z v h
    cases pre with
    | nil => simp_all
    | cons z pre =>
      simp only [List.cons_append, List.cons.injEq] at h
      exact .inr (split2 h.2)
  rw [inFollow_iff] at h
  induction h with
  | @here h v pre rest h1 h2 =>
    generalize hb : pre ++ .var v :: rest = β at h1
    have hb := hb.symm
    cases (hr _ _).1 h1 with
    | next _ => obtain ⟨_, rfl⟩ := split1 hb; cases h2
    | left h3 =>
      obtain ⟨h4, rfl⟩ | ⟨h4, _⟩ | ⟨_, rfl⟩ := split3 hb
      · cases h4; cases starts h2; exact .left h3 (Nat.le_refl _)
      · cases h4
      · cases h2
    | right h3 =>
      obtain ⟨h4, rfl⟩ | ⟨h4, _⟩ | ⟨_, rfl⟩ := split3 hb
      · cases h4; cases starts h2; exact .right h3 (Nat.le_refl _)
      · cases h4
      · cases h2
    | before _ =>
      obtain ⟨h4, _⟩ | ⟨_, rfl⟩ := split2 hb
      · cases h4
      · cases h2
    | behind h3 =>
      obtain ⟨h4, rfl⟩ | ⟨h4, _⟩ := split2 hb
      · cases h4; cases starts h2; exact .behind h3 (Nat.le_refl _)
      · cases h4
    | val => obtain ⟨h4, _⟩ := split1 hb; cases h4
    | parens =>
      obtain ⟨h4, _⟩ | ⟨h4, rfl⟩ | ⟨h4, _⟩ := split3 hb
      · cases h4
      · cases starts h2; exact .rpar
      · cases h4
  | @up h v pre rest h1 h2 _ ih =>
    generalize hb : pre ++ .var v :: rest = β at h1
    have hb := hb.symm
    cases (hr _ _).1 h1 with
    | next _ => obtain ⟨h4, rfl⟩ := split1 hb; cases h4; exact ih.mono (by omega)
    | left _ =>
      obtain ⟨h4, rfl⟩ | ⟨h4, _⟩ | ⟨h4, rfl⟩ := split3 hb
      · exact absurd h2 nullable
      · cases h4
      · cases h4; exact ih.mono (by omega)
    | right _ =>
      obtain ⟨h4, rfl⟩ | ⟨h4, _⟩ | ⟨h4, rfl⟩ := split3 hb
      · exact absurd h2 nullable
      · cases h4
      · cases h4; exact ih
    | before _ =>
      obtain ⟨h4, _⟩ | ⟨h4, rfl⟩ := split2 hb
      · cases h4
      · cases h4; exact ih
    | behind _ =>
      obtain ⟨h4, rfl⟩ | ⟨h4, _⟩ := split2 hb
      · exact absurd h2 nullable
      · cases h4
    | val => obtain ⟨h4, _⟩ := split1 hb; cases h4
    | parens =>
      obtain ⟨h4, _⟩ | ⟨h4, rfl⟩ | ⟨h4, _⟩ := split3 hb
      · cases h4
      · exact absurd h2 nullable
      · cases h4

/-! ## The entries of the table -/

theorem Opens.of_op (h1 : OneLevel tb) {δ : List (Sym Nat (OpTok O A))} {i j : Nat} {f : Fixity} {o : O}
    (h : Opens tb (δ ++ [.term (.op o)]) j) (ho : InLevel tb i f o) :
    (f = .left ∧ i + 1 ≤ j) ∨ (f = .right ∧ i ≤ j) ∨ (f = .before ∧ i ≤ j) := by
  generalize hγ : δ ++ [Sym.term (OpTok.op o)] = γ at h
  cases h with
  | nil => simp at hγ
  | lpar => simpa using (List.append_inj' hγ rfl).2
  | left h2 h3 =>
    have he := (List.append_inj' hγ rfl).2
    simp only [List.cons.injEq, Sym.term.injEq, OpTok.op.injEq, and_true] at he
    subst he
    obtain rfl := h1 _ _ _ _ _ ho h2
    exact .inl ⟨ho.fixity h2, h3⟩
  | right h2 h3 =>
    have he := (List.append_inj' hγ rfl).2
    simp only [List.cons.injEq, Sym.term.injEq, OpTok.op.injEq, and_true] at he
    subst he
    obtain rfl := h1 _ _ _ _ _ ho h2
    exact .inr (.inl ⟨ho.fixity h2, h3⟩)
  | before h2 h3 =>
    have he := (List.append_inj' hγ rfl).2
    simp only [List.cons.injEq, Sym.term.injEq, OpTok.op.injEq, and_true] at he
    subst he
    obtain rfl := h1 _ _ _ _ _ ho h2
    exact .inr (.inr ⟨ho.fixity h2, h3⟩)

theorem Opens.last {δ : List (Sym Nat (OpTok O A))} {x : Sym Nat (OpTok O A)} {j : Nat} (h : Opens tb (δ ++ [x]) j) :
    x = .term .lpar ∨ ∃ o, x = .term (.op o) := by
  generalize hγ : δ ++ [x] = γ at h
  cases h with
  | nil => simp at hγ
  | lpar => exact .inl (by simpa using (List.append_inj' hγ rfl).2)
  | left _ _ => exact .inr ⟨_, by simpa using (List.append_inj' hγ rfl).2⟩
  | right _ _ => exact .inr ⟨_, by simpa using (List.append_inj' hγ rfl).2⟩
  | before _ _ => exact .inr ⟨_, by simpa using (List.append_inj' hγ rfl).2⟩

theorem Behind.of_op (h1 : OneLevel tb) {i j : Nat} {f : Fixity} {o : O} (h : Behind (A := A) tb (.op o) j)
    (ho : InLevel tb i f o) : (f = .left ∧ i ≤ j) ∨ (f = .right ∧ i + 1 ≤ j) ∨ (f = .behind ∧ i ≤ j) := by
  cases h with
  | left h2 h3 =>
    obtain rfl := h1 _ _ _ _ _ ho h2
    exact .inl ⟨ho.fixity h2, h3⟩
  | right h2 h3 =>
    obtain rfl := h1 _ _ _ _ _ ho h2
    exact .inr (.inl ⟨ho.fixity h2, h3⟩)
  | behind h2 h3 =>
    obtain rfl := h1 _ _ _ _ _ ho h2
    exact .inr (.inr ⟨ho.fixity h2, h3⟩)

/-- The token that is shifted with a fresh item. -/
inductive FreshShift (tb : OpTable O) (a : A) : Nat × Item Nat (OpTok O A) → OpTok O A → Prop
  | before {i : Nat} {o : O} : InLevel tb i .before o → FreshShift tb a (i, ⟨[.term (.op o), .var i], 0⟩) (.op o)
  | val : FreshShift tb a (tb.length, ⟨[.term (.val a)], 0⟩) (.val a)
  | parens : FreshShift tb a (tb.length, ⟨[.term .lpar, .var 0, .term .rpar], 0⟩) .lpar

/-- The token that is shifted behind a variable. -/
inductive LateShift (tb : OpTable O) (a : A) : List (Sym Nat (OpTok O A)) → Nat → Nat × Item Nat (OpTok O A) →
    OpTok O A → Prop
  | left {δ : List (Sym Nat (OpTok O A))} {i : Nat} {o : O} : InLevel tb i .left o →
      LateShift tb a δ i (i, ⟨[.var i, .term (.op o), .var (i + 1)], 1⟩) (.op o)
  | right {δ : List (Sym Nat (OpTok O A))} {i : Nat} {o : O} : InLevel tb i .right o → Opens tb δ i →
      LateShift tb a δ (i + 1) (i, ⟨[.var (i + 1), .term (.op o), .var i], 1⟩) (.op o)
  | behind {δ : List (Sym Nat (OpTok O A))} {i : Nat} {o : O} : InLevel tb i .behind o →
      LateShift tb a δ i (i, ⟨[.var i, .term (.op o)], 1⟩) (.op o)
  | parens {δ : List (Sym Nat (OpTok O A))} :
      LateShift tb a (δ ++ [.term .lpar]) 0 (tb.length, ⟨[.term .lpar, .var 0, .term .rpar], 2⟩) .rpar

/-- What is reduced behind a variable. -/
inductive LateReduce (tb : OpTable O) : List (Sym Nat (OpTok O A)) → Nat → Nat × Item Nat (OpTok O A) → Prop
  | next {δ : List (Sym Nat (OpTok O A))} {i : Nat} : Opens tb δ i →
      LateReduce tb δ (i + 1) (i, ⟨[.var (i + 1)], 1⟩)
  | left {δ : List (Sym Nat (OpTok O A))} {i : Nat} {o : O} : InLevel tb i .left o →
      LateReduce tb (δ ++ [.term (.op o)]) (i + 1) (i, ⟨[.var i, .term (.op o), .var (i + 1)], 3⟩)
  | right {δ : List (Sym Nat (OpTok O A))} {i : Nat} {o : O} : InLevel tb i .right o →
      LateReduce tb (δ ++ [.term (.op o)]) i (i, ⟨[.var (i + 1), .term (.op o), .var i], 3⟩)
  | before {δ : List (Sym Nat (OpTok O A))} {i : Nat} {o : O} : InLevel tb i .before o →
      LateReduce tb (δ ++ [.term (.op o)]) i (i, ⟨[.term (.op o), .var i], 2⟩)

/-- What is reduced behind a token. -/
inductive EarlyReduce (tb : OpTable O) (a : A) : OpTok O A → Nat × Item Nat (OpTok O A) → Prop
  | behind {i : Nat} {o : O} : InLevel tb i .behind o → EarlyReduce tb a (.op o) (i, ⟨[.var i, .term (.op o)], 2⟩)
  | val : EarlyReduce tb a (.val a) (tb.length, ⟨[.term (.val a)], 1⟩)
  | parens : EarlyReduce tb a .rpar (tb.length, ⟨[.term .lpar, .var 0, .term .rpar], 3⟩)

theorem opItem_shift {γ : List (Sym Nat (OpTok O A))} {h : Nat} {i : Item Nat (OpTok O A)} {t : OpTok O A}
    (hi : OpItem tb a γ h i) (ht : i.cursorSymbol = some (.term t)) :
    (Opens tb γ h ∧ FreshShift tb a (h, i) t) ∨ ∃ δ m, γ = δ ++ [.var m] ∧ LateShift tb a δ m (h, i) t := by
  cases hi with
  | fresh h5 h6 =>
    cases h5 with
    | before h7 => simp [Item.cursorSymbol] at ht; subst ht; exact .inl ⟨h6, .before h7⟩
    | val => simp [Item.cursorSymbol] at ht; subst ht; exact .inl ⟨h6, .val⟩
    | parens => simp [Item.cursorSymbol] at ht; subst ht; exact .inl ⟨h6, .parens⟩
    | next _ => simp [Item.cursorSymbol] at ht
    | left _ => simp [Item.cursorSymbol] at ht
    | right _ => simp [Item.cursorSymbol] at ht
    | behind _ => simp [Item.cursorSymbol] at ht
  | left1 h5 _ => simp [Item.cursorSymbol] at ht; subst ht; exact .inr ⟨_, _, rfl, .left h5⟩
  | right1 h5 h6 => simp [Item.cursorSymbol] at ht; subst ht; exact .inr ⟨_, _, rfl, .right h5 h6⟩
  | behind1 h5 _ => simp [Item.cursorSymbol] at ht; subst ht; exact .inr ⟨_, _, rfl, .behind h5⟩
  | parens2 => simp [Item.cursorSymbol] at ht; subst ht; exact .inr ⟨_, _, rfl, .parens⟩
  | _ => simp [Item.cursorSymbol] at ht

theorem opItem_reduce {γ : List (Sym Nat (OpTok O A))} {h : Nat} {i : Item Nat (OpTok O A)}
    (hi : OpItem tb a γ h i) (hc : Complete i) :
    (∃ δ t, γ = δ ++ [.term t] ∧ EarlyReduce tb a t (h, i)) ∨ ∃ δ m, γ = δ ++ [.var m] ∧ LateReduce tb δ m (h, i) := by
  cases hi with
  | fresh h5 _ => cases h5 <;> simp [Complete] at hc
  | next _ h6 => exact .inr ⟨_, _, rfl, .next h6⟩
  | left3 h5 => exact .inr ⟨_, _, rfl, .left h5⟩
  | right3 h5 => exact .inr ⟨_, _, rfl, .right h5⟩
  | before2 h5 => exact .inr ⟨_, _, rfl, .before h5⟩
  | behind2 h5 => exact .inl ⟨_, _, rfl, .behind h5⟩
  | val => exact .inl ⟨_, _, rfl, .val⟩
  | parens3 => exact .inl ⟨_, _, rfl, .parens⟩
  | _ => simp [Complete] at hc

theorem FreshShift.unique (h1 : OneLevel tb) {p p' : Nat × Item Nat (OpTok O A)} {t : OpTok O A}
    (h : FreshShift tb a p t) (h' : FreshShift tb a p' t) : p = p' := by
  cases h with
  | before h2 =>
    cases h' with
    | before h3 =>
      obtain rfl := h1 _ _ _ _ _ h2 h3
      rfl
  | val => cases h'; rfl
  | parens => cases h'; rfl

theorem EarlyReduce.unique (h1 : OneLevel tb) {p p' : Nat × Item Nat (OpTok O A)} {t : OpTok O A}
    (h : EarlyReduce tb a t p) (h' : EarlyReduce tb a t p') : p = p' := by
  cases h with
  | behind h2 =>
    cases h' with
    | behind h3 =>
      obtain rfl := h1 _ _ _ _ _ h2 h3
      rfl
  | val => cases h'; rfl
  | parens => cases h'; rfl

theorem LateShift.unique (h1 : OneLevel tb) {δ : List (Sym Nat (OpTok O A))} {m : Nat}
    {p p' : Nat × Item Nat (OpTok O A)} {t : OpTok O A} (h : LateShift tb a δ m p t) (h' : LateShift tb a δ m p' t) :
    p = p' := by
  have level : ∀ {i : Nat} {f : Fixity} {o : O}, InLevel tb i f o → LateShift tb a δ m p' (.op o) →
      (f = .left ∧ p' = (i, ⟨[.var i, .term (.op o), .var (i + 1)], 1⟩)) ∨
      (f = .right ∧ p' = (i, ⟨[.var (i + 1), .term (.op o), .var i], 1⟩)) ∨
      (f = .behind ∧ p' = (i, ⟨[.var i, .term (.op o)], 1⟩)) := by
    intro i f o h2 h3
    cases h3 with
    | left h4 => obtain rfl := h1 _ _ _ _ _ h2 h4; exact .inl ⟨h2.fixity h4, rfl⟩
    | right h4 _ => obtain rfl := h1 _ _ _ _ _ h2 h4; exact .inr (.inl ⟨h2.fixity h4, rfl⟩)
    | behind h4 => obtain rfl := h1 _ _ _ _ _ h2 h4; exact .inr (.inr ⟨h2.fixity h4, rfl⟩)
  cases h with
  | left h2 => rcases level h2 h' with ⟨_, rfl⟩ | ⟨h, _⟩ | ⟨h, _⟩ <;> first | rfl | cases h
  | right h2 _ => rcases level h2 h' with ⟨h, _⟩ | ⟨_, rfl⟩ | ⟨h, _⟩ <;> first | rfl | cases h
  | behind h2 => rcases level h2 h' with ⟨h, _⟩ | ⟨h, _⟩ | ⟨_, rfl⟩ <;> first | rfl | cases h
  | parens =>
    generalize hδ : _ ++ [Sym.term OpTok.lpar] = δ at h'
    generalize ht : OpTok.rpar = t at h'
    cases h' with
    | parens => rfl
    | _ => cases ht

theorem LateReduce.unique (h1 : OneLevel tb) {δ : List (Sym Nat (OpTok O A))} {m : Nat}
    {p p' : Nat × Item Nat (OpTok O A)} (h : LateReduce tb δ m p) (h' : LateReduce tb δ m p') : p = p' := by
  have level : ∀ {δ' : List (Sym Nat (OpTok O A))} {i : Nat} {f : Fixity} {o : O} {p' : Nat × Item Nat (OpTok O A)},
      InLevel tb i f o → δ = δ' ++ [.term (.op o)] →
      LateReduce tb δ m p' →
      (f = .left ∧ ((i + 2 ≤ m) ∨ (m = i + 1 ∧ p' = (i, ⟨[.var i, .term (.op o), .var (i + 1)], 3⟩)))) ∨
      (f = .right ∧ ((i + 1 ≤ m) ∨ (m = i ∧ p' = (i, ⟨[.var (i + 1), .term (.op o), .var i], 3⟩)))) ∨
      (f = .before ∧ ((i + 1 ≤ m) ∨ (m = i ∧ p' = (i, ⟨[.term (.op o), .var i], 2⟩)))) := by
    intro δ' i f o p' h2 h3 h4
    cases h4 with
    | next h5 =>
      subst h3
      rcases h5.of_op h1 h2 with ⟨h6, h7⟩ | ⟨h6, h7⟩ | ⟨h6, h7⟩
      · exact .inl ⟨h6, .inl (by omega)⟩
      · exact .inr (.inl ⟨h6, .inl (by omega)⟩)
      · exact .inr (.inr ⟨h6, .inl (by omega)⟩)
    | left h5 =>
      have he := (List.append_inj' h3 rfl).2
      simp only [List.cons.injEq, Sym.term.injEq, OpTok.op.injEq, and_true] at he
      subst he
      obtain rfl := h1 _ _ _ _ _ h2 h5
      exact .inl ⟨h2.fixity h5, .inr ⟨rfl, rfl⟩⟩
    | right h5 =>
      have he := (List.append_inj' h3 rfl).2
      simp only [List.cons.injEq, Sym.term.injEq, OpTok.op.injEq, and_true] at he
      subst he
      obtain rfl := h1 _ _ _ _ _ h2 h5
      exact .inr (.inl ⟨h2.fixity h5, .inr ⟨rfl, rfl⟩⟩)
    | before h5 =>
      have he := (List.append_inj' h3 rfl).2
      simp only [List.cons.injEq, Sym.term.injEq, OpTok.op.injEq, and_true] at he
      subst he
      obtain rfl := h1 _ _ _ _ _ h2 h5
      exact .inr (.inr ⟨h2.fixity h5, .inr ⟨rfl, rfl⟩⟩)
  have sharp : ∀ {p p' : Nat × Item Nat (OpTok O A)}, LateReduce tb δ m p → LateReduce tb δ m p' →
      (∃ i, m = i + 1 ∧ Opens tb δ i ∧ p = (i, ⟨[.var (i + 1)], 1⟩)) ∨ p = p' := by
    intro p p' h h'
    cases h with
    | next h5 => exact .inl ⟨_, rfl, h5, rfl⟩
    | left h5 =>
      right
      rcases level h5 rfl h' with ⟨_, h6 | ⟨_, rfl⟩⟩ | ⟨h, _⟩ | ⟨h, _⟩ <;> first | rfl | omega | cases h
    | right h5 =>
      right
      rcases level h5 rfl h' with ⟨h, _⟩ | ⟨_, h6 | ⟨_, rfl⟩⟩ | ⟨h, _⟩ <;> first | rfl | omega | cases h
    | before h5 =>
      right
      rcases level h5 rfl h' with ⟨h, _⟩ | ⟨h, _⟩ | ⟨_, h6 | ⟨_, rfl⟩⟩ <;> first | rfl | omega | cases h
  rcases sharp h h' with ⟨i, h2, _, h3⟩ | h2
  · rcases sharp h' h with ⟨j, h4, _, h5⟩ | h4
    · have : i = j := by omega
      subst this
      rw [h3, h5]
    · exact h4.symm
  · exact h2

theorem late_disjoint (h1 : OneLevel tb) {δ : List (Sym Nat (OpTok O A))} {m : Nat}
    {p p' : Nat × Item Nat (OpTok O A)} {t : OpTok O A} (h : LateShift tb a δ m p t) (h' : LateReduce tb δ m p')
    (hb : Behind tb t p'.1) : False := by
  cases h with
  | left h2 =>
    have h3 := hb.of_op h1 h2
    cases h' with
    | next _ => simp at h3; omega
    | left _ => simp at h3; omega
    | right h4 => cases h2.fixity h4
    | before h4 => cases h2.fixity h4
  | right h2 ho =>
    have h3 := hb.of_op h1 h2
    generalize hm : _ + 1 = m at h'
    cases h' with
    | next _ => simp at h3; omega
    | left _ => simp at h3; omega
    | right h4 => have := ho.of_op h1 h4; simp at h3 this; omega
    | before h4 => have := ho.of_op h1 h4; simp at h3 this; omega
  | behind h2 =>
    have h3 := hb.of_op h1 h2
    cases h' with
    | next _ => simp at h3; omega
    | left _ => simp at h3; omega
    | right h4 => cases h2.fixity h4
    | before h4 => cases h2.fixity h4
  | parens =>
    generalize hm : 0 = m at h'
    generalize hδ : _ ++ [Sym.term OpTok.lpar] = δ at h'
    cases h' with
    | next _ => omega
    | left _ => omega
    | right h4 => have := (List.append_inj' hδ rfl).2; simp at this
    | before h4 => have := (List.append_inj' hδ rfl).2; simp at this

theorem early_disjoint (h1 : OneLevel tb) {δ : List (Sym Nat (OpTok O A))} {t : OpTok O A} {j : Nat}
    {p : Nat × Item Nat (OpTok O A)} (h : Opens tb (δ ++ [.term t]) j) (h' : EarlyReduce tb a t p) : False := by
  cases h' with
  | behind h2 => simpa using h.of_op h1 h2
  | val => simpa using h.last
  | parens => simpa using h.last

variable [DecidableEq O]

theorem op_oneEntry (h1 : OneLevel tb) (hs : g.start = 0) (hr : ∀ v β, (v, β) ∈ g.rules ↔ OpRule tb a v β) :
    OneEntryEach g := by
  have ends : ∀ {δ δ' : List (Sym Nat (OpTok O A))} {x y : Sym Nat (OpTok O A)}, δ ++ [x] = δ' ++ [y] → δ = δ' ∧ x = y := by
    intro δ δ' x y h
    have := List.append_inj' h rfl
    exact ⟨this.1, by simpa using this.2⟩
  -- entries in normal form
  have shifts : ∀ {γ h i t}, Viable g γ (h, i) → Reads i (.term t) →
      (Opens tb γ h ∧ FreshShift tb a (h, i) t) ∨ ∃ δ m, γ = δ ++ [.var m] ∧ LateShift tb a δ m (h, i) t :=
    fun h2 h3 => opItem_shift (viable_opItem hs hr h2) (reads_iff.1 h3)
  have reduces : ∀ {γ h i}, Viable g γ (h, i) → Complete i →
      (∃ δ t, γ = δ ++ [.term t] ∧ EarlyReduce tb a t (h, i)) ∨ ∃ δ m, γ = δ ++ [.var m] ∧ LateReduce tb δ m (h, i) :=
    fun h2 h3 => opItem_reduce (viable_opItem hs hr h2) h3
  have noShift : ∀ {γ h i t h' i'}, Viable g γ (h, i) → Reads i (.term t) → Viable g γ (h', i') → Complete i' →
      Behind tb t h' → False := by
    intro γ h i t h' i' h2 h3 h4 h5 h6
    rcases shifts h2 h3 with ⟨h7, _⟩ | ⟨δ, m, rfl, h7⟩
    · rcases reduces h4 h5 with ⟨δ, u, rfl, h8⟩ | ⟨δ, m, rfl, _⟩
      · exact early_disjoint h1 h7 h8
      · simpa using h7.last
    · rcases reduces h4 h5 with ⟨δ', u, h8, _⟩ | ⟨δ', m', h8, h9⟩
      · cases (ends h8).2
      · obtain ⟨rfl, h10⟩ := ends h8
        cases h10
        exact late_disjoint h1 h7 h9 h6
  have oneReduce : ∀ {γ h i h' i'}, Viable g γ (h, i) → Complete i → Viable g γ (h', i') → Complete i' →
      (h, i) = (h', i') := by
    intro γ h i h' i' h2 h3 h4 h5
    rcases reduces h2 h3 with ⟨δ, t, rfl, h6⟩ | ⟨δ, t, rfl, h6⟩ <;>
      rcases reduces h4 h5 with ⟨δ', t', h7, h8⟩ | ⟨δ', t', h7, h8⟩ <;> obtain ⟨rfl, h9⟩ := ends h7 <;> cases h9
    · exact h6.unique h1 h8
    · exact h6.unique h1 h8
  have oneShift : ∀ {γ h i h' i' t}, Viable g γ (h, i) → Reads i (.term t) → Viable g γ (h', i') → Reads i' (.term t) →
      (h, i) = (h', i') := by
    intro γ h i h' i' t h2 h3 h4 h5
    rcases shifts h2 h3 with ⟨h6, h7⟩ | ⟨δ, m, rfl, h6⟩
    · rcases shifts h4 h5 with ⟨_, h8⟩ | ⟨δ, m, rfl, _⟩
      · exact h7.unique h1 h8
      · simpa using h6.last
    · rcases shifts h4 h5 with ⟨h7, _⟩ | ⟨δ', m', h7, h8⟩
      · simpa using h7.last
      · obtain ⟨rfl, h9⟩ := ends h7
        cases h9
        exact h6.unique h1 h8
  have noAccept : ∀ {h i}, Viable g [.var g.start] (h, i) → ¬ Complete i := by
    intro h i h2 h3
    rcases reduces h2 h3 with ⟨δ, t, h4, _⟩ | ⟨δ, m, h4, h5⟩
    · cases (ends (δ := []) h4).2
    · obtain ⟨rfl, h6⟩ := ends (δ := []) h4
      rw [hs] at h6
      cases h6
      generalize hδ : [] = δ at h5
      generalize hm : 0 = m at h5
      cases h5 with
      | next _ => omega
      | left _ => omega
      | right _ => simp at hδ
      | before _ => simp at hδ
  -- only one value is in the table
  have value : ∀ {γ p b}, TableEntry g γ p (some (.val b)) → b = a := by
    intro γ p b h
    cases h with
    | shift h2 h3 =>
      rcases shifts h2 h3 with ⟨_, h4⟩ | ⟨_, _, _, h4⟩ <;> cases h4
      rfl
    | reduce h2 h3 h4 => cases follow_op hr h4
  intro γ p p' k k' h h' hk
  have hkk : k = k' := by
    cases k with
    | none => cases k' <;> simp [keyEq] at hk ⊢
    | some t =>
      cases k' with
      | none => simp [keyEq] at hk
      | some t' =>
        cases t <;> cases t' <;> simp [keyEq, teq] at hk ⊢
        · exact hk
        · rw [value h, value h']
  subst hkk
  refine ⟨?_, rfl⟩
  cases h with
  | shift h2 h3 =>
    cases h' with
    | shift h4 h5 => rw [oneShift h2 h3 h4 h5]
    | reduce h4 h5 h6 => exact (noShift h2 h3 h4 h5 (follow_op hr h6)).elim
  | reduce h2 h3 h4 =>
    cases h' with
    | shift h5 h6 => exact (noShift h5 h6 h2 h3 (follow_op hr h4)).elim
    | reduce h5 h6 _ => rw [oneReduce h2 h3 h5 h6]
  | reduceEnd h2 h3 h4 =>
    cases h' with
    | reduceEnd h5 h6 _ => rw [oneReduce h2 h3 h5 h6]
    | accept h5 => subst h5; exact absurd h3 (noAccept h2)
  | accept h5 =>
    cases h' with
    | reduceEnd h2 h3 _ => subst h5; exact absurd h3 (noAccept h2)
    | accept _ => rfl

end Pango.Parse
