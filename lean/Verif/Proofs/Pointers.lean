import Verif.Proofs.Grouped
import Verif.Model.Pointers

/-!
# The code with pointers does what the code without them does
-/

namespace Pango.Parse

open Pango

namespace Access

@[simp] theorem pure_eq {α : Type u} (a : α) : (pure a : Access α) = val a := rfl
@[simp] theorem bind_val {α β : Type u} (a : α) (f : α → Access β) : ((val a : Access α) >>= f) = f a := rfl
@[simp] theorem bind_panic {α β : Type u} (f : α → Access β) : ((panic : Access α) >>= f) = panic := rfl
@[simp] theorem bind_diverge {α β : Type u} (f : α → Access β) : ((diverge : Access α) >>= f) = diverge := rfl
@[simp] theorem of_ok {α : Type u} (a : α) : of (.ok a : Outcome α) = val a := rfl
@[simp] theorem of_panic {α : Type u} : of (.panic : Outcome α) = panic := rfl
@[simp] theorem of_diverge {α : Type u} : of (.diverge : Outcome α) = diverge := rfl

end Access

/-- The code with pointers does what the code without them does, and its results are related. -/
def Sim {α β : Type} (R : α → β → Prop) : Access α → Outcome β → Prop
  | .val a, .ok b => R a b
  | .panic, .panic => True
  | .diverge, .diverge => True
  | _, _ => False

theorem Sim.bind {α β γ δ : Type} {R : α → β → Prop} {S : γ → δ → Prop} {p : Access α} {o : Outcome β}
    {f : α → Access γ} {k : β → Outcome δ} (h : Sim R p o) (hf : ∀ a b, R a b → Sim S (f a) (k b)) :
    Sim S (p >>= f) (o >>= k) := by
  cases p <;> cases o <;> simp only [Sim] at h
  · exact hf _ _ h
  · trivial
  · trivial

theorem Sim.of {α : Type} (o : Outcome α) : Sim (fun a b => a = b) (Access.of o) o := by
  cases o <;> simp [Access.of, Sim]

theorem Sim.eq {α : Type} {p : Access α} {o : Outcome α} (h : Sim (fun a b => a = b) p o) : p = Access.of o := by
  cases p <;> cases o <;> simp_all [Sim, Access.of]

theorem Sim.val {α β : Type} {R : α → β → Prop} {a : α} {b : β} (h : R a b) : Sim R (.val a) (.ok b) := h

section lists

variable {α β γ δ : Type}

theorem allAt_iff {val : α → Option β} {l : List α} {m : List β} :
    allAt val l = some m ↔ l.map val = m.map some := by
  induction l generalizing m with
  | nil => cases m <;> simp [allAt]
  | cons a l ih =>
    simp only [allAt]
    cases m with
    | nil =>
      simp only [List.map_cons, List.map_nil, reduceCtorEq, iff_false]
      split <;> simp
    | cons b m =>
      simp only [List.map_cons, List.cons.injEq, ← ih]
      split
      · rename_i h1 h2; simp [h1, h2]
      · rename_i h1
        simp only [reduceCtorEq, false_iff, not_and]
        intro h2 h3
        exact h1 _ _ h2 h3

@[simp] theorem allAt_nil (val : α → Option β) : allAt val [] = some [] := rfl

theorem allAt_append {val : α → Option β} {l l' : List α} {m m' : List β} (h : allAt val l = some m)
    (h' : allAt val l' = some m') : allAt val (l ++ l') = some (m ++ m') := by
  rw [allAt_iff] at *
  simp [h, h']

theorem allAt_cons {val : α → Option β} {a : α} {l : List α} {m : List β} :
    allAt val (a :: l) = some m ↔ ∃ b m', val a = some b ∧ allAt val l = some m' ∧ m = b :: m' := by
  simp only [allAt]
  constructor
  · intro h
    split at h
    · rename_i h1 h2; cases h; exact ⟨_, _, h1, h2, rfl⟩
    · cases h
  · rintro ⟨b, m', h1, h2, rfl⟩
    simp [h1, h2]

theorem allAt_single {val : α → Option β} {a : α} {b : β} (h : val a = some b) : allAt val [a] = some [b] := by
  simp [allAt, h]

theorem allAt_mem {val : α → Option β} {l : List α} {m : List β} (h : allAt val l = some m) {a : α} (ha : a ∈ l) :
    ∃ b ∈ m, val a = some b := by
  rw [allAt_iff] at h
  have : val a ∈ m.map some := h ▸ List.mem_map_of_mem ha
  obtain ⟨b, hb, e⟩ := List.mem_map.1 this
  exact ⟨b, hb, e.symm⟩

theorem allAt_map {val : α → Option β} {val' : γ → Option δ} {f : α → γ} {k : β → δ} {l : List α} {m : List β}
    (h : allAt val l = some m) (hf : ∀ a b, val a = some b → val' (f a) = some (k b)) :
    allAt val' (l.map f) = some (m.map k) := by
  induction l generalizing m with
  | nil => cases h; rfl
  | cons a l ih =>
    obtain ⟨b, m', h1, h2, rfl⟩ := allAt_cons.1 h
    exact allAt_cons.2 ⟨_, _, hf _ _ h1, ih h2, rfl⟩

theorem allAt_mono {val val' : α → Option β} (hv : ∀ a b, val a = some b → val' a = some b) {l : List α} {m : List β}
    (h : allAt val l = some m) : allAt val' l = some m := by
  simpa using allAt_map (val' := val') (f := id) (k := id) h hv

/-- A comparison that reads pointers and compares values. -/
def Correct [DecidableEq β] (val : α → Option β) (same : α → α → Access Bool) : Prop :=
  ∀ a b x y, val a = some x → val b = some y → same a b = .val (decide (x = y))

variable [DecidableEq β] {val : α → Option β} {same : α → α → Access Bool}

theorem containsP_eq (hs : Correct val same) {a : α} {x : β} (ha : val a = some x) {l : List α} {m : List β}
    (h : allAt val l = some m) : containsP same a l = .val (decide (x ∈ m)) := by
  induction l generalizing m with
  | nil => cases h; simp [containsP]
  | cons b l ih =>
    obtain ⟨y, m', h1, h2, rfl⟩ := allAt_cons.1 h
    simp only [containsP, hs b a y x h1 ha, Access.bind_val, Access.pure_eq]
    by_cases e : y = x
    · subst e; simp
    · simp [e, ih h2, Ne.symm e]

theorem insertP_eq (hs : Correct val same) {a : α} {x : β} (ha : val a = some x) {l : List α} {m : List β}
    (h : allAt val l = some m) : ∃ l', insertP same a l = .val l' ∧ allAt val l' = some (insertNew x m) := by
  simp only [insertP, containsP_eq hs ha h, Access.bind_val, Access.pure_eq, insertNew, decide_eq_true_eq]
  by_cases e : x ∈ m
  · exact ⟨l, by simp [e], by simpa [e] using h⟩
  · exact ⟨l ++ [a], by simp [e], by simpa [e] using allAt_append h (allAt_single ha)⟩

theorem extendP_eq (hs : Correct val same) {l new : List α} {m new' : List β} (h : allAt val l = some m)
    (hn : allAt val new = some new') :
    ∃ l', extendP same l new = .val l' ∧ allAt val l' = some (extendSet m new') := by
  induction new generalizing l m new' with
  | nil => cases hn; exact ⟨l, rfl, h⟩
  | cons a new ih =>
    obtain ⟨x, n, h1, h2, rfl⟩ := allAt_cons.1 hn
    obtain ⟨l1, e1, h3⟩ := insertP_eq hs h1 h
    obtain ⟨l2, e2, h4⟩ := ih h3 h2
    exact ⟨l2, by simp [extendP, e1, e2], h4⟩

omit [DecidableEq β] in
theorem mapP_eq {val' : γ → Option δ} {f : α → Access γ} {k : β → δ} {l : List α} {m : List β}
    (h : allAt val l = some m) (hf : ∀ a b, val a = some b → ∃ c, f a = .val c ∧ val' c = some (k b)) :
    ∃ l', mapP f l = .val l' ∧ allAt val' l' = some (m.map k) := by
  induction l generalizing m with
  | nil => cases h; exact ⟨[], rfl, rfl⟩
  | cons a l ih =>
    obtain ⟨b, m', h1, h2, rfl⟩ := allAt_cons.1 h
    obtain ⟨c, e1, h3⟩ := hf a b h1
    obtain ⟨l', e2, h4⟩ := ih h2
    exact ⟨c :: l', by simp [mapP, e1, e2], allAt_cons.2 ⟨_, _, h3, h4, rfl⟩⟩

omit [DecidableEq β] in
theorem filterMapP_eq {val' : γ → Option δ} {f : α → Access (Option γ)} {k : β → Option δ} {l : List α} {m : List β}
    (h : allAt val l = some m) (hf : ∀ a b, val a = some b → ∃ c, f a = .val c ∧ c.map val' = (k b).map some) :
    ∃ l', filterMapP f l = .val l' ∧ allAt val' l' = some (m.filterMap k) := by
  induction l generalizing m with
  | nil => cases h; exact ⟨[], rfl, rfl⟩
  | cons a l ih =>
    obtain ⟨b, m', h1, h2, rfl⟩ := allAt_cons.1 h
    obtain ⟨c, e1, h3⟩ := hf a b h1
    obtain ⟨l', e2, h4⟩ := ih h2
    refine ⟨c.toList ++ l', by simp [filterMapP, e1, e2], ?_⟩
    cases c with
    | none =>
      cases hk : k b with
      | none => simpa [hk] using h4
      | some d => simp [hk] at h3
    | some c =>
      cases hk : k b with
      | none => simp [hk] at h3
      | some d =>
        simp only [hk, Option.map_some, Option.some.injEq] at h3
        simpa [hk] using allAt_cons.2 ⟨_, _, h3, h4, rfl⟩

omit [DecidableEq β] in
theorem allP_eq {f : α → Access Bool} {k : β → Bool} {l : List α} {m : List β}
    (h : allAt val l = some m) (hf : ∀ a b, val a = some b → f a = .val (k b)) : allP f l = .val (m.all k) := by
  induction l generalizing m with
  | nil => cases h; rfl
  | cons a l ih =>
    obtain ⟨b, m', h1, h2, rfl⟩ := allAt_cons.1 h
    simp only [allP, hf a b h1, Access.bind_val, Access.pure_eq, ih h2, List.all_cons]
    cases k b <;> rfl

omit [DecidableEq β] in
theorem findP_eq {f : α → Access Bool} {k : β → Bool} {l : List α} {m : List β}
    (h : allAt val l = some m) (hf : ∀ a b, val a = some b → f a = .val (k b)) :
    ∃ o, findP f l = .val o ∧ o.map val = (m.find? k).map some := by
  induction l generalizing m with
  | nil => cases h; exact ⟨none, rfl, rfl⟩
  | cons a l ih =>
    obtain ⟨b, m', h1, h2, rfl⟩ := allAt_cons.1 h
    simp only [findP, hf a b h1, Access.bind_val, Access.pure_eq, List.find?_cons]
    cases k b with
    | true => exact ⟨some a, rfl, by simp [h1]⟩
    | false => simpa using ih h2

/-! ### Orders -/

theorem map_eraseP_perm {b : β} {l : List α} (h : some b ∈ l.map val) :
    (l.map val).Perm (some b :: (l.eraseP (fun a => decide (val a = some b))).map val) := by
  induction l with
  | nil => simp at h
  | cons a l ih =>
    by_cases e : val a = some b
    · simp [e]
    · have := ih (by simpa [Ne.symm e] using h)
      simp only [List.map_cons, List.eraseP_cons, e, decide_false, cond_false]
      exact (this.cons _).trans (List.Perm.swap _ _ _)

theorem arrange_eq {bs : List β} {l : List α} (h : (l.map val).Perm (bs.map some)) :
    (arrange val bs l).map val = bs.map some ∧ ∀ a ∈ arrange val bs l, a ∈ l := by
  induction bs generalizing l with
  | nil => exact ⟨rfl, fun a ha => by simp [arrange] at ha⟩
  | cons b bs ih =>
    have hb : some b ∈ l.map val := h.symm.subset (by simp)
    simp only [arrange]
    cases hf : l.find? (fun a => decide (val a = some b)) with
    | none =>
      obtain ⟨a, ha, e⟩ := List.mem_map.1 hb
      have := List.find?_eq_none.1 hf a ha
      simp [e] at this
    | some a =>
      have h1 := List.find?_some hf
      have h2 := List.mem_of_find?_eq_some hf
      simp only [decide_eq_true_eq] at h1
      have h3 := ((map_eraseP_perm hb).symm.trans h)
      obtain ⟨h4, h5⟩ := ih (l := l.eraseP (fun a => decide (val a = some b))) (by simpa using h3)
      refine ⟨by simp [h1, h4], ?_⟩
      intro c hc
      rcases List.mem_cons.1 hc with rfl | hc
      · exact h2
      · exact List.mem_of_mem_eraseP (h5 c hc)

/-- The order of the pointers is the order of the values. -/
theorem shuffleP_eq {val' : α → Option β} (hv : ∀ a b, val a = some b → val' a = some b) (ord tie : HashOrder)
    (now : List Nat) {l : List α} {m : List β} (h : allAt val l = some m) :
    allAt val (shuffleP ord tie now val' l) = some (ord.shuffle now β m) := by
  have h' := allAt_mono hv h
  simp only [shuffleP, h', Option.getD_some]
  have hp : ((tie.shuffle now α l).map val').Perm ((ord.shuffle now β m).map some) :=
    ((tie.perm now α l).map val').trans ((allAt_iff.1 h') ▸ ((ord.perm now β m).map some).symm)
  obtain ⟨h1, h2⟩ := arrange_eq hp
  rw [allAt_iff, ← h1]
  refine List.map_congr_left fun a ha => ?_
  obtain ⟨b, _, hb⟩ := allAt_mem h (tie.mem_shuffle.1 (h2 a ha))
  rw [hb, hv a b hb]

/-- The same for a map of sets. -/
theorem groupedP_eq {κ : Type} [DecidableEq κ] {val' : α → Option β} (hv : ∀ a b, val a = some b → val' a = some b)
    (ord tie : HashOrder) (key : β → κ) {l : List α} {m : List β} (h : allAt val l = some m) :
    allAt val (groupedP ord tie key val' l) = some (ord.grouped key m) := by
  have h' := allAt_mono hv h
  simp only [groupedP, h', Option.getD_some]
  have hp : ((tie.shuffle [] α l).map val').Perm ((ord.grouped key m).map some) :=
    ((tie.perm [] α l).map val').trans ((allAt_iff.1 h') ▸ ((ord.grouped_perm key m).map some).symm)
  obtain ⟨h1, h2⟩ := arrange_eq hp
  rw [allAt_iff, ← h1]
  refine List.map_congr_left fun a ha => ?_
  obtain ⟨b, _, hb⟩ := allAt_mem h (tie.mem_shuffle.1 (h2 a ha))
  rw [hb, hv a b hb]

end lists

/-! ## Items -/

variable {V T : Type}

/-- Everything the small memory holds, the large one holds too. -/
def Mem.Within (m mem : Mem V T) : Prop := ∀ a b, m a = some b → mem a = some b

variable {m mem : Mem V T}

theorem bodyAt_eq (hm : m.Within mem) {a : Addr} {b : Body V T} (h : m a = some b) : bodyAt mem a = .val b := by
  simp [bodyAt, hm a b h]

theorem symAt_mono (hm : m.Within mem) {p : SymPtr} {s : Sym V T} (h : symAt m p = some s) :
    symAt mem p = some s := by
  simp only [symAt, Option.bind_eq_some_iff] at *
  obtain ⟨b, h1, h2⟩ := h
  exact ⟨b, hm _ _ h1, h2⟩

theorem symbolAt_eq (hm : m.Within mem) {p : SymPtr} {s : Sym V T} (h : symAt m p = some s) :
    symbolAt mem p = .val s := by
  have := symAt_mono hm h
  simp only [symAt] at this
  simp [symbolAt, this]

theorem itemAt_iff {i : PItem} {j : Item V T} :
    itemAt m i = some j ↔ m i.body = some j.body ∧ i.cursor = j.cursor := by
  cases j
  simp only [itemAt, Option.map_eq_some_iff, Item.mk.injEq]
  constructor
  · rintro ⟨b, h, rfl, rfl⟩; exact ⟨h, rfl⟩
  · rintro ⟨h, rfl⟩; exact ⟨_, h, rfl, rfl⟩

theorem itemAt_mono (hm : m.Within mem) {i : PItem} {j : Item V T} (h : itemAt m i = some j) :
    itemAt mem i = some j :=
  itemAt_iff.2 ⟨hm _ _ (itemAt_iff.1 h).1, (itemAt_iff.1 h).2⟩

theorem headItemAt_iff {i : V × PItem} {j : V × Item V T} :
    headItemAt m i = some j ↔ i.1 = j.1 ∧ itemAt m i.2 = some j.2 := by
  obtain ⟨v, j⟩ := j
  simp only [headItemAt, Option.map_eq_some_iff, Prod.mk.injEq]
  constructor
  · rintro ⟨b, h, rfl, rfl⟩; exact ⟨rfl, h⟩
  · rintro ⟨rfl, h⟩; exact ⟨_, h, rfl, rfl⟩

theorem headItemAt_mono (hm : m.Within mem) (i : V × PItem) (j : V × Item V T) (h : headItemAt m i = some j) :
    headItemAt mem i = some j :=
  headItemAt_iff.2 ⟨(headItemAt_iff.1 h).1, itemAt_mono hm (headItemAt_iff.1 h).2⟩

theorem groupAt_iff {e : SymPtr × PItemSet V} {f : Sym V T × ItemSet V T} :
    groupAt m e = some f ↔ symAt m e.1 = some f.1 ∧ allAt (headItemAt m) e.2 = some f.2 := by
  obtain ⟨s, l⟩ := f
  simp only [groupAt]
  split
  · rename_i h1 h2; simp [h1, h2]
  · rename_i h
    simp only [reduceCtorEq, false_iff, not_and]
    exact fun h1 h2 => h _ _ h1 h2

theorem groupAt_mono (hm : m.Within mem) (e : SymPtr × PItemSet V) (f : Sym V T × ItemSet V T)
    (h : groupAt m e = some f) : groupAt mem e = some f :=
  groupAt_iff.2 ⟨symAt_mono hm (groupAt_iff.1 h).1, allAt_mono (headItemAt_mono hm) (groupAt_iff.1 h).2⟩

theorem ofBody_eq (hm : m.Within mem) {a : Addr} {b : Body V T} (h : m a = some b) :
    ∃ i, PItem.ofBody mem a = .val i ∧ itemAt m i = some (Item.ofBody b) :=
  ⟨⟨a, leadingEpsilons b⟩, by simp [PItem.ofBody, bodyAt_eq hm h], itemAt_iff.2 ⟨h, rfl⟩⟩

theorem cursorSymbol_eq (hm : m.Within mem) {i : PItem} {j : Item V T} (h : itemAt m i = some j) :
    ∃ p, i.cursorSymbol mem = .val p ∧ p.map (symAt m) = j.cursorSymbol.map some := by
  obtain ⟨h1, h2⟩ := itemAt_iff.1 h
  simp only [PItem.cursorSymbol, bodyAt_eq hm h1, Access.bind_val, Access.pure_eq, Access.val.injEq,
    exists_eq_left', Item.cursorSymbol]
  by_cases e : i.cursor < j.body.length
  · have e' : j.cursor < j.body.length := h2 ▸ e
    simp [e, symAt, h1, h2, e']
  · have e' : ¬ j.cursor < j.body.length := h2 ▸ e
    simp [e, List.getElem?_eq_none (Nat.le_of_not_lt e')]

theorem cursorVariable_eq (hm : m.Within mem) {i : PItem} {j : Item V T} (h : itemAt m i = some j) :
    i.cursorVariable mem = Access.of j.cursorVariable := by
  obtain ⟨p, hp, hs⟩ := cursorSymbol_eq hm h
  simp only [PItem.cursorVariable, hp, Access.bind_val, Item.cursorVariable]
  cases hj : j.cursorSymbol with
  | none =>
    cases p with
    | none => rfl
    | some p => simp [hj] at hs
  | some s =>
    cases p with
    | none => simp [hj] at hs
    | some p =>
      simp only [hj, Option.map_some, Option.some.injEq] at hs
      simp only [symbolAt_eq hm hs, Access.bind_val]
      cases s <;> rfl

theorem advance_eq (hm : m.Within mem) {i : PItem} {j : Item V T} (h : itemAt m i = some j) :
    ∃ i', i.advance mem = .val i' ∧ itemAt m i' = some j.advance := by
  obtain ⟨h1, h2⟩ := itemAt_iff.1 h
  refine ⟨⟨i.body, min (i.cursor + (1 + leadingEpsilons (j.body.drop (i.cursor + 1)))) j.body.length⟩,
    by simp only [PItem.advance, bodyAt_eq hm h1, Access.bind_val, Access.pure_eq], itemAt_iff.2 ⟨h1, ?_⟩⟩
  simp [Item.advance, h2]

variable [DecidableEq V] [DecidableEq T]

omit [DecidableEq V] in
theorem sameSymbol_eq [DecidableEq V] (hm : m.Within mem) : Correct (symAt m) (sameSymbol mem) := by
  intro p q x y hx hy
  simp [sameSymbol, symbolAt_eq hm hx, symbolAt_eq hm hy]

theorem sameHeadItem_eq (hm : m.Within mem) : Correct (headItemAt m) (sameHeadItem mem) := by
  intro i j x y hx hy
  obtain ⟨hx1, hx2⟩ := headItemAt_iff.1 hx
  obtain ⟨hy1, hy2⟩ := headItemAt_iff.1 hy
  obtain ⟨hx3, hx4⟩ := itemAt_iff.1 hx2
  obtain ⟨hy3, hy4⟩ := itemAt_iff.1 hy2
  obtain ⟨x1, x2, x3⟩ := x
  obtain ⟨y1, y2, y3⟩ := y
  simp only at *
  subst hx1 hy1 hx4 hy4
  by_cases e : i.1 = j.1
  · simp [sameHeadItem, e, PItem.same, bodyAt_eq hm hx3, bodyAt_eq hm hy3]
  · simp [sameHeadItem, e]

/-- The grammar is in the memory. -/
structure Stored (m : Mem V T) (gp : PGrammar V) (g : Grammar V T) : Prop where
  start : gp.start = g.start
  rules : allAt (fun r : V × Addr => (m r.2).map fun b => (r.1, b)) gp.rules = some g.rules

variable {gp : PGrammar V} {g : Grammar V T}

omit [DecidableEq T] in
theorem Stored.bodies (hg : Stored m gp g) (v : V) :
    Sim (fun as bs => allAt m as = some bs) (gp.expectBodies v) (g.expectBodies v) := by
  have key : allAt m (gp.rules.filterMap (fun r => if r.1 = v then some r.2 else none)) = some (g.bodiesOf v) := by
    have h := hg.rules
    simp only [Grammar.bodiesOf]
    revert h
    generalize gp.rules = l
    generalize g.rules = rs
    intro h
    induction l generalizing rs with
    | nil => cases h; rfl
    | cons r l ih =>
      obtain ⟨x, rs, h1, h2, rfl⟩ := allAt_cons.1 h
      simp only [Option.map_eq_some_iff] at h1
      obtain ⟨b, h1, rfl⟩ := h1
      by_cases e : r.1 = v
      · simpa [e] using allAt_cons.2 ⟨_, _, h1, ih _ h2, rfl⟩
      · simpa [e] using ih _ h2
  simp only [PGrammar.expectBodies, Grammar.expectBodies]
  revert key
  generalize gp.rules.filterMap (fun r => if r.1 = v then some r.2 else none) = as
  generalize g.bodiesOf v = bs
  intro key
  cases as with
  | nil => cases key; trivial
  | cons a as =>
    obtain ⟨b, bs, h1, h2, rfl⟩ := allAt_cons.1 key
    exact key

/-! ## Closures -/

theorem insertBodies_eq (hm : m.Within mem) {head : V} {as : List Addr} {bs : List (Body V T)}
    (h : allAt m as = some bs) {pending : List PItem} {pending' : List (Item V T)}
    (hp : allAt (itemAt m) pending = some pending') {items : PItemSet V} {items' : ItemSet V T}
    (hi : allAt (headItemAt m) items = some items') :
    ∃ r, insertBodiesP mem head as pending items = .val r ∧
      allAt (itemAt m) r.1 = some (bs.foldl (fun (acc : List (Item V T) × ItemSet V T) b =>
        let new := Item.ofBody b
        if (head, new) ∈ acc.2 then acc else (acc.1 ++ [new], acc.2 ++ [(head, new)])) (pending', items')).1 ∧
      allAt (headItemAt m) r.2 = some (bs.foldl (fun (acc : List (Item V T) × ItemSet V T) b =>
        let new := Item.ofBody b
        if (head, new) ∈ acc.2 then acc else (acc.1 ++ [new], acc.2 ++ [(head, new)])) (pending', items')).2 := by
  induction as generalizing bs pending pending' items items' with
  | nil => cases h; exact ⟨_, rfl, hp, hi⟩
  | cons a as ih =>
    obtain ⟨b, bs, h1, h2, rfl⟩ := allAt_cons.1 h
    obtain ⟨i, e1, h3⟩ := ofBody_eq hm h1
    have h4 : headItemAt m (head, i) = some (head, Item.ofBody b) := headItemAt_iff.2 ⟨rfl, h3⟩
    simp only [insertBodiesP, e1, Access.bind_val, containsP_eq (sameHeadItem_eq hm) h4 hi, decide_eq_true_eq,
      List.foldl_cons]
    by_cases e : (head, Item.ofBody b) ∈ items'
    · simp only [e, if_true]
      exact ih h2 hp hi
    · simp only [e, if_false]
      exact ih h2 (allAt_append hp (allAt_single h3)) (allAt_append hi (allAt_single h4))

theorem closureLoop_sim (hm : m.Within mem) (hg : Stored m gp g) (n : Nat) (ord tie : HashOrder)
    {pending : List PItem} {pending' : List (Item V T)} (hp : allAt (itemAt m) pending = some pending')
    {items : PItemSet V} {items' : ItemSet V T} (hi : allAt (headItemAt m) items = some items') :
    Sim (fun a b => allAt (headItemAt m) a = some b) (closureLoopP mem gp ord tie n pending items)
      (closureLoop g ord n pending' items') := by
  induction n generalizing ord tie pending pending' items items' with
  | zero =>
    cases pending with
    | nil => cases hp; simp only [closureLoopP, closureLoop]; exact hi
    | cons i pending =>
      obtain ⟨j, p', h1, h2, rfl⟩ := allAt_cons.1 hp
      simp [closureLoopP, closureLoop, Sim]
  | succ n ih =>
    cases pending with
    | nil => cases hp; simp only [closureLoopP, closureLoop]; exact hi
    | cons i pending =>
      obtain ⟨j, p', h1, h2, rfl⟩ := allAt_cons.1 hp
      simp only [closureLoopP, closureLoop, cursorVariable_eq hm h1]
      refine Sim.bind (Sim.of _) ?_
      rintro v _ rfl
      cases v with
      | none => exact ih _ _ h2 hi
      | some head =>
        refine Sim.bind (hg.bodies head) ?_
        intro as bs hb
        have hb' := shuffleP_eq (val := m) (val' := mem) hm ord tie [0] hb
        obtain ⟨r, e, hr1, hr2⟩ := insertBodies_eq hm (head := head) hb' h2 hi
        simp only [e, Access.bind_val]
        exact ih _ _ hr1 hr2

theorem itemClosure_sim (hm : m.Within mem) (hg : Stored m gp g) (ord tie : HashOrder) (fuel : Nat)
    {items : PItemSet V} {items' : ItemSet V T} (hi : allAt (headItemAt m) items = some items') :
    Sim (fun a b => allAt (headItemAt m) a = some b) (itemClosureP mem gp ord tie fuel items)
      (itemClosure g ord fuel items') := by
  have h1 := allAt_map (groupedP_eq (val := headItemAt m) (val' := headItemAt mem) (headItemAt_mono hm) (ord.sub 0)
    (tie.sub 0) Prod.fst hi) fun a b (h : headItemAt m a = some b) => (headItemAt_iff.1 h).2
  exact closureLoop_sim hm hg fuel (ord.sub 1) (tie.sub 1) h1 hi

theorem startItems_sim (hm : m.Within mem) (hg : Stored m gp g) (ord tie : HashOrder) (fuel : Nat) :
    Sim (fun a b => allAt (headItemAt m) a = some b) (startItemsP mem gp ord tie fuel) (startItems g ord fuel) := by
  simp only [startItemsP, startItems]
  rw [hg.start]
  refine Sim.bind (hg.bodies g.start) ?_
  intro as bs h
  obtain ⟨l, e1, h1⟩ := mapP_eq (val' := headItemAt m) (f := fun a => do pure (g.start, ← PItem.ofBody mem a))
    (k := fun b => (g.start, Item.ofBody b)) h (by
      intro a b h
      obtain ⟨i, e, hi⟩ := ofBody_eq hm h
      exact ⟨(g.start, i), by simp [e], headItemAt_iff.2 ⟨rfl, hi⟩⟩)
  obtain ⟨l', e2, h2⟩ := extendP_eq (sameHeadItem_eq hm) (l := []) (m := []) rfl h1
  simp only [e1, e2, Access.bind_val]
  exact itemClosure_sim hm hg ord tie fuel h2

theorem gotoItems_sim (hm : m.Within mem) (hg : Stored m gp g) (ord tie : HashOrder) (fuel : Nat)
    {group : PItemSet V} {group' : ItemSet V T} (h : allAt (headItemAt m) group = some group') :
    Sim (fun a b => allAt (headItemAt m) a = some b) (gotoItemsP mem gp ord tie fuel group)
      (gotoItems g ord fuel group') := by
  simp only [gotoItemsP, gotoItems]
  obtain ⟨l, e1, h1⟩ := mapP_eq (val' := headItemAt m)
    (f := fun i : V × PItem => do pure (i.1, ← i.2.advance mem)) (k := fun i => (i.1, i.2.advance)) h (by
      intro a b h
      obtain ⟨h1, h2⟩ := headItemAt_iff.1 h
      obtain ⟨i, e, hi⟩ := advance_eq hm h2
      exact ⟨(a.1, i), by simp [e], headItemAt_iff.2 ⟨h1, hi⟩⟩)
  obtain ⟨l', e2, h2⟩ := extendP_eq (sameHeadItem_eq hm) (l := []) (m := []) rfl h1
  simp only [e1, e2, Access.bind_val]
  exact itemClosure_sim hm hg ord tie fuel h2

omit [DecidableEq V] [DecidableEq T] in
theorem filterMap_if {α : Type} (p : α → Prop) [DecidablePred p] (l : List α) :
    l.filterMap (fun a => if p a then some a else none) = l.filter (fun a => decide (p a)) := by
  induction l with
  | nil => rfl
  | cons a l ih => by_cases h : p a <;> simp [h, ih]

theorem groupBySymbol_eq (hm : m.Within mem) {items : PItemSet V} {items' : ItemSet V T}
    (h : allAt (headItemAt m) items = some items') :
    ∃ r, groupBySymbolP mem items = .val r ∧ allAt (groupAt m) r = some (groupBySymbol items') := by
  obtain ⟨l1, e1, h1⟩ := filterMapP_eq (val' := symAt m) (f := fun i : V × PItem => i.2.cursorSymbol mem)
    (k := fun i => i.2.cursorSymbol) h (fun a b h => cursorSymbol_eq hm (headItemAt_iff.1 h).2)
  obtain ⟨l2, e2, h2⟩ := extendP_eq (sameSymbol_eq hm) (l := []) (m := []) rfl h1
  obtain ⟨l3, e3, h3⟩ := mapP_eq (val' := groupAt m) (f := fun p => do
    let group ← filterMapP (fun i : V × PItem => do
      match ← i.2.cursorSymbol mem with
      | none => pure none
      | some q => do
        if ← sameSymbol mem q p then pure (some i) else pure none) items
    pure (p, group)) (k := fun s => (s, items'.filter fun i => decide (i.2.cursorSymbol = some s))) h2 (by
      intro p s hp
      obtain ⟨l, e, hl⟩ := filterMapP_eq (val' := headItemAt m) (f := fun i : V × PItem => do
          match ← i.2.cursorSymbol mem with
          | none => pure none
          | some q => do
            if ← sameSymbol mem q p then pure (some i) else pure none)
        (k := fun i : V × Item V T => if i.2.cursorSymbol = some s then some i else none) h (by
          intro a b hab
          obtain ⟨o, eo, ho⟩ := cursorSymbol_eq hm (headItemAt_iff.1 hab).2
          simp only [eo, Access.bind_val]
          cases o with
          | none =>
            cases hc : b.2.cursorSymbol with
            | none => exact ⟨none, rfl, by simp⟩
            | some x => simp [hc] at ho
          | some q =>
            cases hc : b.2.cursorSymbol with
            | none => simp [hc] at ho
            | some x =>
              simp only [hc, Option.map_some, Option.some.injEq] at ho
              simp only [sameSymbol_eq hm q p x s ho hp, Access.bind_val]
              by_cases ex : x = s
              · exact ⟨some a, by simp [ex], by simp [ex, hab]⟩
              · exact ⟨none, by simp [ex], by simp [ex]⟩)
      refine ⟨(p, l), by rw [e]; rfl, groupAt_iff.2 ⟨hp, ?_⟩⟩
      rw [hl]
      congr 1
      exact filterMap_if _ _)
  refine ⟨l3, ?_, h3⟩
  rw [groupBySymbolP, e1, Access.bind_val, e2, Access.bind_val]
  exact e3

/-! ## The automaton -/

/-- A state with the symbols and items behind its pointers. -/
def stateAt (m : Mem V T) (s : PState V) : Option (CState V T) :=
  match allAt (headItemAt m) s.items, allAt (fun t : SymPtr × Nat => (symAt m t.1).map fun x => (x, t.2)) s.transitions with
  | some items, some transitions => some ⟨s.id, items, transitions⟩
  | _, _ => none

omit [DecidableEq V] [DecidableEq T] in
theorem stateAt_iff {s : PState V} {c : CState V T} : stateAt m s = some c ↔ s.id = c.id ∧
    allAt (headItemAt m) s.items = some c.items ∧
    allAt (fun t : SymPtr × Nat => (symAt m t.1).map fun x => (x, t.2)) s.transitions = some c.transitions := by
  obtain ⟨id, items, ts⟩ := c
  simp only [stateAt]
  split
  · rename_i h1 h2; simp [h1, h2]
  · rename_i h
    simp only [reduceCtorEq, false_iff, not_and]
    exact fun _ h1 h2 => h _ _ h1 h2

theorem sameItems_eq (hm : m.Within mem) {a b : PItemSet V} {a' b' : ItemSet V T}
    (ha : allAt (headItemAt m) a = some a') (hb : allAt (headItemAt m) b = some b') :
    sameItemsP mem a b = .val (sameItems a' b') := by
  have h1 := allP_eq (f := fun i => containsP (sameHeadItem mem) i b) (k := fun i => decide (i ∈ b')) ha
    (fun x y h => (containsP_eq (sameHeadItem_eq hm) h hb).trans (by congr))
  have h2 := allP_eq (f := fun i => containsP (sameHeadItem mem) i a) (k := fun i => decide (i ∈ a')) hb
    (fun x y h => (containsP_eq (sameHeadItem_eq hm) h ha).trans (by congr))
  simp only [sameItemsP, h1, h2, Access.bind_val, Access.pure_eq, sameItems]
  cases a'.all fun i => decide (i ∈ b') <;> simp

/-- The queue behind the pointers. -/
def WorkAt (m : Mem V T) (w : PWork V) (w' : CfsmWork V T) : Prop :=
  w.nextId = w'.nextId ∧
  allAt (fun e : Nat × PItemSet V => (allAt (headItemAt m) e.2).map fun l => (e.1, l)) w.pending = some w'.pending

theorem cfsmTransitions_sim (hm : m.Within mem) (hg : Stored m gp g) (ord tie : HashOrder) (fuel : Nat)
    {done : List (PState V)} {done' : List (CState V T)} (hd : allAt (stateAt m) done = some done')
    {groups : List (SymPtr × PItemSet V)} {groups' : List (Sym V T × ItemSet V T)}
    (h : allAt (groupAt m) groups = some groups') {w : PWork V} {w' : CfsmWork V T} (hw : WorkAt m w w') :
    Sim (fun a b => allAt (fun t : SymPtr × Nat => (symAt m t.1).map fun x => (x, t.2)) a.1 = some b.1 ∧
        WorkAt m a.2 b.2)
      (cfsmTransitionsP mem gp ord tie fuel done groups w) (cfsmTransitions g ord fuel done' groups' w') := by
  induction groups generalizing groups' w w' with
  | nil => cases h; exact ⟨rfl, hw⟩
  | cons e groups ih =>
    obtain ⟨f, gs, h1, h2, rfl⟩ := allAt_cons.1 h
    obtain ⟨p, group⟩ := e
    obtain ⟨s, group'⟩ := f
    obtain ⟨h3, h4⟩ := groupAt_iff.1 h1
    have hlen : groups.length = gs.length := by
      have := congrArg List.length (allAt_iff.1 h2)
      simpa using this
    simp only [cfsmTransitionsP, cfsmTransitions, hlen]
    refine Sim.bind (gotoItems_sim hm hg _ _ fuel h4) ?_
    intro items items' hi
    obtain ⟨o, e1, ho⟩ := findP_eq (val := stateAt m) (f := fun s : PState V => sameItemsP mem s.items items)
      (k := fun s => sameItems s.items items') hd (fun a b hab => sameItems_eq hm (stateAt_iff.1 hab).2.1 hi)
    simp only [e1, Access.bind_val]
    cases hf : done'.find? (fun s => sameItems s.items items') with
    | none =>
      cases o with
      | some o => simp [hf] at ho
      | none =>
        have hw' : WorkAt m { pending := w.pending ++ [(w.nextId, items)], nextId := w.nextId + 1 }
            { pending := w'.pending ++ [(w'.nextId, items')], nextId := w'.nextId + 1 } := by
          refine ⟨by simp [hw.1], allAt_append hw.2 (allAt_single ?_)⟩
          simp [hi, hw.1]
        refine Sim.bind (ih h2 hw') ?_
        rintro ⟨ts, w1⟩ ⟨ts', w1'⟩ ⟨ht, hw1⟩
        exact ⟨allAt_cons.2 ⟨(s, w.nextId), ts', by simp only [h3, Option.map_some], ht, by rw [hw.1]⟩, hw1⟩
    | some c =>
      cases o with
      | none => simp [hf] at ho
      | some o =>
        simp only [hf, Option.map_some, Option.some.injEq] at ho
        refine Sim.bind (ih h2 hw) ?_
        rintro ⟨ts, w1⟩ ⟨ts', w1'⟩ ⟨ht, hw1⟩
        exact ⟨allAt_cons.2 ⟨(s, o.id), ts', by simp only [h3, Option.map_some], ht, by rw [(stateAt_iff.1 ho).1]⟩, hw1⟩

theorem cfsmLoop_sim (hm : m.Within mem) (hg : Stored m gp g) (ord tie : HashOrder) (fuel n : Nat)
    {done : List (PState V)} {done' : List (CState V T)} (hd : allAt (stateAt m) done = some done')
    {w : PWork V} {w' : CfsmWork V T} (hw : WorkAt m w w') :
    Sim (fun a b => allAt (stateAt m) a = some b) (cfsmLoopP mem gp ord tie fuel n done w)
      (cfsmLoop g ord fuel n done' w') := by
  induction n generalizing done done' w w' with
  | zero =>
    obtain ⟨pending, nextId⟩ := w
    obtain ⟨pending', nextId'⟩ := w'
    obtain ⟨hw1, hw2⟩ := hw
    cases pending with
    | nil => cases hw2; unfold cfsmLoopP cfsmLoop; exact hd
    | cons e pending =>
      obtain ⟨f, ps, h1, h2, h3⟩ := allAt_cons.1 hw2
      simp only at h3
      subst h3
      unfold cfsmLoopP cfsmLoop; trivial
  | succ n ih =>
    obtain ⟨pending, nextId⟩ := w
    obtain ⟨pending', nextId'⟩ := w'
    obtain ⟨hw1, hw2⟩ := hw
    cases pending with
    | nil => cases hw2; unfold cfsmLoopP cfsmLoop; exact hd
    | cons e pending =>
      obtain ⟨f, ps, h1, h2, h3⟩ := allAt_cons.1 hw2
      simp only at h3
      subst h3
      obtain ⟨id, items⟩ := e
      simp only [Option.map_eq_some_iff] at h1
      obtain ⟨items', h1, rfl⟩ := h1
      unfold cfsmLoopP cfsmLoop
      obtain ⟨gs, e1, h4⟩ := groupBySymbol_eq hm h1
      simp only [e1, Access.bind_val]
      refine Sim.bind (cfsmTransitions_sim hm hg _ _ fuel hd
        (shuffleP_eq (val := groupAt m) (val' := groupAt mem) (groupAt_mono hm) ord tie [id, 0] h4)
        (w := ⟨pending, nextId⟩) (w' := ⟨ps, nextId'⟩) ⟨hw1, h2⟩) ?_
      rintro ⟨ts, w1⟩ ⟨ts', w1'⟩ ⟨ht, hw3⟩
      exact ih (allAt_append hd (allAt_single (stateAt_iff.2 ⟨rfl, h1, ht⟩))) hw3

/-- The automaton behind the pointers. -/
def CfsmAt (m : Mem V T) (gp : PGrammar V) (g : Grammar V T) (c : PCfsm V) (c' : Cfsm V T) : Prop :=
  c.grammar = gp ∧ c'.grammar = g ∧ allAt (stateAt m) c.states = some c'.states

theorem fromGrammar_sim (hm : m.Within mem) (hg : Stored m gp g) (ord tie : HashOrder) (fuel : Nat) :
    Sim (CfsmAt m gp g) (PCfsm.fromGrammar mem gp ord tie fuel) (Cfsm.fromGrammar g ord fuel) := by
  simp only [PCfsm.fromGrammar, Cfsm.fromGrammar]
  refine Sim.bind (startItems_sim hm hg _ _ fuel) ?_
  intro items items' hi
  refine Sim.bind (cfsmLoop_sim hm hg _ _ fuel fuel (done := []) (done' := []) rfl
    (w := ⟨[(0, items)], 1⟩) (w' := ⟨[(0, items')], 1⟩) ⟨rfl, allAt_single (by simp [hi])⟩) ?_
  intro states states' hs
  have h1 : states.map PState.id = states'.map CState.id := by
    have := allAt_map (val' := some) (f := PState.id) (k := CState.id) hs
      fun a b h => by simp [(stateAt_iff.1 h).1]
    rw [allAt_iff] at this
    exact (List.map_inj_right (fun _ _ h => Option.some.inj h)).1 this
  have h2 : states.flatMap (fun s => s.transitions.map Prod.snd) =
      states'.flatMap (fun s => s.transitions.map Prod.snd) := by
    clear h1 hi
    induction states generalizing states' with
    | nil => cases hs; rfl
    | cons s states ih =>
      obtain ⟨c, cs, h1, h2, rfl⟩ := allAt_cons.1 hs
      have h3 := allAt_map (val' := some) (f := Prod.snd) (k := Prod.snd) (stateAt_iff.1 h1).2.2 (by
        intro a b h
        simp only [Option.map_eq_some_iff] at h
        obtain ⟨x, _, rfl⟩ := h
        rfl)
      rw [allAt_iff] at h3
      have h4 := (List.map_inj_right (fun _ _ h => Option.some.inj h)).1 h3
      simp only [List.flatMap_cons, h4, ih cs h2]
  simp only [PCfsm.checked, Cfsm.checked, h1, h2]
  split
  · exact ⟨rfl, rfl, hs⟩
  · trivial

/-! ## The table -/

section table

variable [TerminalEq T]

/-- The terminal behind a pointer. -/
def termAt (m : Mem V T) (p : SymPtr) : Option T :=
  match symAt m p with
  | some (.term t) => some t
  | _ => none

omit [DecidableEq V] [DecidableEq T] [TerminalEq T] in
theorem termAt_iff {p : SymPtr} {t : T} : termAt m p = some t ↔ symAt m p = some (.term t) := by
  simp only [termAt]
  split
  · rename_i h; simp [h]
  · rename_i h
    simp only [reduceCtorEq, false_iff]
    exact h t

/-- The key of a row behind a pointer. -/
def keyAt (m : Mem V T) : Option SymPtr → Option (Option T)
  | none => some none
  | some p => (termAt m p).map some

def entryAt (m : Mem V T) (e : Option SymPtr × Action V) : Option (Option T × Action V) :=
  (keyAt m e.1).map fun k => (k, e.2)

/-- The table behind the pointers. -/
def TableAt (m : Mem V T) (t : PTable V) (t' : Table V T) : Prop :=
  t.start = t'.start ∧ allAt (allAt (entryAt m)) t.action = some t'.action ∧ t.goto = t'.goto

omit [DecidableEq V] [DecidableEq T] [TerminalEq T] in
theorem entryAt_iff {e : Option SymPtr × Action V} {f : Option T × Action V} :
    entryAt m e = some f ↔ keyAt m e.1 = some f.1 ∧ e.2 = f.2 := by
  obtain ⟨k, a⟩ := f
  simp only [entryAt, Option.map_eq_some_iff, Prod.mk.injEq]
  constructor
  · rintro ⟨k, h, rfl, rfl⟩; exact ⟨h, rfl⟩
  · rintro ⟨h, rfl⟩; exact ⟨_, h, rfl, rfl⟩

omit [DecidableEq V] [DecidableEq T] [TerminalEq T] in
theorem terminalAt_eq (hm : m.Within mem) {p : SymPtr} {t : T} (h : termAt m p = some t) :
    terminalAt mem p = .val t := by
  simp [terminalAt, symbolAt_eq hm (termAt_iff.1 h)]

omit [DecidableEq V] [DecidableEq T] in
theorem keyEqP_eq (hm : m.Within mem) {p q : Option SymPtr} {x y : Option T} (hx : keyAt m p = some x)
    (hy : keyAt mem q = some y) : keyEqP mem p q = .val (keyEq x y) := by
  cases p with
  | none =>
    cases hx
    cases q with
    | none => cases hy; rfl
    | some q =>
      simp only [keyAt, Option.map_eq_some_iff] at hy
      obtain ⟨t, _, rfl⟩ := hy
      rfl
  | some p =>
    simp only [keyAt, Option.map_eq_some_iff] at hx
    obtain ⟨s, hs, rfl⟩ := hx
    cases q with
    | none => cases hy; rfl
    | some q =>
      simp only [keyAt, Option.map_eq_some_iff] at hy
      obtain ⟨t, ht, rfl⟩ := hy
      simp [keyEqP, terminalAt_eq hm hs, terminalAt_eq (m := mem) (fun _ _ h => h) ht, keyEq]

omit [DecidableEq V] [DecidableEq T] in
theorem rowGetP_eq (hm : m.Within mem) {row : PRow V} {row' : ActionRow V T}
    (h : allAt (entryAt m) row = some row') {q : Option SymPtr} {y : Option T} (hy : keyAt mem q = some y) :
    rowGetP mem q row = .val (rowGet row' y) := by
  induction row generalizing row' with
  | nil => cases h; rfl
  | cons e row ih =>
    obtain ⟨f, r, h1, h2, rfl⟩ := allAt_cons.1 h
    obtain ⟨k, a⟩ := e
    obtain ⟨k', a'⟩ := f
    obtain ⟨h3, h4⟩ := entryAt_iff.1 h1
    simp only at h4
    subst h4
    simp only [rowGetP, keyEqP_eq hm h3 hy, Access.bind_val, Access.pure_eq, rowGet]
    cases keyEq k' y <;> simp [ih h2]

omit [DecidableEq V] [DecidableEq T] [TerminalEq T] in
theorem keyAt_mono (hm : m.Within mem) {p : Option SymPtr} {x : Option T} (h : keyAt m p = some x) :
    keyAt mem p = some x := by
  cases p with
  | none => exact h
  | some p =>
    simp only [keyAt, Option.map_eq_some_iff] at *
    obtain ⟨t, h, rfl⟩ := h
    exact ⟨t, termAt_iff.2 (symAt_mono hm (termAt_iff.1 h)), rfl⟩

theorem allAt_length {α β : Type} {val : α → Option β} {l : List α} {m : List β} (h : allAt val l = some m) :
    l.length = m.length := by
  simpa using congrArg List.length (allAt_iff.1 h)

theorem allAt_get {α β : Type} {val : α → Option β} {l : List α} {m : List β} (h : allAt val l = some m) (n : Nat) :
    (l[n]?).map val = (m[n]?).map some := by
  have := congrArg (fun l => l[n]?) (allAt_iff.1 h)
  simpa using this

theorem allAt_set {α β : Type} {val : α → Option β} {l : List α} {m : List β} (h : allAt val l = some m) (n : Nat)
    {a : α} {b : β} (hab : val a = some b) : allAt val (l.set n a) = some (m.set n b) := by
  rw [allAt_iff] at *
  rw [List.map_set, h, hab, ← List.map_set]

theorem allAt_replicate {α β : Type} {val : α → Option β} (n : Nat) {a : α} {b : β} (hab : val a = some b) :
    allAt val (List.replicate n a) = some (List.replicate n b) := by
  rw [allAt_iff]
  simp [hab]

omit [DecidableEq V] [DecidableEq T] in
theorem insertActionP_eq (hm : m.Within mem) {table : List (PRow V)} {table' : List (ActionRow V T)}
    (h : allAt (allAt (entryAt m)) table = some table') (state : Nat) {q : Option SymPtr} {y : Option T}
    (hy : keyAt m q = some y) (action : Action V) :
    ∃ r, insertActionP mem table state q action = .val r ∧
      r.map (allAt (allAt (entryAt m))) = (insertAction table' state y action).map some := by
  have h1 : allAt (allAt (entryAt m)) (resizeTo [] (state + 1) table) = some (resizeTo [] (state + 1) table') := by
    simp only [resizeTo, allAt_length h]
    exact allAt_append h (allAt_replicate _ rfl)
  have h2 : allAt (entryAt m) (((resizeTo [] (state + 1) table)[state]?).getD []) =
      some (((resizeTo [] (state + 1) table')[state]?).getD []) := by
    have := allAt_get h1 state
    cases ha : (resizeTo [] (state + 1) table)[state]? <;> cases hb : (resizeTo [] (state + 1) table')[state]? <;>
      simp_all
  simp only [insertActionP, rowGetP_eq hm h2 (keyAt_mono hm hy), Access.bind_val, Access.pure_eq, insertAction]
  cases rowGet (((resizeTo [] (state + 1) table')[state]?).getD []) y with
  | some a => exact ⟨none, rfl, rfl⟩
  | none =>
    refine ⟨_, rfl, ?_⟩
    simp only [Option.map_some, Option.some.injEq]
    exact allAt_set h1 state (allAt_append h2 (allAt_single (entryAt_iff.2 ⟨hy, rfl⟩)))

omit [DecidableEq V] [DecidableEq T] in
theorem insertReduces_sim (hm : m.Within mem) (state : Nat) (action : Action V) {follow : List SymPtr}
    {follow' : List (Sym V T)} (hf : allAt (symAt m) follow = some follow') {table : List (PRow V)}
    {table' : List (ActionRow V T)} (h : allAt (allAt (entryAt m)) table = some table') :
    Sim (fun a b => a.map (allAt (allAt (entryAt m))) = b.map some) (insertReducesP mem state action follow table)
      (insertReduces state action follow' table') := by
  induction follow generalizing follow' table table' with
  | nil => cases hf; simp only [insertReducesP, insertReduces]; exact Sim.val (by simp [h])
  | cons p follow ih =>
    obtain ⟨s, fs, h1, h2, rfl⟩ := allAt_cons.1 hf
    simp only [insertReducesP, symbolAt_eq hm h1, Access.bind_val]
    cases s with
    | term t =>
      obtain ⟨r, e, hr⟩ := insertActionP_eq hm h state (q := some p) (y := some t)
        (by simp [keyAt, termAt_iff.2 h1]) action
      simp only [e, Access.bind_val, insertReduces]
      cases hi : insertAction table' state (some t) action with
      | none =>
        cases r with
        | none => exact Sim.val rfl
        | some r => simp [hi] at hr
      | some table1 =>
        cases r with
        | none => simp [hi] at hr
        | some r =>
          simp only [hi, Option.map_some, Option.some.injEq] at hr
          exact ih h2 hr
    | var v => simp [insertReduces, Sim]
    | eps => simp only [insertReduces]; exact ih h2 h

omit [DecidableEq V] [TerminalEq T] in
theorem transitionP_eq [DecidableEq V] (hm : m.Within mem) {p : SymPtr} {s : Sym V T} (hp : symAt m p = some s)
    {ts : List (SymPtr × Nat)} {ts' : List (Sym V T × Nat)}
    (h : allAt (fun t : SymPtr × Nat => (symAt m t.1).map fun x => (x, t.2)) ts = some ts') :
    transitionP mem p ts = .val (mapGet ts' s) := by
  induction ts generalizing ts' with
  | nil => cases h; rfl
  | cons e ts ih =>
    obtain ⟨f, r, h1, h2, rfl⟩ := allAt_cons.1 h
    simp only [Option.map_eq_some_iff] at h1
    obtain ⟨x, h1, rfl⟩ := h1
    simp only [transitionP, sameSymbol_eq hm e.1 p x s h1 hp, Access.bind_val, Access.pure_eq, mapGet,
      decide_eq_true_eq]
    by_cases ex : x = s <;> simp [ex, ih h2]

/-- The computed follow sets with references to the grammar. -/
def FollowAt (m : Mem V T) (follow : List (V × List SymPtr)) (follow' : List (V × List (Sym V T))) : Prop :=
  ∀ v, (mapGet follow v).map (allAt (symAt m)) = (mapGet follow' v).map some

theorem insertItem_sim (hm : m.Within mem) (hg : Stored m gp g) (ord tie : HashOrder)
    {follow : List (V × List SymPtr)} {follow' : List (V × List (Sym V T))} (hf : FollowAt m follow follow')
    {s : PState V} {s' : CState V T} (hs : stateAt m s = some s') (head : V) {i : PItem} {j : Item V T}
    (hi : itemAt m i = some j) {t : PTable V} {t' : Table V T} (ht : TableAt m t t') :
    Sim (fun a b => (a = none ∧ b = none) ∨ ∃ x y, a = some x ∧ b = some y ∧ TableAt m x y)
      (insertItemP mem gp ord tie follow s head i t) (insertItem g ord follow' s' head j t') := by
  obtain ⟨hs1, hs2, hs3⟩ := stateAt_iff.1 hs
  obtain ⟨ht1, ht2, ht3⟩ := ht
  obtain ⟨o, e1, ho⟩ := cursorSymbol_eq hm hi
  simp only [insertItemP, e1, Access.bind_val, insertItem]
  cases hc : j.cursorSymbol with
  | some x =>
    cases o with
    | none => simp [hc] at ho
    | some p =>
      simp only [hc, Option.map_some, Option.some.injEq] at ho
      simp only [symbolAt_eq hm ho, Access.bind_val, transitionP_eq hm ho hs3]
      cases x with
      | term a =>
        refine Sim.bind (Sim.of _) ?_
        rintro d _ rfl
        obtain ⟨r, e2, hr⟩ := insertActionP_eq hm ht2 s.id (q := some p) (y := some a)
          (by simp [keyAt, termAt_iff.2 ho]) (.shift d)
        simp only [e2, Access.bind_val, Access.pure_eq]
        rw [← hs1]
        refine Sim.val ?_
        cases hia : insertAction t'.action s.id (some a) (.shift d) with
        | none =>
          cases r with
          | none => exact .inl ⟨rfl, rfl⟩
          | some r => simp [hia] at hr
        | some x =>
          cases r with
          | none => simp [hia] at hr
          | some r =>
            simp only [hia, Option.map_some, Option.some.injEq] at hr
            exact .inr ⟨_, _, rfl, rfl, ht1, hr, ht3⟩
      | var v =>
        refine Sim.bind (Sim.of _) ?_
        rintro d _ rfl
        rw [← hs1, ← ht3]
        refine Sim.bind (Sim.of _) ?_
        rintro gt _ rfl
        exact Sim.val (.inr ⟨_, _, rfl, rfl, ht1, ht2, rfl⟩)
      | eps => simp [Sim]
  | none =>
    cases o with
    | some p => simp [hc] at ho
    | none =>
      have hfg := hf head
      cases hg' : mapGet follow' head with
      | none =>
        cases hgp : mapGet follow head with
        | some f => simp [hg', hgp] at hfg
        | none => exact Sim.val (.inr ⟨_, _, rfl, rfl, ht1, ht2, ht3⟩)
      | some f' =>
        cases hgp : mapGet follow head with
        | none => simp [hg', hgp] at hfg
        | some f =>
          simp only [hg', hgp, Option.map_some, Option.some.injEq] at hfg
          simp only [bodyAt_eq hm (itemAt_iff.1 hi).1, Access.bind_val]
          rw [← hs1]
          refine Sim.bind (insertReduces_sim hm s.id _
            (shuffleP_eq (val := symAt m) (val' := symAt mem) (fun _ _ => symAt_mono hm) ord tie [] hfg) ht2) ?_
          intro a b hab
          cases b with
          | none =>
            cases a with
            | none => exact Sim.val (.inl ⟨rfl, rfl⟩)
            | some a => simp at hab
          | some b =>
            cases a with
            | none => simp at hab
            | some a =>
              simp only [Option.map_some, Option.some.injEq] at hab
              simp only [hg.start]
              by_cases he : head = g.start
              · simp only [he, if_true]
                obtain ⟨r, e2, hr⟩ := insertActionP_eq hm hab s.id (q := none) (y := none) rfl
                  (.accept g.start j.body.length)
                simp only [e2, Access.bind_val, Access.pure_eq]
                refine Sim.val ?_
                cases hia : insertAction b s.id none (.accept g.start j.body.length) with
                | none =>
                  cases r with
                  | none => exact .inl ⟨rfl, rfl⟩
                  | some r => simp [hia] at hr
                | some x =>
                  cases r with
                  | none => simp [hia] at hr
                  | some r =>
                    simp only [hia, Option.map_some, Option.some.injEq] at hr
                    exact .inr ⟨_, _, rfl, rfl, ht1, hr, ht3⟩
              · simp only [he, if_false]
                exact Sim.val (.inr ⟨_, _, rfl, rfl, ht1, hab, ht3⟩)

theorem insertItems_sim (hm : m.Within mem) (hg : Stored m gp g) (ord tie : HashOrder)
    {follow : List (V × List SymPtr)} {follow' : List (V × List (Sym V T))} (hf : FollowAt m follow follow')
    {s : PState V} {s' : CState V T} (hs : stateAt m s = some s') {items : PItemSet V} {items' : ItemSet V T}
    (hi : allAt (headItemAt m) items = some items') {t : PTable V} {t' : Table V T} (ht : TableAt m t t') :
    Sim (fun a b => (a = none ∧ b = none) ∨ ∃ x y, a = some x ∧ b = some y ∧ TableAt m x y)
      (insertItemsP mem gp ord tie follow s items t) (insertItems g ord follow' s' items' t') := by
  induction items generalizing items' t t' with
  | nil => cases hi; exact Sim.val (.inr ⟨_, _, rfl, rfl, ht⟩)
  | cons i items ih =>
    obtain ⟨j, is, h1, h2, rfl⟩ := allAt_cons.1 hi
    obtain ⟨v, i⟩ := i
    obtain ⟨v', j⟩ := j
    obtain ⟨h3, h4⟩ := headItemAt_iff.1 h1
    simp only at h3
    subst h3
    simp only [insertItemsP, insertItems, allAt_length h2]
    refine Sim.bind (insertItem_sim hm hg _ _ hf hs v h4 ht) ?_
    rintro a b (⟨rfl, rfl⟩ | ⟨x, y, rfl, rfl, hxy⟩)
    · exact Sim.val (.inl ⟨rfl, rfl⟩)
    · exact ih h2 hxy

theorem insertStates_sim (hm : m.Within mem) (hg : Stored m gp g) (ord tie : HashOrder)
    {follow : List (V × List SymPtr)} {follow' : List (V × List (Sym V T))} (hf : FollowAt m follow follow')
    {states : List (PState V)} {states' : List (CState V T)} (hs : allAt (stateAt m) states = some states')
    {t : PTable V} {t' : Table V T} (ht : TableAt m t t') :
    Sim (fun a b => (a = none ∧ b = none) ∨ ∃ x y, a = some x ∧ b = some y ∧ TableAt m x y)
      (insertStatesP mem gp ord tie follow states t) (insertStates g ord follow' states' t') := by
  induction states generalizing states' t t' with
  | nil => cases hs; exact Sim.val (.inr ⟨_, _, rfl, rfl, ht⟩)
  | cons s states ih =>
    obtain ⟨s', ss, h1, h2, rfl⟩ := allAt_cons.1 hs
    obtain ⟨h3, h4, h5⟩ := stateAt_iff.1 h1
    simp only [insertStatesP, insertStates, ← h3]
    refine Sim.bind (insertItems_sim hm hg _ _ hf h1
      (groupedP_eq (val := headItemAt m) (val' := headItemAt mem) (headItemAt_mono hm) ((ord.sub s.id).sub 0)
        ((tie.sub s.id).sub 0) Prod.fst h4) ht) ?_
    rintro a b (⟨rfl, rfl⟩ | ⟨x, y, rfl, rfl, hxy⟩)
    · exact Sim.val (.inl ⟨rfl, rfl⟩)
    · exact ih h2 hxy

omit [DecidableEq V] [DecidableEq T] [TerminalEq T] in
theorem load_eq (hm : m.Within mem) (hg : Stored m gp g) : gp.load mem = .val g := by
  have key : ∀ (l : List (V × Addr)) (rs : List (V × Body V T)),
      allAt (fun r : V × Addr => (m r.2).map fun b => (r.1, b)) l = some rs →
      mapP (fun r : V × Addr => do pure (r.1, ← bodyAt mem r.2)) l = .val rs := by
    intro l
    induction l with
    | nil => intro rs h; cases h; rfl
    | cons r l ih =>
      intro rs h
      obtain ⟨x, rs, h1, h2, rfl⟩ := allAt_cons.1 h
      simp only [Option.map_eq_some_iff] at h1
      obtain ⟨b, h1, rfl⟩ := h1
      rw [mapP, ih rs h2, bodyAt_eq hm h1]
      rfl
  rw [PGrammar.load, key _ _ hg.rules, hg.start]
  rfl

/-- The references in the follow sets are references to these symbols. -/
def Locates (m : Mem V T) (g : Grammar V T) (locate : V → Sym V T → SymPtr) : Prop :=
  ∀ (ord : HashOrder) (fuel : Nat) (follow : List (V × List (Sym V T))), g.followSet ord fuel = .ok follow →
    ∀ v f, mapGet follow v = some f → ∀ s ∈ f, symAt m (locate v s) = some s

omit [DecidableEq T] [TerminalEq T] in
theorem mapGet_locate (locate : V → Sym V T → SymPtr) (follow : List (V × List (Sym V T))) (v : V) :
    mapGet (follow.map fun e => (e.1, e.2.map (locate e.1))) v = (mapGet follow v).map (·.map (locate v)) := by
  induction follow with
  | nil => rfl
  | cons e follow ih =>
    simp only [List.map_cons, mapGet]
    by_cases h : e.1 = v
    · simp [h]
    · simp [h, ih]

omit [TerminalEq T] in
theorem Locates.follow {locate : V → Sym V T → SymPtr} (hl : Locates m g locate) {ord : HashOrder} {fuel : Nat}
    {follow : List (V × List (Sym V T))} (h : g.followSet ord fuel = .ok follow) :
    FollowAt m (follow.map fun e => (e.1, e.2.map (locate e.1))) follow := by
  have hl := hl ord fuel follow h
  intro v
  rw [mapGet_locate, Option.map_map]
  cases hv : mapGet follow v with
  | none => rfl
  | some f =>
    simp only [Option.map_some, Function.comp_apply, Option.some.injEq]
    rw [allAt_iff, List.map_map]
    exact List.map_congr_left fun s hs => hl v f hv s hs

theorem newSlr_sim (hm : m.Within mem) (hg : Stored m gp g) {locate : V → Sym V T → SymPtr}
    (hl : Locates m g locate) (ord tie : HashOrder) (fuel : Nat) {c : PCfsm V} {c' : Cfsm V T}
    (hc : CfsmAt m gp g c c') :
    Sim (fun a b => (a = none ∧ b = none) ∨ ∃ x y, a = some x ∧ b = some y ∧ TableAt m x y)
      (newSlrP mem c locate ord tie fuel) (newSlr c' ord fuel) := by
  obtain ⟨h1, h2, h3⟩ := hc
  simp only [newSlrP, newSlr, h1, h2, load_eq hm hg, Access.bind_val]
  cases hfo : g.followSet (ord.sub 0) fuel with
  | panic => trivial
  | diverge => trivial
  | ok follow =>
    simp only [Access.of_ok, Access.bind_val, Outcome.bind_ok]
    exact insertStates_sim hm hg _ _ (hl.follow hfo) h3 ⟨hg.start, rfl, rfl⟩

theorem slrTable_sim (hm : m.Within mem) (hg : Stored m gp g) {locate : V → Sym V T → SymPtr}
    (hl : Locates m g locate) (ord tie : HashOrder) (fuel : Nat) :
    Sim (fun a b => (a = none ∧ b = none) ∨ ∃ x y, a = some x ∧ b = some y ∧ TableAt m x y)
      (slrTableP mem gp locate ord tie fuel) (slrTable g ord fuel) :=
  Sim.bind (fromGrammar_sim hm hg _ _ fuel) fun _ _ hc => newSlr_sim hm hg hl _ _ fuel hc

/-! ## Parsing -/

omit [DecidableEq V] [DecidableEq T] [TerminalEq T] in
theorem within_store (hm : m.Within mem) {slot : Addr} (hs : m slot = none) (b : Body V T) :
    m.Within (mem.store slot b) := by
  intro a c h
  simp only [Mem.store]
  rw [if_neg]
  · exact hm a c h
  · rintro rfl
    rw [hs] at h
    cases h

theorem handleToken_eq (hm : m.Within mem) {slot : Addr} (hs : m slot = none) {t : PTable V} {t' : Table V T}
    (ht : TableAt m t t') (token : Option T) (stack : List (ParseNode V T)) (current : Nat) :
    handleTokenP mem slot t token stack current = Access.of (handleToken t' token stack current) := by
  refine Sim.eq ?_
  obtain ⟨ht1, ht2, ht3⟩ := ht
  simp only [handleTokenP, handleToken]
  have hrow : Sim (fun a b => allAt (entryAt m) a = some b) (Access.of (Outcome.expect (t.action[current]?)))
      (Outcome.expect (t'.action[current]?)) := by
    have := allAt_get ht2 current
    cases ha : t.action[current]? <;> cases hb : t'.action[current]? <;> simp_all [Sim]
  refine Sim.bind hrow ?_
  intro row row' hr
  have hget : findActionP mem slot row token = .val (rowGet row' token) := by
    cases token with
    | none => exact rowGetP_eq hm hr rfl
    | some a =>
      refine rowGetP_eq (within_store hm hs _) hr ?_
      simp [keyAt, termAt, symAt, Mem.store]
  simp only [hget, Access.bind_val]
  cases rowGet row' token with
  | none => exact Sim.val rfl
  | some action =>
    cases action with
    | shift dest =>
      refine Sim.bind (Sim.of _) ?_
      rintro a _ rfl
      exact Sim.val rfl
    | reduce v amount =>
      refine Sim.bind (Sim.of _) ?_
      rintro ⟨children, stack⟩ _ rfl
      refine Sim.bind (Sim.of _) ?_
      rintro top _ rfl
      rw [← ht3]
      refine Sim.bind (Sim.of _) ?_
      rintro row _ rfl
      cases mapGet row v with
      | none => exact Sim.val rfl
      | some d => exact Sim.val rfl
    | accept v amount =>
      refine Sim.bind (Sim.of _) ?_
      rintro ⟨children, stack⟩ _ rfl
      exact Sim.val rfl

theorem parseEof_eq (hm : m.Within mem) {slot : Addr} (hs : m slot = none) {t : PTable V} {t' : Table V T}
    (ht : TableAt m t t') (n : Nat) (stack : List (ParseNode V T)) (current : Nat) :
    parseEofP mem slot t n stack current = Access.of (parseEof t' n stack current) := by
  induction n generalizing stack current with
  | zero => rfl
  | succ n ih =>
    simp only [parseEofP, parseEof, handleToken_eq hm hs ht]
    refine Sim.eq (Sim.bind (Sim.of _) ?_)
    rintro o _ rfl
    cases o with
    | none => exact Sim.val rfl
    | some h =>
      cases ha : h.accepted with
      | true => simp only [ha, if_true]; exact Sim.val rfl
      | false => simp only [ha, Bool.false_eq_true, if_false, ih]; exact Sim.of _

theorem parseLoop_eq (hm : m.Within mem) {slot : Addr} (hs : m slot = none) {t : PTable V} {t' : Table V T}
    (ht : TableAt m t t') (fin : InputEnd) (n : Nat) (input : List T) (stack : List (ParseNode V T)) (current : Nat) :
    parseLoopP mem slot t fin n input stack current = Access.of (parseLoop t' fin n input stack current) := by
  induction n generalizing input stack current with
  | zero => rfl
  | succ n ih =>
    cases input with
    | nil =>
      cases fin with
      | ok u => exact parseEof_eq hm hs ht _ _ _
      | panic => rfl
      | diverge => rfl
    | cons a input =>
      simp only [parseLoopP, parseLoop, handleToken_eq hm hs ht]
      refine Sim.eq (Sim.bind (Sim.of _) ?_)
      rintro o _ rfl
      cases o with
      | none => exact Sim.val rfl
      | some h =>
        cases ha : h.accepted with
        | true => simp only [ha, if_true]; exact Sim.val rfl
        | false => simp only [ha, Bool.false_eq_true, if_false, ih]; exact Sim.of _

theorem parseTokens_eq (hm : m.Within mem) {slot : Addr} (hs : m slot = none) {t : PTable V} {t' : Table V T}
    (ht : TableAt m t t') (fuel : Nat) (input : List T) (fin : InputEnd) :
    parseTokensP mem slot t fuel input fin = Access.of (parseTokens t' fuel input fin) := by
  simp only [parseTokensP, parseTokens, ht.1]
  exact parseLoop_eq hm hs ht fin fuel input _ 0

end table

end Pango.Parse
