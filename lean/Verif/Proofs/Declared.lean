import Verif.Proofs.Complete
import Verif.Spec.EndMarker
import Verif.Spec.Declared

/-!
The items of the grammar of declared names.
-/

namespace Pango.Parse

open Pango.Spec

variable {n : Nat} {g : Grammar UseVar UseTok}

instance : LawfulTerminalEq UseTok where
  refl t := by simp [teq, TerminalEq.teq]
  symm s t h := by
    have h : (s == t) = true := h
    rw [eq_of_beq h]
    simp [teq, TerminalEq.teq]
  trans s t u h h' := by
    have h : (s == t) = true := h
    rw [eq_of_beq h]
    exact h'

theorem useTok_eq {s t : UseTok} (h : teq s t = true) : s = t := by
  have h : (s == t) = true := h
  exact eq_of_beq h

/-- The declarations of the names. -/
def names (ns : List Nat) : List (Sym UseVar UseTok) := ns.map fun j => .var (.name j)

/-- What comes behind the declarations, if the name is used at the end. -/
def rest (ns : List Nat) (i : Nat) : UseVar := if i ∈ ns then .seen i else .need i

/-- The rule for one more declaration. -/
def declBody (ns : List Nat) (i j : Nat) : Body UseVar UseTok := [.var (.name j), .var (rest (ns ++ [j]) i)]

theorem rest_inj {ns ms : List Nat} {i j : Nat} (h : rest ns i = rest ms j) : i = j := by
  unfold rest at h
  split at h <;> split at h <;> simpa using h

theorem rest_ne {ns : List Nat} {i j : Nat} : rest ns i ≠ .name j := by
  unfold rest
  split <;> simp

theorem rest_rule {ns : List Nat} {i j : Nat} (hi : i < n) (hj : j < n) : UseRule n (rest ns i) (declBody ns i j) := by
  unfold declBody rest
  by_cases h : i ∈ ns
  · rw [if_pos h, if_pos (by simp [h])]
    exact .more hi hj
  · rw [if_neg h]
    by_cases h2 : i = j
    · subst h2
      rw [if_pos (by simp)]
      exact .find hi
    · rw [if_neg (by simp [h, h2])]
      exact .skip hi hj fun h => h2 h.symm

theorem rule_rest {ns : List Nat} {i : Nat} {β : Body UseVar UseTok} (h : UseRule n (rest ns i) β) :
    i < n ∧ ((∃ j < n, β = declBody ns i j) ∨ i ∈ ns ∧ β = [.term (.use i)]) := by
  unfold rest at h
  by_cases hi : i ∈ ns
  · rw [if_pos hi] at h
    cases h with
    | more h1 h2 => exact ⟨h1, .inl ⟨_, h2, by simp [declBody, rest, hi]⟩⟩
    | use h1 => exact ⟨h1, .inr ⟨hi, rfl⟩⟩
  · rw [if_neg hi] at h
    cases h with
    | skip h1 h2 h3 => exact ⟨h1, .inl ⟨_, h2, by simp [declBody, rest, hi, Ne.symm h3]⟩⟩
    | find h1 => exact ⟨h1, .inl ⟨_, h1, by simp [declBody, rest]⟩⟩

/-- The items behind the symbols. -/
inductive UseItem (n : Nat) : List (Sym UseVar UseTok) → UseVar × Item UseVar UseTok → Prop
  | text {i : Nat} : i < n → UseItem n [] (.text, ⟨[.var (.need i)], 0⟩)
  | textEnd {i : Nat} : i < n → UseItem n [.var (.need i)] (.text, ⟨[.var (.need i)], 1⟩)
  | name {ns : List Nat} {j : Nat} : j < n → UseItem n (names ns) (.name j, ⟨[.term (.decl j)], 0⟩)
  | nameEnd {ns : List Nat} {j : Nat} : j < n →
      UseItem n (names ns ++ [.term (.decl j)]) (.name j, ⟨[.term (.decl j)], 1⟩)
  | decl {ns : List Nat} {i j : Nat} : i < n → j < n → UseItem n (names ns) (rest ns i, ⟨declBody ns i j, 0⟩)
  | declIn {ns : List Nat} {i j : Nat} : i < n → j < n →
      UseItem n (names (ns ++ [j])) (rest ns i, ⟨declBody ns i j, 1⟩)
  | declEnd {ns : List Nat} {i j : Nat} : i < n → j < n →
      UseItem n (names (ns ++ [j]) ++ [.var (rest (ns ++ [j]) i)]) (rest ns i, ⟨declBody ns i j, 2⟩)
  | use {ns : List Nat} {i : Nat} : i < n → i ∈ ns → UseItem n (names ns) (.seen i, ⟨[.term (.use i)], 0⟩)
  | useEnd {ns : List Nat} {i : Nat} : i < n → UseItem n (names ns ++ [.term (.use i)]) (.seen i, ⟨[.term (.use i)], 1⟩)

theorem names_append {ns ms : List Nat} : names (ns ++ ms) = names ns ++ names ms := by simp [names]

theorem names_inj {ns ms : List Nat} (h : names ns = names ms) : ns = ms := by
  induction ns generalizing ms with
  | nil => cases ms <;> simp [names] at h ⊢
  | cons a ns ih =>
    cases ms with
    | nil => simp [names] at h
    | cons b ms =>
      simp only [names, List.map_cons, List.cons.injEq, Sym.var.injEq, UseVar.name.injEq] at h
      rw [h.1, ih h.2]

/-- The items with the cursor at the front. -/
theorem UseItem.front {ns : List Nat} {v : UseVar} {β : Body UseVar UseTok} (hv : (∃ j, v = .name j) ∨ ∃ i, v = rest ns i)
    (hr : UseRule n v β) : UseItem n (names ns) (v, ⟨β, 0⟩) := by
  rcases hv with ⟨j, rfl⟩ | ⟨i, rfl⟩
  · cases hr with
    | name h => exact .name h
  · obtain ⟨h1, ⟨j, h2, rfl⟩ | ⟨h2, rfl⟩⟩ := rule_rest hr
    · exact .decl h1 h2
    · have : rest ns i = .seen i := by simp [rest, h2]
      rw [this]
      exact .use h1 h2

section
variable (hs : g.start = .text) (hr : ∀ v β, (v, β) ∈ g.rules ↔ UseRule n v β)

include hr in
theorem use_epsFree : EpsFree g := by
  intro v β h
  cases (hr _ _).1 h <;> simp

include hs hr in
theorem use_items {γ : List (Sym UseVar UseTok)} {p : UseVar × Item UseVar UseTok} (h : Viable g γ p) : UseItem n γ p := by
  have fresh : ∀ {v β i}, (v, β) ∈ g.rules → Fresh β i → i = ⟨β, 0⟩ := by
    intro v β i h1 h2
    rw [fresh_iff] at h2
    rw [h2, ← fresh_iff.1 (fresh_plain (use_epsFree hr _ _ h1))]
  induction h with
  | start h1 h2 =>
    rw [fresh h1 h2, hs]
    rw [hs, hr] at h1
    cases h1 with
    | text h => exact .text h
  | @expand γ h v i j β _ h2 h3 h4 ih =>
    rw [fresh h3 h4]
    have h3 := (hr _ _).1 h3
    rw [reads_iff] at h2
    cases ih with
    | @text k h =>
      simp [Item.cursorSymbol] at h2
      subst h2
      exact UseItem.front (ns := []) (.inr ⟨k, by simp [rest]⟩) h3
    | name h => simp [Item.cursorSymbol] at h2
    | decl _ _ =>
      simp [Item.cursorSymbol, declBody] at h2
      subst h2
      exact UseItem.front (.inl ⟨_, rfl⟩) h3
    | declIn _ _ =>
      simp [Item.cursorSymbol, declBody] at h2
      subst h2
      exact UseItem.front (.inr ⟨_, rfl⟩) h3
    | use _ _ => simp [Item.cursorSymbol] at h2
    | textEnd => simp [Item.cursorSymbol] at h2
    | nameEnd => simp [Item.cursorSymbol] at h2
    | declEnd => simp [Item.cursorSymbol, declBody] at h2
    | useEnd => simp [Item.cursorSymbol] at h2
  | @read γ h i j x _ h2 ih =>
    rw [advanced_iff] at h2
    obtain ⟨h2, rfl⟩ := h2
    cases ih with
    | text h =>
      simp [Item.cursorSymbol] at h2
      subst h2
      exact .textEnd h
    | name h =>
      simp [Item.cursorSymbol] at h2
      subst h2
      exact .nameEnd h
    | @decl ns _ j h1 h3 =>
      simp [Item.cursorSymbol, declBody] at h2
      subst h2
      rw [show names ns ++ [Sym.var (.name j)] = names (ns ++ [j]) by simp [names]]
      exact .declIn h1 h3
    | declIn h1 h3 =>
      simp [Item.cursorSymbol, declBody] at h2
      subst h2
      exact .declEnd h1 h3
    | use h1 _ =>
      simp [Item.cursorSymbol] at h2
      subst h2
      exact .useEnd h1
    | textEnd => simp [Item.cursorSymbol] at h2
    | nameEnd => simp [Item.cursorSymbol] at h2
    | declEnd => simp [Item.cursorSymbol, declBody] at h2
    | useEnd => simp [Item.cursorSymbol] at h2

include hs hr in
/-- The rules that can be used behind declarations. -/
theorem use_viable {ns : List Nat} (hns : ∀ j ∈ ns, j < n) {i : Nat} {β : Body UseVar UseTok} (h : UseRule n (rest ns i) β) :
    Viable g (names ns) (rest ns i, ⟨β, 0⟩) := by
  have he := use_epsFree hr
  generalize hl : ns.length = l
  induction l generalizing ns β with
  | zero =>
    obtain rfl := List.eq_nil_of_length_eq_zero hl
    have hi := (rule_rest h).1
    have h1 : (g.start, [.var (.need i)]) ∈ g.rules := by
      rw [hs, hr]
      exact .text hi
    have h2 : (UseVar.need i, β) ∈ g.rules := by
      rw [hr]
      simpa [rest] using h
    exact .expand (.start h1 (fresh_plain (he _ _ h1))) (reads_iff.2 rfl) h2 (fresh_plain (he _ _ h2))
  | succ l ih =>
    rcases List.eq_nil_or_concat ns with rfl | ⟨ms, j, rfl⟩
    · simp at hl
    · rw [List.concat_eq_append] at *
      have hi := (rule_rest h).1
      have hj := hns j (by simp)
      have h1 := ih (fun k hk => hns k (by simp [hk])) (rest_rule (ns := ms) hi hj) (by simpa using hl)
      have h2 : Viable g (names (ms ++ [j])) (rest ms i, ⟨declBody ms i j, 1⟩) := by
        rw [names_append]
        exact .read h1 (advanced_iff.2 ⟨rfl, by simp [Item.advance, declBody, leadingEpsilons]⟩)
      have h3 := (hr _ _).2 h
      exact .expand h2 (reads_iff.2 rfl) h3 (fresh_plain (he _ _ h3))

end

theorem use_complete {γ : List (Sym UseVar UseTok)} {h : UseVar} {i : Item UseVar UseTok} (h1 : UseItem n γ (h, i))
    (h2 : Complete i) : ∃ δ x, γ = δ ++ [x] ∧ ∀ j, x ≠ .var (.name j) := by
  cases h1 with
  | textEnd => exact ⟨[], _, rfl, by simp⟩
  | nameEnd => exact ⟨_, _, rfl, by simp⟩
  | declEnd => exact ⟨_, _, rfl, fun j h => rest_ne (Sym.var.inj h)⟩
  | useEnd => exact ⟨_, _, rfl, by simp⟩
  | _ => simp [Complete, declBody] at h2

/-- The item that reads a token. -/
theorem use_reads {γ : List (Sym UseVar UseTok)} {h : UseVar} {i : Item UseVar UseTok} {t : UseTok}
    (h1 : UseItem n γ (h, i)) (h2 : Reads i (.term t)) :
    (∃ ns, γ = names ns) ∧ i = ⟨[.term t], 0⟩ ∧ match t with
      | .decl j => h = .name j
      | .use j => h = .seen j
      | _ => False := by
  rw [reads_iff] at h2
  cases h1 with
  | name h =>
    simp [Item.cursorSymbol] at h2
    subst h2
    exact ⟨⟨_, rfl⟩, rfl, rfl⟩
  | use _ _ =>
    simp [Item.cursorSymbol] at h2
    subst h2
    exact ⟨⟨_, rfl⟩, rfl, rfl⟩
  | _ => simp [Item.cursorSymbol, declBody] at h2

private theorem names_last {ns : List Nat} {δ : List (Sym UseVar UseTok)} {x : Sym UseVar UseTok} (h : names ns = δ ++ [x]) :
    ∃ j, x = .var (.name j) := by
  have : x ∈ names ns := by simp [h]
  obtain ⟨j, _, h⟩ := List.mem_map.1 this
  exact ⟨j, h.symm⟩

theorem use_one {γ : List (Sym UseVar UseTok)} {p q : UseVar × Item UseVar UseTok} (h1 : UseItem n γ p) (h2 : UseItem n γ q)
    (c1 : Complete p.2) (c2 : Complete q.2) : p = q := by
  cases h1 with
  | @textEnd i h =>
    generalize hγ : [Sym.var (UseVar.need i)] = γ at h2
    cases h2 with
    | textEnd => simpa using hγ
    | @nameEnd ns j _ =>
      cases ns <;> simp [names] at hγ
    | @declEnd ns i j _ _ =>
      have := congrArg List.length hγ
      simp [names] at this
    | @useEnd ns i _ => cases ns <;> simp [names] at hγ
    | _ => simp [Complete, declBody] at c2
  | @nameEnd ns j h =>
    generalize hγ : names ns ++ [Sym.term (UseTok.decl j)] = γ at h2
    cases h2 with
    | textEnd => cases ns <;> simp [names] at hγ
    | nameEnd =>
      have := (List.append_inj' hγ rfl).2
      simp at this
      rw [this]
    | declEnd =>
      have := (List.append_inj' hγ rfl).2
      simp at this
    | useEnd =>
      have := (List.append_inj' hγ rfl).2
      simp at this
    | _ => simp [Complete, declBody] at c2
  | @declEnd ns i j _ _ =>
    generalize hγ : names (ns ++ [j]) ++ [Sym.var (rest (ns ++ [j]) i)] = γ at h2
    cases h2 with
    | textEnd =>
      have := congrArg List.length hγ
      simp [names] at this
    | nameEnd =>
      have := (List.append_inj' hγ rfl).2
      simp at this
    | declEnd =>
      obtain ⟨h3, h4⟩ := List.append_inj' hγ rfl
      have h5 := names_inj h3
      simp only [List.cons.injEq, and_true, Sym.var.injEq] at h4
      obtain rfl := rest_inj h4
      obtain ⟨rfl, h6⟩ := List.append_inj' h5 rfl
      cases h6
      rfl
    | useEnd =>
      have := (List.append_inj' hγ rfl).2
      simp at this
    | _ => simp [Complete, declBody] at c2
  | @useEnd ns i h =>
    generalize hγ : names ns ++ [Sym.term (UseTok.use i)] = γ at h2
    cases h2 with
    | textEnd => cases ns <;> simp [names] at hγ
    | nameEnd =>
      have := (List.append_inj' hγ rfl).2
      simp at this
    | declEnd =>
      have := (List.append_inj' hγ rfl).2
      simp at this
    | useEnd =>
      have := (List.append_inj' hγ rfl).2
      simp at this
      rw [this]
    | _ => simp [Complete, declBody] at c2
  | _ => simp [Complete, declBody] at c1

/-- There is one entry in each place of the table. -/
theorem use_oneEntry (hs : g.start = .text) (hr : ∀ v β, (v, β) ∈ g.rules ↔ UseRule n v β) : OneEntryEach g := by
  have items : ∀ {γ p}, Viable g γ p → UseItem n γ p := fun h => use_items hs hr h
  have shiftReduce : ∀ {γ h i h' i' t}, Viable g γ (h, i) → Reads i (.term t) → Viable g γ (h', i') → Complete i' → False := by
    intro γ h i h' i' t h1 h2 h3 h4
    obtain ⟨⟨ns, rfl⟩, _⟩ := use_reads (items h1) h2
    obtain ⟨δ, x, h5, h6⟩ := use_complete (items h3) h4
    obtain ⟨j, h7⟩ := names_last h5
    exact h6 j h7
  have notText : ∀ {p}, ¬ Viable g [.var .text] p := by
    intro p h
    generalize hγ : [Sym.var UseVar.text] = γ at h
    have h1 := items h
    cases h1 with
    | text | textEnd => simp at hγ
    | @name ns | @decl ns | @use ns =>
      match ns, hγ with
      | [], hγ => simp [names] at hγ
      | _ :: _, hγ => simp [names] at hγ
    | @nameEnd ns | @useEnd ns => cases ns <;> simp [names] at hγ
    | @declIn ns => cases ns <;> simp [names] at hγ
    | @declEnd ns =>
      have := congrArg List.length hγ
      simp [names] at this
  have keys : ∀ {k k' : Option UseTok}, keyEq k k' = true → k = k' := by
    intro k k' h
    cases k <;> cases k' <;> simp [keyEq] at h ⊢
    exact useTok_eq h
  intro γ p p' k k' h h' hk
  have hk := keys hk
  subst hk
  refine ⟨?_, rfl⟩
  cases h with
  | shift h1 h2 =>
    cases h' with
    | shift h3 h4 =>
      obtain ⟨_, rfl, h5⟩ := use_reads (items h1) h2
      obtain ⟨_, rfl, h6⟩ := use_reads (items h3) h4
      split at h5 <;> simp_all
    | reduce h3 h4 _ => exact (shiftReduce h1 h2 h3 h4).elim
  | reduce h1 h2 _ =>
    cases h' with
    | shift h3 h4 => exact (shiftReduce h3 h4 h1 h2).elim
    | reduce h3 h4 _ => rw [use_one (items h1) (items h3) h2 h4]
  | reduceEnd h1 h2 _ =>
    cases h' with
    | reduceEnd h3 h4 _ => rw [use_one (items h1) (items h3) h2 h4]
    | accept h =>
      rw [h, hs] at h1
      exact (notText h1).elim
  | accept h =>
    cases h' with
    | reduceEnd h3 h4 _ =>
      rw [h, hs] at h3
      exact (notText h3).elim
    | accept _ => rfl

/-- Whether a name was declared is seen from the items. -/
theorem use_seen (hs : g.start = .text) (hr : ∀ v β, (v, β) ∈ g.rules ↔ UseRule n v β) {ns : List Nat}
    (hns : ∀ j ∈ ns, j < n) {i : Nat} (hi : i < n) :
    Viable g (names ns) (.seen i, ⟨[.term (.use i)], 0⟩) ↔ i ∈ ns := by
  constructor
  · intro h
    have h1 := use_items hs hr h
    generalize hγ : names ns = γ at h1
    generalize hp : (UseVar.seen i, (⟨[.term (.use i)], 0⟩ : Item UseVar UseTok)) = p at h1
    cases h1 with
    | use _ h2 =>
      simp at hp
      rwa [names_inj hγ, hp]
    | _ => simp [declBody] at hp
  · intro h
    have h1 := use_viable hs hr hns (i := i) (β := [.term (.use i)])
    simp only [rest, h, if_true] at h1
    exact h1 (.use hi)

end Pango.Parse
