import Verif.Model.Cfsm

/-!
# C31, C47: cursors and their rendering
-/

namespace Pango.Props

open Pango Pango.Parse

variable {V T : Type}

/-- Specification: the symbols of a body without its epsilons. -/
def solid : Body V T → Body V T
  | [] => []
  | .eps :: r => solid r
  | s :: r => s :: solid r

/-- Advance an item `n` times. -/
def advanceTimes : Nat → Item V T → Item V T
  | 0, i => i
  | n + 1, i => advanceTimes n i.advance

private theorem solid_append (a b : Body V T) : solid (a ++ b) = solid a ++ solid b := by
  induction a with
  | nil => rfl
  | cons s a ih => cases s <;> simp [solid, ih]

private theorem leading_le (b : Body V T) : leadingEpsilons b ≤ b.length := by
  induction b with
  | nil => simp [leadingEpsilons]
  | cons s b ih => cases s <;> simp [leadingEpsilons]; omega

private theorem solid_take_leading (b : Body V T) : solid (b.take (leadingEpsilons b)) = [] := by
  induction b with
  | nil => rfl
  | cons s b ih => cases s <;> simp [leadingEpsilons, solid, ih]

private theorem head_drop_leading (b : Body V T) : b[leadingEpsilons b]? = (solid b).head? := by
  induction b with
  | nil => rfl
  | cons s b ih => cases s <;> simp [leadingEpsilons, solid, ih]

private theorem solid_drop_leading (b : Body V T) : solid (b.drop (leadingEpsilons b)) = solid b := by
  have := solid_append (b.take (leadingEpsilons b)) (b.drop (leadingEpsilons b))
  rw [List.take_append_drop, solid_take_leading] at this
  simpa using this.symm

private theorem eps_not_mem_solid (b : Body V T) : Sym.eps ∉ solid b := by
  induction b with
  | nil => simp [solid]
  | cons s b ih => cases s <;> simp [solid, ih]

/-- What is known of an item that has read `n` symbols. -/
private structure Good (body : Body V T) (n : Nat) (i : Item V T) : Prop where
  body_eq : i.body = body
  le : i.cursor ≤ body.length
  read : solid (body.take i.cursor) = (solid body).take n
  next : i.cursorSymbol = (solid body)[n]?

private theorem good_ofBody (body : Body V T) : Good body 0 (Item.ofBody body) where
  body_eq := rfl
  le := leading_le body
  read := by simp [Item.ofBody, solid_take_leading]
  next := by simp [Item.ofBody, Item.cursorSymbol, head_drop_leading, List.head?_eq_getElem?]

private theorem solid_drop_of_good {body : Body V T} {n : Nat} {i : Item V T} (h : Good body n i) :
    solid (body.drop i.cursor) = (solid body).drop n := by
  have h1 := solid_append (body.take i.cursor) (body.drop i.cursor)
  rw [List.take_append_drop, h.read] at h1
  exact (List.append_cancel_left ((List.take_append_drop n (solid body)).trans h1)).symm

private theorem good_advance {body : Body V T} {n : Nat} {i : Item V T} (h : Good body n i) :
    Good body (n + 1) i.advance := by
  have hb := h.body_eq
  rcases Nat.lt_or_ge i.cursor body.length with hlt | hge
  · -- a symbol is read
    have hsym : i.cursorSymbol = some body[i.cursor] := by
      simp [Item.cursorSymbol, hb, hlt]
    have hdrop : body.drop i.cursor = body[i.cursor] :: body.drop (i.cursor + 1) :=
      List.drop_eq_getElem_cons hlt
    have hne : body[i.cursor] ≠ .eps := by
      intro he
      have := h.next
      rw [hsym, he] at this
      exact eps_not_mem_solid body (List.mem_of_getElem? this.symm)
    have hs : solid (body.drop i.cursor) = body[i.cursor] :: solid (body.drop (i.cursor + 1)) := by
      rw [hdrop]
      cases hc : body[i.cursor] with
      | term t => rfl
      | var v => rfl
      | eps => exact absurd hc hne
    have hd := solid_drop_of_good h
    have hn : n < (solid body).length := by
      rcases Nat.lt_or_ge n (solid body).length with h' | h'
      · exact h'
      · rw [List.drop_eq_nil_of_le h', hs] at hd; simp at hd
    have hcons : (solid body).drop n = (solid body)[n] :: (solid body).drop (n + 1) :=
      List.drop_eq_getElem_cons hn
    have hsd1 : solid (body.drop (i.cursor + 1)) = (solid body).drop (n + 1) := by
      rw [hs, hcons] at hd; exact (List.cons.inj hd).2
    have hget : (solid body)[n] = body[i.cursor] := by
      rw [hs, hcons] at hd; exact (List.cons.inj hd).1.symm
    have hk := leading_le (body.drop (i.cursor + 1))
    rw [List.length_drop] at hk
    have hcur : i.advance.cursor = i.cursor + 1 + leadingEpsilons (body.drop (i.cursor + 1)) := by
      simp only [Item.advance, hb]; omega
    refine ⟨hb, by rw [hcur]; omega, ?_, ?_⟩
    · rw [hcur, List.take_add, solid_append, solid_take_leading, List.append_nil,
        List.take_succ_eq_append_getElem hlt, solid_append, h.read,
        List.take_succ_eq_append_getElem hn, hget]
      cases hc : body[i.cursor] with
      | term t => rfl
      | var v => rfl
      | eps => exact absurd hc hne
    · have : i.advance.cursorSymbol =
          (body.drop (i.cursor + 1))[leadingEpsilons (body.drop (i.cursor + 1))]? := by
        simp only [Item.cursorSymbol, hcur, List.getElem?_drop]
        simp [Item.advance, hb]
      rw [this, head_drop_leading, hsd1, List.head?_drop]
  · -- at the end
    have hc : i.cursor = body.length := Nat.le_antisymm h.le hge
    have hd := solid_drop_of_good h
    rw [hc, List.drop_length] at hd
    have hn : (solid body).length ≤ n := by
      simpa [solid] using hd.symm
    have hcur : i.advance.cursor = body.length := by
      simp only [Item.advance, hb, hc]; omega
    refine ⟨hb, by omega, ?_, ?_⟩
    · rw [hcur, List.take_length, List.take_of_length_le (by omega)]
    · rw [List.getElem?_eq_none (by omega)]
      simp only [Item.cursorSymbol, hcur]
      simp [Item.advance, hb]

private theorem good_advanceTimes {body : Body V T} (n : Nat) :
    ∀ m i, Good body m i → Good body (m + n) (advanceTimes n i) := by
  induction n with
  | zero => intro m i h; exact h
  | succ n ih =>
    intro m i h
    have := ih (m + 1) i.advance (good_advance h)
    rwa [show m + 1 + n = m + (n + 1) by omega] at this

/-- C31.  The item of a body advanced `n` times: the body is unchanged, the cursor is inside it, what
is in front of the cursor are the first `n` symbols besides epsilons, the cursor is on the next symbol
that is no epsilon (or at the end if there is none), and asking for the variable at the cursor does not
crash. -/
theorem c31_cursor (body : Body V T) (n : Nat) :
    let i := advanceTimes n (Item.ofBody body)
    i.body = body ∧ i.cursor ≤ body.length ∧
    solid (body.take i.cursor) = (solid body).take n ∧
    i.cursorSymbol = (solid body)[n]? ∧
    (i.cursorSymbol = none ↔ i.cursor = body.length) ∧
    i.cursorSymbol ≠ some .eps ∧
    i.cursorVariable = .ok (match (solid body)[n]? with | some (.var v) => some v | _ => none) := by
  have h := good_advanceTimes n 0 _ (good_ofBody body)
  simp only [Nat.zero_add] at h
  have hne : (solid body)[n]? ≠ some .eps :=
    fun he => eps_not_mem_solid body (List.mem_of_getElem? he)
  refine ⟨h.body_eq, h.le, h.read, h.next, ?_, by rw [h.next]; exact hne, ?_⟩
  · have := h.le
    simp only [Item.cursorSymbol, h.body_eq, List.getElem?_eq_none_iff]
    omega
  · rw [Item.cursorVariable, h.next]
    cases hs : (solid body)[n]? with
    | none => rfl
    | some s =>
      cases s with
      | term t => rfl
      | var v => rfl
      | eps => exact absurd hs hne

/-- A body with epsilons at the front, inside and at the end. -/
example : let body : Body String String := [.eps, .var "A", .eps, .eps, .term "t", .eps]
    (Item.ofBody body).cursor = 1 ∧ (advanceTimes 1 (Item.ofBody body)).cursor = 4 ∧
    (advanceTimes 2 (Item.ofBody body)).cursor = 6 ∧ (advanceTimes 3 (Item.ofBody body)).cursor = 6 ∧
    solid body = [.var "A", .term "t"] := by decide

/-! ## C47 -/

private theorem render_after (show_ : Sym V T → String) (c : Nat) (b : Body V T) (acc : List String)
    (h : c < acc.length) :
    b.foldl (fun (result : List String) s =>
      (if result.length = c then result ++ ["•"] else result) ++ [show_ s]) acc = acc ++ b.map show_ := by
  induction b generalizing acc with
  | nil => simp
  | cons s b ih =>
    simp only [List.foldl_cons]
    rw [if_neg (by omega), ih _ (by simp; omega)]
    simp

private theorem render_loop (show_ : Sym V T → String) (c : Nat) (b : Body V T) (acc : List String)
    (h : acc.length ≤ c) :
    b.foldl (fun (result : List String) s =>
      (if result.length = c then result ++ ["•"] else result) ++ [show_ s]) acc
      = acc ++ (b.take (c - acc.length)).map show_ ++
        (if c - acc.length < b.length then "•" :: (b.drop (c - acc.length)).map show_ else []) := by
  induction b generalizing acc with
  | nil => simp
  | cons s b ih =>
    simp only [List.foldl_cons]
    rcases Nat.lt_or_ge acc.length c with hlt | hge
    · rw [if_neg (by omega), ih _ (by simp; omega)]
      obtain ⟨k, hk⟩ : ∃ k, c - acc.length = k + 1 := ⟨c - acc.length - 1, by omega⟩
      have hk' : c - (acc ++ [show_ s]).length = k := by simp; omega
      rw [hk, hk']
      simp
    · have : c = acc.length := by omega
      subst this
      rw [if_pos rfl, render_after _ _ _ _ (by simp)]
      simp

/-- C47.  An item with its cursor inside the body is rendered as the symbols in front of the cursor,
one bullet, and the other symbols. -/
theorem c47_render (show_ : Sym V T → String) (i : Item V T) (h : i.cursor ≤ i.body.length) :
    i.render show_ = (i.body.take i.cursor).map show_ ++ "•" :: (i.body.drop i.cursor).map show_ := by
  unfold Item.render
  rw [render_loop _ _ _ _ (by simp)]
  simp only [List.length_nil, Nat.sub_zero, List.nil_append]
  rcases Nat.lt_or_ge i.cursor i.body.length with hlt | hge
  · rw [if_pos hlt]
    simp only [List.length_append, List.length_map, List.length_cons, List.length_take,
      List.length_drop]
    rw [if_neg (by omega)]
  · have hc : i.cursor = i.body.length := by omega
    simp [hc]

/-- Every item the program makes meets the hypothesis of `c47_render`, so the two combine: the
rendering of an advanced item shows exactly one more bullet than the body has. -/
theorem c47_render_reachable (show_ : Sym V T → String) (body : Body V T) (n : Nat)
    (hs : ∀ s, show_ s ≠ "•") :
    ((advanceTimes n (Item.ofBody body)).render show_).filter (· ≠ "•") = body.map show_ ∧
    ((advanceTimes n (Item.ofBody body)).render show_).count "•" = 1 := by
  have h := c31_cursor body n
  simp only at h
  have hr := c47_render show_ (advanceTimes n (Item.ofBody body)) (by rw [h.1]; exact h.2.1)
  rw [hr, h.1]
  have hf : ∀ b : Body V T, (b.map show_).filter (· ≠ "•") = b.map show_ := by
    intro b
    rw [List.filter_eq_self]
    intro x hx
    obtain ⟨s, _, rfl⟩ := List.mem_map.1 hx
    simp [hs s]
  have hc : ∀ b : Body V T, (b.map show_).count "•" = 0 := by
    intro b
    rw [List.count_eq_zero]
    intro hx
    obtain ⟨s, _, he⟩ := List.mem_map.1 hx
    exact hs s he
  constructor
  · rw [List.filter_append, List.filter_cons_of_neg (by simp), hf, hf, ← List.map_append,
      List.take_append_drop]
  · rw [List.count_append, List.count_cons_self, hc, hc]

example : (⟨[.var "A", .term "t"], 1⟩ : Item String String).render
    (fun s => match s with | .var v => v | .term t => t | .eps => "ε") = ["A", "•", "t"] := by decide

end Pango.Props
