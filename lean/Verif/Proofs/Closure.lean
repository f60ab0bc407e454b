import Verif.Proofs.First
import Verif.Spec.Items

/-!
# Items and their closure
-/

namespace Pango.Parse

open Pango Pango.Spec

variable {V T : Type}

/-! ## Items -/

theorem leading_spec (β : Body V T) : ∃ rest, β = List.replicate (leadingEpsilons β) .eps ++ rest ∧
    ∀ r, rest ≠ .eps :: r := by
  induction β with
  | nil => exact ⟨[], rfl, by simp⟩
  | cons x β ih =>
    cases x with
    | term t => exact ⟨.term t :: β, rfl, by simp⟩
    | var v => exact ⟨.var v :: β, rfl, by simp⟩
    | eps =>
      obtain ⟨rest, h1, h2⟩ := ih
      refine ⟨rest, ?_, h2⟩
      show _ = List.replicate (leadingEpsilons β + 1) .eps ++ rest
      rw [List.replicate_succ, List.cons_append, ← h1]

theorem leading_unique {n : Nat} {rest : Body V T} (h : ∀ r, rest ≠ .eps :: r) :
    leadingEpsilons (List.replicate n .eps ++ rest) = n := by
  induction n with
  | zero =>
    cases rest with
    | nil => rfl
    | cons x rest =>
      cases x with
      | eps => exact absurd rfl (h rest)
      | _ => rfl
  | succ n ih =>
    rw [List.replicate_succ, List.cons_append]
    show leadingEpsilons _ + 1 = _
    rw [ih]

theorem fresh_iff {β : Body V T} {i : Item V T} : Fresh β i ↔ i = Item.ofBody β := by
  constructor
  · rintro ⟨h1, rest, h2, h3⟩
    obtain ⟨b, c⟩ := i
    simp only at h1 h2
    subst h1
    simp only [Item.ofBody, Item.mk.injEq, true_and]
    conv => rhs; rw [h2]
    rw [leading_unique h3]
  · rintro rfl
    obtain ⟨rest, h1, h2⟩ := leading_spec β
    exact ⟨rfl, rest, h1, h2⟩

theorem reads_iff {i : Item V T} {x : Sym V T} : Reads i x ↔ i.cursorSymbol = some x := by
  unfold Item.cursorSymbol
  constructor
  · rintro ⟨pre, post, h1, h2⟩
    rw [h1, h2]
    simp
  · intro h
    obtain ⟨hlt, hx⟩ := List.getElem?_eq_some_iff.1 h
    refine ⟨i.body.take i.cursor, i.body.drop (i.cursor + 1), ?_, by simp; omega⟩
    rw [← hx, ← List.drop_eq_getElem_cons hlt, List.take_append_drop]

theorem advanced_iff {i j : Item V T} {x : Sym V T} :
    Advanced i x j ↔ i.cursorSymbol = some x ∧ j = i.advance := by
  constructor
  · rintro ⟨h1, pre, k, rest, h2, h3, h4, h5⟩
    refine ⟨reads_iff.1 ⟨pre, _, h2, h4⟩, ?_⟩
    obtain ⟨b, c⟩ := j
    obtain ⟨b', c'⟩ := i
    simp only at *
    subst h1 h4 h5
    simp only [Item.advance, Item.mk.injEq, true_and]
    have hd : b.drop (pre.length + 1) = List.replicate k .eps ++ rest := by
      rw [h2, List.drop_append]; simp
    rw [hd, leading_unique h3]
    have : pre.length + 1 + k ≤ b.length := by rw [h2]; simp; omega
    omega
  · rintro ⟨h1, rfl⟩
    obtain ⟨pre, post, h2, h3⟩ := reads_iff.2 h1
    obtain ⟨rest, h4, h5⟩ := leading_spec post
    refine ⟨rfl, pre, leadingEpsilons post, rest, by rw [h2, ← h4], h5, h3, ?_⟩
    have hd : i.body.drop (i.cursor + 1) = post := by
      rw [h2, h3, List.drop_append]; simp
    have hle : leadingEpsilons post ≤ post.length := by
      conv => rhs; rw [h4]
      simp
    have hl : i.body.length = pre.length + (post.length + 1) := by rw [h2]; simp
    simp only [Item.advance, hd]
    omega

/-- An item of a rule, with the cursor inside the body and not in front of an epsilon. -/
structure ItemOk (g : Grammar V T) (p : V × Item V T) : Prop where
  rule : (p.1, p.2.body) ∈ g.rules
  le : p.2.cursor ≤ p.2.body.length
  noEps : p.2.cursorSymbol ≠ some .eps

variable {g : Grammar V T}

theorem ofBody_noEps (β : Body V T) : (Item.ofBody β).cursorSymbol ≠ some .eps := by
  obtain ⟨rest, h1, h2⟩ := leading_spec β
  intro h
  obtain ⟨pre, post, h3, h4⟩ := reads_iff.2 h
  simp only [Item.ofBody] at h3 h4
  rw [h1] at h3
  have := List.append_inj h3 (by simpa using h4)
  exact h2 post this.2

theorem ItemOk.fresh {v : V} {β : Body V T} (h : (v, β) ∈ g.rules) : ItemOk g (v, Item.ofBody β) := by
  refine ⟨h, ?_, ofBody_noEps β⟩
  obtain ⟨rest, h1, _⟩ := leading_spec β
  show leadingEpsilons β ≤ β.length
  conv => rhs; rw [h1]
  simp

theorem ItemOk.advance {p : V × Item V T} (h : ItemOk g p) {x : Sym V T} (hx : p.2.cursorSymbol = some x) :
    ItemOk g (p.1, p.2.advance) := by
  obtain ⟨_, pre, k, rest, h2, h3, h4, h5⟩ := advanced_iff.2 ⟨hx, rfl⟩
  refine ⟨h.rule, ?_, ?_⟩
  · show p.2.advance.cursor ≤ p.2.body.length
    rw [h5, h2]; simp; omega
  · intro he
    obtain ⟨pre', post, h6, h7⟩ := reads_iff.2 he
    have hb : p.2.advance.body = p.2.body := rfl
    rw [hb, h2] at h6
    rw [h5] at h7
    have h8 : (pre ++ x :: List.replicate k .eps) ++ rest = pre' ++ .eps :: post := by
      rw [← h6]; simp
    have := List.append_inj h8 (by simp; omega)
    exact h3 post this.2

variable [DecidableEq V] [DecidableEq T]

omit [DecidableEq V] [DecidableEq T] in
theorem cursorVariable_ok {i : Item V T} (h : i.cursorSymbol ≠ some .eps) :
    ∃ o, i.cursorVariable = .ok o ∧ ∀ v, o = some v ↔ i.cursorSymbol = some (.var v) := by
  unfold Item.cursorVariable
  cases hs : i.cursorSymbol with
  | none => exact ⟨none, rfl, by simp⟩
  | some x =>
    cases x with
    | term t => exact ⟨none, rfl, by simp⟩
    | var v => exact ⟨some v, rfl, by simp⟩
    | eps => exact absurd hs h

/-- The inner loop of the closure adds the initial items of a variable that are not there yet. -/
theorem closureStep_spec {v : V} {bs : List (Body V T)} :
    ∀ {pending : List (Item V T)} {items : ItemSet V T},
    ∃ new : List (Body V T),
      bs.foldl (fun (acc : List (Item V T) × ItemSet V T) b =>
        let new := Item.ofBody b
        if (v, new) ∈ acc.2 then acc else (acc.1 ++ [new], acc.2 ++ [(v, new)])) (pending, items) =
      (pending ++ new.map Item.ofBody, items ++ new.map fun b => (v, Item.ofBody b)) ∧
      (∀ b ∈ new, b ∈ bs) ∧ (∀ b ∈ bs, (v, Item.ofBody b) ∈ items ++ new.map fun b => (v, Item.ofBody b)) ∧
      (∀ b ∈ new, (v, Item.ofBody b) ∉ items) ∧ (new.map fun b => (v, Item.ofBody b)).Nodup := by
  induction bs with
  | nil => exact fun {p i} => ⟨[], by simp⟩
  | cons b bs ih =>
    intro pending items
    rw [List.foldl_cons]
    by_cases hb : (v, Item.ofBody b) ∈ items
    · obtain ⟨new, h1, h2, h3, h4, h5⟩ := ih (pending := pending) (items := items)
      refine ⟨new, ?_, fun b hb => by simp [h2 b hb], fun b' hb' => ?_, h4, h5⟩
      · rw [← h1]
        show List.foldl _ (if (v, Item.ofBody b) ∈ items then _ else _) _ = _
        rw [if_pos hb]
      · rcases List.mem_cons.1 hb' with rfl | hb'
        · exact List.mem_append.2 (.inl hb)
        · exact h3 b' hb'
    · obtain ⟨new, h1, h2, h3, h4, h5⟩ := ih (pending := pending ++ [Item.ofBody b])
        (items := items ++ [(v, Item.ofBody b)])
      refine ⟨b :: new, ?_, ?_, ?_, ?_, ?_⟩
      · show List.foldl _ (if (v, Item.ofBody b) ∈ items then _ else _) _ = _
        rw [if_neg hb]
        refine h1.trans ?_
        simp
      · intro b' hb'
        rcases List.mem_cons.1 hb' with rfl | hb'
        · simp
        · simp [h2 b' hb']
      · intro b' hb'
        rcases List.mem_cons.1 hb' with rfl | hb'
        · simp
        · have := h3 b' hb'
          simpa [or_assoc] using this
      · intro b' hb' h
        rcases List.mem_cons.1 hb' with rfl | hb'
        · exact hb h
        · exact h4 b' hb' (List.mem_append.2 (.inl h))
      · rw [List.map_cons, List.nodup_cons]
        refine ⟨fun h => ?_, h5⟩
        obtain ⟨b', hb', he⟩ := List.mem_map.1 h
        exact h4 b' hb' (by simp at he; simp [he])

/-- What always holds in the closure loop. -/
structure ClosureInv (g : Grammar V T) (given : ItemSet V T) (pending : List (Item V T)) (added : ItemSet V T) :
    Prop where
  sound : ∀ p ∈ added, Closure g (· ∈ given) p
  disjoint : ∀ p ∈ added, p ∉ given
  nodup : added.Nodup
  fresh : ∀ p ∈ added, ∃ β, (p.1, β) ∈ g.rules ∧ p.2 = Item.ofBody β
  items : ∀ i ∈ pending, ∃ h, (h, i) ∈ given ++ added
  complete : ∀ h i v β, (h, i) ∈ given ++ added → i.cursorSymbol = some (.var v) → (v, β) ∈ g.rules →
    i ∈ pending ∨ (v, Item.ofBody β) ∈ given ++ added

theorem closureLoop_spec (wf : WellFormed g) (ord : HashOrder) {given : ItemSet V T}
    (hg : ∀ p ∈ given, p.2.cursorSymbol ≠ some .eps ∧
      ∀ v, p.2.cursorSymbol = some (.var v) → ∃ β, (v, β) ∈ g.rules) :
    ∀ {n : Nat} {pending : List (Item V T)} {added : ItemSet V T}, ClosureInv g given pending added →
    pending.length + (g.rules.length - added.length) ≤ n →
    ∃ added', closureLoop g ord n pending (given ++ added) = .ok (given ++ added') ∧
      ClosureInv g given [] added' := by
  intro n
  induction n generalizing ord with
  | zero =>
    intro pending added i hn
    cases pending with
    | nil => exact ⟨added, rfl, i⟩
    | cons p pending => simp at hn
  | succ n ih =>
    intro pending added i hn
    cases pending with
    | nil => exact ⟨added, rfl, i⟩
    | cons it pending =>
      obtain ⟨h, hmem⟩ := i.items it (by simp)
      have hok : it.cursorSymbol ≠ some .eps ∧
          ∀ v, it.cursorSymbol = some (.var v) → ∃ β, (v, β) ∈ g.rules := by
        rcases List.mem_append.1 hmem with h' | h'
        · exact hg _ h'
        · obtain ⟨β, h1, h2⟩ := i.fresh _ h'
          simp only at h1 h2
          have := ItemOk.fresh h1
          refine ⟨by rw [h2]; exact this.noEps, fun v hv => ?_⟩
          obtain ⟨pre, post, h3, _⟩ := reads_iff.2 hv
          refine wf.closed h β v h1 ?_
          rw [h2] at h3
          have : β = pre ++ .var v :: post := h3
          rw [this]; simp
      obtain ⟨o, ho, hv⟩ := cursorVariable_ok hok.1
      rw [closureLoop, ho]
      simp only [Outcome.bind_ok]
      cases o with
      | none =>
        simp only
        refine ih (ord.sub 1) ⟨i.sound, i.disjoint, i.nodup, i.fresh, fun i' h => i.items i' (by simp [h]), ?_⟩ ?_
        · intro h' i' v β h1 h2 h3
          rcases i.complete h' i' v β h1 h2 h3 with h4 | h4
          · rcases List.mem_cons.1 h4 with rfl | h4
            · have := (hv v).2 h2; cases this
            · exact .inl h4
          · exact .inr h4
        · simp only [List.length_cons] at hn; omega
      | some v =>
        simp only
        have hcur := (hv v).1 rfl
        obtain ⟨β0, hβ0⟩ := hok.2 v hcur
        rw [expectBodies_ok (List.mem_map.2 ⟨_, hβ0, rfl⟩)]
        simp only [Outcome.bind_ok]
        obtain ⟨new, h1, h2, h3, h4, h5⟩ := closureStep_spec (v := v) (bs := ord.shuffle [0] _ (g.bodiesOf v))
          (pending := pending) (items := given ++ added)
        simp only at h1
        rw [h1]
        have hnew : ∀ b ∈ new, (v, b) ∈ g.rules := fun b hb => by
          have := h2 b hb
          rw [HashOrder.mem_shuffle] at this
          exact mem_bodiesOf.1 this
        have i' : ClosureInv g given (pending ++ new.map Item.ofBody)
            (added ++ new.map fun b => (v, Item.ofBody b)) := by
          refine ⟨?_, ?_, ?_, ?_, ?_, ?_⟩
          · intro p hp
            rcases List.mem_append.1 hp with hp | hp
            · exact i.sound p hp
            · obtain ⟨b, hb, rfl⟩ := List.mem_map.1 hp
              refine Closure.expand (h := h) (i := it) ?_ (reads_iff.2 hcur) (hnew b hb) (fresh_iff.2 rfl)
              rcases List.mem_append.1 hmem with h' | h'
              · exact .given h'
              · exact i.sound _ h'
          · intro p hp
            rcases List.mem_append.1 hp with hp | hp
            · exact i.disjoint p hp
            · obtain ⟨b, hb, rfl⟩ := List.mem_map.1 hp
              exact fun hh => h4 b hb (List.mem_append.2 (.inl hh))
          · refine List.nodup_append.2 ⟨i.nodup, h5, ?_⟩
            intro a ha b hb hab
            obtain ⟨b', hb', rfl⟩ := List.mem_map.1 hb
            subst hab
            exact h4 b' hb' (List.mem_append.2 (.inr ha))
          · intro p hp
            rcases List.mem_append.1 hp with hp | hp
            · exact i.fresh p hp
            · obtain ⟨b, hb, rfl⟩ := List.mem_map.1 hp
              exact ⟨b, hnew b hb, rfl⟩
          · intro i' hi'
            rcases List.mem_append.1 hi' with hi' | hi'
            · obtain ⟨h', hh⟩ := i.items i' (by simp [hi'])
              exact ⟨h', by rw [← List.append_assoc]; exact List.mem_append.2 (.inl hh)⟩
            · obtain ⟨b, hb, rfl⟩ := List.mem_map.1 hi'
              refine ⟨v, ?_⟩
              rw [← List.append_assoc]
              exact List.mem_append.2 (.inr (List.mem_map.2 ⟨b, hb, rfl⟩))
          · intro h' i' w β h6 h7 h8
            rw [← List.append_assoc] at h6 ⊢
            rcases List.mem_append.1 h6 with h6 | h6
            · rcases i.complete h' i' w β h6 h7 h8 with h9 | h9
              · rcases List.mem_cons.1 h9 with rfl | h9
                · have : some v = some w := (hv w).2 h7
                  cases this
                  refine .inr (h3 β ?_)
                  rw [HashOrder.mem_shuffle]
                  exact mem_bodiesOf.2 h8
                · exact .inl (List.mem_append.2 (.inl h9))
              · exact .inr (List.mem_append.2 (.inl h9))
            · obtain ⟨b, hb, he⟩ := List.mem_map.1 h6
              cases he
              exact .inl (List.mem_append.2 (.inr (List.mem_map.2 ⟨b, hb, rfl⟩)))
        have hbound : (added ++ new.map fun b => (v, Item.ofBody b)).length ≤ g.rules.length := by
          have := nodup_length_le i'.nodup (u := g.rules.map fun r => (r.1, Item.ofBody r.2)) (by
            intro p hp
            obtain ⟨β, h6, h7⟩ := i'.fresh p hp
            refine List.mem_map.2 ⟨_, h6, ?_⟩
            rw [← h7])
          simpa using this
        have := ih (ord.sub 1) i' (by
          simp only [List.length_append, List.length_map, List.length_cons] at hn hbound ⊢
          omega)
        simpa only [List.append_assoc] using this

/-- The closure of a set of items. -/
theorem itemClosure_spec (wf : WellFormed g) (ord : HashOrder) {fuel : Nat} {given : ItemSet V T}
    (hg : ∀ p ∈ given, p.2.cursorSymbol ≠ some .eps ∧
      ∀ v, p.2.cursorSymbol = some (.var v) → ∃ β, (v, β) ∈ g.rules)
    (hf : given.length + g.rules.length ≤ fuel) :
    ∃ r, itemClosure g ord fuel given = .ok r ∧ (∀ p, p ∈ r ↔ Closure g (· ∈ given) p) ∧
      (given.Nodup → r.Nodup) := by
  have i : ClosureInv g given (((ord.sub 0).grouped Prod.fst given).map Prod.snd) [] := by
    refine ⟨by simp, by simp, by simp, by simp, ?_, ?_⟩
    · intro i hi
      obtain ⟨p, hp, rfl⟩ := List.mem_map.1 hi
      rw [HashOrder.mem_grouped] at hp
      exact ⟨p.1, by simpa using hp⟩
    · intro h i v β h1 _ _
      left
      exact List.mem_map.2 ⟨_, by simpa using h1, rfl⟩
  obtain ⟨added, h1, i'⟩ := closureLoop_spec wf (ord.sub 1) hg (n := fuel) i (by simp; omega)
  refine ⟨given ++ added, by simpa [itemClosure] using h1, fun p => ⟨fun h => ?_, fun h => ?_⟩, fun hn => ?_⟩
  · rcases List.mem_append.1 h with h | h
    · exact .given h
    · exact i'.sound p h
  · induction h with
    | given h => exact List.mem_append.2 (.inl h)
    | expand _ hr hβ hfr ih =>
      rw [fresh_iff] at hfr
      subst hfr
      rcases i'.complete _ _ _ _ ih (reads_iff.1 hr) hβ with h | h
      · cases h
      · exact h
  · refine List.nodup_append.2 ⟨hn, i'.nodup, ?_⟩
    intro a ha b hb hab
    subst hab
    exact i'.disjoint a hb ha

end Pango.Parse
