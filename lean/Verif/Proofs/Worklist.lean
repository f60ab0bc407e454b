import Verif.Model.Nfa

/-!
# Worklist loops and `flat_map`s that may fail
-/

namespace Pango.Fsm

open Pango

section FlatMap

variable {α β : Type}

theorem flatMapOutcome_ok {f : α → Outcome (List β)} {l : List α} {r : List β}
    (h : flatMapOutcome f l = .ok r) :
    (∀ a ∈ l, ∃ bs, f a = .ok bs) ∧ ∀ b, b ∈ r ↔ ∃ a ∈ l, ∃ bs, f a = .ok bs ∧ b ∈ bs := by
  induction l generalizing r with
  | nil => simp [flatMapOutcome] at h; subst h; simp
  | cons a l ih =>
    simp only [flatMapOutcome, Outcome.bind_eq_ok] at h
    obtain ⟨bs, h1, rest, h2, h3⟩ := h
    simp only [Outcome.pure_eq, Outcome.ok.injEq] at h3
    subst h3
    obtain ⟨ih1, ih2⟩ := ih h2
    constructor
    · intro x hx
      rcases List.mem_cons.1 hx with rfl | hx
      · exact ⟨bs, h1⟩
      · exact ih1 x hx
    · intro b
      rw [List.mem_append, ih2]
      constructor
      · rintro (h | ⟨x, hx, y, hy, hb⟩)
        · exact ⟨a, by simp, bs, h1, h⟩
        · exact ⟨x, by simp [hx], y, hy, hb⟩
      · rintro ⟨x, hx, y, hy, hb⟩
        rcases List.mem_cons.1 hx with rfl | hx
        · rw [h1] at hy; cases hy; exact .inl hb
        · exact .inr ⟨x, hx, y, hy, hb⟩

theorem flatMapOutcome_of_ok {f : α → Outcome (List β)} {l : List α}
    (h : ∀ a ∈ l, ∃ bs, f a = .ok bs) : ∃ r, flatMapOutcome f l = .ok r := by
  induction l with
  | nil => exact ⟨[], rfl⟩
  | cons a l ih =>
    obtain ⟨bs, hb⟩ := h a (by simp)
    obtain ⟨r, hr⟩ := ih (fun x hx => h x (by simp [hx]))
    exact ⟨bs ++ r, by simp [flatMapOutcome, hb, hr]⟩

end FlatMap

section Worklist

variable {α : Type} [DecidableEq α]

/-- One round of insertions. -/
theorem foldl_insert (news : List α) (queue result : List α) :
    ∃ d, news.foldl (fun (qr : List α × List α) b =>
        if b ∈ qr.2 then qr else (qr.1 ++ [b], qr.2 ++ [b])) (queue, result)
        = (queue ++ d, result ++ d) ∧
      (∀ b, b ∈ d → b ∈ news ∧ b ∉ result) ∧ (∀ b ∈ news, b ∈ result ++ d) ∧ d.Nodup := by
  induction news generalizing queue result with
  | nil => exact ⟨[], by simp⟩
  | cons b news ih =>
    by_cases hb : b ∈ result
    · obtain ⟨d, h1, h2, h3, h4⟩ := ih queue result
      refine ⟨d, by simp [hb, h1], fun x hx => ⟨by simp [(h2 x hx).1], (h2 x hx).2⟩, ?_, h4⟩
      intro x hx
      rcases List.mem_cons.1 hx with rfl | hx
      · simp [hb]
      · exact h3 x hx
    · obtain ⟨d, h1, h2, h3, h4⟩ := ih (queue ++ [b]) (result ++ [b])
      refine ⟨b :: d, by simp [hb, h1], ?_, ?_, ?_⟩
      · intro x hx
        rcases List.mem_cons.1 hx with rfl | hx
        · exact ⟨by simp, hb⟩
        · have := h2 x hx
          simp only [List.mem_append, List.mem_singleton, not_or] at this
          exact ⟨by simp [this.1], this.2.1⟩
      · intro x hx
        rcases List.mem_cons.1 hx with rfl | hx
        · simp
        · have := h3 x hx
          simpa using this
      · refine List.nodup_cons.2 ⟨fun hbd => ?_, h4⟩
        have := (h2 b hbd).2
        simp at this

variable {step : α → Outcome (List α)}

/-- Elements reachable by `step`. -/
inductive Reaches (step : α → Outcome (List α)) (a : α) : α → Prop
  | refl : Reaches step a a
  | tail {b c : α} {news : List α} : Reaches step a b → step b = .ok news → c ∈ news → Reaches step a c

omit [DecidableEq α] in
theorem Reaches.trans {a b c : α} (h1 : Reaches step a b) (h2 : Reaches step b c) :
    Reaches step a c := by
  induction h2 with
  | refl => exact h1
  | tail _ hs hm ih => exact ih.tail hs hm

/-- What a finished worklist computes: a superset of what was there, closed under `step`, and only
things reachable from the queue besides what was there. -/
theorem worklist_ok {n : Nat} {queue result res : List α}
    (h : worklist step n queue result = .ok res)
    (hq : ∀ a ∈ queue, a ∈ result)
    (hc : ∀ a ∈ result, a ∉ queue → ∃ news, step a = .ok news ∧ ∀ b ∈ news, b ∈ result) :
    (∀ a ∈ result, a ∈ res) ∧
    (∀ a ∈ res, ∃ news, step a = .ok news ∧ ∀ b ∈ news, b ∈ res) ∧
    (∀ b ∈ res, b ∈ result ∨ ∃ a ∈ queue, Reaches step a b) ∧
    (result.Nodup → res.Nodup) := by
  induction n generalizing queue result with
  | zero =>
    cases queue with
    | nil => simp [worklist] at h; subst h; exact ⟨fun _ h => h, fun a ha => hc a ha (by simp),
        fun _ h => .inl h, id⟩
    | cons a q => simp [worklist] at h
  | succ n ih =>
    cases queue with
    | nil => simp [worklist] at h; subst h; exact ⟨fun _ h => h, fun a ha => hc a ha (by simp),
        fun _ h => .inl h, id⟩
    | cons a q =>
      simp only [worklist, Outcome.bind_eq_ok] at h
      obtain ⟨news, hs, h⟩ := h
      obtain ⟨d, e, h2, h3, h4⟩ := foldl_insert news q result
      rw [e] at h
      have hq' : ∀ x ∈ q ++ d, x ∈ result ++ d := by
        intro x hx
        rcases List.mem_append.1 hx with hx | hx
        · exact List.mem_append.2 (.inl (hq x (by simp [hx])))
        · exact List.mem_append.2 (.inr hx)
      have hc' : ∀ x ∈ result ++ d, x ∉ q ++ d →
          ∃ news, step x = .ok news ∧ ∀ b ∈ news, b ∈ result ++ d := by
        intro x hx hxq
        simp only [List.mem_append, not_or] at hxq hx
        rcases hx with hx | hx
        · by_cases hxa : x = a
          · subst hxa; exact ⟨news, hs, h3⟩
          · obtain ⟨ns, h5, h6⟩ := hc x hx (by simp [hxa, hxq.1])
            exact ⟨ns, h5, fun b hb => List.mem_append.2 (.inl (h6 b hb))⟩
        · exact absurd hx hxq.2
      obtain ⟨r1, r2, r3, r4⟩ := ih h hq' hc'
      refine ⟨fun x hx => r1 x (List.mem_append.2 (.inl hx)), r2, ?_, ?_⟩
      · intro b hb
        rcases r3 b hb with hb | ⟨x, hx, hxb⟩
        · rcases List.mem_append.1 hb with hb | hb
          · exact .inl hb
          · exact .inr ⟨a, by simp, Reaches.refl.tail hs (h2 b hb).1⟩
        · rcases List.mem_append.1 hx with hx | hx
          · exact .inr ⟨x, by simp [hx], hxb⟩
          · exact .inr ⟨a, by simp, (Reaches.refl.tail hs (h2 x hx).1).trans hxb⟩
      · intro hn
        refine r4 (List.nodup_append.2 ⟨hn, h4, ?_⟩)
        intro x hx y hy hxy
        subst hxy
        exact (h2 x hy).2 hx

/-- The worklist starting from a single element computes exactly what is reachable from it. -/
theorem worklist_single {n : Nat} {a : α} {res : List α}
    (h : worklist step n [a] [a] = .ok res) :
    (∀ b, b ∈ res ↔ Reaches step a b) ∧ res.Nodup ∧
    (∀ b, Reaches step a b → ∃ news, step b = .ok news) := by
  obtain ⟨h1, h2, h3, h4⟩ := worklist_ok h (by simp) (by simp)
  have hr : ∀ b, b ∈ res ↔ Reaches step a b := by
    intro b
    constructor
    · intro hb
      rcases h3 b hb with hb | ⟨x, hx, hxb⟩
      · simp at hb; subst hb; exact .refl
      · simp at hx; subst hx; exact hxb
    · intro hb
      induction hb with
      | refl => exact h1 a (by simp)
      | tail _ hs hm ih =>
        obtain ⟨ns, e, hn⟩ := h2 _ ih
        rw [hs] at e; cases e
        exact hn _ hm
  exact ⟨hr, h4 (by simp), fun b hb => let ⟨ns, e, _⟩ := h2 b ((hr b).2 hb); ⟨ns, e⟩⟩

omit [DecidableEq α] in
theorem nodup_subset_length {l u : List α} (hn : l.Nodup) (hs : ∀ a ∈ l, a ∈ u) :
    l.length ≤ u.length := by
  classical
  induction l generalizing u with
  | nil => simp
  | cons a l ih =>
    have ha : a ∈ u := hs a (by simp)
    have hn' := List.nodup_cons.1 hn
    have := ih (u := u.erase a) hn'.2 (fun b hb => by
      have hne : b ≠ a := fun h => hn'.1 (h ▸ hb)
      exact (List.mem_erase_of_ne hne).2 (hs b (by simp [hb])))
    rw [List.length_erase_of_mem ha] at this
    have : 0 < u.length := List.length_pos_of_mem ha
    simp; omega

/-- The worklist finishes if everything it can meet lies in a finite list. -/
theorem worklist_terminates {u : List α} (hu : ∀ a ∈ u, ∃ news, step a = .ok news ∧ ∀ b ∈ news, b ∈ u)
    {n : Nat} {queue result : List α} (hq : ∀ a ∈ queue, a ∈ u) (hr : ∀ a ∈ result, a ∈ u)
    (hn : result.Nodup) (hf : queue.length + u.length ≤ n + result.length) :
    ∃ res, worklist step n queue result = .ok res := by
  induction n generalizing queue result with
  | zero =>
    cases queue with
    | nil => exact ⟨result, rfl⟩
    | cons a q =>
      have := nodup_subset_length hn hr
      simp at hf; omega
  | succ n ih =>
    cases queue with
    | nil => exact ⟨result, rfl⟩
    | cons a q =>
      obtain ⟨news, hs, hnews⟩ := hu a (hq a (by simp))
      obtain ⟨d, e, h2, h3, h4⟩ := foldl_insert news q result
      simp only [worklist, hs, Outcome.bind_ok, e]
      refine ih ?_ ?_ ?_ ?_
      · intro x hx
        rcases List.mem_append.1 hx with hx | hx
        · exact hq x (by simp [hx])
        · exact hnews x (h2 x hx).1
      · intro x hx
        rcases List.mem_append.1 hx with hx | hx
        · exact hr x hx
        · exact hnews x (h2 x hx).1
      · refine List.nodup_append.2 ⟨hn, h4, ?_⟩
        intro x hx y hy hxy
        subst hxy
        exact (h2 x hy).2 hx
      · simp at hf ⊢; omega

/-- More fuel does not change a finished worklist. -/
theorem worklist_mono {n m : Nat} {queue result res : List α}
    (h : worklist step n queue result = .ok res) (hnm : n ≤ m) :
    worklist step m queue result = .ok res := by
  induction n generalizing queue result m with
  | zero =>
    cases queue with
    | nil => simpa [worklist] using h
    | cons a q => simp [worklist] at h
  | succ n ih =>
    cases queue with
    | nil => simpa [worklist] using h
    | cons a q =>
      obtain ⟨m, rfl⟩ : ∃ k, m = k + 1 := ⟨m - 1, by omega⟩
      simp only [worklist, Outcome.bind_eq_ok] at h ⊢
      obtain ⟨news, hs, h⟩ := h
      exact ⟨news, hs, ih h (by omega)⟩

end Worklist

end Pango.Fsm
