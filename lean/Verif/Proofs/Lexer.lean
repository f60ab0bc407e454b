import Verif.Model.Lexer

/-!
# The loop of the lexer, for any machine
-/

namespace Pango.Lex

open Pango.Fsm Pango.Regex

variable {σ K : Type}

/-- The calls of `lexLoop` that end without a panic, as a relation. -/
inductive Lexes (m : Machine σ) (gs : Generators K) :
    σ → Option K → InputIter → Option (Tok K) → InputIter → Prop
  | stopNone {sim : σ} {it it' : InputIter} {ch : Char} : it.next = (some ch, it') →
      m.canFeed sim ch = .ok false → Lexes m gs sim none it none it'
  | stopSome {sim : σ} {k : K} {it it' : InputIter} {ch : Char} : it.next = (some ch, it') →
      m.canFeed sim ch = .ok false →
      Lexes m gs sim (some k) it (some ⟨k, it'.source, it'.pos⟩) it'.consumeToken.2
  | accept {sim sim' : σ} {kind : Option K} {it it' it'' : InputIter} {ch : Char} {f : Nat}
      {fs : List Nat} {gen : List Char → K} {r : Option (Tok K)} : it.next = (some ch, it') →
      m.canFeed sim ch = .ok true → m.feed sim ch = .ok (sim', true) → m.finals sim' = f :: fs →
      gs.get f = some gen →
      Lexes m gs sim' (some (gen it'.acceptSuffix.source)) it'.acceptSuffix r it'' →
      Lexes m gs sim kind it r it''
  | step {sim sim' : σ} {kind : Option K} {it it' it'' : InputIter} {ch : Char}
      {r : Option (Tok K)} : it.next = (some ch, it') →
      m.canFeed sim ch = .ok true → m.feed sim ch = .ok (sim', false) → Lexes m gs sim' kind it' r it'' →
      Lexes m gs sim kind it r it''
  | eofSome {sim : σ} {k : K} {it it' : InputIter} : it.next = (none, it') →
      m.isAccepting sim = .ok true →
      Lexes m gs sim (some k) it (some ⟨k, it'.source, it'.pos⟩) it'.consumeToken.2
  | eofNone {sim : σ} {kind : Option K} {it it' : InputIter} {b : Bool} : it.next = (none, it') →
      m.isAccepting sim = .ok b → (b = false ∨ kind = none) → Lexes m gs sim kind it none it'

theorem lexLoop_ok {m : Machine σ} {gs : Generators K} : ∀ {sim : σ} {kind : Option K} {it it' : InputIter}
    {r : Option (Tok K)}, lexLoop m gs sim kind it = .ok (r, it') → Lexes m gs sim kind it r it' := by
  intro sim kind it it' r
  induction hn : it.pending using Nat.strongRecOn generalizing sim kind it with
  | ind n ih =>
    intro h
    rw [lexLoop] at h
    split at h
    · rename_i ch it1 hnext
      split at h
      · rename_i hcf
        cases kind with
        | none => simp only [Outcome.ok.injEq, Prod.mk.injEq] at h; obtain ⟨rfl, rfl⟩ := h
                  exact .stopNone hnext hcf
        | some k =>
          simp only [takeToken, InputIter.consumeToken, Outcome.ok.injEq, Prod.mk.injEq] at h
          obtain ⟨rfl, rfl⟩ := h
          exact .stopSome hnext hcf
      · rename_i hcf
        split at h
        · rename_i sim' hfeed
          split at h
          · cases h
          · rename_i f fs hfin
            split at h
            · cases h
            · rename_i gen hget
              refine .accept hnext hcf hfeed hfin hget (ih _ ?_ rfl h)
              rw [InputIter.pending_accept, ← hn]
              exact InputIter.pending_next hnext
        · rename_i sim' hfeed
          exact .step hnext hcf hfeed (ih _ (hn ▸ InputIter.pending_next hnext) rfl h)
        · cases h
        · cases h
      · cases h
      · cases h
    · rename_i it1 hnext
      split at h
      · rename_i hacc
        cases kind with
        | none => simp only [Outcome.ok.injEq, Prod.mk.injEq] at h; obtain ⟨rfl, rfl⟩ := h
                  exact .eofNone hnext hacc (.inr rfl)
        | some k =>
          simp only [takeToken, InputIter.consumeToken, Outcome.ok.injEq, Prod.mk.injEq] at h
          obtain ⟨rfl, rfl⟩ := h
          exact .eofSome hnext hacc
      · rename_i hacc
        simp only [Outcome.ok.injEq, Prod.mk.injEq] at h
        obtain ⟨rfl, rfl⟩ := h
        exact .eofNone hnext hacc (.inl rfl)
      · cases h
      · cases h

theorem lexNext_ok {m : Machine σ} {gs : Generators K} {it it' : InputIter} {r : Option (Tok K)}
    (h : lexNext m gs it = .ok (r, it')) : ∃ sim, m.start = .ok sim ∧ Lexes m gs sim none it r it' := by
  simp only [lexNext, Outcome.bind_eq_ok] at h
  obtain ⟨sim, h1, h2⟩ := h
  exact ⟨sim, h1, lexLoop_ok h2⟩

/-! ## The iterator -/

theorem next_some {it it' : InputIter} {ch : Char} (h : it.next = (some ch, it')) :
    ∃ p, it.prev ++ it.iter = (p, ch) :: (it'.prev ++ it'.iter) ∧
      it'.suffix = it.suffix ++ [(p, ch)] ∧ it'.source = it.source ∧ it'.pos = it.pos ∧
      (it.prev = [] → it'.prev = []) ∧ (it.prev ≠ [] → it.prev = (p, ch) :: it'.prev) := by
  unfold InputIter.next at h
  split at h
  · rename_i p c r hp
    cases h
    exact ⟨p, by simp [hp], rfl, rfl, rfl, by simp [hp], by simp [hp]⟩
  · rename_i hp
    split at h
    · rename_i p c r hi
      cases h
      exact ⟨p, by simp [hp, hi], rfl, rfl, rfl, by simp [hp], by simp [hp]⟩
    · cases h

theorem next_none {it it' : InputIter} (h : it.next = (none, it')) :
    it' = it ∧ it.prev = [] ∧ it.iter = [] := by
  unfold InputIter.next at h
  split at h
  · cases h
  · rename_i hp
    split at h
    · cases h
    · rename_i hi
      cases h
      exact ⟨rfl, hp, hi⟩

/-! ## Positions in the input -/

theorem enumFrom_append (i : Nat) (u v : List Char) :
    enumFrom i (u ++ v) = enumFrom i u ++ enumFrom (i + u.length) v := by
  induction u generalizing i with
  | nil => simp [enumFrom]
  | cons c u ih => simp [enumFrom, ih, Nat.add_comm, Nat.add_left_comm]

theorem enumFrom_snd (i : Nat) (u : List Char) : (enumFrom i u).map Prod.snd = u := by
  induction u generalizing i with
  | nil => rfl
  | cons c u ih => simp [enumFrom, ih]

theorem le_of_mem_enumFrom {i : Nat} {u : List Char} {e : Nat × Char} (h : e ∈ enumFrom i u) :
    i ≤ e.1 ∧ e.1 < i + u.length := by
  induction u generalizing i with
  | nil => cases h
  | cons c u ih =>
    rcases List.mem_cons.1 h with rfl | h
    · simp
    · have := ih h
      simp only [List.length_cons]
      omega

theorem enumFrom_sorted (i : Nat) (u : List Char) :
    (enumFrom i u).Pairwise (fun a b => a.1 < b.1) := by
  induction u generalizing i with
  | nil => exact .nil
  | cons c u ih =>
    refine .cons ?_ (ih _)
    intro e he
    have := le_of_mem_enumFrom he
    simp only
    omega

theorem drop_enumFrom (i n : Nat) (u : List Char) :
    (enumFrom i u).drop n = enumFrom (i + n) (u.drop n) := by
  induction n generalizing i u with
  | zero => rfl
  | succ n ih =>
    cases u with
    | nil => rfl
    | cons c u => simp only [enumFrom, List.drop_succ_cons, ih]; congr 1; omega

theorem take_enumFrom (i n : Nat) (u : List Char) :
    (enumFrom i u).take n = enumFrom i (u.take n) := by
  induction n generalizing i u with
  | zero => rfl
  | succ n ih =>
    cases u with
    | nil => rfl
    | cons c u => simp [enumFrom, ih]

/-- Splitting an enumerated list in front of and behind a position. -/
theorem enum_split {i k : Nat} {u : List Char} {a b : List (Nat × Char)}
    (h : (a ++ b).Sublist (enumFrom i u)) (hk : i ≤ k) (ha : ∀ e ∈ a, e.1 < k) (hb : ∀ e ∈ b, k ≤ e.1) :
    a.Sublist (enumFrom i (u.take (k - i))) ∧ b.Sublist (enumFrom k (u.drop (k - i))) := by
  have e : enumFrom i u = enumFrom i (u.take (k - i)) ++ enumFrom k (u.drop (k - i)) := by
    rw [← take_enumFrom]
    have : enumFrom k (u.drop (k - i)) = (enumFrom i u).drop (k - i) := by
      rw [drop_enumFrom]; congr 1; omega
    rw [this, List.take_append_drop]
  rw [e] at h
  have hlo : ∀ e ∈ enumFrom i (u.take (k - i)), e.1 < k := by
    intro e he
    have := le_of_mem_enumFrom he
    simp only [List.length_take] at this
    omega
  have hhi : ∀ e ∈ enumFrom k (u.drop (k - i)), k ≤ e.1 := fun e he => (le_of_mem_enumFrom he).1
  have f1 := h.filter (fun e => decide (e.1 < k))
  have f2 := h.filter (fun e => decide (k ≤ e.1))
  simp only [List.filter_append] at f1 f2
  constructor
  · have g1 : a.filter (fun e => decide (e.1 < k)) = a := List.filter_eq_self.2 (by simpa using ha)
    have g2 : b.filter (fun e => decide (e.1 < k)) = [] :=
      List.filter_eq_nil_iff.2 (fun e he => by have := hb e he; simp; omega)
    have g3 : (enumFrom i (u.take (k - i))).filter (fun e => decide (e.1 < k)) = _ :=
      List.filter_eq_self.2 (by simpa using hlo)
    have g4 : (enumFrom k (u.drop (k - i))).filter (fun e => decide (e.1 < k)) = [] :=
      List.filter_eq_nil_iff.2 (fun e he => by have := hhi e he; simp; omega)
    rwa [g1, g2, g3, g4, List.append_nil, List.append_nil] at f1
  · have g1 : b.filter (fun e => decide (k ≤ e.1)) = b := List.filter_eq_self.2 (by simpa using hb)
    have g2 : a.filter (fun e => decide (k ≤ e.1)) = [] :=
      List.filter_eq_nil_iff.2 (fun e he => by have := ha e he; simp; omega)
    have g3 : (enumFrom k (u.drop (k - i))).filter (fun e => decide (k ≤ e.1)) = _ :=
      List.filter_eq_self.2 (by simpa using hhi)
    have g4 : (enumFrom i (u.take (k - i))).filter (fun e => decide (k ≤ e.1)) = [] :=
      List.filter_eq_nil_iff.2 (fun e he => by have := hlo e he; simp; omega)
    rwa [g1, g2, g3, g4, List.nil_append, List.nil_append] at f2

/-! ## What holds at every point of every history -/

/-- The characters an iterator holds, in order, with their positions, are some of the characters of the
input from the start of the current token on. -/
structure Held (input : List Char) (it : InputIter) : Prop where
  start : it.pos.1 ≤ input.length
  held : ∃ src : List (Nat × Char), it.source = src.map Prod.snd ∧
    (src ++ (it.suffix ++ (it.prev ++ it.iter))).Sublist (enumFrom it.pos.1 (input.drop it.pos.1)) ∧
    ∀ e, src.getLast? = some e → it.pos.2 = e.1 + 1

theorem held_new (input : List Char) : Held input (InputIter.new input) where
  start := Nat.zero_le _
  held := ⟨[], rfl, by simp [InputIter.new], by simp⟩

theorem Held.next {input : List Char} {it it' : InputIter} {ch : Char} (h : Held input it)
    (hn : it.next = (some ch, it')) : Held input it' := by
  obtain ⟨p, h1, h2, h3, h4, _, _⟩ := next_some hn
  obtain ⟨src, e1, e2, e3⟩ := h.held
  refine ⟨h4 ▸ h.start, src, h3 ▸ e1, ?_, h4 ▸ e3⟩
  rw [h4, h2]
  rw [h1] at e2
  simpa using e2

theorem Held.accept {input : List Char} {it : InputIter} (h : Held input it) (hs : it.suffix ≠ []) :
    Held input it.acceptSuffix := by
  obtain ⟨src, e1, e2, e3⟩ := h.held
  refine ⟨h.start, src ++ it.suffix, by simp [InputIter.acceptSuffix, e1], ?_, ?_⟩
  · simpa [InputIter.acceptSuffix] using e2
  · intro e he
    rw [List.getLast?_append] at he
    obtain ⟨x, hx⟩ := List.getLast?_isSome.2 hs |> Option.isSome_iff_exists.1
    rw [hx] at he
    simp only [Option.some_or, Option.some.injEq] at he
    subst he
    simp [InputIter.acceptSuffix, hx]

/-- A token as it is in the input. -/
structure TokAt (input : List Char) (start : Nat) (t : Tok K) : Prop where
  start : t.pos.1 = start
  ne : t.source ≠ []
  lt : t.pos.1 < t.pos.2
  le : t.pos.2 ≤ input.length
  source : t.source.Sublist ((input.drop t.pos.1).take (t.pos.2 - t.pos.1))

theorem Held.consume {input : List Char} {it : InputIter} (h : Held input it) (hs : it.source ≠ [])
    (k : K) : TokAt input it.pos.1 (⟨k, it.source, it.pos⟩ : Tok K) ∧ Held input it.consumeToken.2 ∧
      it.consumeToken.2.pos.1 = it.pos.2 := by
  obtain ⟨src, e1, e2, e3⟩ := h.held
  have hne : src ≠ [] := by rintro rfl; exact hs e1
  obtain ⟨⟨q, c⟩, hx⟩ := List.getLast?_isSome.2 hne |> Option.isSome_iff_exists.1
  have e3' := e3 _ hx
  simp only at e3'
  have hsrc : src = src.dropLast ++ [(q, c)] := by
    obtain ⟨a, h1⟩ := List.getLast?_eq_some_iff.1 hx
    rw [h1]; simp
  have hmem : (q, c) ∈ enumFrom it.pos.1 (input.drop it.pos.1) :=
    e2.subset (List.mem_append.2 (.inl (by rw [hsrc]; simp)))
  have hq := le_of_mem_enumFrom hmem
  simp only [List.length_drop] at hq
  have hsort := (enumFrom_sorted it.pos.1 (input.drop it.pos.1)).sublist e2
  have hstart := h.start
  have hlo : ∀ e ∈ src, e.1 < it.pos.2 := by
    intro e he
    rw [e3']
    rw [hsrc] at he
    rcases List.mem_append.1 he with he | he
    · have h1 := (List.pairwise_append.1 hsort).1
      rw [hsrc] at h1
      have := (List.pairwise_append.1 h1).2.2 e he (q, c) (by simp)
      simp only at this
      omega
    · rw [List.mem_singleton.1 he]; exact Nat.lt_succ_self q
  have hhi : ∀ e ∈ it.suffix ++ (it.prev ++ it.iter), it.pos.2 ≤ e.1 := by
    intro e he
    have := (List.pairwise_append.1 hsort).2.2 (q, c) (by rw [hsrc]; simp) e he
    simp only at this
    omega
  obtain ⟨s1, s2⟩ := enum_split e2 (k := it.pos.2) (by omega) hlo hhi
  refine ⟨⟨rfl, hs, ?_, ?_, ?_⟩, ⟨?_, [], rfl, ?_, by simp⟩, rfl⟩
  · simp only; omega
  · simp only; omega
  · have := s1.map Prod.snd
    rw [enumFrom_snd] at this
    rw [e1]
    exact this
  · simp only [InputIter.consumeToken]; omega
  · simp only [InputIter.consumeToken, List.nil_append]
    have e : (input.drop it.pos.1).drop (it.pos.2 - it.pos.1) = input.drop it.pos.2 := by
      rw [List.drop_drop]; congr 1; omega
    rw [e] at s2
    refine List.Sublist.trans ?_ s2
    exact (List.Sublist.refl it.suffix).append (List.sublist_append_right _ _)

/-- What a call returned, `start` being where the current token starts. -/
def After (input : List Char) (gs : Generators K) (start : Nat) (it' : InputIter) :
    Option (Tok K) → Prop
  | none => it'.pos.1 = start
  | some t => TokAt input start t ∧ it'.pos.1 = t.pos.2 ∧ ∃ g ∈ gs, t.kind = g.2 t.source

/-- What one call does, whatever was called before. -/
theorem Lexes.held {m : Machine σ} {gs : Generators K} {sim : σ} {kind : Option K} {it it' : InputIter}
    {r : Option (Tok K)} (h : Lexes m gs sim kind it r it') {input : List Char} (hh : Held input it)
    (hk : ∀ k, kind = some k → it.source ≠ [] ∧ ∃ g ∈ gs, k = g.2 it.source) :
    Held input it' ∧ After input gs it.pos.1 it' r := by
  induction h with
  | stopNone hn _ => exact ⟨hh.next hn, by obtain ⟨p, _, _, _, h4, _⟩ := next_some hn; rw [After, h4]⟩
  | stopSome hn _ =>
    obtain ⟨p, _, _, h3, h4, _⟩ := next_some hn
    obtain ⟨k1, k2⟩ := hk _ rfl
    rw [← h3] at k1 k2
    obtain ⟨c1, c2, c3⟩ := (hh.next hn).consume k1 _
    refine ⟨c2, ?_, c3, k2⟩
    rw [h4] at c1 ⊢
    exact c1
  | @accept _ _ _ it0 it1 _ _ _ _ gen _ hn _ _ _ hget _ ih =>
    obtain ⟨p, h1, h2, h3, h4, _⟩ := next_some hn
    have hs : it1.suffix ≠ [] := by rw [h2]; simp
    have := ih ((hh.next hn).accept hs) (by
      rintro k ⟨⟩
      refine ⟨by simp [InputIter.acceptSuffix, h2], ?_⟩
      simp only [Generators.get, Option.map_eq_some_iff] at hget
      obtain ⟨g, hg, rfl⟩ := hget
      exact ⟨g, List.mem_of_find?_eq_some hg, rfl⟩)
    have e : it1.acceptSuffix.pos.1 = it0.pos.1 := by rw [← h4]; rfl
    rw [e] at this
    exact this
  | step hn _ _ _ ih =>
    obtain ⟨p, h1, h2, h3, h4, _⟩ := next_some hn
    have := ih (hh.next hn) (by rw [h3]; exact hk)
    rw [h4] at this
    exact this
  | eofSome hn _ =>
    obtain ⟨rfl, _, _⟩ := next_none hn
    obtain ⟨k1, k2⟩ := hk _ rfl
    obtain ⟨c1, c2, c3⟩ := hh.consume k1 _
    exact ⟨c2, c1, c3, k2⟩
  | eofNone hn _ _ =>
    obtain ⟨rfl, _, _⟩ := next_none hn
    exact ⟨hh, rfl⟩

/-- What one call does, whatever was called before. -/
theorem lexNext_held {m : Machine σ} {gs : Generators K} {it it' : InputIter} {r : Option (Tok K)}
    (h : lexNext m gs it = .ok (r, it')) {input : List Char} (hh : Held input it) :
    Held input it' ∧ After input gs it.pos.1 it' r := by
  obtain ⟨sim, _, h⟩ := lexNext_ok h
  exact h.held hh (by simp)

/-! ## How long tokens can come -/

/-- How many characters wait behind the current token. -/
def InputIter.waiting (it : InputIter) : Nat := it.suffix.length + it.pending

theorem next_pending {it it' : InputIter} {ch : Char} (hn : it.next = (some ch, it')) :
    it.pending = it'.pending + 1 ∧ it'.waiting = it.waiting ∧ 0 < it'.suffix.length := by
  obtain ⟨p, h1, h2, _⟩ := next_some hn
  have := congrArg List.length h1
  simp only [List.length_append, List.length_cons] at this
  simp only [InputIter.waiting, InputIter.pending, h2, List.length_append, List.length_singleton]
  omega

theorem Lexes.shrinks {m : Machine σ} {gs : Generators K} {sim : σ} {kind : Option K} {it it' : InputIter}
    {r : Option (Tok K)} (h : Lexes m gs sim kind it r it') :
    it'.waiting ≤ it.waiting ∧ (kind = none → r ≠ none → it'.waiting < it.waiting) ∧
    (r = none → it'.pending ≤ it.pending ∧ (0 < it.pending → it'.pending < it.pending)) ∧
    (kind = none → it.pending = 0 → r = none) := by
  have consume : ∀ it : InputIter, it.consumeToken.2.waiting ≤ it.waiting := by
    intro it
    simp only [InputIter.waiting, InputIter.pending, InputIter.consumeToken, List.length_nil]
    omega
  induction h with
  | stopNone hn _ =>
    have := next_pending hn
    exact ⟨by omega, by simp, fun _ => by omega, fun _ _ => rfl⟩
  | stopSome hn _ =>
    have := next_pending hn
    rename_i it1 _ _
    have := consume it1
    exact ⟨by omega, by simp, by simp, by simp⟩
  | @accept _ _ _ _ it1 _ _ _ _ _ _ hn _ _ _ _ _ ih =>
    have := next_pending hn
    have h2 : it1.acceptSuffix.waiting < it1.waiting := by
      simp only [InputIter.waiting, InputIter.pending_accept]
      have : it1.acceptSuffix.suffix.length = 0 := rfl
      omega
    have h3 := InputIter.pending_accept it1
    obtain ⟨i1, i2, i3, i4⟩ := ih
    exact ⟨by omega, fun _ _ => by omega, fun h => by have := i3 h; omega, fun _ _ => by omega⟩
  | step hn _ _ _ ih =>
    have := next_pending hn
    obtain ⟨i1, i2, i3, i4⟩ := ih
    exact ⟨by omega, fun h h' => by have := i2 h h'; omega, fun h => by have := i3 h; omega,
      fun _ _ => by omega⟩
  | eofSome hn _ =>
    obtain ⟨rfl, _, _⟩ := next_none hn
    exact ⟨consume _, by simp, by simp, by simp⟩
  | eofNone hn _ _ =>
    obtain ⟨rfl, h1, h2⟩ := next_none hn
    exact ⟨Nat.le_refl _, by simp, fun _ => ⟨Nat.le_refl _, fun h => by
      simp [InputIter.pending, h1, h2] at h⟩, fun _ _ => rfl⟩

end Pango.Lex
