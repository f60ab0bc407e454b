import Verif.Proofs.Reads
import Verif.Proofs.Scanned

/-!
# Which characters a call reads
-/

namespace Pango.Lex

open Pango Pango.Spec

variable {σ K : Type} {m : Machine σ} {gs : Generators K} {rules : List (List Char → Prop)} {Live : List Char → Prop}
  {Sim : σ → List Char → Prop}

private theorem next_rest {it it' : InputIter} {c : Char} (h : it.next = (some c, it')) :
    chars it.rest = c :: chars it'.rest := by
  unfold InputIter.next at h
  split at h
  · cases h; simp_all [InputIter.rest, chars]
  · split at h
    · cases h; simp_all [InputIter.rest, chars]
    · cases h

private theorem next_rest_nil {it it' : InputIter} (h : it.next = (none, it')) : chars it.rest = [] := by
  unfold InputIter.next at h
  split at h
  · cases h
  · split at h
    · cases h
    · simp_all [InputIter.rest, chars]

/-- The next character is read exactly if all before it can be read. -/
theorem lexLoopN_live (R : Reads m gs rules Live Sim) {sim : σ} {kind : Option K} {it it' : InputIter} {n n' : Nat}
    {r : Option (Tok K)} : ∀ {u : List Char}, Sim sim u → Live u → lexLoopN m gs sim kind it n = .ok ((r, it'), n') →
    ∃ k, n' = n + k ∧ ∀ v x, v ++ [x] <+: chars it.rest → (v.length < k ↔ Live (u ++ v)) := by
  have step : ∀ {it it1 : InputIter} {c : Char} {u : List Char} {k n1 n n' : Nat}, it.next = (some c, it1) → Live u →
      n1 = n + 1 → n' = n1 + k →
      (∀ v x, v ++ [x] <+: chars it1.rest → (v.length < k ↔ Live (u ++ [c] ++ v))) →
      ∃ k, n' = n + k ∧ ∀ v x, v ++ [x] <+: chars it.rest → (v.length < k ↔ Live (u ++ v)) := by
    intro it it1 c u k n1 n n' hn hu h1 h2 h
    refine ⟨k + 1, by omega, fun v x hv => ?_⟩
    rw [next_rest hn] at hv
    cases v with
    | nil => simpa using hu
    | cons d v =>
      simp only [List.cons_append, List.cons_prefix_cons] at hv
      obtain ⟨rfl, hv⟩ := hv
      have := h v x hv
      simpa using this
  have dead : ∀ {it it1 : InputIter} {c : Char} {u : List Char}, it.next = (some c, it1) → Live u →
      ¬ Live (u ++ [c]) → ∀ v x, v ++ [x] <+: chars it.rest → (v.length < 1 ↔ Live (u ++ v)) := by
    intro it it1 c u hn hu hd v x hv
    rw [next_rest hn] at hv
    cases v with
    | nil => simpa using hu
    | cons d v =>
      simp only [List.cons_append, List.cons_prefix_cons] at hv
      obtain ⟨rfl, hv⟩ := hv
      simp only [List.length_cons, Nat.add_lt_iff_lt_sub_right, Nat.sub_self, Nat.not_lt_zero, false_iff]
      intro h
      exact hd (R.live' (v := v) (by simpa using h))
  fun_induction lexLoopN m gs sim kind it n with
  | case1 sim kind it n ch it1 hn hf =>
    intro u hs hu h
    have hd : ¬ Live (u ++ [ch]) := fun h' => by simpa using (R.canFeed hs hf).2 h'
    refine ⟨1, ?_, dead hn hu hd⟩
    cases kind <;> simp at h <;> omega
  | case2 sim kind it n ch it1 hn hf sim1 hfe hfi => intro u _ _ h; cases h
  | case3 sim kind it n ch it1 hn hf sim1 hfe f fs hfi hg => intro u _ _ h; cases h
  | case4 sim kind it n ch it1 hn hf sim1 hfe f fs hfi gen hg ih =>
    intro u hs hu h
    have hl := (R.canFeed hs hf).1 rfl
    obtain ⟨k, h1, h2⟩ := ih (R.feed hs hfe).1 hl h
    exact step hn hu rfl h1 h2
  | case5 sim kind it n ch it1 hn hf sim1 hfe ih =>
    intro u hs hu h
    have hl := (R.canFeed hs hf).1 rfl
    obtain ⟨k, h1, h2⟩ := ih (R.feed hs hfe).1 hl h
    exact step hn hu rfl h1 h2
  | case6 => intro u _ _ h; cases h
  | case7 => intro u _ _ h; cases h
  | case8 => intro u _ _ h; cases h
  | case9 => intro u _ _ h; cases h
  | case10 sim kind it n it1 hn hf =>
    intro u hs hu h
    refine ⟨0, ?_, fun v x hv => ?_⟩
    · cases kind <;> simp at h <;> omega
    · rw [next_rest_nil hn] at hv
      simp at hv
  | case11 sim kind it n it1 hn hf =>
    intro u hs hu h
    refine ⟨0, ?_, fun v x hv => ?_⟩
    · simp at h; omega
    · rw [next_rest_nil hn] at hv
      simp at hv
  | case12 => intro u _ _ h; cases h
  | case13 => intro u _ _ h; cases h

end Pango.Lex
