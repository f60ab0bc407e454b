import Verif.Proofs.Effects
import Verif.Proofs.Safe

/-!
# Which calls of functions belong to which tokens
-/

namespace Pango.Lex

open Pango Pango.Fsm Pango.Regex Pango.Spec Pango.Props

variable {σ W K A : Type} {rules : List (List Char → Prop)} {Live : List Char → Prop}

theorem _root_.Pango.Spec.AnyMatch.first {w : List Char} (h : AnyMatch rules w) : ∃ i, FirstMatch rules w i := by
  induction rules with
  | nil => obtain ⟨M, hM, _⟩ := h; cases hM
  | cons M rules ih =>
    by_cases hm : M w
    · exact ⟨0, ⟨M, rfl, hm⟩, fun j N hj => absurd hj (by omega)⟩
    · have : AnyMatch rules w := by
        obtain ⟨N, hN, h⟩ := h
        rcases List.mem_cons.1 hN with rfl | hN
        · exact absurd h hm
        · exact ⟨N, hN, h⟩
      obtain ⟨i, ⟨N, h1, h2⟩, h3⟩ := ih this
      refine ⟨i + 1, ⟨N, by simpa using h1, h2⟩, ?_⟩
      intro j N' hj hN'
      cases j with
      | zero =>
        simp only [List.getElem?_cons_zero, Option.some.injEq] at hN'
        exact hN' ▸ hm
      | succ j => exact h3 j N' (by omega) (by simpa using hN')

theorem _root_.Pango.Spec.Applies.exists (skipped : List Char) : ∀ rest w : List Char,
    ∃ log, Applies rules skipped w rest log := by
  intro rest
  induction rest with
  | nil => exact fun w => ⟨[], .done⟩
  | cons c rest ih =>
    intro w
    obtain ⟨log, h⟩ := ih (w ++ [c])
    by_cases hm : AnyMatch rules (w ++ [c])
    · obtain ⟨i, hi⟩ := hm.first
      exact ⟨_, .apply hi h⟩
    · exact ⟨_, .skip hm h⟩

theorem _root_.Pango.Spec.Applies.append {skipped w r r' : List Char} {log log' : List (Nat × List Char)}
    (h : Applies rules skipped w r log) (h' : Applies rules skipped (w ++ r) r' log') :
    Applies rules skipped w (r ++ r') (log ++ log') := by
  induction h with
  | done => simpa using h'
  | skip hn _ ih => exact .skip hn (ih (by simpa using h'))
  | apply hf _ ih => exact .apply hf (ih (by simpa using h'))

theorem _root_.Pango.Spec.ReadsUpTo.exists (h0 : Live []) (left : List (Nat × Char)) :
    ∃ u, ReadsUpTo Live left u := by
  have key : ∀ (r u : List (Nat × Char)), Live (word u) → left = u ++ r → ∃ u, ReadsUpTo Live left u := by
    intro r
    induction r with
    | nil =>
      rintro u hu rfl
      exact ⟨u, by simp, hu, fun x hx => absurd hx.length_le (by simp)⟩
    | cons x r ih =>
      intro u hu hl
      by_cases hx : Live (word (u ++ [x]))
      · exact ih _ hx (by simp [hl])
      · refine ⟨u, ⟨_, hl.symm⟩, hu, fun y hy => ?_⟩
        have h1 : u ++ [x] <+: left := ⟨r, by simp [hl]⟩
        rw [(List.prefix_of_prefix_length_le hy h1 (by simp)).eq_of_length (by simp)]
        exact hx
  exact key left [] h0 rfl

/-- The entries are those of the words that are matched. -/
theorem _root_.Pango.Spec.Applies.mem {skipped w rest : List Char} {log : List (Nat × List Char)}
    (h : Applies rules skipped w rest log) {i : Nat} {src : List Char} (hm : (i, src) ∈ log) :
    ∃ v, v ≠ [] ∧ v <+: rest ∧ FirstMatch rules (w ++ v) i ∧ src = skipped ++ (w ++ v) := by
  induction h with
  | done => cases hm
  | @skip w rest c log _ _ ih =>
    obtain ⟨v, h1, h2, h3, h4⟩ := ih hm
    exact ⟨c :: v, by simp, List.cons_prefix_cons.2 ⟨rfl, h2⟩, by simpa using h3, by simpa using h4⟩
  | @apply w rest c j log hf _ ih =>
    rcases List.mem_cons.1 hm with h | h
    · cases h
      exact ⟨[c], by simp, ⟨rest, rfl⟩, hf, rfl⟩
    · obtain ⟨v, h1, h2, h3, h4⟩ := ih h
      exact ⟨c :: v, by simp, List.cons_prefix_cons.2 ⟨rfl, h2⟩, by simpa using h3, by simpa using h4⟩

theorem _root_.Pango.Spec.Applies.nil {skipped w rest : List Char} {log : List (Nat × List Char)}
    (h : Applies rules skipped w rest log) (hn : ∀ v, v ≠ [] → v <+: rest → ¬ AnyMatch rules (w ++ v)) :
    log = [] := by
  cases log with
  | nil => rfl
  | cons x log =>
    obtain ⟨v, h1, h2, h3, _⟩ := h.mem (List.mem_cons_self ..)
    exact absurd h3.anyMatch (hn v h1 h2)

/-- A word that is matched, and what is read behind it. -/
theorem _root_.Pango.Spec.Applies.at {skipped w r : List Char} {log : List (Nat × List Char)} {i : Nat} (hw : w ≠ [])
    (hf : FirstMatch rules w i) (h : Applies rules skipped [] (w ++ r) log) :
    ∃ log1 log2, Applies rules skipped [] (w.dropLast) log1 ∧ Applies rules skipped w r log2 ∧
      log = log1 ++ (i, skipped ++ w) :: log2 := by
  obtain ⟨log1, h1⟩ := Applies.exists (rules := rules) skipped w.dropLast []
  obtain ⟨log2, h2⟩ := Applies.exists (rules := rules) skipped r w
  have hl : w.dropLast ++ [w.getLast hw] = w := List.dropLast_concat_getLast hw
  refine ⟨log1, log2, h1, h2, ?_⟩
  have h3 : Applies rules skipped [] (w.dropLast ++ w.getLast hw :: r) (log1 ++ (i, skipped ++ w) :: log2) := by
    refine h1.append ?_
    have := Applies.apply (rules := rules) (skipped := skipped) (w := [] ++ w.dropLast) (c := w.getLast hw) (i := i)
      (log := log2) (by simpa [hl] using hf) (by simpa [hl] using h2)
    simpa [hl] using this
  have h4 : w.dropLast ++ w.getLast hw :: r = w ++ r := by
    conv => rhs; rw [← hl]
    simp
  rw [h4] at h3
  exact h.unique h3

/-- The last function that is called in a call that returns a token is the one for the token. -/
theorem _root_.Pango.Spec.Call.log (mono : ∀ w v, Live (w ++ v) → Live w) {kind : Nat → List Char → Option A}
    {sc sc' : Scanner} {t : Tok A} {u : List (Nat × Char)} {log : List (Nat × List Char)}
    (hc : Call rules Live kind sc (some t) sc') (hu : ReadsUpTo Live sc.left u)
    (hlog : Applies rules (word sc.skipped) [] (word u) log) :
    ∃ log' i, log = log' ++ [(i, t.source)] ∧ kind i t.source = some t.kind := by
  cases hc with
  | @token w back x i k h1 h2 h3 h4 h5 h6 =>
    have huw : u = w ++ back := by
      refine hu.unique mono ⟨(List.prefix_append _ _).trans h1, h2, fun y hy => ?_⟩
      have := (List.prefix_of_prefix_length_le hy h1 (by simp)).eq_of_length (by simp)
      rw [this]
      exact h3
    rw [huw, word_append] at hlog
    obtain ⟨log1, log2, k1, k2, k3⟩ := hlog.at h4.nonempty h5
    have : log2 = [] := by
      refine k2.nil fun v hv hp hm => ?_
      have := h4.longest (word w ++ v) (by simpa using hp) hm
      simp only [List.length_append] at this
      exact hv (List.length_eq_zero_iff.1 (by omega))
    subst this
    exact ⟨log1, i, by simpa using k3, h6⟩
  | @last i k h1 h2 h3 h4 =>
    have huw : u = sc.left := hu.unique mono ⟨List.prefix_refl _, h2, fun y hy => absurd hy.length_le (by simp)⟩
    have hlog' : Applies rules (word sc.skipped) [] (word sc.left ++ []) log := by
      rw [List.append_nil, ← huw]
      exact hlog
    obtain ⟨log1, log2, k1, k2, k3⟩ := hlog'.at (by simpa [word] using h1) h3
    cases k2
    exact ⟨log1, i, by simpa using k3, h4⟩

theorem _root_.Pango.Spec.runAll_append {act : Nat → List Char → Option (Action W K)}
    {log log' : List (Nat × List Char)} : ∀ {k : Option K} {world : W}, runAll act (log ++ log') k world =
      runAll act log k world >>= fun x => runAll act log' x.1 x.2 := by
  induction log with
  | nil => intro k world; rfl
  | cons x log ih =>
    intro k world
    obtain ⟨i, src⟩ := x
    simp only [List.cons_append, runAll]
    cases act i src with
    | none => rfl
    | some f =>
      simp only
      cases f world with
      | ok y => exact ih
      | panic => rfl
      | diverge => rfl

/-! ## No panics -/

theorem Generators.get_mem {gs : Generators K} {f : Nat} {g : List Char → K} (h : gs.get f = some g) :
    g ∈ gs.map Prod.snd := by
  simp only [Generators.get, Option.map_eq_some_iff] at h
  obtain ⟨x, h1, rfl⟩ := h
  exact List.mem_map_of_mem (List.mem_of_find?_eq_some h1)

section

variable {m : Machine σ} {gs : Generators (Action W K)} {Inv : σ → Prop}

theorem Safe.lexLoopE (S : Safe m gs Inv) (hg : ∀ g ∈ gs.map Prod.snd, ∀ src world, g src world ≠ .panic) :
    ∀ {sim : σ} {kind : Option K} {it : InputIter} {world : W}, Inv sim → lexLoopE m gs sim kind it world ≠ .panic := by
  intro sim kind it
  induction hn : it.pending using Nat.strongRecOn generalizing sim kind it with
  | ind n ih =>
    intro world hi
    rw [Lex.lexLoopE]
    split
    · rename_i ch it1 hnext
      obtain ⟨b, hb⟩ := S.canFeed ch hi
      rw [hb]
      cases b with
      | false => simp
      | true =>
        simp only
        cases hfeed : m.feed sim ch with
        | panic => exact absurd hfeed (S.feed ch hi)
        | diverge => simp
        | ok r =>
          obtain ⟨sim', b⟩ := r
          have hi' := S.feed' hi hfeed
          cases b with
          | false =>
            simp only
            exact ih _ (hn ▸ InputIter.pending_next hnext) rfl hi'
          | true =>
            obtain ⟨f, fs, g, h1, h2⟩ := S.finals hi hfeed
            simp only [h1, h2]
            split
            · refine ih _ ?_ rfl hi'
              rw [InputIter.pending_accept, ← hn]
              exact InputIter.pending_next hnext
            · rename_i h
              exact absurd h (hg _ (Generators.get_mem h2) _ _)
            · simp
    · obtain ⟨b, hb⟩ := S.isAccepting hi
      rw [hb]
      cases b <;> simp

theorem Safe.lexNextE (S : Safe m gs Inv) (hg : ∀ g ∈ gs.map Prod.snd, ∀ src world, g src world ≠ .panic)
    (it : InputIter) (world : W) : lexNextE m gs it world ≠ .panic := by
  rw [Lex.lexNextE]
  cases h : m.start with
  | panic => exact absurd h S.start
  | diverge => simp
  | ok s => exact S.lexLoopE hg (S.start' h)

theorem Safe.lexCallsE (S : Safe m gs Inv) (hg : ∀ g ∈ gs.map Prod.snd, ∀ src world, g src world ≠ .panic) :
    ∀ (n : Nat) (it : InputIter) (world : W), lexCallsE m gs n it world ≠ .panic := by
  intro n
  induction n with
  | zero => intro it world; simp [Lex.lexCallsE]
  | succ n ih =>
    intro it world
    have h1 := S.lexNextE hg it world
    rw [Lex.lexCallsE]
    cases h : Lex.lexNextE m gs it world with
    | panic => exact absurd h h1
    | diverge => simp
    | ok r =>
      obtain ⟨⟨a, it1⟩, world1⟩ := r
      have := ih it1 world1
      simp only [Outcome.bind_ok]
      cases h : Lex.lexCallsE m gs n it1 world1 with
      | panic => exact absurd h this
      | diverge => simp
      | ok r => simp

end

end Pango.Lex
