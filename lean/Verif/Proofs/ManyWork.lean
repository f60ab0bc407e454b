import Verif.Proofs.Work
import Verif.Proofs.RulesWays
import Verif.Proofs.ManyRunsFrag

/-!
# How much work the lexer does for ambiguous repetitions
-/

namespace Pango.Lex

section loop

variable {σ K : Type} {m : Machine σ} {size : σ → Nat} {gs : Generators K}

/-- The characters that are left. -/
def InputIter.text (it : InputIter) : List Char := (it.prev ++ it.iter).map Prod.snd

theorem next_text {it it' : InputIter} {ch : Char} (h : it.next = (some ch, it')) : it.text = ch :: it'.text := by
  unfold InputIter.next at h
  split at h
  · rename_i pos c' r hp
    cases h
    simp [InputIter.text, hp]
  · rename_i hp
    split at h
    · rename_i pos c' r hi
      cases h
      simp [InputIter.text, hp, hi]
    · cases h

theorem next_none_text {it it' : InputIter} (h : it.next = (none, it')) : it.text = [] := by
  unfold InputIter.next at h
  split at h
  · cases h
  · split at h
    · cases h
    · simp_all [InputIter.text]

theorem lexLoopT_grows {sim : σ} {kind : Option K} {it it' : InputIter} {r : Option (Tok K)} {t t' : Nat}
    (h : lexLoopT m size gs sim kind it t = .ok ((r, it'), t')) : t ≤ t' := by
  have h1 := lexLoopT_fst (m := m) (size := size) (gs := gs) (sim := sim) (kind := kind) (it := it) (t := t)
  rw [h, Outcome.bind_ok] at h1
  obtain ⟨k, w, e, _⟩ := (lexLoop_ok h1.symm).works (size := size) (inv := fun _ _ => False) (B := 0)
    ⟨fun h => h.elim, fun h => h.elim⟩ t 0
  rw [h] at e
  simp only [Outcome.ok.injEq, Prod.mk.injEq, true_and] at e
  omega

/-- What is counted if the simulator can read `v`: at least the number of the runs after `v`. -/
theorem lexLoopT_counts {G : σ → List Char → Prop} {B : Nat} (hB : ∀ sim, G sim [] → B ≤ size sim)
    (hG : ∀ sim c v, G sim (c :: v) → m.canFeed sim c = .ok true ∧ ∀ sim' b, m.feed sim c = .ok (sim', b) → G sim' v)
    {v rest : List Char} : ∀ {sim : σ} {kind : Option K} {it it' : InputIter} {r : Option (Tok K)} {t t' : Nat},
    lexLoopT m size gs sim kind it t = .ok ((r, it'), t') → it.text = v ++ rest → G sim v → t + B ≤ t' + size sim := by
  induction v with
  | nil =>
    intro sim kind it it' r t t' h _ g
    have := lexLoopT_grows h
    have := hB _ g
    omega
  | cons c v ih =>
    intro sim kind it it' r t t' h hv g
    obtain ⟨g1, g2⟩ := hG _ _ _ g
    rw [lexLoopT] at h
    split at h
    · rename_i ch it1 h1
      rw [next_text h1] at hv
      rw [List.cons_append, List.cons.injEq] at hv
      obtain ⟨rfl, hv⟩ := hv
      rw [g1] at h
      simp only at h
      split at h
      · rename_i sim1 h2
        split at h
        · cases h
        · split at h
          · cases h
          · have := ih h hv (g2 _ _ h2)
            omega
      · rename_i sim1 h2
        have := ih h hv (g2 _ _ h2)
        omega
      · cases h
      · cases h
    · rename_i h1
      rw [next_none_text h1] at hv
      cases hv

theorem lexCallsT_grows {calls : Nat} : ∀ {it it' : InputIter} {as : List (Option (Tok K))} {t t' : Nat},
    lexCallsT m size gs calls it t = .ok ((as, it'), t') → t ≤ t' := by
  induction calls with
  | zero => intro it it' as t t' h; cases h; exact Nat.le_refl _
  | succ calls ih =>
    intro it it' as t t' h
    simp only [lexCallsT, lexNextT, Outcome.bind_eq_ok] at h
    obtain ⟨⟨⟨a, it1⟩, t1⟩, ⟨sim, h1, h2⟩, ⟨⟨as1, it2⟩, t2⟩, h3, h4⟩ := h
    cases h4
    have := lexLoopT_grows h2
    have := ih h3
    omega

end loop

section rules

open Pango.Fsm Pango.Regex Pango.Spec

variable [Unicode] {K : Type} {p : Profile} {patterns : List (List Char × (List Char → K))} {l : Lexer K} {es : List Expr}

/-- The rounds of a group of one of the rules double the number of runs. -/
theorem Built.fed_doubles (b : Built p patterns l es) (hr : ∀ e ∈ es, RepeatsNonEmpty e) {e a : Expr} (he : e ∈ es)
    {z w : List Char} (hz : Enters e a z) (hw : Ambiguous (.group a (some .asterisk)) w) (n : Nat) :
    ∀ {fuel : Nat} {runs : List Run}, Fed l.nfa fuel (z ++ (List.replicate n w).flatten) runs → 2 ^ n ≤ runs.length := by
  intro fuel runs h
  obtain ⟨f, hf⟩ := exists_finalsFrom he
  have hm : ((frag e 0 f (f + 1)).1, f) ∈ fragTrees 2 es := mem_fragTrees.2 ⟨e, f, hf, rfl⟩
  have bu := b.parts.bundle
  have nn : ∀ r ∈ fragTrees 2 es, r.1.NonNull := by
    intro r h
    obtain ⟨e, f, h1, rfl⟩ := mem_fragTrees.1 h
    exact frag_nonNull e (b.compiles e (mem_finalsFrom h1)) (hr e (mem_finalsFrom h1)) _ _ _
  obtain ⟨runs0, last, _, _, h4, h5⟩ := bu.fed_at nn h
  obtain ⟨ha, hae, har⟩ := enters_class hz (b.compiles e he) (hr e he)
  obtain ⟨x, m, κ, k1, k2, ⟨q, j, d, c, v, κ0, rfl, g1, g2, g3⟩, k4⟩ := enters_path (E := l.nfa.HasEdge) hz
    (b.compiles e he) (κ := fun _ => 0) (bu.ok hm) (fun x i y h => (bu.edges x i y).2 ⟨_, hm, h⟩) (fun _ _ => rfl)
  exact bu.doubles nn (Nat.le_refl _) (A := fun κ => ∀ h ∈ (frag a x x m).1.heads, κ h = 0)
    (fun κ hk => (rounds_fork hw ha har hae k1 hk).mono k2) h4 g1 g2 g3 k4 h5

/-- The text is read to its end. -/
theorem Built.reads_ambiguous (b : Built p patterns l es) (hr : ∀ e ∈ es, RepeatsNonEmpty e) {e a : Expr} (he : e ∈ es)
    {z w : List Char} (hz : Enters e a z) (hw : Ambiguous (.group a (some .asterisk)) w) (n : Nat) :
    ∃ r, RunsAt l.nfa (z ++ (List.replicate n w).flatten) r := by
  have bu := b.parts.bundle
  have nn : ∀ r ∈ fragTrees 2 es, r.1.NonNull := by
    intro r h
    obtain ⟨e, f, h1, rfl⟩ := mem_fragTrees.1 h
    exact frag_nonNull e (b.compiles e (mem_finalsFrom h1)) (hr e (mem_finalsFrom h1)) _ _ _
  obtain ⟨runs0, h3, h4⟩ := bu.initRuns (Nat.le_refl (simFuel l.nfa (fragTrees 2 es)))
  obtain ⟨runs, last, h5, _, _⟩ := bu.feedAll nn (Nat.le_refl _) (z ++ (List.replicate n w).flatten) (last := none) h4 (by simp)
  have h6 := ((Fed.init h3).feedAll h5 (by simp)).1
  rw [List.nil_append] at h6
  have h7 := b.fed_doubles hr he hz hw n h6
  have h8 := Nat.two_pow_pos n
  obtain ⟨r, hr'⟩ := List.exists_mem_of_length_pos (l := runs) (by omega)
  exact ⟨r, (h6.mem bu.wf r).1 hr'⟩

/-- So the work of a call at such a text is exponential. -/
theorem Built.next_doubles (b : Built p patterns l es) (hr : ∀ e ∈ es, RepeatsNonEmpty e) {e a : Expr} (he : e ∈ es)
    {z w rest : List Char} (hz : Enters e a z) (hw : Ambiguous (.group a (some .asterisk)) w) {n fuel : Nat}
    {it it' : InputIter} {r : Option (Tok K)} {t t' : Nat}
    (h : lexNextT (nfaMachine l.nfa fuel) List.length l.tokens it t = .ok ((r, it'), t'))
    (hit : it.text = z ++ (List.replicate n w).flatten ++ rest) : t + 2 ^ n ≤ t' := by
  have wf := b.parts.bundle.wf
  obtain ⟨x, hx⟩ := b.reads_ambiguous hr he hz hw n
  simp only [lexNextT, Outcome.bind_eq_ok] at h
  obtain ⟨sim, h1, h2⟩ := h
  have := lexLoopT_counts (G := fun runs v => ∃ u, Fed l.nfa fuel u runs ∧ u ++ v = z ++ (List.replicate n w).flatten)
    (B := 2 ^ n) (by
      rintro sim ⟨u, hu, e⟩
      rw [List.append_nil] at e
      exact b.fed_doubles hr he hz hw n (e ▸ hu)) (by
      rintro sim c v ⟨u, hu, e⟩
      rw [List.append_cons] at e
      refine ⟨?_, fun sim' b hf => ⟨_, hu.feed hf, e⟩⟩
      obtain ⟨k, h3, _⟩ := canFeed_ok (nfa := l.nfa) (runs := sim) (c := c)
        (fun r hr => ⟨_, wf.getState (((hu.mem wf r).1 hr).lt wf)⟩)
      have h4 := (hu.canFeed wf h3).2 (by rw [← e] at hx; exact hx.prefix)
      rw [h4] at h3
      exact h3) h2 hit ⟨[], .init h1, rfl⟩
  omega

end rules

end Pango.Lex
