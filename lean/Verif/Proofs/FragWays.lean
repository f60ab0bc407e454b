import Verif.Proofs.Count
import Verif.Spec.OneWay

/-!
# The fragments of patterns that can be read in one way only
-/

namespace Pango.Fsm

open Pango Pango.Regex Pango.Spec Pango.Props

variable [Unicode]

theorem frag_nul_matches (e : Expr) (he : ¬ HasEmptySeq e) {s t n : Nat} (h : (frag e s t n).1.Nul) : Matches e [] :=
  (frag_lang e he s t n []).1 (Fr.nul_lang h)

theorem fragConcat_nul_matches (es : List Expr) (hne : es ≠ []) (he : ¬ AnyEmptySeq es) {s t n : Nat}
    (h : (fragConcat es s t n).1.Nul) : Matches (.concat es) [] :=
  (fragConcat_lang es hne he s t n []).1 (Fr.nul_lang h)

mutual

theorem frag_opens (e : Expr) (he : ¬ HasEmptySeq e) {s t n : Nat} {c : Char} (h : (frag e s t n).1.Ahead c) :
    Opens e c := by
  match e with
  | .concat es =>
    simp only [HasEmptySeq, not_or] at he
    rw [frag] at h
    rw [Opens]
    exact fragConcat_opens es he.2 h
  | .empty => rw [frag] at h; exact h.elim
  | .alt l r =>
    simp only [HasEmptySeq, not_or] at he
    rw [frag] at h
    rw [Opens]
    exact h.imp (frag_opens l he.1) (frag_opens r he.2)
  | .lit l none => rw [frag] at h; rw [Opens]; exact (c08_literal_sets l c).1 h
  | .lit l (some q) => rw [frag] at h; rw [Opens]; exact (c08_literal_sets l c).1 h
  | .group e none =>
    rw [frag] at h
    rw [Opens]
    exact frag_opens e (by simpa [HasEmptySeq] using he) h
  | .group e (some q) =>
    rw [frag] at h
    rw [Opens]
    exact frag_opens e (by simpa [HasEmptySeq] using he) (n := n + 1) h

theorem fragConcat_opens (es : List Expr) (he : ¬ AnyEmptySeq es) {s t n : Nat} {c : Char}
    (h : (fragConcat es s t n).1.Ahead c) : OpensSeq es c := by
  match es with
  | [] => rw [fragConcat] at h; exact h.elim
  | [e] =>
    simp only [AnyEmptySeq, or_false] at he
    rw [fragConcat] at h
    rw [OpensSeq]
    exact .inl (frag_opens e he h)
  | e :: e' :: es =>
    rw [AnyEmptySeq, not_or] at he
    rw [fragConcat.eq_3 _ _ _ _ _ (by simp)] at h
    rw [OpensSeq]
    rcases h with h | ⟨h1, h2⟩
    · exact .inl (frag_opens e he.1 h)
    · exact .inr ⟨frag_nul_matches e he.1 h1, fragConcat_opens (e' :: es) he.2 h2⟩

end

theorem frag_next (e : Expr) (he : ¬ HasEmptySeq e) {s t n : Nat} {c : Char} {after : Char → Prop}
    (h : (frag e s t n).1.Next after c) : Opens e c ∨ (Matches e [] ∧ after c) :=
  h.imp (frag_opens e he) (And.imp_left (frag_nul_matches e he))

mutual

theorem frag_oneWay (e : Expr) (he : ¬ HasEmptySeq e) {after : Char → Prop} (h : OneWay e after) (s t n : Nat) :
    (frag e s t n).1.OneWay after := by
  match e with
  | .concat es =>
    simp only [HasEmptySeq, not_or] at he
    rw [OneWay] at h
    rw [frag]
    exact fragConcat_oneWay es he.2 h s t n
  | .empty => rw [frag]; trivial
  | .alt l r =>
    simp only [HasEmptySeq, not_or] at he
    rw [OneWay] at h
    rw [frag]
    exact ⟨frag_oneWay l he.1 h.1 _ _ _, frag_oneWay r he.2 h.2.1 _ _ _,
      fun c h1 h2 => h.2.2 c ⟨frag_next l he.1 h1, frag_next r he.2 h2⟩⟩
  | .lit l none => rw [frag]; trivial
  | .lit l (some q) =>
    rw [OneWay] at h
    rw [frag]
    exact ⟨trivial, fun c h1 h2 => h c ⟨(c08_literal_sets l c).1 h1, h2⟩⟩
  | .group e none =>
    rw [OneWay] at h
    rw [frag]
    exact frag_oneWay e (by simpa [HasEmptySeq] using he) h _ _ _
  | .group e (some q) =>
    simp only [HasEmptySeq] at he
    rw [OneWay] at h
    rw [frag]
    exact ⟨(frag_oneWay e he h.1 n n (n + 1)).mono fun c => Or.imp_left (frag_opens e he),
      fun c h1 h2 => h.2 c ⟨frag_opens e he h1, h2⟩⟩

theorem fragConcat_oneWay (es : List Expr) (he : ¬ AnyEmptySeq es) {after : Char → Prop} (h : OneWaySeq es after)
    (s t n : Nat) : (fragConcat es s t n).1.OneWay after := by
  match es with
  | [] => rw [fragConcat]; trivial
  | [e] =>
    simp only [AnyEmptySeq, or_false] at he
    rw [OneWaySeq] at h
    rw [fragConcat]
    exact (frag_oneWay e he h.1 s t n).mono fun c hc => .inr ⟨.nil, hc⟩
  | e :: e' :: es =>
    rw [AnyEmptySeq, not_or] at he
    rw [OneWaySeq] at h
    rw [fragConcat.eq_3 _ _ _ _ _ (by simp)]
    exact ⟨(frag_oneWay e he.1 h.1 _ _ _).mono fun c => Or.imp (fragConcat_opens (e' :: es) he.2)
      (And.imp_left (fragConcat_nul_matches (e' :: es) (by simp) he.2)), fragConcat_oneWay (e' :: es) he.2 h.2 _ _ _⟩

end

mutual

theorem frag_loopsOneWay (e : Expr) (he : ¬ HasEmptySeq e) (h : RepeatsOneWay e) (s t n : Nat) :
    (frag e s t n).1.LoopsOneWay := by
  match e with
  | .concat es =>
    simp only [HasEmptySeq, not_or] at he
    rw [RepeatsOneWay] at h
    rw [frag]
    exact fragConcat_loopsOneWay es he.2 h s t n
  | .empty => rw [frag]; trivial
  | .alt l r =>
    simp only [HasEmptySeq, not_or] at he
    rw [RepeatsOneWay] at h
    rw [frag]
    exact ⟨frag_loopsOneWay l he.1 h.1 _ _ _, frag_loopsOneWay r he.2 h.2 _ _ _⟩
  | .lit l none => rw [frag]; trivial
  | .lit l (some q) => rw [frag]; trivial
  | .group e none =>
    rw [RepeatsOneWay] at h
    rw [frag]
    exact frag_loopsOneWay e (by simpa [HasEmptySeq] using he) h _ _ _
  | .group e (some q) =>
    simp only [HasEmptySeq] at he
    rw [RepeatsOneWay] at h
    rw [frag]
    exact (frag_oneWay e he h n n (n + 1)).mono fun c => frag_opens e he

theorem fragConcat_loopsOneWay (es : List Expr) (he : ¬ AnyEmptySeq es) (h : RepeatsOneWayAll es) (s t n : Nat) :
    (fragConcat es s t n).1.LoopsOneWay := by
  match es with
  | [] => rw [fragConcat]; trivial
  | [e] =>
    simp only [AnyEmptySeq, or_false] at he
    rw [RepeatsOneWayAll] at h
    rw [fragConcat]
    exact frag_loopsOneWay e he h.1 s t n
  | e :: e' :: es =>
    rw [AnyEmptySeq, not_or] at he
    rw [RepeatsOneWayAll] at h
    rw [fragConcat.eq_3 _ _ _ _ _ (by simp)]
    exact ⟨frag_loopsOneWay e he.1 h.1 _ _ _, fragConcat_loopsOneWay (e' :: es) he.2 h.2 _ _ _⟩

end

/-! ## The automaton of one fragment -/

variable {nfa : Nfa} {fr : Fr} {fin : Nat}

theorem Bundle.tame (b : Bundle nfa [(fr, fin)]) (clean : Clean nfa) (nn : fr.NonNull) (ow : fr.LoopsOneWay) :
    ∃ rk, (∀ x, rk x ≤ fr.height) ∧ Tame nfa (fun p κ => Quiets [(fr, fin)] κ p) rk := by
  have hr : (fr, fin) ∈ [(fr, fin)] := by simp
  have ok := b.ok hr
  have cl := b.closed hr
  have hE : ∀ x i y, nfa.HasEdge x i y ↔ fr.Edge x i y := by
    intro x i y
    rw [b.edges]
    simp
  have hst : (0 : Nat) ≠ fin := by
    have := b.nodup
    simp only [List.flatMap_cons, List.flatMap_nil, List.append_nil] at this
    intro e
    exact (List.nodup_cons.1 this).1 (by simp [e])
  obtain ⟨rk, h1, _, _, h4⟩ := Fr.exists_ranks (fr := fr) fr.height 0 ok hst (Nat.le_of_eq (Nat.zero_add _))
  have kept : ∀ p κ u d κ1, Quiets [(fr, fin)] κ p → CStep nfa.HasEdge p κ u d κ1 → Quiets [(fr, fin)] κ1 d :=
    fun p κ u d κ1 hq hs => hq.path b (.single hs)
  refine ⟨rk, h4, b.wf, clean, kept, fun x i y h => h1.le ok.shape ((hE x i y).1 h), ?_⟩
  intro c p κ i d i' d' hq f1 f2 l1 l2
  have hp : p ∈ fr.inner := by
    rcases Fr.edge_source ok.shape ((hE _ _ _).1 f1.1) with rfl | h
    · exact absurd f1.2 (Nat.ne_of_lt (h1.start ok ((hE _ _ _).1 f1.1)))
    · exact h
  exact Fr.flat_unique (Q := fun p κ => Quiets [(fr, fin)] κ p) (fun p κ d κ1 => kept p κ [] d κ1) ok cl nn
    (fun x i y => (hE x i y).2) (fun p κ h => h _ hr) h1 ow p hp κ i d i' d' hq f1 f2 l1 l2

theorem Bundle.tame_whole (b : Bundle nfa [(fr, fin)]) (clean : Clean nfa) (nn : fr.NonNull)
    (ow : fr.OneWay fun _ => False) : Tame nfa (fun p κ => Quiets [(fr, fin)] κ p) fun _ => 0 := by
  have hr : (fr, fin) ∈ [(fr, fin)] := by simp
  have ok := b.ok hr
  have cl := b.closed hr
  have hE : ∀ x i y, nfa.HasEdge x i y ↔ fr.Edge x i y := by
    intro x i y
    rw [b.edges]
    simp
  have kept : ∀ p κ u d κ1, Quiets [(fr, fin)] κ p → CStep nfa.HasEdge p κ u d κ1 → Quiets [(fr, fin)] κ1 d :=
    fun p κ u d κ1 hq hs => hq.path b (.single hs)
  have flat : Flat nfa.HasEdge (fun _ => 0) = nfa.HasEdge := by
    funext x i y
    exact propext ⟨And.left, fun h => ⟨h, rfl⟩⟩
  refine ⟨b.wf, clean, kept, fun _ _ _ _ => Nat.le_refl _, ?_⟩
  rw [flat]
  intro c p κ i d i' d' hq f1 f2 l1 l2
  obtain ⟨u1, u2⟩ := Fr.leads_unique (c := c) (Q := fun p κ => Quiets [(fr, fin)] κ p)
    (fun p κ d κ1 => kept p κ [] d κ1) ok cl nn (fun x i y => (hE x i y).2) (fun p κ h => h _ hr)
    (fun κ _ hc => by
      obtain ⟨i, d, h, _⟩ := hc.leads
      exact b.final_no_edge hr h) ow
  rcases Fr.edge_source ok.shape ((hE _ _ _).1 f1) with rfl | h
  · exact u2 κ i d i' d' hq ((hE _ _ _).1 f1) ((hE _ _ _).1 f2) l1 l2
  · exact u1 p h κ i d i' d' hq f1 f2 l1 l2

end Pango.Fsm
