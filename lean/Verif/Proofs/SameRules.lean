import Verif.Proofs.Safe
import Verif.Proofs.SimOrder
import Verif.Proofs.Stream

/-!
# Lexers with the same rules

The automata of two lexers whose rules are the same up to order and repetition are fed the same words.
-/

namespace Pango.Fsm

open Pango Pango.Regex Pango.Spec Pango.Props

variable [Unicode] {nfa nfa' : Nfa} {rs rs' : List (Fr × Nat)} {ps ps' : List (Expr × Nat)}

/-- What a lexer does with a character is what one of its patterns does with it. -/
theorem Parts.charStep_out (h : Parts nfa rs ps) {w : List Char} {c : Char} {r s : Run}
    (hr : RunsAt nfa w r) (hs : CharStep nfa r c s) :
    ∃ e f one r' s', (e, f) ∈ ps ∧ Part nfa rs e f one ∧ s = s'.shift f ∧ RunsAt one w r' ∧
      CharStep one r' c s' ∧ s.state ∈ f :: (frag e 0 f (f + 1)).1.inner := by
  cases hs with
  | @mk l d he hc =>
    rcases h.runs_out hr with ⟨rfl, rfl⟩ | ⟨e, f, one, r', hp, p, rfl, h1, h2⟩
    · obtain ⟨e, f, one, x', y', hp, p, h1, rfl, h3⟩ := h.edge he
      have : x' = 0 := by
        simp only at h1
        rw [← shift_zero f] at h1; exact (shift_inj.1 h1).symm
      subst this
      refine ⟨e, f, one, ⟨0, []⟩, (⟨0, []⟩ : Run).takeTransition y' false, hp, p, ?_, .init ?_, .mk h3 hc,
        (p.target h3).2⟩
      · rw [Run.take_shift]; rfl
      · rw [p.single.start]; exact .refl 0
    · obtain ⟨y', rfl, h3⟩ := p.edge_out h2 he
      exact ⟨e, f, one, r', _, hp, p, (Run.take_shift f r' y' false).symm, h1, .mk h3 hc, (p.target h3).2⟩

/-- The part of another lexer for the same pattern. -/
theorem Parts.other (h' : Parts nfa' rs' ps') (hsub : ∀ e ∈ ps.map Prod.fst, e ∈ ps'.map Prod.fst)
    {e : Expr} {f : Nat} {one : Nfa} (hp : (e, f) ∈ ps) (p : Part nfa rs e f one) :
    ∃ f', (e, f') ∈ ps' ∧ Part nfa' rs' e f' one := by
  obtain ⟨⟨e', f'⟩, h1, h2⟩ := List.mem_map.1 (hsub e (List.mem_map.2 ⟨_, hp, rfl⟩))
  simp only at h2
  subst h2
  obtain ⟨one', p'⟩ := h'.part h1
  have := p'.compiled
  rw [p.compiled] at this
  cases this
  exact ⟨f', h1, p'⟩

/-- If a lexer can read a word, so can a lexer that has its rules. -/
theorem Parts.live (h : Parts nfa rs ps) (h' : Parts nfa' rs' ps')
    (hsub : ∀ e ∈ ps.map Prod.fst, e ∈ ps'.map Prod.fst) {w : List Char} (hr : ∃ r, RunsAt nfa w r) :
    ∃ r, RunsAt nfa' w r := by
  obtain ⟨r, hr⟩ := hr
  rcases h.runs_out hr with ⟨rfl, _⟩ | ⟨e, f, one, r', hp, p, _, h1, _⟩
  · exact ⟨_, .init (.refl _)⟩
  · obtain ⟨f', _, p'⟩ := h'.other hsub hp p
    exact ⟨_, p'.runs_in h1⟩

/-- If the loops of a lexer end for a word, so do those of a lexer that has no other rules. -/
theorem Parts.fed (h : Parts nfa rs ps) (h' : Parts nfa' rs' ps')
    (hsub : ∀ e ∈ ps'.map Prod.fst, e ∈ ps.map Prod.fst) {fuel : Nat} {v : List Char} {runs : List Run}
    (hf : Fed nfa fuel v runs) : ∃ runs', Fed nfa' (max fuel nfa'.states.length) v runs' := by
  have wf := h.bundle.wf
  have wf' := h'.bundle.wf
  induction hf with
  | init _ =>
    obtain ⟨runs', h1⟩ := initRuns_exists wf' (Nat.le_max_right fuel nfa'.states.length)
    exact ⟨runs', .init h1⟩
  | @feed v c runs runs' b hfed hf ih =>
    obtain ⟨runs1, h1⟩ := ih
    have hmem := h1.mem wf'
    have hlt : ∀ r ∈ runs1, r.state < nfa'.states.length := fun r hr => ((hmem r).1 hr).lt wf'
    have hlt' : ∀ r ∈ runs, r.state < nfa.states.length := fun r hr => ((hfed.mem wf r).1 hr).lt wf
    have hok := (feedRuns_iff wf hlt').1 ⟨_, (feed_ok hf).1⟩
    obtain ⟨runs2, h2⟩ := (feedRuns_iff (fuel := max fuel nfa'.states.length) (c := c) wf' hlt).2 (by
      intro r hr s hs
      obtain ⟨e, f', one, r', s', hp', p', rfl, hr', hs', hin⟩ := h'.charStep_out ((hmem r).1 hr) hs
      obtain ⟨f, hp, p⟩ := h.other hsub hp' p'
      obtain ⟨u, hu1, hu2⟩ := hok _ ((hfed.mem wf _).2 (p.runs_in hr')) _ (p.charStep_in hs')
      obtain ⟨u', h3, h4⟩ := exists_preimage (P := fun t => ER one s' t) (f := fun t : Run => t.shift f)
        (fun a b h => Run.shift_inj h) (fun t ht => hu1 _ (p.er_in ht))
      refine ⟨u'.map (fun t => t.shift f'), ?_, ?_⟩
      · intro t ht
        obtain ⟨t', rfl, h5, _⟩ := p'.er_out hin ht
        exact List.mem_map.2 ⟨t', h3 _ h5, rfl⟩
      · have := Nat.le_max_left fuel nfa'.states.length
        rw [List.length_map]
        omega)
    obtain ⟨acc, h3, _⟩ := feed_of_feedRuns h2
    exact ⟨runs2, h1.feed h3⟩

/-- A machine is in one state after a word. -/
theorem Fed.unique {fuel : Nat} {v : List Char} {runs runs' : List Run} (h : Fed nfa fuel v runs)
    (h' : Fed nfa fuel v runs') : runs = runs' := by
  induction h generalizing runs' with
  | init h =>
    generalize hv : ([] : List Char) = v at h'
    cases h' with
    | init h2 => rw [h] at h2; cases h2; rfl
    | feed => simp at hv
  | @feed v c runs runs1 b _ hf ih =>
    generalize hv : v ++ [c] = w at h'
    cases h' with
    | init h2 => simp at hv
    | feed h2 h3 =>
      obtain ⟨rfl, h4⟩ := List.append_inj' hv rfl
      cases h4
      cases ih h2
      rw [hf] at h3
      cases h3
      rfl

end Pango.Fsm

namespace Pango.Lex

open Pango Pango.Fsm Pango.Regex Pango.Spec Pango.Props

variable [Unicode] {K : Type} {p : Profile} {rules rules' : List (List Char × (List Char → K))}
  {l l' : Lexer K} {es es' : List Expr}

/-- Two lexers have the same trees and, for each word, the first rules that match it make the same kinds. -/
structure SameRules (rules rules' : List (List Char × (List Char → K))) (es es' : List Expr) : Prop where
  trees : ∀ e, e ∈ es ↔ e ∈ es'
  kinds : ∀ w i i', FirstMatch (alone es) w i → FirstMatch (alone es') w i' →
    ∀ source, kindAt rules i source = kindAt rules' i' source

theorem SameRules.symm (h : SameRules rules rules' es es') : SameRules rules' rules es' es :=
  ⟨fun e => (h.trees e).symm, fun w i i' h1 h2 source => (h.kinds w i' i h2 h1 source).symm⟩

theorem SameRules.any (h : SameRules rules rules' es es') {w : List Char} :
    AnyMatch (alone es) w ↔ AnyMatch (alone es') w := by
  constructor
  · rintro ⟨M, hM, hw⟩
    obtain ⟨e, he, rfl⟩ := List.mem_map.1 hM
    exact ⟨_, List.mem_map.2 ⟨e, (h.trees e).1 he, rfl⟩, hw⟩
  · rintro ⟨M, hM, hw⟩
    obtain ⟨e, he, rfl⟩ := List.mem_map.1 hM
    exact ⟨_, List.mem_map.2 ⟨e, (h.trees e).2 he, rfl⟩, hw⟩

/-- Lexers with the same rules go through the loop in the same way. -/
theorem SameRules.lexLoop (h : SameRules rules rules' es es') (b : Built p rules l es)
    (b' : Built p rules' l' es') {fuel : Nat} : ∀ {w : List Char} {s t : List Run} {kind : Option K}
    {it : InputIter} {res : Option (Tok K) × InputIter}, Fed l.nfa fuel w s →
    Fed l'.nfa (max fuel l'.nfa.states.length) w t →
    lexLoop (nfaMachine l.nfa fuel) l.tokens s kind it = .ok res →
    lexLoop (nfaMachine l'.nfa (max fuel l'.nfa.states.length)) l'.tokens t kind it = .ok res := by
  intro w s t kind it res
  have R := b.reads fuel
  have R' := b'.reads (max fuel l'.nfa.states.length)
  have S' := b'.safe (max fuel l'.nfa.states.length)
  have sub : ∀ e ∈ (finalsFrom 2 es).map Prod.fst, e ∈ (finalsFrom 2 es').map Prod.fst := by
    rw [finalsFrom_fst, finalsFrom_fst]
    exact fun e he => (h.trees e).1 he
  have sub' : ∀ e ∈ (finalsFrom 2 es').map Prod.fst, e ∈ (finalsFrom 2 es).map Prod.fst := by
    rw [finalsFrom_fst, finalsFrom_fst]
    exact fun e he => (h.trees e).2 he
  induction hn : it.pending using Nat.strongRecOn generalizing w s t kind it with
  | ind n ih =>
    intro hs ht hres
    rw [Lex.lexLoop] at hres ⊢
    split at hres
    · rename_i ch it1 hnext
      obtain ⟨c', hc'⟩ := S'.canFeed ch ⟨w, ht⟩
      have hc2 := R'.canFeed ht hc'
      cases hcan : (nfaMachine l.nfa fuel).canFeed s ch with
      | panic => rw [hcan] at hres; cases hres
      | diverge => rw [hcan] at hres; cases hres
      | ok c =>
        have hc1 := R.canFeed hs hcan
        have hcc : c = c' := by
          have : c = true ↔ c' = true := by
            rw [hc1, hc2]
            exact ⟨fun hl => b.parts.live b'.parts sub hl, fun hl => b'.parts.live b.parts sub' hl⟩
          cases c <;> cases c' <;> simp_all
        subst hcc
        rw [hcan] at hres
        rw [hc']
        cases c with
        | false => exact hres
        | true =>
          simp only at hres ⊢
          cases hfeed : (nfaMachine l.nfa fuel).feed s ch with
          | panic => rw [hfeed] at hres; cases hres
          | diverge => rw [hfeed] at hres; cases hres
          | ok x =>
            obtain ⟨s1, a⟩ := x
            obtain ⟨hs1, ha⟩ := R.feed hs hfeed
            obtain ⟨t1, ht1⟩ := b.parts.fed b'.parts sub' hs1
            -- the other machine is fed as well
            obtain ⟨a', hfeed'⟩ : ∃ a', (nfaMachine l'.nfa (max fuel l'.nfa.states.length)).feed t ch =
                .ok (t1, a') := by
              generalize hv : w ++ [ch] = v at ht1
              cases ht1 with
              | init _ => simp at hv
              | @feed w2 c2 t2 _ a2 h2 h3 =>
                obtain ⟨rfl, h4⟩ := List.append_inj' hv rfl
                cases h4
                cases ht.unique h2
                exact ⟨a2, h3⟩
            have ha' := (R'.feed ht hfeed').2
            have haa : a = a' := by
              have : a = true ↔ a' = true := by rw [ha, ha', h.any]
              cases a <;> cases a' <;> simp_all
            subst haa
            rw [hfeed] at hres
            rw [hfeed']
            cases a with
            | false =>
              simp only at hres ⊢
              exact ih _ (hn ▸ InputIter.pending_next hnext) rfl hs1 ht1 hres
            | true =>
              simp only at hres ⊢
              obtain ⟨f', fs', g', hfin', hget'⟩ := S'.finals ⟨w, ht⟩ hfeed'
              cases hfin : (nfaMachine l.nfa fuel).finals s1 with
              | nil => rw [hfin] at hres; cases hres
              | cons f fs =>
                rw [hfin] at hres
                simp only at hres
                cases hget : l.tokens.get f with
                | none => rw [hget] at hres; cases hres
                | some g =>
                  rw [hget] at hres
                  rw [hfin']
                  simp only [hget'] at hres ⊢
                  obtain ⟨i, hi, hk⟩ := R.first hs1 hfin hget
                  obtain ⟨i', hi', hk'⟩ := R'.first ht1 hfin' hget'
                  have hgg : g = g' := by
                    funext source
                    have h1 := b.kindAt (hk source)
                    have h2 := b'.kindAt (hk' source)
                    rw [h.kinds _ _ _ hi hi' source, h2] at h1
                    exact (Option.some.inj h1).symm
                  subst hgg
                  refine ih _ ?_ rfl hs1 ht1 hres
                  rw [InputIter.pending_accept, ← hn]
                  exact InputIter.pending_next hnext
    · rename_i it1 hnext
      obtain ⟨c', hc'⟩ := S'.isAccepting ⟨w, ht⟩
      have hc2 := R'.isAccepting ht hc'
      cases hacc : (nfaMachine l.nfa fuel).isAccepting s with
      | panic => rw [hacc] at hres; cases hres
      | diverge => rw [hacc] at hres; cases hres
      | ok c =>
        have hc1 := R.isAccepting hs hacc
        have hcc : c = c' := by
          have : c = true ↔ c' = true := by rw [hc1, hc2, h.any]
          cases c <;> cases c' <;> simp_all
        subst hcc
        rw [hacc] at hres
        rw [hc']
        exact hres

theorem SameRules.lexNext (h : SameRules rules rules' es es') (b : Built p rules l es)
    (b' : Built p rules' l' es') {fuel : Nat} {it : InputIter} {res : Option (Tok K) × InputIter}
    (hres : lexNext (nfaMachine l.nfa fuel) l.tokens it = .ok res) :
    lexNext (nfaMachine l'.nfa (max fuel l'.nfa.states.length)) l'.tokens it = .ok res := by
  simp only [Lex.lexNext, Outcome.bind_eq_ok] at hres ⊢
  obtain ⟨s, hs, hres⟩ := hres
  obtain ⟨t, ht⟩ := initRuns_exists b'.parts.bundle.wf (Nat.le_max_right fuel l'.nfa.states.length)
  exact ⟨t, ht, h.lexLoop b b' (.init hs) (.init ht) hres⟩

theorem SameRules.lexCalls (h : SameRules rules rules' es es') (b : Built p rules l es)
    (b' : Built p rules' l' es') {fuel : Nat} : ∀ {n : Nat} {it : InputIter}
    {res : List (Option (Tok K)) × InputIter},
    lexCalls (nfaMachine l.nfa fuel) l.tokens n it = .ok res →
    lexCalls (nfaMachine l'.nfa (max fuel l'.nfa.states.length)) l'.tokens n it = .ok res := by
  intro n
  induction n with
  | zero => exact fun hres => hres
  | succ n ih =>
    intro it res hres
    simp only [Lex.lexCalls, Outcome.bind_eq_ok] at hres ⊢
    obtain ⟨⟨a, it1⟩, h1, ⟨as, it2⟩, h2, h3⟩ := hres
    exact ⟨_, h.lexNext b b' h1, _, ih h2, h3⟩

end Pango.Lex
