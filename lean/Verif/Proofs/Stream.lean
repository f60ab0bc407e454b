import Verif.Proofs.Safe
import Verif.Props.LexStream

/-!
# Token streams of built lexers
-/

namespace Pango.Lex

open Pango Pango.Fsm Pango.Regex Pango.Spec Pango.Props

variable {σ K : Type} {m : Machine σ} {gs : Generators K} {rules : List (List Char → Prop)}
  {Live : List Char → Prop} {Sim : σ → List Char → Prop}

/-! ## Up to the first `None` -/

theorem lexAll_lossy (R : Reads m gs rules Live Sim) : ∀ {n : Nat} {it it' : InputIter} {ts : List (Tok K)},
    Fresh it → lexAll m gs n it = .ok (ts, it') →
    ∃ tail, LossyMunch rules (chars it.rest) (ts.map Tok.source) tail ∧ NotFound rules Live Sim tail ∧
      ∀ t ∈ ts, ∃ i, FirstMatch rules t.source i ∧ KindOf gs i t.source t.kind := by
  intro n
  induction n with
  | zero => intro it it' ts _ h; simp [lexAll] at h
  | succ n ih =>
    intro it it' ts hf h
    simp only [lexAll, Outcome.bind_eq_ok] at h
    obtain ⟨⟨r, it1⟩, h1, h2⟩ := h
    have hfound := lexNext_found R hf h1
    cases r with
    | none =>
      simp only [Outcome.pure_eq, Outcome.ok.injEq, Prod.mk.injEq] at h2
      obtain ⟨rfl, rfl⟩ := h2
      exact ⟨_, .stop, hfound, by simp⟩
    | some t =>
      simp only [Outcome.bind_eq_ok] at h2
      obtain ⟨⟨ts1, it2⟩, h3, h4⟩ := h2
      simp only [Outcome.pure_eq, Outcome.ok.injEq, Prod.mk.injEq] at h4
      obtain ⟨rfl, rfl⟩ := h4
      obtain ⟨a1, ⟨src, lost, a2, a3, _, _⟩, a4, a5⟩ := hfound
      obtain ⟨tail, c1, c2, c3⟩ := ih a1 h3
      refine ⟨tail, ?_, c2, ?_⟩
      · have e : chars it.rest = t.source ++ chars (it1.prev ++ (lost ++ it1.iter)) := by
          rw [a2, chars_append, a3]
        rw [e] at a4 ⊢
        refine .token a4 ?_ c1
        simp only [InputIter.rest, chars, List.map_append]
        exact (List.Sublist.refl _).append (List.sublist_append_right _ _)
      · intro t' ht'
        rcases List.mem_cons.1 ht' with rfl | ht'
        · exact a5
        · exact c3 t' ht'

/-- The position behind the last token. -/
def endOf (start : Nat) : List (Tok K) → Nat
  | [] => start
  | t :: ts => endOf t.pos.2 ts

theorem lexAll_exact (R : Reads m gs rules Live Sim) (oa : OneAhead rules Live) {input : List Char} :
    ∀ {n : Nat} {it it' : InputIter} {ts : List (Tok K)}, Exact input it → lexAll m gs n it = .ok (ts, it') →
    ∃ ws, Munch rules (input.drop it.pos.1) ws (input.drop (endOf it.pos.1 ts)) ∧
      ws.map Prod.fst = ts.map Tok.source ∧
      (∀ (k : Nat) w t, ws[k]? = some w → ts[k]? = some t → KindOf gs w.2 t.source t.kind) ∧
      ∀ t ∈ ts, t.source = (input.drop t.pos.1).take (t.pos.2 - t.pos.1) ∧
        Longest rules (input.drop t.pos.1) t.source := by
  intro n
  induction n with
  | zero => intro it it' ts _ h; simp [lexAll] at h
  | succ n ih =>
    intro it it' ts hi h
    simp only [lexAll, Outcome.bind_eq_ok] at h
    obtain ⟨⟨r, it1⟩, h1, h2⟩ := h
    have hstep := lexNext_exact R oa hi h1
    cases r with
    | none =>
      simp only [Outcome.pure_eq, Outcome.ok.injEq, Prod.mk.injEq] at h2
      obtain ⟨rfl, rfl⟩ := h2
      exact ⟨[], .stop hstep, rfl, by simp, by simp⟩
    | some t =>
      simp only [Outcome.bind_eq_ok] at h2
      obtain ⟨⟨ts1, it2⟩, h3, h4⟩ := h2
      simp only [Outcome.pure_eq, Outcome.ok.injEq, Prod.mk.injEq] at h4
      obtain ⟨rfl, rfl⟩ := h4
      obtain ⟨a1, a2, a3, a4, a5, a6, a7, i, a8, a9⟩ := hstep
      obtain ⟨ws, c1, c2, c3, c4⟩ := ih a1 h3
      refine ⟨(t.source, i) :: ws, ?_, by simp [c2], ?_, ?_⟩
      · have e : input.drop it.pos.1 = t.source ++ input.drop t.pos.2 := by
          rw [a4, ← List.drop_drop]
          conv => lhs; rw [← List.take_append_drop t.source.length (input.drop it.pos.1)]
          rw [← a6]
        simp only [endOf]
        rw [a2] at c1
        rw [e] at a7 ⊢
        exact .token a7 a8 c1
      · intro k w t' hw ht
        cases k with
        | zero =>
          simp only [List.getElem?_cons_zero, Option.some.injEq] at hw ht
          subst hw ht
          exact a9
        | succ k =>
          simp only [List.getElem?_cons_succ] at hw ht
          exact c3 k w t' hw ht
      · intro t' ht'
        rcases List.mem_cons.1 ht' with rfl | ht'
        · rw [a3, a4]
          refine ⟨?_, a7⟩
          rw [Nat.add_sub_cancel_left]
          exact a6
        · exact c4 t' ht'

/-! ## All calls -/

theorem Lexes.fresh_after {sim : σ} {kind : Option K} {it it' : InputIter} {r : Option (Tok K)}
    (h : Lexes m gs sim kind it r it') : r ≠ none → Fresh it' := by
  induction h with
  | stopNone => simp
  | stopSome => exact fun _ => ⟨rfl, rfl⟩
  | accept _ _ _ _ _ _ ih => exact ih
  | step _ _ _ _ ih => exact ih
  | eofSome => exact fun _ => ⟨rfl, rfl⟩
  | eofNone => simp

theorem Lexes.source_prefix {sim : σ} {kind : Option K} {it it' : InputIter} {r : Option (Tok K)}
    (h : Lexes m gs sim kind it r it') : ∀ t, r = some t →
    it.source <+: t.source ∧ (kind = none → it.source ++ chars it.suffix <+: t.source) := by
  induction h with
  | stopNone => simp
  | stopSome hn =>
    rintro t ⟨⟩
    obtain ⟨p, h1, h2, h3, _⟩ := next_some hn
    exact ⟨by rw [h3]; exact List.prefix_refl _, by simp⟩
  | accept hn _ _ _ _ _ ih =>
    intro t ht
    obtain ⟨p, h1, h2, h3, _⟩ := next_some hn
    have := (ih t ht).1
    have h4 := (List.prefix_append _ _).trans this
    have h5 : ∀ it : InputIter, it.acceptSuffix.source = it.source ++ chars it.suffix := fun _ => rfl
    rw [h5, h3, h2, chars_append, ← List.append_assoc] at this
    refine ⟨?_, fun _ => (List.prefix_append _ _).trans this⟩
    rw [List.append_assoc] at this
    exact (List.prefix_append _ _).trans this
  | step hn _ _ _ ih =>
    intro t ht
    obtain ⟨p, h1, h2, h3, _⟩ := next_some hn
    obtain ⟨k1, k2⟩ := ih t ht
    rw [h3] at k1
    refine ⟨k1, fun hk => ?_⟩
    have := k2 hk
    rw [h3, h2, chars_append, ← List.append_assoc] at this
    exact (List.prefix_append _ _).trans this
  | eofSome hn =>
    rintro t ⟨⟩
    obtain ⟨rfl, _⟩ := next_none hn
    exact ⟨List.prefix_refl _, by simp⟩
  | eofNone => simp

theorem Lexes.none_after (R : Reads m gs rules Live Sim) {sim : σ} {kind : Option K} {it it' : InputIter}
    {r : Option (Tok K)} (h : Lexes m gs sim kind it r it') : r = none →
    it'.pending = 0 ∨ (kind = none ∧ it'.source = it.source ∧ it.suffix <+: it'.suffix ∧
      (Sim sim (chars it.suffix) → ¬ Live (chars it'.suffix))) := by
  induction h with
  | stopNone hn hcf =>
    intro _
    obtain ⟨p, h1, h2, h3, _⟩ := next_some hn
    refine .inr ⟨rfl, h3, by rw [h2]; exact List.prefix_append _ _, fun hs hl => ?_⟩
    rw [h2] at hl
    have := (R.canFeed hs hcf).2 (by simpa using hl)
    cases this
  | stopSome => simp
  | accept _ _ _ _ _ _ ih =>
    intro hr
    rcases ih hr with h | ⟨h, _⟩
    · exact .inl h
    · cases h
  | step hn hcf hfeed _ ih =>
    intro hr
    rcases ih hr with h | ⟨k1, k2, k3, k4⟩
    · exact .inl h
    · obtain ⟨p, h1, h2, h3, _⟩ := next_some hn
      rw [h2] at k3 k4
      refine .inr ⟨k1, k2.trans h3, (List.prefix_append _ _).trans k3, fun hs => k4 ?_⟩
      have := (R.feed hs hfeed).1
      simpa using this
  | eofSome => simp
  | eofNone hn =>
    intro _
    obtain ⟨rfl, h1, h2⟩ := next_none hn
    exact .inl (by simp [InputIter.pending, h1, h2])

/-- What holds between two calls. -/
def Between (Live : List Char → Prop) (it : InputIter) : Prop :=
  Fresh it ∨ it.pending = 0 ∨ (it.source = [] ∧ ¬ Live (chars it.suffix))

theorem lexCalls_first (R : Reads m gs rules Live Sim) : ∀ {n : Nat} {it it' : InputIter}
    {as : List (Option (Tok K))}, Between Live it → lexCalls m gs n it = .ok (as, it') →
    ∀ t ∈ returned as, ∀ i, FirstMatch rules t.source i → KindOf gs i t.source t.kind := by
  intro n
  induction n with
  | zero =>
    intro it it' as _ h t ht
    simp only [lexCalls, Outcome.ok.injEq, Prod.mk.injEq] at h
    rw [← h.1] at ht
    cases ht
  | succ n ih =>
    intro it it' as hb h t ht
    by_cases hp : it.pending = 0
    · have hnone := calls_none h hp
      simp only [returned, List.mem_filterMap, id] at ht
      obtain ⟨a, ha, rfl⟩ := ht
      cases hnone _ ha
    simp only [lexCalls, Outcome.bind_eq_ok] at h
    obtain ⟨⟨a, it1⟩, h1, ⟨as1, it2⟩, h2, h3⟩ := h
    simp only [Outcome.pure_eq, Outcome.ok.injEq, Prod.mk.injEq] at h3
    obtain ⟨rfl, rfl⟩ := h3
    simp only at h2
    obtain ⟨sim, hsim, hl⟩ := lexNext_ok h1
    have hb' : Between Live it1 := by
      cases a with
      | some t => exact .inl (hl.fresh_after (by simp))
      | none =>
        rcases hl.none_after R rfl with h | ⟨_, k1, k2, k3⟩
        · exact .inr (.inl h)
        · rcases hb with hf | hp' | ⟨hs, hd⟩
          · refine .inr (.inr ⟨by rw [k1, hf.1], k3 ?_⟩)
            rw [hf.2]
            exact R.start hsim
          · exact absurd hp' hp
          · refine .inr (.inr ⟨by rw [k1, hs], fun hlive => hd ?_⟩)
            obtain ⟨x, hx⟩ := k2
            rw [← hx, chars_append] at hlive
            exact R.live' hlive
    cases a with
    | none => exact ih hb' h2 t ht
    | some t0 =>
      simp only [returned, List.filterMap_cons, id, List.mem_cons] at ht
      rcases ht with rfl | ht
      · intro i hi
        rcases hb with hf | hp' | ⟨hs, hd⟩
        · obtain ⟨_, _, _, j, hj, hk⟩ := lexNext_found R hf h1
          rw [hi.unique hj]
          exact hk
        · exact absurd hp' hp
        · exfalso
          obtain ⟨x, hx⟩ := (hl.source_prefix t rfl).2 rfl
          rw [hs, List.nil_append] at hx
          obtain ⟨M, hM, hm⟩ := hi.isMatch
          refine hd (R.live (v := x) ⟨M, List.mem_of_getElem? hM, ?_⟩)
          rw [hx]
          exact hm
      · exact ih hb' h2 t ht

/-! ## Built lexers -/

variable [Unicode] {p : Profile} {patterns : List (List Char × (List Char → K))} {l : Lexer K}
  {es : List Expr}

/-- What rule `i` makes of a source. -/
def kindAt (patterns : List (List Char × (List Char → K))) (i : Nat) (source : List Char) : Option K :=
  (patterns[i]?).map fun r => r.2 source

omit [Unicode] in
theorem Built.kindAt (b : Built p patterns l es) {i : Nat} {src : List Char} {k : K}
    (h : KindOf l.tokens i src k) : kindAt patterns i src = some k := by
  obtain ⟨f, g, h1, rfl⟩ := h
  have := congrArg (fun l => l[i]?) b.gens
  simp only [List.getElem?_map, h1, Option.map_some] at this
  cases hp : patterns[i]? with
  | none => rw [hp] at this; cases this
  | some r =>
    rw [hp, Option.map_some, Option.some.injEq] at this
    simp [Lex.kindAt, hp, this]

omit [Unicode] in
theorem parsed_unique {es es' : List Expr} (h : patterns.map (fun r => parse p r.1) = es.map (fun e => .ok (.ok e)))
    (h' : patterns.map (fun r => parse p r.1) = es'.map (fun e => .ok (.ok e))) : es = es' := by
  rw [h] at h'
  refine List.map_inj_right (f := fun e => (Outcome.ok (Except.ok e) : Outcome (Except (List ParseError) Expr))) ?_ |>.1 h'
  intro a b hab
  cases hab
  rfl

theorem answers_iff {e : Expr} (hc : ¬ HasEmptySeq e) (hr : RepeatsNonEmpty e) (hs : CountsAtStart e)
    (w : List Char) : Answers e w true ↔ Matches e w := by
  obtain ⟨nfa, h1, fuel, h2⟩ := c10_matches_partial e hc hr hs
  constructor
  · rintro ⟨nfa', fuel', h3, h4⟩
    rw [h1] at h3
    cases h3
    obtain ⟨b, h5, h6⟩ := h2 (max fuel fuel') (Nat.le_max_left _ _) w
    have := simulate_unique h4 h5
    exact h6.1 this.symm
  · intro hm
    obtain ⟨b, h5, h6⟩ := h2 fuel (Nat.le_refl _) w
    rw [h6.2 hm] at h5
    exact ⟨nfa, fuel, h1, h5⟩

theorem Built.alone_eq (b : Built p patterns l es) (hr : Regular es) : alone es = languages es := by
  refine List.map_congr_left fun e he => funext fun w => propext ?_
  exact answers_iff (b.compiles e he) (hr e he).1 (hr e he).2 w

theorem Built.mayRead (b : Built p patterns l es) (hr : Regular es) {w : List Char} (hw : w ≠ [])
    (h : ∃ r, RunsAt l.nfa w r) : ∃ e ∈ es, MayRead e w := by
  have mem : ∀ r ∈ fragTrees 2 es, ∃ e ∈ es, ∃ f, r = ((frag e 0 f (f + 1)).1, f) := by
    rw [finalsFrom_frag]
    intro r hr'
    obtain ⟨⟨e, f⟩, h1, rfl⟩ := List.mem_map.1 hr'
    refine ⟨e, ?_, f, rfl⟩
    rw [← finalsFrom_fst 2 es]
    exact List.mem_map.2 ⟨_, h1, rfl⟩
  obtain ⟨r, h⟩ := h
  have ho : ∀ r ∈ fragTrees 2 es, r.1.HeadOk := by
    intro r' hr'
    obtain ⟨e, he, f, rfl⟩ := mem r' hr'
    exact frag_headOk e (b.compiles e he) (hr e he).2 _ _ _
  rcases b.parts.bundle.mayRead ho h with h | ⟨r', hr', h⟩
  · exact absurd h hw
  · obtain ⟨e, he, f, rfl⟩ := mem r' hr'
    exact ⟨e, he, frag_pre e (b.compiles e he) _ _ _ w h⟩

theorem Built.oneAhead (b : Built p patterns l es) (hr : Regular es) (ho : OneLookahead es) :
    OneAhead (languages es) (fun w => ∃ r, RunsAt l.nfa w r) :=
  fun w c hw hm hl => ho w c hw hm (b.mayRead hr (by simp) hl)

theorem Built.readsLanguages (b : Built p patterns l es) (hr : Regular es) (fuel : Nat) :
    Reads (nfaMachine l.nfa fuel) l.tokens (languages es) (fun w => ∃ r, RunsAt l.nfa w r)
      (fun runs w => Fed l.nfa fuel w runs) := by
  rw [← b.alone_eq hr]
  exact b.reads fuel

end Pango.Lex
