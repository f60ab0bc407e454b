import Verif.Proofs.Scanning
import Verif.Proofs.SameRules
import Verif.Proofs.LexFuel
import Verif.Proofs.Live
import Verif.Props.Ends

/-!
# All calls of a built lexer
-/

namespace Pango.Lex

open Pango Pango.Fsm Pango.Regex Pango.Spec Pango.Props

variable [Unicode] {K : Type} {p : Profile} {patterns : List (List Char × (List Char → K))} {l : Lexer K}
  {es : List Expr}

omit [Unicode] in
/-- The fragments of a built lexer. -/
theorem mem_fragTrees {r : Fr × Nat} : r ∈ fragTrees 2 es ↔
    ∃ e f, (e, f) ∈ finalsFrom 2 es ∧ r = ((frag e 0 f (f + 1)).1, f) := by
  rw [finalsFrom_frag, List.mem_map]
  constructor
  · rintro ⟨⟨e, f⟩, h, rfl⟩
    exact ⟨e, f, h, rfl⟩
  · rintro ⟨e, f, h, rfl⟩
    exact ⟨_, h, rfl⟩

omit [Unicode] in
theorem mem_finalsFrom {e : Expr} {f : Nat} (h : (e, f) ∈ finalsFrom 2 es) : e ∈ es := by
  rw [← finalsFrom_fst 2 es]
  exact List.mem_map.2 ⟨_, h, rfl⟩

omit [Unicode] in
theorem exists_finalsFrom {e : Expr} (h : e ∈ es) : ∃ f, (e, f) ∈ finalsFrom 2 es := by
  rw [← finalsFrom_fst 2 es] at h
  obtain ⟨⟨e', f⟩, h1, rfl⟩ := List.mem_map.1 h
  exact ⟨f, h1⟩

/-- What a lexer can read. -/
theorem Built.live (b : Built p patterns l es) (w : List Char) : (∃ r, RunsAt l.nfa w r) ↔ Readable es w := by
  rw [b.parts.bundle.live_iff w, Readable]
  refine or_congr Iff.rfl ⟨?_, ?_⟩
  · rintro ⟨r, hr, h⟩
    obtain ⟨e, f, he, rfl⟩ := mem_fragTrees.1 hr
    exact ⟨e, mem_finalsFrom he, (frag_firstPre e (b.compiles e (mem_finalsFrom he)) _ _ _ w).1 h⟩
  · rintro ⟨e, he, h⟩
    obtain ⟨f, hf⟩ := exists_finalsFrom he
    exact ⟨_, mem_fragTrees.2 ⟨e, f, hf, rfl⟩, (frag_firstPre e (b.compiles e he) _ _ _ w).2 h⟩

/-- Where a lexer gets stuck. -/
theorem Built.spinning (b : Built p patterns l es) (w : List Char) :
    Bundle.Spinning l.nfa (fragTrees 2 es) w ↔ ∃ e ∈ es, SpinsFirst e w := by
  rw [b.parts.bundle.spinning_iff w]
  constructor
  · rintro ⟨r, hr, h⟩
    obtain ⟨e, f, he, rfl⟩ := mem_fragTrees.1 hr
    exact ⟨e, mem_finalsFrom he, (frag_firstSpins e (b.compiles e (mem_finalsFrom he)) _ _ _ w).1 h⟩
  · rintro ⟨e, he, h⟩
    obtain ⟨f, hf⟩ := exists_finalsFrom he
    exact ⟨_, mem_fragTrees.2 ⟨e, f, hf, rfl⟩, (frag_firstSpins e (b.compiles e he) _ _ _ w).2 h⟩

theorem Built.passes (b : Built p patterns l es) (v : List Char) :
    Passes es v ↔ ∀ w, w <+: v → ¬ Bundle.Spinning l.nfa (fragTrees 2 es) w := by
  constructor
  · intro h w hw hs
    obtain ⟨e, he, hs⟩ := (b.spinning w).1 hs
    exact h e he w hw hs
  · intro h e he w hw hs
    exact h w hw ((b.spinning w).2 ⟨e, he, hs⟩)

/-- What the rules accept of a word that the lexer has read. -/
theorem Built.answers_taken (b : Built p patterns l es) {fuel : Nat} {w : List Char} {runs : List Run}
    (h : Fed l.nfa fuel w runs) {e : Expr} (he : e ∈ es) : Answers e w true ↔ Taken e w := by
  have hx := (c10_exact_partial e (b.compiles e he)).1
  constructor
  · intro ha
    exact (hx w true ha).1 rfl
  · intro ht
    obtain ⟨f, hf⟩ := exists_finalsFrom he
    obtain ⟨one, q⟩ := b.parts.part hf
    obtain ⟨runs1, h1⟩ := q.fed h
    obtain ⟨acc, h2, _⟩ := isAccepting_ok (nfa := one) (runs := runs1)
      (fun r hr => ⟨_, q.single.wf.getState (((h1.mem q.single.wf r).1 hr).lt q.single.wf)⟩)
    have ha : Answers e w acc := ⟨one, _, q.compiled, fed_simulate h1 h2⟩
    have := (hx w acc ha).2 ht
    subst this
    exact ha

theorem Built.any_taken (b : Built p patterns l es) {fuel : Nat} {w : List Char} {runs : List Run}
    (h : Fed l.nfa fuel w runs) : AnyMatch (alone es) w ↔ AnyMatch (taken es) w := by
  constructor
  · rintro ⟨M, hM, ha⟩
    obtain ⟨e, he, rfl⟩ := List.mem_map.1 hM
    exact ⟨_, List.mem_map.2 ⟨e, he, rfl⟩, (b.answers_taken h he).1 ha⟩
  · rintro ⟨M, hM, ha⟩
    obtain ⟨e, he, rfl⟩ := List.mem_map.1 hM
    exact ⟨_, List.mem_map.2 ⟨e, he, rfl⟩, (b.answers_taken h he).2 ha⟩

theorem Built.readable_mono (b : Built p patterns l es) {w v : List Char} (h : Readable es (w ++ v)) :
    Readable es w := by
  rw [← b.live] at h ⊢
  exact (b.reads 0).live' h

theorem Built.readable_taken (b : Built p patterns l es) {w : List Char} (h : AnyMatch (taken es) w) :
    Readable es w := by
  obtain ⟨M, hM, h⟩ := h
  obtain ⟨e, he, rfl⟩ := List.mem_map.1 hM
  obtain ⟨f, hf⟩ := exists_finalsFrom he
  have hc := b.compiles e he
  rcases (frag_taken e hc 0 f (f + 1) w).2 h with ⟨rfl, _⟩ | ⟨b', h⟩
  · exact .inl rfl
  · exact .inr ⟨e, he, (frag_firstPre e hc 0 f (f + 1) w).1 (Fr.firstPre_of_first h)⟩

/-- The machine of a built lexer, in terms of its patterns. -/
theorem Built.readsTaken (b : Built p patterns l es) (fuel : Nat) :
    Reads (nfaMachine l.nfa fuel) l.tokens (taken es) (Readable es) (fun runs w => Fed l.nfa fuel w runs) := by
  have R := b.reads fuel
  refine ⟨R.keys, R.start, ?_, ?_, ?_, R.sorted, ?_, .inl rfl, ?_, b.readable_mono⟩
  · intro s w c b' hs h
    rw [← b.live]
    exact R.canFeed hs h
  · intro s s' w c b' hs h
    obtain ⟨h1, h2⟩ := R.feed hs h
    exact ⟨h1, h2.trans (b.any_taken h1)⟩
  · intro s w b' hs h
    exact (R.isAccepting hs h).trans (b.any_taken hs)
  · intro s w hs f
    rw [R.finals hs f]
    constructor
    · rintro ⟨i, M, g, h1, h2, h3⟩
      simp only [alone, List.getElem?_map, Option.map_eq_some_iff] at h2
      obtain ⟨e, he, rfl⟩ := h2
      refine ⟨i, _, g, h1, ?_, (b.answers_taken hs (List.mem_of_getElem? he)).1 h3⟩
      simp [taken, he]
    · rintro ⟨i, M, g, h1, h2, h3⟩
      simp only [taken, List.getElem?_map, Option.map_eq_some_iff] at h2
      obtain ⟨e, he, rfl⟩ := h2
      refine ⟨i, fun w => Answers e w true, g, h1, ?_, (b.answers_taken hs (List.mem_of_getElem? he)).2 h3⟩
      simp [alone, he]
  · intro w v h
    exact b.readable_mono (b.readable_taken h)

/-! ## Which calls return -/

theorem Bundle.feed_next {nfa : Nfa} {rs : List (Fr × Nat)} (bd : Bundle nfa rs) {fuel : Nat}
    (hf : simFuel nfa rs ≤ fuel) {w : List Char} {runs : List Run} (h : Fed nfa fuel w runs) (c : Char)
    (hn : ¬ Bundle.Spinning nfa rs (w ++ [c])) : ∃ r, nfa.feed fuel runs c = .ok r := by
  obtain ⟨runs', h'⟩ := bd.fed_next hf h c hn
  generalize hv : w ++ [c] = v at h'
  cases h' with
  | init => simp at hv
  | @feed w' c' runs0 _ acc h0 hfeed =>
    obtain ⟨rfl, hc⟩ := List.append_inj' hv rfl
    simp only [List.cons.injEq, and_true] at hc
    subst hc
    rw [h.unique h0]
    exact ⟨_, hfeed⟩

theorem Built.loop_ends (b : Built p patterns l es) {fuel : Nat}
    (hf : simFuel l.nfa (fragTrees 2 es) ≤ fuel) : ∀ {sim : List Run} {kind : Option K} {it : InputIter}
    {w : List Char}, Fed l.nfa fuel w sim →
    (∀ v, v <+: w ++ chars it.rest → ¬ Bundle.Spinning l.nfa (fragTrees 2 es) v) →
    ∃ x, lexLoop (nfaMachine l.nfa fuel) l.tokens sim kind it = .ok x := by
  have S := b.safe fuel
  intro sim kind it
  induction hn : it.pending using Nat.strongRecOn generalizing sim kind it with
  | ind n ih =>
    intro w hi hp
    rw [lexLoop]
    split
    · rename_i ch it1 hnext
      obtain ⟨b', hb⟩ := S.canFeed ch ⟨w, hi⟩
      rw [hb]
      cases b' with
      | false => simp
      | true =>
        obtain ⟨p', hrest, _⟩ := next_some hnext
        have hrest : chars it.rest = ch :: chars it1.rest := by
          rw [InputIter.rest, hrest]; rfl
        rw [hrest] at hp
        have hp' : ∀ v, v <+: w ++ [ch] ++ chars it1.rest → ¬ Bundle.Spinning l.nfa (fragTrees 2 es) v := by
          intro v hv
          rw [List.append_assoc] at hv
          exact hp v hv
        obtain ⟨⟨sim', acc⟩, hfeed⟩ := Bundle.feed_next b.parts.bundle hf hi ch
          (hp' _ (List.prefix_append _ _))
        have hfeed' : (nfaMachine l.nfa fuel).feed sim ch = .ok (sim', acc) := hfeed
        simp only [hfeed']
        cases acc with
        | false =>
          simp only
          exact ih _ (hn ▸ InputIter.pending_next hnext) rfl (hi.feed hfeed) hp'
        | true =>
          obtain ⟨f, fs, g, h1, h2⟩ := S.finals ⟨w, hi⟩ hfeed'
          simp only [h1, h2]
          refine ih _ ?_ rfl (hi.feed hfeed) hp'
          rw [InputIter.pending_accept, ← hn]
          exact InputIter.pending_next hnext
    · obtain ⟨b', hb⟩ := S.isAccepting ⟨w, hi⟩
      rw [hb]
      cases b' <;> simp

theorem Lexes.never_spins (b : Built p patterns l es) {fuel : Nat} {sim : List Run} {kind : Option K}
    {it it' : InputIter} {r : Option (Tok K)} (h : Lexes (nfaMachine l.nfa fuel) l.tokens sim kind it r it') :
    ∀ {w : List Char}, Fed l.nfa fuel w sim → ∀ x, x ≠ [] → x <+: chars it.rest →
      ¬ Bundle.Spinning l.nfa (fragTrees 2 es) (w ++ x) := by
  have R := b.reads fuel
  have stop : ∀ {sim : List Run} {it it1 : InputIter} {ch : Char} {w : List Char}, it.next = (some ch, it1) →
      (nfaMachine l.nfa fuel).canFeed sim ch = .ok false → Fed l.nfa fuel w sim → ∀ x, x ≠ [] →
      x <+: chars it.rest → ¬ Bundle.Spinning l.nfa (fragTrees 2 es) (w ++ x) := by
    intro sim it it1 ch w hnext hcf hfed x hx hp hs
    obtain ⟨p', hrest, _⟩ := next_some hnext
    have hrest : chars it.rest = ch :: chars it1.rest := by
      rw [InputIter.rest, hrest]; rfl
    rw [hrest] at hp
    cases x with
    | nil => exact hx rfl
    | cons c x =>
      obtain ⟨rfl, _⟩ := List.cons_prefix_cons.1 hp
      obtain ⟨_, r, hr, _⟩ := hs
      rw [List.append_cons] at hr
      have := (R.canFeed hfed hcf).2 (R.live' ⟨r, hr⟩)
      cases this
  have go : ∀ {sim sim' : List Run} {it it1 it2 : InputIter} {ch : Char} {acc : Bool} {w : List Char},
      it.next = (some ch, it1) → (nfaMachine l.nfa fuel).feed sim ch = .ok (sim', acc) →
      chars it2.rest = chars it1.rest →
      (∀ {w : List Char}, Fed l.nfa fuel w sim' → ∀ x, x ≠ [] → x <+: chars it2.rest →
        ¬ Bundle.Spinning l.nfa (fragTrees 2 es) (w ++ x)) → Fed l.nfa fuel w sim → ∀ x, x ≠ [] →
      x <+: chars it.rest → ¬ Bundle.Spinning l.nfa (fragTrees 2 es) (w ++ x) := by
    intro sim sim' it it1 it2 ch acc w hnext hfeed h2 ih hfed x hx hp hs
    obtain ⟨p', hrest, _⟩ := next_some hnext
    have hrest : chars it.rest = ch :: chars it1.rest := by
      rw [InputIter.rest, hrest]; rfl
    rw [hrest] at hp
    cases x with
    | nil => exact hx rfl
    | cons c x =>
      obtain ⟨rfl, hp1⟩ := List.cons_prefix_cons.1 hp
      rw [List.append_cons] at hs
      by_cases hx' : x = []
      · subst hx'
        rw [List.append_nil] at hs
        exact b.parts.bundle.fed_never hs hfed hfeed
      · exact ih (hfed.feed hfeed) x hx' (by rw [h2]; exact hp1) hs
  induction h with
  | stopNone hn hcf => exact stop hn hcf
  | stopSome hn hcf => exact stop hn hcf
  | accept hn _ hfeed _ _ _ ih => exact go hn hfeed rfl ih
  | step hn _ hfeed _ ih => exact go hn hfeed rfl ih
  | eofSome hn =>
    intro w _ x hx hp
    obtain ⟨_, h1, h2⟩ := next_none hn
    simp [InputIter.rest, h1, h2, chars] at hp
    exact absurd hp hx
  | eofNone hn =>
    intro w _ x hx hp
    obtain ⟨_, h1, h2⟩ := next_none hn
    simp [InputIter.rest, h1, h2, chars] at hp
    exact absurd hp hx

omit [Unicode] in
theorem Rep.chars {sc : Scanner} {it : InputIter} (h : Rep sc it) : chars it.rest = word sc.left := by
  rcases h with ⟨h1, h2⟩ | ⟨_, h3, h4, _⟩
  · simp only [InputIter.pending] at h2
    have a1 : it.prev = [] := List.length_eq_zero_iff.1 (by omega)
    have a2 : it.iter = [] := List.length_eq_zero_iff.1 (by omega)
    rw [h1]
    simp [InputIter.rest, a1, a2, Lex.chars]
  · simp [InputIter.rest, Scanner.left, h3, h4, Lex.chars, word]

/-- One call of a built lexer. -/
theorem Built.next_iff (b : Built p patterns l es) {fuel : Nat} (hf : simFuel l.nfa (fragTrees 2 es) ≤ fuel)
    {sc : Scanner} {it : InputIter} (hr : Rep sc it) :
    (∃ x, lexNext (nfaMachine l.nfa fuel) l.tokens it = .ok x) ↔ Passes es (word sc.left) := by
  rw [b.passes, ← hr.chars]
  constructor
  · rintro ⟨⟨r, it'⟩, h⟩ v hv hs
    obtain ⟨sim, h1, h2⟩ := lexNext_ok h
    refine h2.never_spins b (w := []) (.init h1) v ?_ hv hs
    exact hs.1
  · intro h
    rw [lexNext]
    obtain ⟨runs, h1⟩ := initRuns_exists b.parts.bundle.wf (fuel := fuel) (by simp only [simFuel] at hf; omega)
    have h1' : (nfaMachine l.nfa fuel).start = .ok runs := h1
    rw [h1', Outcome.bind_ok]
    exact b.loop_ends hf (.init h1) h

/-- All calls of a built lexer, between two calls. -/
theorem Built.calls_iff (b : Built p patterns l es) {n : Nat} : ∀ {sc : Scanner} {it : InputIter}
    {as : List (Option (Tok K))}, Rep sc it →
    ((∃ fuel it', lexCalls (nfaMachine l.nfa fuel) l.tokens n it = .ok (as, it')) ↔
      as.length = n ∧ Calls (taken es) (Readable es) (Passes es) (Lex.kindAt patterns) sc as) := by
  have kinds : ∀ i src k, KindOf l.tokens i src k → Lex.kindAt patterns i src = some k := fun i src k => b.kindAt
  induction n with
  | zero =>
    intro sc it as hr
    constructor
    · rintro ⟨fuel, it', h⟩
      simp only [lexCalls, Outcome.ok.injEq, Prod.mk.injEq] at h
      rw [← h.1]
      exact ⟨rfl, .done⟩
    · rintro ⟨h, _⟩
      rw [List.length_eq_zero_iff.1 h]
      exact ⟨0, it, rfl⟩
  | succ n ih =>
    intro sc it as hr
    constructor
    · rintro ⟨fuel, it', h⟩
      simp only [lexCalls, Outcome.bind_eq_ok] at h
      obtain ⟨⟨a, it1⟩, h1, ⟨as1, it2⟩, h2, h3⟩ := h
      simp only [Outcome.pure_eq, Outcome.ok.injEq, Prod.mk.injEq] at h3
      obtain ⟨rfl, rfl⟩ := h3
      obtain ⟨sc', hc, hr'⟩ := lexNext_call (b.readsTaken fuel) kinds hr h1
      obtain ⟨h4, h5⟩ := (ih hr').1 ⟨fuel, it2, h2⟩
      have hbig : lexNext (nfaMachine l.nfa (fuel + simFuel l.nfa (fragTrees 2 es))) l.tokens it = .ok (a, it1) :=
        (lexNext_le (nfaMachine_le (Nat.le_add_right _ _))).ok h1
      exact ⟨by simp [h4], .next ((b.next_iff (Nat.le_add_left _ _) hr).1 ⟨_, hbig⟩) hc h5⟩
    · rintro ⟨hlen, h⟩
      cases h with
      | done => simp at hlen
      | @next _ sc' a as hp hc hcs =>
        obtain ⟨⟨a', it1⟩, h1⟩ := (b.next_iff (Nat.le_refl _) hr).2 hp
        obtain ⟨sc'', hc', hr'⟩ := lexNext_call (b.readsTaken _) kinds hr h1
        obtain ⟨rfl, rfl⟩ := Call.unique (fun _ _ h => b.readable_mono h) hc hc'
        obtain ⟨fuel, it2, h2⟩ := (ih hr').2 ⟨by simpa using hlen, hcs⟩
        refine ⟨simFuel l.nfa (fragTrees 2 es) + fuel, it2, ?_⟩
        have e1 := (lexNext_le (gs := l.tokens) (it := it)
          (nfaMachine_le (nfa := l.nfa) (Nat.le_add_right (simFuel l.nfa (fragTrees 2 es)) fuel))).ok h1
        have e2 := (lexCalls_le (gs := l.tokens) (n := n) (it := it1)
          (nfaMachine_le (nfa := l.nfa) (Nat.le_add_left fuel (simFuel l.nfa (fragTrees 2 es))))).ok h2
        simp [lexCalls, e1, e2]

end Pango.Lex
