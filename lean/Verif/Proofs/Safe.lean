import Verif.Proofs.Single
import Verif.Proofs.Prefix

/-!
# Lexing does not panic, and it ends
-/

namespace Pango.Fsm

open Pango Pango.Regex Pango.Spec

section Panic

variable {α β : Type}

theorem worklist_panic [DecidableEq α] {step : α → Outcome (List α)} {P : α → Prop}
    (hs : ∀ a, P a → ∃ news, step a = .ok news ∧ ∀ b ∈ news, P b) {n : Nat} : ∀ {queue result : List α},
    (∀ a ∈ queue, P a) → worklist step n queue result ≠ .panic := by
  induction n with
  | zero =>
    intro queue result _
    cases queue <;> simp [worklist]
  | succ n ih =>
    intro queue result hq
    cases queue with
    | nil => simp [worklist]
    | cons a q =>
      obtain ⟨news, h1, h2⟩ := hs a (hq a (by simp))
      obtain ⟨d, e, h3, _⟩ := foldl_insert news q result
      simp only [worklist, h1, Outcome.bind_ok]
      rw [e]
      refine ih ?_
      intro x hx
      rcases List.mem_append.1 hx with hx | hx
      · exact hq x (by simp [hx])
      · exact h2 x (h3 x hx).1

theorem flatMapOutcome_panic {f : α → Outcome (List β)} {l : List α} (h : ∀ a ∈ l, f a ≠ .panic) :
    flatMapOutcome f l ≠ .panic := by
  induction l with
  | nil => simp [flatMapOutcome]
  | cons a l ih =>
    have h1 := h a (by simp)
    have h2 := ih (fun x hx => h x (by simp [hx]))
    rw [flatMapOutcome]
    cases ha : f a with
    | panic => exact absurd ha h1
    | diverge => simp
    | ok bs =>
      cases hl : flatMapOutcome f l with
      | panic => exact absurd hl h2
      | diverge => simp
      | ok r => simp

end Panic

variable [Unicode] {nfa : Nfa}

/-- All runs are in states of the automaton. -/
def InStates (nfa : Nfa) (runs : List Run) : Prop := ∀ r ∈ runs, r.state < nfa.states.length

omit [Unicode] in
theorem initRuns_panic (w : Wf nfa) (fuel : Nat) : nfa.initRuns fuel ≠ .panic := by
  have : nfa.staticClosure fuel nfa.start ≠ .panic := by
    refine worklist_panic (P := fun x => x < nfa.states.length) ?_ ?_
    · intro a ha
      obtain ⟨news, h1, h2⟩ := static_step w ha
      refine ⟨news, h1, fun d hd => ?_⟩
      rcases (h2 d).1 hd with h | ⟨q, h, _⟩
      · exact (w.edge_lt h).2
      · exact (w.edge_lt h).2
    · intro a ha
      rw [List.mem_singleton.1 ha]
      exact w.start
  rw [Nfa.initRuns]
  cases h : nfa.staticClosure fuel nfa.start with
  | panic => exact absurd h this
  | diverge => simp
  | ok ids => simp

omit [Unicode] in
theorem epsClosure_panic (w : Wf nfa) (fuel : Nat) {r : Run} (hr : r.state < nfa.states.length) :
    nfa.epsClosure fuel r ≠ .panic := by
  rw [epsClosure_eq]
  refine worklist_panic (P := fun r : Run => r.state < nfa.states.length) ?_ ?_
  · intro a ha
    obtain ⟨news, h1, h2⟩ := epsStep_wf w ha
    refine ⟨news, h1, fun s hs => ?_⟩
    obtain ⟨i, h⟩ := ((h2 s).1 hs).edge
    exact (w.edge_lt h).2
  · intro a ha
    rw [List.mem_singleton.1 ha]
    exact hr

theorem feedRuns_panic (w : Wf nfa) (fuel : Nat) {runs : List Run} (hr : InStates nfa runs) (c : Char) :
    nfa.feedRuns fuel runs c ≠ .panic := by
  refine flatMapOutcome_panic fun r h => ?_
  have hst := w.getState (hr r h)
  rw [hst, Outcome.bind_ok]
  refine flatMapOutcome_panic fun d hd => epsClosure_panic w fuel ?_
  have := (charMoves_wf w hst c _).1 ⟨d, hd, rfl⟩
  obtain ⟨i, h⟩ := this.edge
  exact (w.edge_lt h).2

theorem feed_panic (w : Wf nfa) (fuel : Nat) {runs : List Run} (hr : InStates nfa runs) (c : Char) :
    nfa.feed fuel runs c ≠ .panic := by
  rw [Nfa.feed]
  cases h : nfa.feedRuns fuel runs c with
  | panic => exact absurd h (feedRuns_panic w fuel hr c)
  | diverge => simp
  | ok runs' =>
    obtain ⟨_, _, h3⟩ := feedRuns_ok h
    have hin : InStates nfa runs' := by
      intro r hr'
      obtain ⟨s, hs, st, hst, d, hd, hreach⟩ := (h3 r).1 hr'
      have hc := (charMoves_wf w hst c _).1 ⟨d, hd, rfl⟩
      obtain ⟨i, he⟩ := hc.edge
      have hl := (w.edge_lt he).2
      exact ((reaches_iff_ER w hl).1 hreach).lt w hl
    obtain ⟨b', h1, _⟩ := isAccepting_ok (nfa := nfa) (runs := runs') (fun r hr' => ⟨_, w.getState (hin r hr')⟩)
    simp [h1]

end Pango.Fsm

namespace Pango.Lex

open Pango Pango.Fsm Pango.Regex Pango.Spec Pango.Props

variable {σ K : Type}

/-- What has to hold of a machine such that lexing does not panic. -/
structure Safe (m : Machine σ) (gs : Generators K) (Inv : σ → Prop) : Prop where
  start : m.start ≠ .panic
  start' : ∀ {s}, m.start = .ok s → Inv s
  canFeed : ∀ {s} c, Inv s → ∃ b, m.canFeed s c = .ok b
  feed : ∀ {s} c, Inv s → m.feed s c ≠ .panic
  feed' : ∀ {s s' b c}, Inv s → m.feed s c = .ok (s', b) → Inv s'
  isAccepting : ∀ {s}, Inv s → ∃ b, m.isAccepting s = .ok b
  finals : ∀ {s s' c}, Inv s → m.feed s c = .ok (s', true) →
    ∃ f fs g, m.finals s' = f :: fs ∧ gs.get f = some g

/-- What has to hold besides such that lexing ends. -/
structure Total (m : Machine σ) (Inv : σ → Prop) : Prop where
  start : ∃ s, m.start = .ok s
  feed : ∀ {s} c, Inv s → ∃ r, m.feed s c = .ok r

theorem Safe.lexLoop {m : Machine σ} {gs : Generators K} {Inv : σ → Prop} (S : Safe m gs Inv) :
    ∀ {sim : σ} {kind : Option K} {it : InputIter}, Inv sim →
    lexLoop m gs sim kind it ≠ .panic ∧ (Total m Inv → ∃ x, lexLoop m gs sim kind it = .ok x) := by
  intro sim kind it
  induction hn : it.pending using Nat.strongRecOn generalizing sim kind it with
  | ind n ih =>
    intro hi
    rw [Lex.lexLoop]
    split
    · rename_i ch it1 hnext
      obtain ⟨b, hb⟩ := S.canFeed ch hi
      rw [hb]
      cases b with
      | false => simp
      | true =>
        simp only
        cases hfeed : m.feed sim ch with
        | panic => exact absurd hfeed (S.feed ch hi)
        | diverge =>
          refine ⟨by simp, fun T => ?_⟩
          obtain ⟨r, hr⟩ := T.feed ch hi
          rw [hr] at hfeed
          cases hfeed
        | ok r =>
          obtain ⟨sim', b⟩ := r
          have hi' := S.feed' hi hfeed
          cases b with
          | false =>
            simp only
            exact ih _ (hn ▸ InputIter.pending_next hnext) rfl hi'
          | true =>
            obtain ⟨f, fs, g, h1, h2⟩ := S.finals hi hfeed
            simp only [h1, h2]
            refine ih _ ?_ rfl hi'
            rw [InputIter.pending_accept, ← hn]
            exact InputIter.pending_next hnext
    · obtain ⟨b, hb⟩ := S.isAccepting hi
      rw [hb]
      cases b <;> simp

theorem Safe.lexNext {m : Machine σ} {gs : Generators K} {Inv : σ → Prop} (S : Safe m gs Inv)
    (it : InputIter) : lexNext m gs it ≠ .panic ∧ (Total m Inv → ∃ x, lexNext m gs it = .ok x) := by
  rw [Lex.lexNext]
  cases h : m.start with
  | panic => exact absurd h S.start
  | diverge =>
    refine ⟨by simp, fun T => ?_⟩
    obtain ⟨s, hs⟩ := T.start
    rw [hs] at h
    cases h
  | ok s => exact S.lexLoop (S.start' h)

theorem Safe.lexCalls {m : Machine σ} {gs : Generators K} {Inv : σ → Prop} (S : Safe m gs Inv) :
    ∀ (n : Nat) (it : InputIter),
    lexCalls m gs n it ≠ .panic ∧ (Total m Inv → ∃ x, lexCalls m gs n it = .ok x) := by
  intro n
  induction n with
  | zero => intro it; simp [Lex.lexCalls]
  | succ n ih =>
    intro it
    obtain ⟨h1, h2⟩ := S.lexNext it
    rw [Lex.lexCalls]
    constructor
    · cases h : Lex.lexNext m gs it with
      | panic => exact absurd h h1
      | diverge => simp
      | ok r =>
        obtain ⟨a, it1⟩ := r
        have := (ih it1).1
        simp only [Outcome.bind_ok]
        cases h : Lex.lexCalls m gs n it1 with
        | panic => exact absurd h this
        | diverge => simp
        | ok r => simp
    · intro T
      obtain ⟨⟨a, it1⟩, h⟩ := h2 T
      obtain ⟨⟨as, it2⟩, h'⟩ := (ih it1).2 T
      simp [h, h']

/-- The calls before the first `None` are calls. -/
theorem lexAll_of_calls {m : Machine σ} {gs : Generators K} : ∀ {n : Nat} {it it' : InputIter}
    {as : List (Option (Tok K))}, Lex.lexCalls m gs n it = .ok (as, it') → none ∈ as →
    ∃ r, lexAll m gs n it = .ok r := by
  intro n
  induction n with
  | zero =>
    intro it it' as h hn
    simp only [Lex.lexCalls, Outcome.ok.injEq, Prod.mk.injEq] at h
    rw [← h.1] at hn
    cases hn
  | succ n ih =>
    intro it it' as h hn
    simp only [Lex.lexCalls, Outcome.bind_eq_ok] at h
    obtain ⟨⟨a, it1⟩, h1, ⟨as1, it2⟩, h2, h3⟩ := h
    simp only [Outcome.pure_eq, Outcome.ok.injEq, Prod.mk.injEq] at h3
    obtain ⟨rfl, rfl⟩ := h3
    simp only [lexAll, h1, Outcome.bind_ok]
    cases a with
    | none => exact ⟨_, rfl⟩
    | some t =>
      obtain ⟨⟨ts, it3⟩, h4⟩ := ih h2 (by simpa using hn)
      exact ⟨(t :: ts, it3), by simp [h4]⟩

variable [Unicode] {p : Profile} {patterns : List (List Char × (List Char → K))} {l : Lexer K}
  {es : List Expr}

theorem Built.safe (b : Built p patterns l es) (fuel : Nat) :
    Safe (nfaMachine l.nfa fuel) l.tokens (fun runs => ∃ w, Fed l.nfa fuel w runs) := by
  have wf := b.parts.bundle.wf
  have R := b.reads fuel
  have lt : ∀ {w runs}, Fed l.nfa fuel w runs → InStates l.nfa runs :=
    fun h r hr => ((h.mem wf r).1 hr).lt wf
  refine ⟨initRuns_panic wf fuel, fun h => ⟨[], R.start h⟩, ?_, ?_, ?_, ?_, ?_⟩
  · rintro s c ⟨w, hw⟩
    obtain ⟨b', h1, _⟩ := canFeed_ok (nfa := l.nfa) (runs := s) (c := c)
      (fun r hr => ⟨_, wf.getState (lt hw r hr)⟩)
    exact ⟨b', h1⟩
  · rintro s c ⟨w, hw⟩
    exact feed_panic wf fuel (lt hw) c
  · rintro s s' b' c ⟨w, hw⟩ h
    exact ⟨_, (R.feed hw h).1⟩
  · rintro s ⟨w, hw⟩
    obtain ⟨b', h1, _⟩ := isAccepting_ok (nfa := l.nfa) (runs := s)
      (fun r hr => ⟨_, wf.getState (lt hw r hr)⟩)
    exact ⟨b', h1⟩
  · rintro s s' c ⟨w, hw⟩ h
    obtain ⟨hs', hb⟩ := R.feed hw h
    obtain ⟨M, hM, ha⟩ := hb.1 rfl
    obtain ⟨i, hi⟩ := List.mem_iff_getElem?.1 hM
    -- the token of rule `i`
    have hlen : i < l.tokens.length := by
      have h1 : l.tokens.length = es.length := by
        have := congrArg List.length b.keys
        have h2 := congrArg List.length (finalsFrom_fst 2 es)
        simp only [List.length_map] at this h2
        omega
      have h2 : i < (alone es).length := (List.getElem?_eq_some_iff.1 hi).1
      simp only [alone, List.length_map] at h2
      omega
    obtain ⟨⟨f, g⟩, hfg⟩ : ∃ x, l.tokens[i] = x := ⟨_, rfl⟩
    have hf : f ∈ (nfaMachine l.nfa fuel).finals s' :=
      (R.finals hs' f).2 ⟨i, M, g, by rw [List.getElem?_eq_getElem hlen, hfg], hi, ha⟩
    cases hfin : (nfaMachine l.nfa fuel).finals s' with
    | nil => rw [hfin] at hf; cases hf
    | cons f' fs =>
      obtain ⟨i', M', g', h1, _⟩ := (R.finals hs' f').1 (by rw [hfin]; simp)
      exact ⟨f', fs, g', rfl, get_of_keys R.keys h1⟩

theorem Fed.tracks {nfa : Nfa} {rs : List (Fr × Nat)} (b : Bundle nfa rs) (nn : ∀ r ∈ rs, r.1.NonNull)
    {fuel : Nat} (hf : simFuel nfa rs ≤ fuel) {w : List Char} {runs : List Run} (h : Fed nfa fuel w runs) :
    Tracks nfa runs w := by
  induction h with
  | init h =>
    obtain ⟨runs', h1, h2⟩ := b.initRuns hf
    rw [h] at h1
    cases h1
    exact h2
  | @feed w c runs runs' b' _ h ih =>
    obtain ⟨r, acc, h1, _, h2⟩ := b.feed nn hf ih c
    rw [h] at h1
    cases h1
    exact h2

theorem Built.total (b : Built p patterns l es) (hr : ∀ e ∈ es, RepeatsNonEmpty e) {fuel : Nat}
    (hf : simFuel l.nfa (fragTrees 2 es) ≤ fuel) :
    Total (nfaMachine l.nfa fuel) (fun runs => ∃ w, Fed l.nfa fuel w runs) := by
  have nn : ∀ r ∈ fragTrees 2 es, r.1.NonNull := by
    rw [finalsFrom_frag]
    intro r hr'
    obtain ⟨⟨e, f⟩, h1, rfl⟩ := List.mem_map.1 hr'
    have he : e ∈ es := by
      rw [← finalsFrom_fst 2 es]
      exact List.mem_map.2 ⟨_, h1, rfl⟩
    exact frag_nonNull e (b.compiles e he) (hr e he) _ _ _
  constructor
  · obtain ⟨runs, h, _⟩ := b.parts.bundle.initRuns hf
    exact ⟨runs, h⟩
  · rintro s c ⟨w, hw⟩
    obtain ⟨runs', acc, h, _⟩ := b.parts.bundle.feed nn hf (Fed.tracks b.parts.bundle nn hf hw) c
    exact ⟨_, h⟩

end Pango.Lex
