import Verif.Proofs.MachineWord
import Verif.Proofs.LexFuel

/-!
# The lexer with machine words
-/

namespace Pango.Lex

open Pango Pango.Regex Pango.Fsm Pango.Spec Pango.Props

/-- At most `n` characters are not part of a token, all at positions below `n`. -/
structure InputIter.Below (n : Nat) (it : InputIter) : Prop where
  few : it.pending + it.suffix.length ≤ n
  prev : ∀ e ∈ it.prev, e.1 < n
  iter : ∀ e ∈ it.iter, e.1 < n
  suffix : ∀ e ∈ it.suffix, e.1 < n

theorem InputIter.Below.next {n : Nat} {it it' : InputIter} {o : Option Char} (h : it.Below n)
    (hn : it.next = (o, it')) : it'.Below n := by
  obtain ⟨h1, h2, h3, h4⟩ := h
  unfold InputIter.next at hn
  split at hn
  · rename_i pos ch r hp
    cases hn
    rw [InputIter.pending, hp] at h1
    rw [hp] at h2
    refine ⟨?_, fun e he => h2 e (by simp [he]), h3, ?_⟩
    · simp only [InputIter.pending, List.length_cons, List.length_append, List.length_nil] at h1 ⊢; omega
    · intro e he
      rcases List.mem_append.1 he with he | he
      · exact h4 e he
      · rw [List.mem_singleton.1 he]; exact h2 (pos, ch) (by simp)
  · split at hn
    · rename_i pos ch r hi
      cases hn
      rw [InputIter.pending, hi] at h1
      rw [hi] at h3
      refine ⟨?_, h2, fun e he => h3 e (by simp [he]), ?_⟩
      · simp only [InputIter.pending, List.length_cons, List.length_append, List.length_nil] at h1 ⊢; omega
      · intro e he
        rcases List.mem_append.1 he with he | he
        · exact h4 e he
        · rw [List.mem_singleton.1 he]; exact h3 (pos, ch) (by simp)
    · cases hn
      exact ⟨h1, h2, h3, h4⟩

theorem InputIter.Below.accept {n : Nat} {it : InputIter} (h : it.Below n) : it.acceptSuffix.Below n :=
  ⟨by have := h.few; simp only [InputIter.acceptSuffix, InputIter.pending, List.length_nil] at this ⊢; omega,
    h.prev, h.iter, by simp [InputIter.acceptSuffix]⟩

theorem InputIter.Below.consume {n : Nat} {it : InputIter} (h : it.Below n) : it.consumeToken.2.Below n := by
  refine ⟨?_, h.suffix, h.iter, by simp [InputIter.consumeToken]⟩
  have := h.few
  simp only [InputIter.consumeToken, InputIter.pending, List.length_nil] at this ⊢
  omega

theorem InputIter.Below.nextW {n : Nat} {it : InputIter} {w : Words} (h : it.Below n) (hw : n < w.size) :
    it.nextW w = .ok it.next := by
  unfold InputIter.nextW InputIter.next
  cases hp : it.prev with
  | cons e r => rfl
  | nil =>
    cases hi : it.iter with
    | nil => rfl
    | cons e r =>
      have := h.iter e (by simp [hi])
      obtain ⟨pos, ch⟩ := e
      simp only at this ⊢
      rw [Nat.mod_eq_of_lt (by omega), Words.succ_ok (by omega)]
      rfl

theorem InputIter.Below.acceptW {n : Nat} {it : InputIter} {w : Words} (h : it.Below n) (hw : n + 1 < w.size) :
    it.acceptSuffixW w = .ok it.acceptSuffix := by
  unfold InputIter.acceptSuffixW InputIter.acceptSuffix
  cases hl : it.suffix.getLast? with
  | none => simp only; rw [Words.succ_ok (by omega)]; rfl
  | some e =>
    have := h.suffix e (List.mem_of_getLast? hl)
    obtain ⟨pos, ch⟩ := e
    simp only at this ⊢
    rw [Words.succ_ok (by omega)]
    rfl

theorem InputIter.below_new (text : List Char) : (InputIter.new text).Below text.length := by
  have he : ∀ (text : List Char) (k : Nat), ∀ e ∈ enumFrom k text, e.1 < k + text.length := by
    intro text
    induction text with
    | nil => intro k e h; cases h
    | cons c text ih =>
      intro k e h
      rcases List.mem_cons.1 h with rfl | h
      · simp
      · have := ih (k + 1) e h
        simp only [List.length_cons]
        omega
  have hl : ∀ (text : List Char) (k : Nat), (enumFrom k text).length = text.length := by
    intro text
    induction text with
    | nil => intro k; rfl
    | cons c text ih => intro k; simp [enumFrom, ih]
  refine ⟨by simp [InputIter.new, InputIter.pending, hl], by simp [InputIter.new], ?_, by simp [InputIter.new]⟩
  intro e h
  have := he text 0 e h
  omega

section steps

variable {σ K : Type}

/-- What `Lexer::next` returns for the kind it has found. -/
def give (kind : Option K) (it : InputIter) : Option (Tok K) × InputIter :=
  match kind with
  | some k => let (t, it) := takeToken it k; (some t, it)
  | none => (none, it)

/-- One round of the loop of `Lexer::next`. -/
def stepN (m : Machine σ) (gs : Generators K)
    (again : σ → Option K → InputIter → Outcome (Option (Tok K) × InputIter)) (sim : σ) (kind : Option K) :
    Option Char × InputIter → Outcome (Option (Tok K) × InputIter)
  | (some ch, it) => do
    match ← m.canFeed sim ch with
    | false => .ok (give kind it)
    | true =>
      match ← m.feed sim ch with
      | (sim, false) => again sim kind it
      | (sim, true) => do
        let f ← Outcome.expect (m.finals sim).head?
        let gen ← Outcome.expect (gs.get f)
        again sim (some (gen it.acceptSuffix.source)) it.acceptSuffix
  | (none, it) => do
    match ← m.isAccepting sim with
    | true => .ok (give kind it)
    | false => .ok (none, it)

/-- One round of the loop of `Lexer::next` with machine words. -/
def stepW (w : Words) (m : Machine σ) (gs : Generators K)
    (again : σ → Option K → InputIter → Outcome (Option (Tok K) × InputIter)) (sim : σ) (kind : Option K) :
    Option Char × InputIter → Outcome (Option (Tok K) × InputIter)
  | (some ch, it) => do
    match ← m.canFeed sim ch with
    | false => .ok (give kind it)
    | true =>
      match ← m.feed sim ch with
      | (sim, false) => again sim kind it
      | (sim, true) => do
        let f ← Outcome.expect (m.finals sim).head?
        let gen ← Outcome.expect (gs.get f)
        let it ← it.acceptSuffixW w
        again sim (some (gen it.source)) it
  | (none, it) => do
    match ← m.isAccepting sim with
    | true => .ok (give kind it)
    | false => .ok (none, it)

theorem lexLoop_step {m : Machine σ} {gs : Generators K} {sim : σ} {kind : Option K} {it : InputIter} :
    lexLoop m gs sim kind it = stepN m gs (lexLoop m gs) sim kind it.next := by
  rw [lexLoop]
  split
  · rename_i ch it' h
    rw [h]
    simp only [stepN]
    cases m.canFeed sim ch with
    | panic => rfl
    | diverge => rfl
    | ok a =>
      cases a with
      | false => rfl
      | true =>
        simp only [Outcome.bind_ok]
        cases m.feed sim ch with
        | panic => rfl
        | diverge => rfl
        | ok r =>
          obtain ⟨sim', acc⟩ := r
          cases acc with
          | false => rfl
          | true =>
            simp only [Outcome.bind_ok]
            cases m.finals sim' with
            | nil => rfl
            | cons f fs =>
              simp only [List.head?_cons, Outcome.expect_some, Outcome.bind_ok]
              cases gs.get f <;> rfl
  · rename_i it' h
    rw [h]
    simp only [stepN]
    cases m.isAccepting sim with
    | panic => rfl
    | diverge => rfl
    | ok a => cases a <;> rfl

theorem lexLoopW_step {w : Words} {m : Machine σ} {gs : Generators K} {sim : σ} {kind : Option K} {it : InputIter} :
    lexLoopW w m gs sim kind it = (it.nextW w >>= stepW w m gs (lexLoopW w m gs) sim kind) := by
  rw [lexLoopW]
  split
  · rename_i ch it' h
    rw [h]
    simp only [stepW, Outcome.bind_ok]
    cases m.canFeed sim ch with
    | panic => rfl
    | diverge => rfl
    | ok a =>
      cases a with
      | false => rfl
      | true =>
        simp only [Outcome.bind_ok]
        cases m.feed sim ch with
        | panic => rfl
        | diverge => rfl
        | ok r =>
          obtain ⟨sim', acc⟩ := r
          cases acc with
          | false => rfl
          | true =>
            simp only [Outcome.bind_ok]
            cases m.finals sim' with
            | nil => rfl
            | cons f fs =>
              simp only [List.head?_cons, Outcome.expect_some, Outcome.bind_ok]
              cases gs.get f with
              | none => rfl
              | some gen =>
                simp only [Outcome.expect_some, Outcome.bind_ok]
                split
                · rename_i h; rw [h]; rfl
                · rename_i h; rw [h]; rfl
                · rename_i h; rw [h]; rfl
  · rename_i it' h
    rw [h]
    simp only [stepW, Outcome.bind_ok]
    cases m.isAccepting sim with
    | panic => rfl
    | diverge => rfl
    | ok a => cases a <;> rfl
  · rename_i h; rw [h]; rfl
  · rename_i h; rw [h]; rfl

end steps

variable {K : Type} [Unicode] {nfa : Nfa} {rs : List (Fr × Nat)} {gs : Generators K} {w : Words} {fuel n : Nat}

theorem lexLoopW_ok (b : Bundle nfa rs) (hw : n + 1 < w.size) {v : List Char} {sim : List Run} {kind : Option K}
    {it : InputIter} {x : Option (Tok K) × InputIter} (hf : Fed nfa fuel v sim) (hn : v.length + it.pending ≤ n)
    (hb : it.Below n) (hx : lexLoop (nfaMachine nfa fuel) gs sim kind it = .ok x) :
    lexLoopW w (nfaMachineW w nfa fuel) gs sim kind it = .ok x ∧ x.2.Below n := by
  induction hp : it.pending using Nat.strongRecOn generalizing v sim kind it with
  | ind k ih =>
    subst hp
    rw [lexLoop_step] at hx
    rw [lexLoopW_step, hb.nextW (w := w) (by omega), Outcome.bind_ok]
    have takes : ∀ {it' : InputIter} {r : Option (Tok K) × InputIter}, it'.Below n → give kind it' = r → r.2.Below n := by
      rintro it' r h rfl
      cases kind with
      | none => exact h
      | some k => exact h.consume
    generalize hno : it.next = o at hx
    obtain ⟨oc, it'⟩ := o
    have hb' := hb.next hno
    cases oc with
    | some c =>
      have hlt := InputIter.pending_next hno
      simp only [stepN, Outcome.bind_eq_ok] at hx
      obtain ⟨a, hcan, hx⟩ := hx
      have hcan' : (nfaMachineW w nfa fuel).canFeed sim c = .ok a := hcan
      simp only [stepW, hcan', Outcome.bind_ok]
      cases a with
      | false => exact ⟨hx, takes hb' (Outcome.ok.inj hx)⟩
      | true =>
        simp only [Outcome.bind_eq_ok] at hx
        obtain ⟨⟨sim', acc⟩, hfeed, hx⟩ := hx
        have hfw : (nfaMachineW w nfa fuel).feed sim c = .ok (sim', acc) := b.feedW hf (by omega) hfeed
        have hf' : Fed nfa fuel (v ++ [c]) sim' := hf.feed hfeed
        simp only [hfw, Outcome.bind_ok]
        cases acc with
        | false => exact ih _ hlt hf' (by simp; omega) hb' hx rfl
        | true =>
          simp only [Outcome.bind_eq_ok] at hx
          obtain ⟨f, hfin, gen, hgen, hx⟩ := hx
          have hfin' : Outcome.expect ((nfaMachineW w nfa fuel).finals sim').head? = .ok f := hfin
          simp only [hfin', hgen, hb'.acceptW hw, Outcome.bind_ok]
          exact ih _ (by rw [InputIter.pending_accept]; exact hlt) hf'
            (by rw [InputIter.pending_accept]; simp; omega) hb'.accept hx rfl
    | none =>
      simp only [stepN, Outcome.bind_eq_ok] at hx
      obtain ⟨a, hacc, hx⟩ := hx
      have hacc' : (nfaMachineW w nfa fuel).isAccepting sim = .ok a := hacc
      simp only [stepW, hacc', Outcome.bind_ok]
      cases a with
      | false => cases hx; exact ⟨rfl, hb'⟩
      | true => exact ⟨hx, takes hb' (Outcome.ok.inj hx)⟩

theorem lexCallsW_ok (b : Bundle nfa rs) (hw : n + 1 < w.size) {k : Nat} {it : InputIter}
    {x : List (Option (Tok K)) × InputIter} (hb : it.Below n)
    (hx : lexCalls (nfaMachine nfa fuel) gs k it = .ok x) :
    lexCallsW w (nfaMachineW w nfa fuel) gs k it = .ok x := by
  induction k generalizing it x with
  | zero => exact hx
  | succ k ih =>
    simp only [lexCalls, lexNext, Outcome.bind_eq_ok] at hx
    obtain ⟨⟨a, it'⟩, ⟨sim, h1, h2⟩, ⟨as, it''⟩, h3, h4⟩ := hx
    obtain ⟨h5, h6⟩ := lexLoopW_ok b hw (.init h1) (by have := hb.few; simp; omega) hb h2
    have h1' : (nfaMachineW w nfa fuel).start = .ok sim := h1
    simp only [lexCallsW, lexNextW, h1', Outcome.bind_ok, h5, ih h6 h3]
    exact h4

/-! ## With overflow checks -/

/-- The unread characters are numbered, beginning with a word. -/
def InputIter.Counted (w : Words) (it : InputIter) : Prop := ∃ k rest, it.iter = enumFrom k rest ∧ k < w.size

section debug

variable (hw : w.profile = .debug)

include hw

omit [Unicode] in
theorem nextW_debug {it : InputIter} {o : Option Char × InputIter} (h : it.nextW w = .ok o)
    (hi : it.Counted w) : it.next = o ∧ o.2.Counted w := by
  unfold InputIter.nextW at h
  unfold InputIter.next
  cases hp : it.prev with
  | cons e r =>
    rw [hp] at h
    cases h
    exact ⟨rfl, hi⟩
  | nil =>
    rw [hp] at h
    obtain ⟨k, rest, he, hk⟩ := hi
    rw [he] at h ⊢
    cases rest with
    | nil => cases h; exact ⟨rfl, k, [], he, hk⟩
    | cons c rest =>
      simp only [enumFrom, Outcome.bind_eq_ok] at h ⊢
      obtain ⟨m, hm, h⟩ := h
      rw [Nat.mod_eq_of_lt hk] at hm h
      have := Words.succ_debug hw hm
      have := Words.succ_lt (by omega) hm
      cases h
      exact ⟨rfl, k + 1, rest, rfl, by omega⟩

omit [Unicode] in
theorem acceptW_debug {it it' : InputIter} (h : it.acceptSuffixW w = .ok it') : it.acceptSuffix = it' := by
  simp only [InputIter.acceptSuffixW, Outcome.bind_eq_ok] at h
  obtain ⟨m, hm, h⟩ := h
  cases h
  rw [Words.succ_debug hw hm]
  rfl

theorem lexLoopW_debug {sim : List Run} {kind : Option K} {it : InputIter} {x : Option (Tok K) × InputIter}
    (hi : it.Counted w) (hx : lexLoopW w (nfaMachineW w nfa fuel) gs sim kind it = .ok x) :
    lexLoop (nfaMachine nfa fuel) gs sim kind it = .ok x ∧ x.2.Counted w := by
  induction hp : it.pending using Nat.strongRecOn generalizing sim kind it with
  | ind k ih =>
    subst hp
    rw [lexLoopW_step, Outcome.bind_eq_ok] at hx
    obtain ⟨o, hno, hx⟩ := hx
    obtain ⟨hn, hi'⟩ := nextW_debug hw hno hi
    rw [lexLoop_step, hn]
    have takes : ∀ {it' : InputIter} {r : Option (Tok K) × InputIter}, it'.Counted w → give kind it' = r → r.2.Counted w := by
      rintro it' r h rfl
      cases kind with
      | none => exact h
      | some k => exact h
    obtain ⟨oc, it'⟩ := o
    cases oc with
    | some c =>
      have hlt := InputIter.pending_next hn
      simp only [stepW, Outcome.bind_eq_ok] at hx
      obtain ⟨a, hcan, hx⟩ := hx
      have hcan' : (nfaMachine nfa fuel).canFeed sim c = .ok a := hcan
      simp only [stepN, hcan', Outcome.bind_ok]
      cases a with
      | false => exact ⟨hx, takes hi' (Outcome.ok.inj hx)⟩
      | true =>
        simp only [Outcome.bind_eq_ok] at hx
        obtain ⟨⟨sim', acc⟩, hfeed, hx⟩ := hx
        have hfw : (nfaMachine nfa fuel).feed sim c = .ok (sim', acc) := feedW_debug hw hfeed
        simp only [hfw, Outcome.bind_ok]
        cases acc with
        | false => exact ih _ hlt hi' hx rfl
        | true =>
          simp only [Outcome.bind_eq_ok] at hx
          obtain ⟨f, hfin, gen, hgen, it'', hacc, hx⟩ := hx
          have hfin' : Outcome.expect ((nfaMachine nfa fuel).finals sim').head? = .ok f := hfin
          have hacc' := acceptW_debug hw hacc
          subst hacc'
          simp only [hfin', hgen, Outcome.bind_ok]
          exact ih _ (by rw [InputIter.pending_accept]; exact hlt) hi' hx rfl
    | none =>
      simp only [stepW, Outcome.bind_eq_ok] at hx
      obtain ⟨a, hacc, hx⟩ := hx
      have hacc' : (nfaMachine nfa fuel).isAccepting sim = .ok a := hacc
      simp only [stepN, hacc', Outcome.bind_ok]
      cases a with
      | false => cases hx; exact ⟨rfl, hi'⟩
      | true => exact ⟨hx, takes hi' (Outcome.ok.inj hx)⟩

theorem lexCallsW_debug {k : Nat} {it : InputIter} {x : List (Option (Tok K)) × InputIter} (hi : it.Counted w)
    (hx : lexCallsW w (nfaMachineW w nfa fuel) gs k it = .ok x) :
    lexCalls (nfaMachine nfa fuel) gs k it = .ok x := by
  induction k generalizing it x with
  | zero => exact hx
  | succ k ih =>
    simp only [lexCallsW, lexNextW, Outcome.bind_eq_ok] at hx
    obtain ⟨⟨a, it'⟩, ⟨sim, h1, h2⟩, ⟨as, it''⟩, h3, h4⟩ := hx
    obtain ⟨h5, h6⟩ := lexLoopW_debug hw hi h2
    have h1' : (nfaMachine nfa fuel).start = .ok sim := h1
    simp only [lexCalls, lexNext, h1', Outcome.bind_ok, h5, ih h6 h3]
    exact h4

end debug

end Pango.Lex
