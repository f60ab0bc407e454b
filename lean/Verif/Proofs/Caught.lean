import Verif.Proofs.EffectLog
import Verif.Spec.Caught

/-!
# Lexers that are used again after a panic
-/

namespace Pango.Lex

open Pango Pango.Fsm Pango.Regex Pango.Spec Pango.Props

variable {σ W K : Type} {m : Machine σ} {gs : Generators (Fallible W K)} {rules : List (List Char → Prop)}
  {Live : List Char → Prop} {Sim : σ → List Char → Prop} {act : Nat → List Char → Option (Fallible W K)}

/-- The functions as actions. -/
def Generators.uncaught (gs : Generators (Fallible W K)) : Generators (Action W K) :=
  gs.map fun g => (g.1, fun source => Spec.uncaught (g.2 source))

theorem Generators.get_uncaught (f : Nat) :
    gs.uncaught.get f = (gs.get f).map fun g source => Spec.uncaught (g source) := by
  simp only [Generators.get, Generators.uncaught]
  induction gs with
  | nil => rfl
  | cons g gs ih =>
    simp only [List.map_cons, List.find?_cons]
    cases g.1 == f with
    | true => rfl
    | false => exact ih

/-- What is left of a call if a panic is not caught. -/
def Outcome.uncaught : Outcome ((Answer K × InputIter) × W) → Outcome ((Option (Tok K) × InputIter) × W)
  | .ok ((.returned a, it), world) => .ok ((a, it), world)
  | .ok ((.panicked, _), _) => .panic
  | .panic => .panic
  | .diverge => .diverge

/-- Without `catch_unwind`. -/
theorem lexLoopC_uncaught {sim : σ} {k : Option K} {it : InputIter} {world : W} :
    lexLoopE m gs.uncaught sim k it world = Outcome.uncaught (lexLoopC m gs sim k it world) := by
  induction hp : it.pending using Nat.strongRecOn generalizing sim k it world with
  | ind n ih =>
    subst hp
    rw [lexLoopC]
    split
    · rename_i c it' hn
      have hlt := InputIter.pending_next hn
      rw [lexLoopE]
      split
      · rename_i c' it1 hn'
        rw [hn] at hn'
        cases hn'
        cases m.canFeed sim c with
        | panic => rfl
        | diverge => rfl
        | ok b =>
          cases b with
          | false => cases k <;> rfl
          | true =>
            simp only
            cases m.feed sim c with
            | panic => rfl
            | diverge => rfl
            | ok x =>
              obtain ⟨sim', b⟩ := x
              cases b with
              | false => exact ih _ hlt rfl
              | true =>
                simp only
                cases m.finals sim' with
                | nil => rfl
                | cons f fs =>
                  simp only [Generators.get_uncaught]
                  cases gs.get f with
                  | none => rfl
                  | some gen =>
                    simp only [Option.map_some, Spec.uncaught]
                    cases hg : gen it'.acceptSuffix.source world with
                    | mk o world' =>
                      cases o with
                      | none => rfl
                      | some k' => exact ih _ hlt rfl
      · rename_i hn'
        rw [hn] at hn'
        cases hn'
    · rename_i it' hn
      rw [lexLoopE]
      split
      · rename_i hn'
        rw [hn] at hn'
        cases hn'
      · rename_i it1 hn'
        rw [hn] at hn'
        cases hn'
        cases m.isAccepting sim with
        | panic => rfl
        | diverge => rfl
        | ok b => cases b <;> cases k <;> rfl

theorem lexNextC_uncaught {it : InputIter} {world : W} :
    lexNextE m gs.uncaught it world = Outcome.uncaught (lexNextC m gs it world) := by
  simp only [lexNextE, lexNextC]
  cases m.start with
  | panic => rfl
  | diverge => rfl
  | ok sim => exact lexLoopC_uncaught

/-- A call that is left by a panic. -/
inductive Broken (m : Machine σ) (gs : Generators (Fallible W K)) : σ → InputIter → W → InputIter → W → Prop
  | here {sim sim' : σ} {it it' : InputIter} {ch : Char} {f : Nat} {fs : List Nat}
      {gen : List Char → Fallible W K} {world world' : W} : it.next = (some ch, it') →
      m.canFeed sim ch = .ok true → m.feed sim ch = .ok (sim', true) → m.finals sim' = f :: fs →
      gs.get f = some gen → gen it'.acceptSuffix.source world = (none, world') →
      Broken m gs sim it world it'.acceptSuffix world'
  | accept {sim sim' : σ} {it it' it'' : InputIter} {ch : Char} {f : Nat} {fs : List Nat}
      {gen : List Char → Fallible W K} {k : K} {world world' world'' : W} : it.next = (some ch, it') →
      m.canFeed sim ch = .ok true → m.feed sim ch = .ok (sim', true) → m.finals sim' = f :: fs →
      gs.get f = some gen → gen it'.acceptSuffix.source world = (some k, world') →
      Broken m gs sim' it'.acceptSuffix world' it'' world'' → Broken m gs sim it world it'' world''
  | step {sim sim' : σ} {it it' it'' : InputIter} {ch : Char} {world world' : W} : it.next = (some ch, it') →
      m.canFeed sim ch = .ok true → m.feed sim ch = .ok (sim', false) → Broken m gs sim' it' world it'' world' →
      Broken m gs sim it world it'' world'

theorem Broken.loop {sim : σ} {it it' : InputIter} {world world' : W} (h : Broken m gs sim it world it' world') :
    ∀ k : Option K, lexLoopC m gs sim k it world = .ok ((.panicked, it'), world') := by
  induction h with
  | here hn hcf hfeed hfin hget hgen =>
    intro k
    rw [lexLoopC]
    split
    · rename_i ch' it1' hn'
      rw [hn] at hn'
      cases hn'
      simp only [hcf, hfeed, hfin, hget, hgen]
    · rename_i hn'
      rw [hn] at hn'
      cases hn'
  | accept hn hcf hfeed hfin hget hgen _ ih =>
    intro k
    rw [lexLoopC]
    split
    · rename_i ch' it1' hn'
      rw [hn] at hn'
      cases hn'
      simp only [hcf, hfeed, hfin, hget, hgen, ih]
    · rename_i hn'
      rw [hn] at hn'
      cases hn'
  | step hn hcf hfeed _ ih =>
    intro k
    rw [lexLoopC]
    split
    · rename_i ch' it1' hn'
      rw [hn] at hn'
      cases hn'
      simp only [hcf, hfeed, ih]
    · rename_i hn'
      rw [hn] at hn'
      cases hn'

theorem lexLoopC_broken {sim : σ} {k : Option K} {it it' : InputIter} {world world' : W}
    (h : lexLoopC m gs sim k it world = .ok ((.panicked, it'), world')) : Broken m gs sim it world it' world' := by
  induction hp : it.pending using Nat.strongRecOn generalizing sim k it world with
  | ind n ih =>
    subst hp
    rw [lexLoopC] at h
    split at h
    · rename_i c it1 hn
      have hlt := InputIter.pending_next hn
      split at h
      · cases k <;> simp at h
      · rename_i hcf
        split at h
        · rename_i sim' hfeed
          split at h
          · cases h
          · rename_i f fs hfin
            split at h
            · cases h
            · rename_i gen hget
              split at h
              · rename_i k' world1 hgen
                exact .accept hn hcf hfeed hfin hget hgen (ih _ hlt h rfl)
              · rename_i world1 hgen
                simp only [Outcome.ok.injEq, Prod.mk.injEq, true_and] at h
                obtain ⟨rfl, rfl⟩ := h
                exact .here hn hcf hfeed hfin hget hgen
        · rename_i sim' hfeed
          exact .step hn hcf hfeed (ih _ hlt h rfl)
        · cases h
        · cases h
      · cases h
      · cases h
    · split at h
      · cases k <;> simp at h
      · simp at h
      · cases h
      · cases h

theorem lexNextC_broken {it it' : InputIter} {world world' : W} :
    lexNextC m gs it world = .ok ((.panicked, it'), world') ↔
      ∃ sim, m.start = .ok sim ∧ Broken m gs sim it world it' world' := by
  simp only [lexNextC, Outcome.bind_eq_ok]
  constructor
  · rintro ⟨sim, h1, h2⟩
    exact ⟨sim, h1, lexLoopC_broken h2⟩
  · rintro ⟨sim, h1, h2⟩
    exact ⟨sim, h1, h2.loop none⟩

/-- What such a call has read, after it has read `read`. -/
theorem Broken.spec (R : Reads m gs rules Live Sim) (hk : ∀ i src k, KindOf gs i src k → act i src = some k)
    {Sp : List Char → Prop} (hsp : ∀ {s s' w c b}, Sim s w → m.feed s c = .ok (s', b) → ¬ Sp (w ++ [c]))
    {sc : Scanner} {sim : σ} {it it' : InputIter} {world world' : W} (h : Broken m gs sim it world it' world') :
    ∀ {read : List (Nat × Char)}, Mid sc read it → Sim sim (word read) →
    it.source ++ word it.suffix = word (sc.skipped ++ read) →
    ∃ u x log i f world1, Mid sc (read ++ u ++ [x]) it' ∧
      it'.source ++ word it'.suffix = word (sc.skipped ++ (read ++ u ++ [x])) ∧
      Applies rules (word sc.skipped) (word read) (word u) log ∧
      (∀ k : Option K, ∃ k', runAll (fun i source => (act i source).map uncaught) log k world = .ok (k', world1)) ∧
      FirstMatch rules (word (read ++ u ++ [x])) i ∧ act i (word (sc.skipped ++ (read ++ u ++ [x]))) = some f ∧
      f world1 = (none, world') ∧ ∀ v, v ≠ [] → v <+: word (u ++ [x]) → ¬ Sp (word read ++ v) := by
  have more : ∀ {sim sim' : σ} {b : Bool} {read u : List (Nat × Char)} {x : Nat × Char} {p : Nat} {ch : Char},
      Sim sim (word read) → m.feed sim ch = .ok (sim', b) →
      (∀ v, v ≠ [] → v <+: word (u ++ [x]) → ¬ Sp (word (read ++ [(p, ch)]) ++ v)) →
      ∀ v, v ≠ [] → v <+: word ((p, ch) :: u ++ [x]) → ¬ Sp (word read ++ v) := by
    intro sim sim' b read u x p ch hs hfeed h v hv hp
    cases v with
    | nil => exact absurd rfl hv
    | cons c v =>
      simp only [List.cons_append, word_cons] at hp
      obtain ⟨rfl, hp'⟩ := List.cons_prefix_cons.1 hp
      cases v with
      | nil => exact hsp hs hfeed
      | cons d v =>
        have := h (d :: v) (by simp) hp'
        simpa using this
  induction h with
  | @here sim sim' it it1 ch f fs gen world world' hn hcf hfeed hfin hget hgen =>
    intro read hmid hs hso
    obtain ⟨p, hmid', k1, k2, k3⟩ := hmid.next hn
    obtain ⟨hs', hb⟩ := R.feed hs hfeed
    obtain ⟨i, hfirst, hkind⟩ := R.first hs' hfin hget
    have hsrc : it1.acceptSuffix.source = word (sc.skipped ++ (read ++ [(p, ch)])) := by
      have : it1.acceptSuffix.source = it1.source ++ word it1.suffix := rfl
      rw [this, k2, k1, word_append, ← List.append_assoc, hso]
      simp
    refine ⟨[], (p, ch), [], i, _, world, ?_, ?_, .done, fun k => ⟨k, rfl⟩, ?_, ?_, hgen, ?_⟩
    · rw [List.append_nil]
      exact ⟨hmid'.prev, hmid'.iter, hmid'.left, hmid'.start⟩
    · have : it1.acceptSuffix.suffix = [] := rfl
      rw [this, hsrc]
      simp
    · simpa using hfirst
    · rw [List.append_nil, ← hsrc]
      exact hk _ _ _ (hkind it1.acceptSuffix.source)
    · intro v hv hp
      cases v with
      | nil => exact absurd rfl hv
      | cons c v =>
        obtain ⟨rfl, hp'⟩ := List.cons_prefix_cons.1 hp
        rw [List.prefix_nil.1 hp']
        exact hsp hs hfeed
  | @accept sim sim' it it1 it2 ch f fs gen k world world1 world' hn hcf hfeed hfin hget hgen _ ih =>
    intro read hmid hs hso
    obtain ⟨p, hmid', k1, k2, k3⟩ := hmid.next hn
    obtain ⟨hs', hb⟩ := R.feed hs hfeed
    have hw : word (read ++ [(p, ch)]) = word read ++ [ch] := by simp
    obtain ⟨i, hfirst, hkind⟩ := R.first hs' hfin hget
    have hsrc : it1.acceptSuffix.source = word sc.skipped ++ (word read ++ [ch]) := by
      have : it1.acceptSuffix.source = it1.source ++ word it1.suffix := rfl
      rw [this, k2, k1, word_append, ← List.append_assoc, hso]
      simp
    obtain ⟨u, x, log, j, g, world2, e1, e2, e3, e4, e5, e6, e7, e8⟩ := ih (read := read ++ [(p, ch)])
      ⟨hmid'.prev, hmid'.iter, hmid'.left, hmid'.start⟩ (by rw [hw]; exact hs') (by
        have : it1.acceptSuffix.suffix = [] := rfl
        rw [this, hsrc]
        simp)
    have hact := hk _ _ _ (hkind it1.acceptSuffix.source)
    rw [hsrc] at hact
    refine ⟨(p, ch) :: u, x, (i, word sc.skipped ++ (word read ++ [ch])) :: log, j, g, world2, by simpa using e1,
      by simpa using e2, ?_, ?_, by simpa using e5, by simpa using e6, e7, more hs hfeed e8⟩
    · rw [hw] at e3
      exact .apply hfirst e3
    · intro k0
      obtain ⟨k', hk'⟩ := e4 (some k)
      refine ⟨k', ?_⟩
      rw [hsrc] at hgen
      simp only [runAll, hact, Option.map_some, uncaught, hgen]
      exact hk'
  | @step sim sim' it it1 it2 ch world world' hn hcf hfeed _ ih =>
    intro read hmid hs hso
    obtain ⟨p, hmid', k1, k2, k3⟩ := hmid.next hn
    obtain ⟨hs', hb⟩ := R.feed hs hfeed
    have hw : word (read ++ [(p, ch)]) = word read ++ [ch] := by simp
    have hno : ¬ AnyMatch rules (word read ++ [ch]) := fun h => by have := hb.2 h; cases this
    obtain ⟨u, x, log, j, g, world2, e1, e2, e3, e4, e5, e6, e7, e8⟩ := ih (read := read ++ [(p, ch)]) hmid'
      (by rw [hw]; exact hs') (by
        rw [k2, k1, word_append, ← List.append_assoc, hso]
        simp)
    refine ⟨(p, ch) :: u, x, log, j, g, world2, by simpa using e1,
      by simpa using e2, ?_, e4, by simpa using e5, by simpa using e6, e7, more hs hfeed e8⟩
    rw [hw] at e3
    exact .skip hno e3

theorem lexLoopC_le {m' : Machine σ} (h : m.Le m') {sim : σ} {k : Option K} {it : InputIter} {world : W} :
    (lexLoopC m gs sim k it world).Le (lexLoopC m' gs sim k it world) := by
  induction hp : it.pending using Nat.strongRecOn generalizing sim k it world with
  | ind n ih =>
    subst hp
    rw [lexLoopC, lexLoopC]
    split
    · rename_i c it' hn
      have hlt := InputIter.pending_next hn
      rcases h.canFeed sim c with hc | hc
      · rw [hc]; exact .inl rfl
      · rw [← hc]
        split
        · exact .inr rfl
        · rcases h.feed sim c with hf | hf
          · rw [hf]; exact .inl rfl
          · rw [← hf]
            split
            · rename_i sim' _
              rw [h.finals]
              split
              · exact .inr rfl
              · split
                · exact .inr rfl
                · split
                  · exact ih _ hlt rfl
                  · exact .inr rfl
            · exact ih _ hlt rfl
            · exact .inr rfl
            · exact .inr rfl
        · exact .inr rfl
        · exact .inr rfl
    · rcases h.isAccepting sim with hc | hc
      · rw [hc]; exact .inl rfl
      · rw [← hc]; exact .inr rfl

theorem lexNextC_le {m' : Machine σ} (h : m.Le m') {it : InputIter} {world : W} :
    (lexNextC m gs it world).Le (lexNextC m' gs it world) :=
  h.start.bind fun _ => lexLoopC_le h

theorem lexCallsC_le {m' : Machine σ} (h : m.Le m') {n : Nat} : ∀ {it : InputIter} {world : W},
    (lexCallsC m gs n it world).Le (lexCallsC m' gs n it world) := by
  induction n with
  | zero => exact .inr rfl
  | succ n ih => exact (lexNextC_le h).bind fun _ => ih.bind fun _ => .inr rfl

theorem lexCallsC_uncaught {n : Nat} : ∀ {it it' : InputIter} {world world' : W} {as : List (Option (Tok K))},
    lexCallsC m gs n it world = .ok ((as.map .returned, it'), world') ↔
      lexCallsE m gs.uncaught n it world = .ok ((as, it'), world') := by
  induction n with
  | zero =>
    intro it it' world world' as
    cases as <;> simp [lexCallsC, lexCallsE]
  | succ n ih =>
    intro it it' world world' as
    simp only [lexCallsC, lexCallsE, lexNextC_uncaught]
    cases lexNextC m gs it world with
    | panic => simp [Outcome.uncaught]
    | diverge => simp [Outcome.uncaught]
    | ok x =>
      obtain ⟨⟨a, it1⟩, world1⟩ := x
      cases a with
      | panicked =>
        simp only [Outcome.uncaught, Outcome.bind_ok, Outcome.bind_eq_ok, Outcome.pure_eq, Outcome.ok.injEq,
          Prod.mk.injEq]
        constructor
        · rintro ⟨_, _, ⟨h, _⟩, _⟩
          cases as <;> simp at h
        · rintro ⟨_, h, _⟩
          cases h
      | returned a =>
        simp only [Outcome.uncaught, Outcome.bind_ok, Outcome.bind_eq_ok, Outcome.pure_eq, Outcome.ok.injEq,
          Prod.mk.injEq]
        constructor
        · rintro ⟨⟨⟨as1, it2⟩, world2⟩, h1, ⟨h2, rfl⟩, rfl⟩
          cases as with
          | nil => simp at h2
          | cons b as =>
            simp only [List.map_cons, List.cons.injEq, Answer.returned.injEq] at h2
            obtain ⟨rfl, rfl⟩ := h2
            exact ⟨((as, it2), world2), ih.1 h1, ⟨rfl, rfl⟩, rfl⟩
        · rintro ⟨⟨⟨as1, it2⟩, world2⟩, h1, ⟨rfl, rfl⟩, rfl⟩
          exact ⟨((as1.map .returned, it2), world2), ih.2 h1, ⟨rfl, rfl⟩, rfl⟩

section

variable {Inv : σ → Prop}

theorem Safe.lexLoopC (S : Safe m gs Inv) : ∀ {sim : σ} {kind : Option K} {it : InputIter} {world : W}, Inv sim →
    lexLoopC m gs sim kind it world ≠ .panic := by
  intro sim kind it
  induction hn : it.pending using Nat.strongRecOn generalizing sim kind it with
  | ind n ih =>
    intro world hi
    rw [Lex.lexLoopC]
    split
    · rename_i ch it1 hnext
      obtain ⟨b, hb⟩ := S.canFeed ch hi
      rw [hb]
      cases b with
      | false => simp
      | true =>
        simp only
        cases hfeed : m.feed sim ch with
        | panic => exact absurd hfeed (S.feed ch hi)
        | diverge => simp
        | ok r =>
          obtain ⟨sim', b⟩ := r
          have hi' := S.feed' hi hfeed
          cases b with
          | false =>
            simp only
            exact ih _ (hn ▸ InputIter.pending_next hnext) rfl hi'
          | true =>
            obtain ⟨f, fs, g, h1, h2⟩ := S.finals hi hfeed
            simp only [h1, h2]
            split
            · refine ih _ ?_ rfl hi'
              rw [InputIter.pending_accept, ← hn]
              exact InputIter.pending_next hnext
            · simp
    · obtain ⟨b, hb⟩ := S.isAccepting hi
      rw [hb]
      cases b <;> simp

theorem Safe.lexCallsC (S : Safe m gs Inv) :
    ∀ (n : Nat) (it : InputIter) (world : W), lexCallsC m gs n it world ≠ .panic := by
  intro n
  induction n with
  | zero => intro it world; simp [Lex.lexCallsC]
  | succ n ih =>
    intro it world
    have h1 : lexNextC m gs it world ≠ .panic := by
      rw [lexNextC]
      cases h : m.start with
      | panic => exact absurd h S.start
      | diverge => simp
      | ok s => exact S.lexLoopC (S.start' h)
    rw [Lex.lexCallsC]
    cases h : lexNextC m gs it world with
    | panic => exact absurd h h1
    | diverge => simp
    | ok r =>
      obtain ⟨⟨a, it1⟩, world1⟩ := r
      have := ih it1 world1
      simp only [Outcome.bind_ok]
      cases h : Lex.lexCallsC m gs n it1 world1 with
      | panic => exact absurd h this
      | diverge => simp
      | ok r => simp

end

/-! ## Built lexers -/

theorem _root_.Pango.Lex.InputIter.next_of_rest {it : InputIter} {p : Nat} {c : Char} {r : List (Nat × Char)}
    (h : it.rest = (p, c) :: r) : ∃ it', it.next = (some c, it') := by
  simp only [InputIter.rest] at h
  unfold InputIter.next
  cases hp : it.prev with
  | cons x l =>
    rw [hp] at h
    simp only [List.cons_append, List.cons.injEq] at h
    obtain ⟨rfl, _⟩ := h
    exact ⟨_, rfl⟩
  | nil =>
    rw [hp, List.nil_append] at h
    rw [h]
    exact ⟨_, rfl⟩

section

variable [Unicode] {p : Profile} {patterns : List (List Char × (List Char → Fallible W K))}
  {l : Lexer (Fallible W K)} {es : List Expr}

/-- The rules with actions. -/
def uncaughtRules (patterns : List (List Char × (List Char → Fallible W K))) :
    List (List Char × (List Char → Action W K)) :=
  patterns.map fun r => (r.1, fun source => uncaught (r.2 source))

/-- The lexer with actions. -/
def Lexer.uncaught (l : Lexer (Fallible W K)) : Lexer (Action W K) := ⟨l.nfa, l.tokens.uncaught⟩

omit [Unicode] in
theorem kindAt_uncaught : Lex.kindAt (uncaughtRules patterns) =
    fun i source => (Lex.kindAt patterns i source).map uncaught := by
  funext i source
  simp [Lex.kindAt, uncaughtRules, Function.comp_def]

omit [Unicode] in
theorem Built.uncaught (b : Built p patterns l es) : Built p (uncaughtRules patterns) l.uncaught es := by
  refine ⟨?_, b.compiles, b.parts, ?_, ?_⟩
  · rw [← b.parsed]
    simp [uncaughtRules]
  · rw [← b.keys]
    simp [Lexer.uncaught, Generators.uncaught]
  · have := congrArg (List.map fun (g : List Char → Fallible W K) source => Spec.uncaught (g source)) b.gens
    simpa [Lexer.uncaught, Generators.uncaught, uncaughtRules, Function.comp_def] using this

/-- What comes of reading up to the function that panics. -/
theorem Built.breaks (b : Built p patterns l es) {fuel : Nat} (hf : simFuel l.nfa (fragTrees 2 es) ≤ fuel)
    {sc : Scanner} {x : Nat × Char} {i : Nat} {f : Fallible W K} {k' : Option K} {world1 world' : W}
    (hfw : f world1 = (none, world')) : ∀ {u read : List (Nat × Char)} {it : InputIter} {sim : List Run} {world : W}
    {log : List (Nat × List Char)} {k : Option K}, Mid sc read it → Fed l.nfa fuel (word read) sim →
    it.source ++ word it.suffix = word (sc.skipped ++ read) → read ++ u ++ [x] <+: sc.left →
    Passes es (word (read ++ u ++ [x])) → Applies (taken es) (word sc.skipped) (word read) (word u) log →
    runAll (fun i source => (Lex.kindAt patterns i source).map Spec.uncaught) log k world = .ok (k', world1) →
    FirstMatch (taken es) (word (read ++ u ++ [x])) i →
    Lex.kindAt patterns i (word (sc.skipped ++ (read ++ u ++ [x]))) = some f →
    ∃ it', Broken (nfaMachine l.nfa fuel) l.tokens sim it world it' world' ∧ Mid sc (read ++ u ++ [x]) it' ∧
      it'.source ++ word it'.suffix = word (sc.skipped ++ (read ++ u ++ [x])) := by
  have R := b.readsTaken fuel
  have S := b.safe fuel
  have kinds : ∀ i src k, KindOf l.tokens i src k → Lex.kindAt patterns i src = some k := fun i src k => b.kindAt
  -- reading one character
  have go : ∀ {read v : List (Nat × Char)} {p : Nat} {ch : Char} {it : InputIter} {sim : List Run}, Mid sc read it →
      Fed l.nfa fuel (word read) sim → it.source ++ word it.suffix = word (sc.skipped ++ read) →
      read ++ (p, ch) :: v <+: sc.left → Passes es (word (read ++ (p, ch) :: v)) →
      Readable es (word (read ++ (p, ch) :: v)) →
      ∃ it1 sim' acc, it.next = (some ch, it1) ∧ (nfaMachine l.nfa fuel).canFeed sim ch = .ok true ∧
        (nfaMachine l.nfa fuel).feed sim ch = .ok (sim', acc) ∧ Fed l.nfa fuel (word (read ++ [(p, ch)])) sim' ∧
        (acc = true ↔ AnyMatch (taken es) (word (read ++ [(p, ch)]))) ∧ Mid sc (read ++ [(p, ch)]) it1 ∧
        it1.source ++ word it1.suffix = word (sc.skipped ++ (read ++ [(p, ch)])) := by
    intro read v p ch it sim hmid hfed hso hpre hpass hread
    obtain ⟨t, ht⟩ := hpre
    rw [hmid.left, List.append_assoc] at ht
    have hrest := List.append_cancel_left ht
    obtain ⟨it1, hn⟩ := InputIter.next_of_rest hrest.symm
    obtain ⟨p', hmid', k1, k2, k3⟩ := hmid.next hn
    obtain ⟨p'', h1, _⟩ := next_some hn
    have hw : word (read ++ [(p', ch)]) = word read ++ [ch] := by simp
    obtain ⟨b', hb⟩ := S.canFeed ch ⟨_, hfed⟩
    have hw' : word (read ++ (p, ch) :: v) = word read ++ [ch] ++ word v := by simp
    have hb' : b' = true := (R.canFeed hfed hb).2 (by
      rw [hw'] at hread
      exact b.readable_mono hread)
    subst hb'
    obtain ⟨⟨sim', acc⟩, hfeed⟩ := Bundle.feed_next b.parts.bundle hf hfed ch
      ((b.passes _).1 hpass _ ⟨word v, hw'.symm⟩)
    obtain ⟨e1, e2⟩ := R.feed hfed hfeed
    have hp : p' = p := by
      have := hmid'.left
      rw [hmid.left, List.append_assoc] at this
      have := List.append_cancel_left this
      rw [← hrest] at this
      simp only [List.cons_append, List.nil_append, List.cons.injEq, Prod.mk.injEq] at this
      exact this.1.1.symm
    subst hp
    refine ⟨it1, sim', acc, hn, hb, hfeed, by rw [hw]; exact e1, by rw [hw]; exact e2, hmid', ?_⟩
    rw [k2, k1, word_append, ← List.append_assoc, hso]
    simp
  intro u
  induction u with
  | nil =>
    intro read it sim world log k hmid hfed hso hpre hpass happ hrun hfirst hact
    rw [List.append_nil] at hpre hpass hfirst hact ⊢
    obtain ⟨q, ch⟩ := x
    obtain ⟨it1, sim', acc, hn, hcf, hfeed, hfed', hacc, hmid', hso'⟩ := go hmid hfed hso hpre hpass
      (b.readable_taken hfirst.anyMatch)
    cases happ
    simp only [runAll, Outcome.ok.injEq, Prod.mk.injEq] at hrun
    obtain ⟨rfl, rfl⟩ := hrun
    have ha := hacc.2 hfirst.anyMatch
    subst ha
    obtain ⟨f', fs, g, h1, h2⟩ := S.finals ⟨_, hfed⟩ hfeed
    obtain ⟨j, hj, hkind⟩ := R.first hfed' h1 h2
    have := hj.unique hfirst
    subst this
    have hsrc : it1.acceptSuffix.source = word (sc.skipped ++ (read ++ [(q, ch)])) := hso'
    have hg := kinds _ _ _ (hkind it1.acceptSuffix.source)
    rw [hsrc, hact] at hg
    cases hg
    refine ⟨it1.acceptSuffix, .here hn hcf hfeed h1 h2 (by rw [hsrc]; exact hfw), ?_, ?_⟩
    · exact ⟨hmid'.prev, hmid'.iter, hmid'.left, hmid'.start⟩
    · have : it1.acceptSuffix.suffix = [] := rfl
      rw [this, hsrc]
      simp
  | cons y u ih =>
    intro read it sim world log k hmid hfed hso hpre hpass happ hrun hfirst hact
    obtain ⟨q, ch⟩ := y
    have e : read ++ (q, ch) :: u ++ [x] = read ++ [(q, ch)] ++ u ++ [x] := by simp
    have e' : read ++ (q, ch) :: u ++ [x] = read ++ (q, ch) :: (u ++ [x]) := by simp
    obtain ⟨it1, sim', acc, hn, hcf, hfeed, hfed', hacc, hmid', hso'⟩ := go (v := u ++ [x]) hmid hfed hso
      (by rw [← e']; exact hpre) (by rw [← e']; exact hpass)
      (by rw [← e']; exact b.readable_taken hfirst.anyMatch)
    have hw : word (read ++ [(q, ch)]) = word read ++ [ch] := by simp
    rw [e] at hpre hpass hfirst hact ⊢
    rw [word_cons] at happ
    cases happ with
    | skip hno happ =>
      have ha : acc = false := by
        cases acc with
        | false => rfl
        | true => exact absurd (hacc.1 rfl) (by rw [hw]; exact hno)
      subst ha
      obtain ⟨it', h1, h2, h3⟩ := ih hmid' hfed' hso' hpre hpass (by rw [hw]; exact happ) hrun hfirst hact
      exact ⟨it', .step hn hcf hfeed h1, h2, h3⟩
    | @apply _ _ _ j log hj happ =>
      have ha := hacc.2 (by rw [hw]; exact hj.anyMatch)
      subst ha
      obtain ⟨f', fs, g, h1, h2⟩ := S.finals ⟨_, hfed⟩ hfeed
      obtain ⟨j', hj', hkind⟩ := R.first hfed' h1 h2
      rw [hw] at hj'
      have := hj'.unique hj
      subst this
      have hsrc : it1.acceptSuffix.source = word sc.skipped ++ (word read ++ [ch]) := by
        have : it1.acceptSuffix.source = it1.source ++ word it1.suffix := rfl
        rw [this, hso']
        simp
      have hg := kinds _ _ _ (hkind it1.acceptSuffix.source)
      rw [hsrc] at hg
      simp only [runAll, hg, Option.map_some, Spec.uncaught] at hrun
      cases hgw : g (word sc.skipped ++ (word read ++ [ch])) world with
      | mk o world2 =>
        rw [hgw] at hrun
        cases o with
        | none => cases hrun
        | some k2 =>
          obtain ⟨it', h3, h4, h5⟩ := ih (it := it1.acceptSuffix)
            ⟨hmid'.prev, hmid'.iter, hmid'.left, hmid'.start⟩ hfed' (by
              have : it1.acceptSuffix.suffix = [] := rfl
              rw [this, hsrc]
              simp) hpre hpass (by rw [hw]; exact happ) hrun hfirst hact
          exact ⟨it', .accept hn hcf hfeed h1 h2 (by rw [hsrc]; exact hgw) h3, h4, h5⟩

/-- A call that is left by a panic. -/
theorem Built.broken_spec (b : Built p patterns l es) {fuel : Nat} {sc : Scanner} {it it' : InputIter}
    {world world' : W} (hr : Rep sc it)
    (h : lexNextC (nfaMachine l.nfa fuel) l.tokens it world = .ok ((.panicked, it'), world')) :
    ∃ u x log i f world1 k, u ++ [x] <+: sc.left ∧ Passes es (word (u ++ [x])) ∧
      Applies (taken es) (word sc.skipped) [] (word u) log ∧
      runAll (fun i source => (Lex.kindAt patterns i source).map Spec.uncaught) log none world = .ok (k, world1) ∧
      FirstMatch (taken es) (word (u ++ [x])) i ∧ Lex.kindAt patterns i (word (sc.skipped ++ u ++ [x])) = some f ∧
      f world1 = (none, world') ∧
      Rep ⟨sc.skipped ++ u ++ [x], sc.again.drop (u ++ [x]).length,
        sc.ahead.drop ((u ++ [x]).length - sc.again.length), sc.start⟩ it' := by
  have kinds : ∀ i src k, KindOf l.tokens i src k → Lex.kindAt patterns i src = some k := fun i src k => b.kindAt
  have R := b.readsTaken fuel
  obtain ⟨sim, h1, h2⟩ := lexNextC_broken.1 h
  rcases hr with ⟨hl, hp⟩ | ⟨h3, h4, h5, h6⟩
  · have hnx : it.next = (none, it) := by
      simp only [InputIter.pending] at hp
      have a1 : it.prev = [] := List.length_eq_zero_iff.1 (by omega)
      have a2 : it.iter = [] := List.length_eq_zero_iff.1 (by omega)
      simp [InputIter.next, a1, a2]
    cases h2 with
    | here hn => rw [hnx] at hn; cases hn
    | accept hn => rw [hnx] at hn; cases hn
    | step hn => rw [hnx] at hn; cases hn
  · obtain ⟨u, x, log, i, f, world1, e1, e2, e3, e4, e5, e6, e7, e8⟩ := h2.spec R kinds
      (Sp := Bundle.Spinning l.nfa (fragTrees 2 es))
      (fun hfed hfeed hs => b.parts.bundle.fed_never hs hfed hfeed) (read := []) (sc := sc)
      ⟨by simpa using h4, by simpa using h5, by simp [Scanner.left, InputIter.rest, h4, h5], h6⟩ (R.start h1)
      (by simpa using h3)
    obtain ⟨k, e4⟩ := e4 none
    rw [List.nil_append] at e1 e2 e5 e6
    refine ⟨u, x, log, i, f, world1, k, ⟨_, e1.left.symm⟩, ?_, e3, e4, e5, by rw [List.append_assoc]; exact e6, e7,
      .inr ⟨?_, e1.prev, e1.iter, e1.start⟩⟩
    · rw [b.passes]
      intro w hw hs
      exact e8 w hs.1 hw hs
    · rw [e2, List.append_assoc]

theorem Built.broken (b : Built p patterns l es) {fuel : Nat} (hf : simFuel l.nfa (fragTrees 2 es) ≤ fuel)
    {sc : Scanner} {it : InputIter} {world world1 world' : W} {u : List (Nat × Char)} {x : Nat × Char}
    {log : List (Nat × List Char)} {i : Nat} {f : Fallible W K} {k : Option K} (hr : Rep sc it)
    (h1 : u ++ [x] <+: sc.left) (h2 : Passes es (word (u ++ [x])))
    (h3 : Applies (taken es) (word sc.skipped) [] (word u) log)
    (h4 : runAll (fun i source => (Lex.kindAt patterns i source).map Spec.uncaught) log none world = .ok (k, world1))
    (h5 : FirstMatch (taken es) (word (u ++ [x])) i)
    (h6 : Lex.kindAt patterns i (word (sc.skipped ++ u ++ [x])) = some f) (h7 : f world1 = (none, world')) :
    ∃ it', lexNextC (nfaMachine l.nfa fuel) l.tokens it world = .ok ((.panicked, it'), world') ∧
      Rep ⟨sc.skipped ++ u ++ [x], sc.again.drop (u ++ [x]).length,
        sc.ahead.drop ((u ++ [x]).length - sc.again.length), sc.start⟩ it' := by
  obtain ⟨runs, hi⟩ := initRuns_exists b.parts.bundle.wf (fuel := fuel) (by simp only [simFuel] at hf; omega)
  rcases hr with ⟨hl, _⟩ | ⟨g3, g4, g5, g6⟩
  · rw [hl] at h1
    exact absurd h1.length_le (by simp)
  · obtain ⟨it', e1, e2, e3⟩ := b.breaks hf h7 (sc := sc) (read := []) (it := it) (u := u) (x := x)
      ⟨by simpa using g4, by simpa using g5, by simp [Scanner.left, InputIter.rest, g4, g5], g6⟩ (.init hi)
      (by simpa using g3) (by simpa using h1) (by simpa using h2) h3 h4 (by simpa using h5)
      (by rw [List.nil_append, ← List.append_assoc]; exact h6)
    rw [List.nil_append] at e2 e3
    refine ⟨it', lexNextC_broken.2 ⟨runs, hi, e1⟩, .inr ⟨?_, e2.prev, e2.iter, e2.start⟩⟩
    rw [e3, List.append_assoc]

/-- A call in which no function panics. -/
theorem lexNextC_returned {fuel : Nat} {it it' : InputIter} {world world' : W} {a : Option (Tok K)} :
    lexNextC (nfaMachine l.nfa fuel) l.tokens it world = .ok ((.returned a, it'), world') ↔
      lexNextE (nfaMachine l.uncaught.nfa fuel) l.uncaught.tokens it world = .ok ((a, it'), world') := by
  have h := lexNextC_uncaught (m := nfaMachine l.nfa fuel) (gs := l.tokens) (it := it) (world := world)
  simp only [Lexer.uncaught]
  rw [h]
  cases lexNextC (nfaMachine l.nfa fuel) l.tokens it world with
  | panic => simp [Outcome.uncaught]
  | diverge => simp [Outcome.uncaught]
  | ok x =>
    obtain ⟨⟨a', it1⟩, w1⟩ := x
    cases a' <;> simp [Outcome.uncaught]

/-- All calls of a built lexer, between two calls. -/
theorem Built.callsC_iff (b : Built p patterns l es) {n : Nat} : ∀ {sc : Scanner} {it : InputIter}
    {as : List (Answer K)} {world world' : W}, Rep sc it →
    ((∃ fuel it', lexCallsC (nfaMachine l.nfa fuel) l.tokens n it world = .ok ((as, it'), world')) ↔
      as.length = n ∧ ∃ sc', CallsC (taken es) (Readable es) (Passes es) (Lex.kindAt patterns) sc world as
        sc' world') := by
  have bu := b.uncaught
  induction n with
  | zero =>
    intro sc it as world world' hr
    constructor
    · rintro ⟨fuel, it', h⟩
      simp only [lexCallsC, Outcome.ok.injEq, Prod.mk.injEq] at h
      obtain ⟨⟨rfl, _⟩, rfl⟩ := h
      exact ⟨rfl, sc, .done⟩
    · rintro ⟨h, sc', hc⟩
      rw [List.length_eq_zero_iff.1 h] at hc ⊢
      cases hc
      exact ⟨0, it, rfl⟩
  | succ n ih =>
    intro sc it as world world' hr
    constructor
    · rintro ⟨fuel, it', h⟩
      simp only [lexCallsC, Outcome.bind_eq_ok] at h
      obtain ⟨⟨⟨a, it1⟩, world1⟩, h1, ⟨⟨as1, it2⟩, world2⟩, h2, h3⟩ := h
      simp only [Outcome.pure_eq, Outcome.ok.injEq, Prod.mk.injEq] at h3
      obtain ⟨⟨rfl, rfl⟩, rfl⟩ := h3
      cases a with
      | panicked =>
        obtain ⟨u, x, log, i, f, w1, k, e1, e2, e3, e4, e5, e6, e7, e8⟩ := b.broken_spec hr h1
        obtain ⟨h6, sc', h7⟩ := (ih e8).1 ⟨fuel, it2, h2⟩
        exact ⟨by simp [h6], sc', .panicked e1 e2 e3 e4 e5 e6 e7 h7⟩
      | returned a =>
        rw [lexNextC_returned] at h1
        have hbig := (lexNextE_le (gs := l.uncaught.tokens) (it := it) (world := world)
          (nfaMachine_le (nfa := l.nfa) (Nat.le_add_right fuel (simFuel l.nfa (fragTrees 2 es))))).ok h1
        obtain ⟨y, hy⟩ := lexNextE_ok hbig
        have he := (bu.next_iff (Nat.le_add_left _ _) hr).1 ⟨y, hy⟩
        obtain ⟨a', it1', sc1, u, log, hr1, hc, e1, e2, e3⟩ := bu.nextE (Nat.le_add_left _ fuel) hr he
        have hbig' := (e3 world).symm.trans hbig
        simp only [Outcome.bind_eq_ok] at hbig'
        obtain ⟨⟨k, w1⟩, h4, h5⟩ := hbig'
        simp only [Outcome.ok.injEq, Prod.mk.injEq] at h5
        obtain ⟨⟨rfl, rfl⟩, rfl⟩ := h5
        obtain ⟨h6, sc', h7⟩ := (ih hr1).1 ⟨fuel, it2, h2⟩
        rw [kindAt_uncaught] at hc h4
        exact ⟨by simp [h6], sc', .returned he hc e1 e2 h4 h7⟩
    · rintro ⟨hlen, sc', h⟩
      -- one call, and then the rest
      have join : ∀ {a : Answer K} {as : List (Answer K)} {it1 : InputIter} {world1 : W},
          as.length = n → lexNextC (nfaMachine l.nfa (simFuel l.nfa (fragTrees 2 es))) l.tokens it world =
            .ok ((a, it1), world1) →
          (∃ fuel it', lexCallsC (nfaMachine l.nfa fuel) l.tokens n it1 world1 = .ok ((as, it'), world')) →
          ∃ fuel it', lexCallsC (nfaMachine l.nfa fuel) l.tokens (n + 1) it world = .ok ((a :: as, it'), world') := by
        rintro a as it1 world1 hlen h1 ⟨fuel, it2, h2⟩
        refine ⟨simFuel l.nfa (fragTrees 2 es) + fuel, it2, ?_⟩
        have e4 := (lexNextC_le (gs := l.tokens) (it := it)
          (nfaMachine_le (nfa := l.nfa) (Nat.le_add_right (simFuel l.nfa (fragTrees 2 es)) fuel))).ok h1
        have e5 := (lexCallsC_le (gs := l.tokens) (n := n) (it := it1)
          (nfaMachine_le (nfa := l.nfa) (Nat.le_add_left fuel (simFuel l.nfa (fragTrees 2 es))))).ok h2
        simp [lexCallsC, e4, e5]
      cases h with
      | done => simp at hlen
      | @returned _ sc1 _ _ world1 _ a as u log k hp hc hu hlog hrun hcs =>
        obtain ⟨a', it1, sc1', u', log', hr1, hc', e1, e2, e3⟩ := bu.nextE (Nat.le_refl _) hr hp
        rw [← kindAt_uncaught] at hc hrun
        obtain ⟨rfl, rfl⟩ := Call.unique (fun _ _ h => b.readable_mono h) hc hc'
        have := hu.unique (fun _ _ h => b.readable_mono h) e1
        subst this
        have := hlog.unique e2
        subst this
        have h1 := e3 world
        rw [hrun, Outcome.bind_ok] at h1
        exact join (by simpa using hlen) (lexNextC_returned.2 h1) ((ih hr1).2 ⟨by simpa using hlen, sc', hcs⟩)
      | panicked h1 h2 h3 h4 h5 h6 h7 hcs =>
        obtain ⟨it1, e1, e2⟩ := b.broken (Nat.le_refl _) hr h1 h2 h3 h4 h5 h6 h7
        exact join (by simpa using hlen) e1 ((ih e2).2 ⟨by simpa using hlen, sc', hcs⟩)

end

end Pango.Lex
