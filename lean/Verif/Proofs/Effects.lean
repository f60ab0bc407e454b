import Verif.Proofs.Scanned
import Verif.Spec.Effects

/-!
# The functions that a lexer calls
-/

namespace Pango.Lex

open Pango Pango.Fsm Pango.Regex Pango.Spec Pango.Props

variable {σ W K : Type} {m : Machine σ} {gs : Generators (Action W K)} {rules : List (List Char → Prop)}
  {Live : List Char → Prop} {Sim : σ → List Char → Prop} {act : Nat → List Char → Option (Action W K)}

/-- One call, after it has read `read`: the rest is to run the functions. -/
theorem Lexes.effects (R : Reads m gs rules Live Sim) (hk : ∀ i src k, KindOf gs i src k → act i src = some k)
    {sc : Scanner} {sim : σ} {kind : Option (Action W K)} {it it' : InputIter} {r : Option (Tok (Action W K))}
    (h : Lexes m gs sim kind it r it') : ∀ {read : List (Nat × Char)}, Mid sc read it → Sim sim (word read) →
    Live (word read) → it.source ++ word it.suffix = word (sc.skipped ++ read) →
    ∃ u log, ReadsUpTo Live sc.left (read ++ u) ∧ Applies rules (word sc.skipped) (word read) (word u) log ∧
      ∀ (k : Option K) (world : W), k.isSome = kind.isSome → lexLoopE m gs sim k it world =
        runAll act log k world >>= fun x => .ok ((withKind r x.1, it'), x.2) := by
  have dead : ∀ {sim : σ} {it it1 : InputIter} {ch : Char} {read : List (Nat × Char)}, it.next = (some ch, it1) →
      m.canFeed sim ch = .ok false → Mid sc read it → Sim sim (word read) → Live (word read) →
      ReadsUpTo Live sc.left (read ++ []) := by
    intro sim it it1 ch read hn hcf hmid hs hl
    obtain ⟨p, hmid', k1, k2, k3⟩ := hmid.next hn
    rw [List.append_nil]
    refine ⟨⟨_, hmid.left.symm⟩, hl, ?_⟩
    rintro x hx hlive
    have h1 : read ++ [(p, ch)] <+: sc.left := ⟨_, hmid'.left.symm⟩
    have h2 := (List.prefix_of_prefix_length_le hx h1 (by simp)).eq_of_length (by simp)
    rw [h2] at hlive
    have := (R.canFeed hs hcf).2 (by simpa using hlive)
    cases this
  have eof : ∀ {it it1 : InputIter} {read : List (Nat × Char)}, it.next = (none, it1) → Mid sc read it →
      Live (word read) → ReadsUpTo Live sc.left (read ++ []) := by
    intro it it1 read hn hmid hl
    obtain ⟨_, h7, h8⟩ := next_none hn
    have hleft : sc.left = read := by
      rw [hmid.left]
      simp [InputIter.rest, h7, h8]
    rw [List.append_nil]
    refine ⟨by rw [hleft]; exact List.prefix_refl _, hl, ?_⟩
    intro x hx
    rw [hleft] at hx
    exact absurd hx.length_le (by simp)
  induction h with
  | @stopNone sim it it1 ch hn hcf =>
    intro read hmid hs hl _
    refine ⟨[], [], dead hn hcf hmid hs hl, .done, ?_⟩
    intro k world hkk
    cases k with
    | some k => simp at hkk
    | none => rw [lexLoopE]; split <;> simp_all [runAll, withKind]
  | @stopSome sim k it it1 ch hn hcf =>
    intro read hmid hs hl _
    refine ⟨[], [], dead hn hcf hmid hs hl, .done, ?_⟩
    intro k world hkk
    cases k with
    | none => simp at hkk
    | some k => rw [lexLoopE]; split <;> simp_all [runAll, withKind, takeToken, InputIter.consumeToken]
  | @accept sim sim' kind it it1 it2 ch f fs gen r hn hcf hfeed hfin hget _ ih =>
    intro read hmid hs hl hso
    obtain ⟨p, hmid', k1, k2, k3⟩ := hmid.next hn
    obtain ⟨hs', hb⟩ := R.feed hs hfeed
    have hw : word (read ++ [(p, ch)]) = word read ++ [ch] := by simp
    obtain ⟨i, hfirst, hkind⟩ := R.first hs' hfin hget
    have hsrc : it1.acceptSuffix.source = word sc.skipped ++ (word read ++ [ch]) := by
      have : it1.acceptSuffix.source = it1.source ++ word it1.suffix := rfl
      rw [this, k2, k1, word_append, ← List.append_assoc, hso]
      simp
    obtain ⟨u, log, e1, e2, e3⟩ := ih (read := read ++ [(p, ch)])
      ⟨hmid'.prev, hmid'.iter, hmid'.left, hmid'.start⟩ (by rw [hw]; exact hs')
      (by rw [hw]; exact (R.canFeed hs hcf).1 rfl) (by
        have : it1.acceptSuffix.suffix = [] := rfl
        rw [this, hsrc]
        simp)
    refine ⟨(p, ch) :: u, (i, word sc.skipped ++ (word read ++ [ch])) :: log, by simpa using e1, ?_, ?_⟩
    · rw [hw] at e2
      exact .apply hfirst e2
    · intro k world _
      rw [lexLoopE]
      have hact := hk _ _ _ (hkind it1.acceptSuffix.source)
      rw [hsrc] at hact
      split
      · rename_i ch' it1' hn'
        rw [hn] at hn'
        cases hn'
        simp only [hcf, hfeed, hfin, hget, runAll, hact, hsrc]
        cases hg : gen (word sc.skipped ++ (word read ++ [ch])) world with
        | ok x => exact e3 (some x.1) x.2 rfl
        | panic => rfl
        | diverge => rfl
      · rename_i hn'
        rw [hn] at hn'
        cases hn'
  | @step sim sim' kind it it1 it2 ch r hn hcf hfeed _ ih =>
    intro read hmid hs hl hso
    obtain ⟨p, hmid', k1, k2, k3⟩ := hmid.next hn
    obtain ⟨hs', hb⟩ := R.feed hs hfeed
    have hw : word (read ++ [(p, ch)]) = word read ++ [ch] := by simp
    have hno : ¬ AnyMatch rules (word read ++ [ch]) := fun h => by have := hb.2 h; cases this
    obtain ⟨u, log, e1, e2, e3⟩ := ih (read := read ++ [(p, ch)]) hmid' (by rw [hw]; exact hs')
      (by rw [hw]; exact (R.canFeed hs hcf).1 rfl) (by
        rw [k2, k1, word_append, ← List.append_assoc, hso]
        simp)
    refine ⟨(p, ch) :: u, log, by simpa using e1, ?_, ?_⟩
    · rw [hw] at e2
      exact .skip hno e2
    · intro k world hkk
      rw [lexLoopE]
      split
      · rename_i ch' it1' hn'
        rw [hn] at hn'
        cases hn'
        simp only [hcf, hfeed]
        exact e3 k world hkk
      · rename_i hn'
        rw [hn] at hn'
        cases hn'
  | @eofSome sim k it it1 hn hacc =>
    intro read hmid hs hl _
    refine ⟨[], [], eof hn hmid hl, .done, ?_⟩
    intro k world hkk
    cases k with
    | none => simp at hkk
    | some k => rw [lexLoopE]; split <;> simp_all [runAll, withKind, takeToken, InputIter.consumeToken]
  | @eofNone sim kind it it1 b hn hacc hb =>
    intro read hmid hs hl _
    refine ⟨[], [], eof hn hmid hl, .done, ?_⟩
    intro k world hkk
    rw [lexLoopE]
    split
    · rename_i hn'
      rw [hn] at hn'
      cases hn'
    · rename_i it1' hn'
      rw [hn] at hn'
      cases hn'
      rw [hacc]
      cases b with
      | false => rfl
      | true =>
        rcases hb with hb | hb
        · cases hb
        · subst hb
          cases k with
          | some k => simp at hkk
          | none => rfl

/-- A call with functions that have effects returns only if the call without them returns. -/
theorem lexLoopE_ok : ∀ {sim : σ} {k : Option K} {it : InputIter} {world : W}
    {x : (Option (Tok K) × InputIter) × W}, lexLoopE m gs sim k it world = .ok x →
    ∀ kind : Option (Action W K), ∃ y, lexLoop m gs sim kind it = .ok y := by
  intro sim k it
  induction hn : it.pending using Nat.strongRecOn generalizing sim k it with
  | ind n ih =>
    intro world x h kind
    rw [lexLoopE] at h
    rw [lexLoop]
    split at h
    · rename_i ch it1 hnext
      split
      · rename_i ch' it1' hnext'
        rw [hnext] at hnext'
        cases hnext'
        split at h
        · rename_i hcf
          simp [hcf]
        · rename_i hcf
          simp only [hcf]
          split at h
          · rename_i sim' hfeed
            simp only [hfeed]
            split at h
            · cases h
            · rename_i f fs hfin
              simp only [hfin]
              split at h
              · cases h
              · rename_i gen hget
                simp only [hget]
                split at h
                · exact ih _ (by rw [InputIter.pending_accept, ← hn]; exact InputIter.pending_next hnext) rfl h _
                · cases h
                · cases h
          · rename_i sim' hfeed
            simp only [hfeed]
            exact ih _ (hn ▸ InputIter.pending_next hnext) rfl h _
          · cases h
          · cases h
        · cases h
        · cases h
      · rename_i hnext'
        rw [hnext] at hnext'
        cases hnext'
    · rename_i it1 hnext
      split
      · rename_i hnext'
        rw [hnext] at hnext'
        cases hnext'
      · split at h
        · rename_i hacc
          simp [hacc]
        · rename_i hacc
          simp [hacc]
        · cases h
        · cases h

/-- A call of `next`. -/
theorem lexNextE_eq (R : Reads m gs rules Live Sim) (hk : ∀ i src k, KindOf gs i src k → act i src = some k)
    {sc : Scanner} {it it' : InputIter} {r : Option (Tok (Action W K))} (hr : Rep sc it)
    (h : lexNext m gs it = .ok (r, it')) :
    ∃ u log, ReadsUpTo Live sc.left u ∧ Applies rules (word sc.skipped) [] (word u) log ∧
      ∀ world : W, lexNextE m gs it world =
        runAll act log none world >>= fun x => .ok ((withKind r x.1, it'), x.2) := by
  obtain ⟨sim, h1, h2⟩ := lexNext_ok h
  rcases hr with ⟨hl, hp⟩ | ⟨h3, h5, h6, h7⟩
  · refine ⟨[], [], ⟨List.nil_prefix, R.live0, ?_⟩, .done, ?_⟩
    · intro x hx
      rw [hl] at hx
      exact absurd hx.length_le (by simp)
    · intro world
      have hnx : it.next = (none, it) := by
        simp only [InputIter.pending] at hp
        have a1 : it.prev = [] := List.length_eq_zero_iff.1 (by omega)
        have a2 : it.iter = [] := List.length_eq_zero_iff.1 (by omega)
        simp [InputIter.next, a1, a2]
      cases h2 with
      | stopNone hn => rw [hnx] at hn; cases hn
      | accept hn => rw [hnx] at hn; cases hn
      | step hn => rw [hnx] at hn; cases hn
      | eofNone hn hacc =>
        rw [hnx] at hn
        cases hn
        rw [lexNextE, h1, Outcome.bind_ok, lexLoopE]
        split
        · rename_i hn'
          rw [hnx] at hn'
          cases hn'
        · rename_i it1' hn'
          rw [hnx] at hn'
          cases hn'
          rw [hacc]
          split <;> first | rfl | simp_all
  · obtain ⟨u, log, e1, e2, e3⟩ := h2.effects R hk (sc := sc) (read := []) ⟨by simpa using h5, by simpa using h6,
      by simp [Scanner.left, InputIter.rest, h5, h6], h7⟩ (R.start h1) R.live0 (by simpa using h3)
    refine ⟨u, log, e1, e2, fun world => ?_⟩
    rw [lexNextE, h1, Outcome.bind_ok]
    exact e3 none world rfl

theorem lexNextE_ok {it : InputIter} {world : W} {x : (Option (Tok K) × InputIter) × W}
    (h : lexNextE m gs it world = .ok x) : ∃ y, lexNext m gs it = .ok y := by
  simp only [lexNextE, Outcome.bind_eq_ok] at h
  obtain ⟨sim, h1, h2⟩ := h
  obtain ⟨y, h3⟩ := lexLoopE_ok h2 none
  exact ⟨y, by simp [lexNext, h1, h3]⟩

/-! ## The specification determines what happens -/

theorem _root_.Pango.Spec.ReadsUpTo.unique (mono : ∀ w v, Live (w ++ v) → Live w) {left u u' : List (Nat × Char)}
    (h : ReadsUpTo Live left u) (h' : ReadsUpTo Live left u') : u = u' := by
  have key : ∀ {u u' : List (Nat × Char)}, ReadsUpTo Live left u → ReadsUpTo Live left u' →
      ¬ u.length < u'.length := by
    intro u u' h h' hlt
    have hp := List.prefix_of_prefix_length_le h.isPrefix h'.isPrefix (by omega)
    obtain ⟨t, rfl⟩ := hp
    cases t with
    | nil => simp at hlt
    | cons x t =>
      refine h.stops x (.trans ?_ h'.isPrefix) (mono _ (word t) ?_)
      · exact ⟨t, by simp⟩
      · have := h'.live
        simpa using this
  have h1 := key h h'
  have h2 := key h' h
  exact (List.prefix_of_prefix_length_le h.isPrefix h'.isPrefix (by omega)).eq_of_length (by omega)

theorem _root_.Pango.Spec.Applies.unique {skipped w rest : List Char} {log log' : List (Nat × List Char)}
    (h : Applies rules skipped w rest log) (h' : Applies rules skipped w rest log') : log = log' := by
  induction h generalizing log' with
  | done => cases h'; rfl
  | skip hn _ ih =>
    cases h' with
    | skip _ h' => exact ih h'
    | apply hf _ => exact absurd hf.anyMatch hn
  | apply hf _ ih =>
    cases h' with
    | skip hn _ => exact absurd hf.anyMatch hn
    | apply hf' h' =>
      rw [hf.unique hf', ih h']

/-! ## Fuel -/

theorem lexLoopE_le {m' : Machine σ} (h : m.Le m') {sim : σ} {k : Option K} {it : InputIter} {world : W} :
    (lexLoopE m gs sim k it world).Le (lexLoopE m' gs sim k it world) := by
  induction hp : it.pending using Nat.strongRecOn generalizing sim k it world with
  | ind n ih =>
    subst hp
    rw [lexLoopE, lexLoopE]
    split
    · rename_i c it' hn
      have hlt := InputIter.pending_next hn
      rcases h.canFeed sim c with hc | hc
      · rw [hc]; exact .inl rfl
      · rw [← hc]
        split
        · exact .inr rfl
        · rcases h.feed sim c with hf | hf
          · rw [hf]; exact .inl rfl
          · rw [← hf]
            split
            · rename_i sim' _
              rw [h.finals]
              split
              · exact .inr rfl
              · split
                · exact .inr rfl
                · split
                  · exact ih _ hlt rfl
                  · exact .inr rfl
                  · exact .inr rfl
            · exact ih _ hlt rfl
            · exact .inr rfl
            · exact .inr rfl
        · exact .inr rfl
        · exact .inr rfl
    · rcases h.isAccepting sim with hc | hc
      · rw [hc]; exact .inl rfl
      · rw [← hc]; exact .inr rfl

theorem lexNextE_le {m' : Machine σ} (h : m.Le m') {it : InputIter} {world : W} :
    (lexNextE m gs it world).Le (lexNextE m' gs it world) :=
  h.start.bind fun _ => lexLoopE_le h

theorem lexCallsE_le {m' : Machine σ} (h : m.Le m') {n : Nat} : ∀ {it : InputIter} {world : W},
    (lexCallsE m gs n it world).Le (lexCallsE m' gs n it world) := by
  induction n with
  | zero => exact .inr rfl
  | succ n ih => exact (lexNextE_le h).bind fun _ => ih.bind fun _ => .inr rfl

/-! ## Built lexers -/

section

variable [Unicode] {p : Profile} {patterns : List (List Char × (List Char → Action W K))}
  {l : Lexer (Action W K)} {es : List Expr}

/-- One call of a built lexer. -/
theorem Built.nextE (b : Built p patterns l es) {fuel : Nat} (hf : simFuel l.nfa (fragTrees 2 es) ≤ fuel)
    {sc : Scanner} {it : InputIter} (hr : Rep sc it) (he : Passes es (word sc.left)) :
    ∃ a it' sc' u log, Rep sc' it' ∧ Call (taken es) (Readable es) (Lex.kindAt patterns) sc a sc' ∧
      ReadsUpTo (Readable es) sc.left u ∧ Applies (taken es) (word sc.skipped) [] (word u) log ∧
      ∀ world : W, lexNextE (nfaMachine l.nfa fuel) l.tokens it world =
        runAll (Lex.kindAt patterns) log none world >>= fun x => .ok ((withKind a x.1, it'), x.2) := by
  have kinds : ∀ i src k, KindOf l.tokens i src k → Lex.kindAt patterns i src = some k := fun i src k => b.kindAt
  obtain ⟨⟨a, it'⟩, h1⟩ := (b.next_iff hf hr).2 he
  obtain ⟨sc', hc, hr'⟩ := lexNext_call (b.readsTaken fuel) kinds hr h1
  obtain ⟨u, log, e1, e2, e3⟩ := lexNextE_eq (b.readsTaken fuel) kinds hr h1
  exact ⟨a, it', sc', u, log, hr', hc, e1, e2, e3⟩

/-- All calls of a built lexer, between two calls. -/
theorem Built.callsE_iff (b : Built p patterns l es) {n : Nat} : ∀ {sc : Scanner} {it : InputIter}
    {as : List (Option (Tok K))} {world world' : W}, Rep sc it →
    ((∃ fuel it', lexCallsE (nfaMachine l.nfa fuel) l.tokens n it world = .ok ((as, it'), world')) ↔
      as.length = n ∧ ∃ sc', CallsE (taken es) (Readable es) (Passes es) (Lex.kindAt patterns) sc world as
        sc' world') := by
  induction n with
  | zero =>
    intro sc it as world world' hr
    constructor
    · rintro ⟨fuel, it', h⟩
      simp only [lexCallsE, Outcome.ok.injEq, Prod.mk.injEq] at h
      obtain ⟨⟨rfl, _⟩, rfl⟩ := h
      exact ⟨rfl, sc, .done⟩
    · rintro ⟨h, sc', hc⟩
      rw [List.length_eq_zero_iff.1 h] at hc ⊢
      cases hc
      exact ⟨0, it, rfl⟩
  | succ n ih =>
    intro sc it as world world' hr
    constructor
    · rintro ⟨fuel, it', h⟩
      simp only [lexCallsE, Outcome.bind_eq_ok] at h
      obtain ⟨⟨⟨a, it1⟩, world1⟩, h1, ⟨⟨as1, it2⟩, world2⟩, h2, h3⟩ := h
      simp only [Outcome.pure_eq, Outcome.ok.injEq, Prod.mk.injEq] at h3
      obtain ⟨⟨rfl, rfl⟩, rfl⟩ := h3
      have hbig := (lexNextE_le (gs := l.tokens) (it := it) (world := world)
        (nfaMachine_le (nfa := l.nfa) (Nat.le_add_right fuel (simFuel l.nfa (fragTrees 2 es))))).ok h1
      obtain ⟨y, hy⟩ := lexNextE_ok hbig
      have he := (b.next_iff (Nat.le_add_left _ _) hr).1 ⟨y, hy⟩
      obtain ⟨a', it1', sc1, u, log, hr1, hc, e1, e2, e3⟩ := b.nextE (Nat.le_add_left _ fuel) hr he
      rw [e3 world] at hbig
      simp only [Outcome.bind_eq_ok] at hbig
      obtain ⟨⟨k, w1⟩, h4, h5⟩ := hbig
      simp only [Outcome.ok.injEq, Prod.mk.injEq] at h5
      obtain ⟨⟨rfl, rfl⟩, rfl⟩ := h5
      obtain ⟨h6, sc', h7⟩ := (ih hr1).1 ⟨fuel, it2, h2⟩
      exact ⟨by simp [h6], sc', .next he hc e1 e2 h4 h7⟩
    · rintro ⟨hlen, sc', h⟩
      cases h with
      | done => simp at hlen
      | @next _ sc1 _ _ world1 _ a as u log k hp hc hu hlog hrun hcs =>
        obtain ⟨a', it1, sc1', u', log', hr1, hc', e1, e2, e3⟩ := b.nextE (Nat.le_refl _) hr hp
        obtain ⟨rfl, rfl⟩ := Call.unique (fun _ _ h => b.readable_mono h) hc hc'
        have := hu.unique (fun _ _ h => b.readable_mono h) e1
        subst this
        have := hlog.unique e2
        subst this
        have h1 := e3 world
        rw [hrun, Outcome.bind_ok] at h1
        obtain ⟨fuel, it2, h2⟩ := (ih hr1).2 ⟨by simpa using hlen, sc', hcs⟩
        refine ⟨simFuel l.nfa (fragTrees 2 es) + fuel, it2, ?_⟩
        have e4 := (lexNextE_le (gs := l.tokens) (it := it)
          (nfaMachine_le (nfa := l.nfa) (Nat.le_add_right (simFuel l.nfa (fragTrees 2 es)) fuel))).ok h1
        have e5 := (lexCallsE_le (gs := l.tokens) (n := n) (it := it1)
          (nfaMachine_le (nfa := l.nfa) (Nat.le_add_left fuel (simFuel l.nfa (fragTrees 2 es))))).ok h2
        simp [lexCallsE, e4, e5]

end

end Pango.Lex
