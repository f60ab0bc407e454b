import Verif.Proofs.Reads
import Verif.Proofs.Words
import Verif.Props.Local

/-!
# C80: how often the characters of the input are read
-/

namespace Pango.Props

open Pango Pango.Lex Pango.Fsm Pango.Regex Pango.Spec

variable [Unicode] {K : Type}

/-- The first calls of `next` return `as`, and have read `n` characters, counting those that were put back and read
again. -/
def CallsRead (l : Lexer K) (input : List Char) (as : List (Option (Tok K))) (n : Nat) : Prop :=
  ∃ fuel it, lexCallsN (nfaMachine l.nfa fuel) l.tokens as.length (InputIter.new input) 0 = .ok ((as, it), n)

/-- C80, the full claim: a lexer reads every character a bounded number of times, so that what it reads is
proportional to the length of the input. -/
def C80 : Prop :=
  ∀ (p : Profile) (rules : List (List Char × (List Char → Nat))) (es : List Expr) (l : Lexer Nat),
    LexerFor p rules es l →
    ∃ k, ∀ (input : List Char) (as : List (Option (Tok Nat))) (n : Nat), CallsRead l input as n → n ≤ k * input.length

/-- At most `k` characters that could be read behind a match are put back. -/
def PutsBackAtMost (es : List Expr) (k : Nat) : Prop :=
  ∀ w back x, Readable es (w ++ back) → ¬ Readable es (w ++ back ++ [x]) → Passes es (w ++ back ++ [x]) →
    Longest (taken es) (w ++ back) w → back.length ≤ k

/-! ## Bounds -/

omit [Unicode] in
theorem pending_new (input : List Char) : (InputIter.new input).pending = input.length := by
  have : ∀ (cs : List Char) (n : Nat), (enumFrom n cs).length = cs.length := by
    intro cs
    induction cs with
    | nil => exact fun _ => rfl
    | cons c cs ih => exact fun n => by simp [enumFrom, ih]
  simp [InputIter.new, InputIter.pending, this]

omit [Unicode] in
theorem _root_.Pango.Lex.Rep.pending {sc : Scanner} {it : InputIter} (h : Rep sc it) :
    it.pending = sc.left.length ∧ it.prev.length ≤ sc.again.length := by
  rcases h with ⟨h1, h2⟩ | ⟨_, h1, h2, _⟩
  · rw [h1]
    refine ⟨h2, ?_⟩
    simp only [InputIter.pending] at h2
    omega
  · simp [InputIter.pending, Scanner.left, h1, h2]

omit [Unicode] in
/-- C80, the calls are those of the lexer: for every machine, table of tokens, iterator and number of calls the calls
that count return, panic or do not end as those of the lexer do. -/
theorem c80_erased {σ : Type} (m : Machine σ) (gs : Generators K) (calls : Nat) (it : InputIter) (n : Nat) :
    (lexCallsN m gs calls it n >>= fun r => pure r.1) = lexCalls m gs calls it := lexCallsN_fst

/-- C80, the calls are those of the lexer: counting changes nothing. -/
theorem c80_same (l : Lexer K) (input : List Char) (as : List (Option (Tok K))) :
    (∃ n, CallsRead l input as n) ↔
      ∃ fuel it, lexCalls (nfaMachine l.nfa fuel) l.tokens as.length (InputIter.new input) = .ok (as, it) := by
  constructor
  · rintro ⟨n, fuel, it, h⟩
    exact ⟨fuel, it, lexCallsN_ok h⟩
  · rintro ⟨fuel, it, h⟩
    obtain ⟨n, hn⟩ := lexCallsN_of 0 h
    exact ⟨n, fuel, it, hn⟩

/-- C80 with the square of the length: every lexer, however often it is called, reads at most `1 + 2 + ... + n`
characters of an input of length `n`. -/
theorem c80_square_partial (l : Lexer K) (input : List Char) (as : List (Option (Tok K))) (n : Nat)
    (h : CallsRead l input as n) : 2 * n ≤ input.length * (input.length + 1) := by
  obtain ⟨fuel, it, h⟩ := h
  have := lexCallsN_quadratic h
  rw [pending_new] at this
  omega

/-- C80 for lexers that put back at most `k` characters that could be read behind a match: every character is read at
most `k + 2` times on average. -/
theorem c80_back_partial {p : Profile} {rules : List (List Char × (List Char → K))} {es : List Expr} {l : Lexer K}
    (hl : LexerFor p rules es l) (k : Nat) (hk : PutsBackAtMost es k) (input : List Char)
    (as : List (Option (Tok K))) (n : Nat) (h : CallsRead l input as n) : n ≤ (k + 2) * input.length := by
  have b := hl.toBuilt
  have kinds : ∀ i src k, KindOf l.tokens i src k → Lex.kindAt rules i src = some k := fun i src k => b.kindAt
  have key : ∀ {fuel calls : Nat} {sc : Scanner} {it it' : InputIter} {n n' : Nat} {as : List (Option (Tok K))},
      Rep sc it → lexCallsN (nfaMachine l.nfa fuel) l.tokens calls it n = .ok ((as, it'), n') →
      n' ≤ n + (k + 2) * it.pending := by
    intro fuel calls
    induction calls with
    | zero =>
      intro sc it it' n n' as hr h
      simp only [lexCallsN, Outcome.ok.injEq, Prod.mk.injEq] at h
      omega
    | succ calls ih =>
      intro sc it it' n n' as hr h
      simp only [lexCallsN, Outcome.bind_eq_ok] at h
      obtain ⟨⟨⟨a, it1⟩, n1⟩, h1, ⟨⟨as1, it2⟩, n2⟩, h2, h3⟩ := h
      simp only [Outcome.pure_eq, Outcome.ok.injEq, Prod.mk.injEq] at h3
      obtain ⟨⟨rfl, rfl⟩, rfl⟩ := h3
      obtain ⟨h1', q, rfl, hrd⟩ := lexNextN_ok h1
      have hbig : lexNext (nfaMachine l.nfa (fuel + simFuel l.nfa (fragTrees 2 es))) l.tokens it = .ok (a, it1) :=
        (lexNext_le (nfaMachine_le (Nat.le_add_right _ _))).ok h1'
      have hp := (b.next_iff (Nat.le_add_left _ _) hr).1 ⟨_, hbig⟩
      obtain ⟨sc', hc, hr'⟩ := lexNext_call (b.readsTaken fuel) kinds hr h1'
      have h4 := ih hr' h2
      dsimp only at h4
      have h5 : q + (k + 2) * it1.pending ≤ (k + 2) * it.pending := by
        cases a with
        | none =>
          have := hrd.none rfl
          rw [← this, Nat.mul_add]
          have : 1 * q ≤ (k + 2) * q := Nat.mul_le_mul_right _ (by omega)
          omega
        | some t =>
          have h6 := hrd.some rfl
          have h7 := hrd.less' rfl rfl
          have h8 : it1.prev.length ≤ k + 1 := by
            have := hr'.pending.2
            cases hc with
            | @token w back x i kd hpre hlive hnlive hlong _ _ =>
              have := hk (word w) (word back) x.2 (by simpa [word] using hlive) (by simpa [word] using hnlive)
                (by
                  obtain ⟨v, hv⟩ := hpre
                  refine passes_mono es _ (word v) ?_
                  rw [← hv] at hp
                  simpa [word] using hp) (by simpa [word] using hlong)
              simp only [word, List.length_map] at this
              simp only [List.length_append, List.length_singleton] at *
              omega
            | last _ _ _ _ =>
              simp only [List.length_nil] at this
              omega
          obtain ⟨d, hd⟩ : ∃ d, it.pending = it1.pending + (d + 1) := ⟨it.pending - it1.pending - 1, by omega⟩
          rw [hd, Nat.mul_add]
          have h9 : (k + 2) * (d + 1) = (k + 2) * d + (k + 2) := by rw [Nat.mul_add, Nat.mul_one]
          have : 1 * d ≤ (k + 2) * d := Nat.mul_le_mul_right _ (by omega)
          omega
      omega
  obtain ⟨fuel, it, h⟩ := h
  have := key (rep_new input) h
  rw [pending_new] at this
  omega

/-- C80 for lexers that put nothing back but the character that cannot be read. -/
theorem c80_kept_partial {p : Profile} {rules : List (List Char × (List Char → K))} {es : List Expr} {l : Lexer K}
    (hl : LexerFor p rules es l) (hk : PutsNothingBack es) (input : List Char)
    (as : List (Option (Tok K))) (n : Nat) (h : CallsRead l input as n) : n ≤ 2 * input.length :=
  c80_back_partial hl 0 (fun w back x h1 h2 h3 h4 => by rw [hk w back x h1 h2 h3 h4]; simp) input as n h

/-- C80 for lexers whose patterns cannot be read further than `k + 1` characters. -/
theorem c80_short_partial {p : Profile} {rules : List (List Char × (List Char → K))} {es : List Expr} {l : Lexer K}
    (hl : LexerFor p rules es l) (k : Nat) (hk : ∀ w, Readable es w → w.length ≤ k + 1) (input : List Char)
    (as : List (Option (Tok K))) (n : Nat) (h : CallsRead l input as n) : n ≤ (k + 2) * input.length := by
  refine c80_back_partial hl k (fun w back x h1 h2 h3 h4 => ?_) input as n h
  have := hk _ h1
  have hw := List.length_pos_iff.2 h4.nonempty
  simp only [List.length_append] at this
  omega

/-! ## A lexer that reads the square -/

/-- The trees of `a` and `a*b`. -/
def slowTrees : List Expr :=
  [.lit (.mtch 'a') none, .concat [.lit (.mtch 'a') (some .asterisk), .lit (.mtch 'b') none]]

/-- The lexer with these rules. -/
def slow : Lexer Nat :=
  ⟨⟨0, [⟨0, false, [(.literal (.mtch 'a'), [2]), (.eps, [5])]⟩, ⟨1, true, []⟩, ⟨2, true, []⟩, ⟨3, true, []⟩,
    ⟨4, false, [(.literal (.mtch 'b'), [3])]⟩,
    ⟨5, false, [(.quantified .asterisk, [4]), (.literal (.mtch 'a'), [5])]⟩]⟩, [(2, fun _ => 0), (3, fun _ => 1)]⟩

omit [Unicode] in
theorem slow_for : LexerFor .debug [("a".toList, fun _ => 0), ("a*b".toList, fun _ => 1)] slowTrees slow := ⟨rfl, rfl⟩

theorem slow_regular : Regular slowTrees := by
  intro e he
  rw [← repeatsNonEmptyB_iff, ← countsAtStartB_iff]
  simp only [slowTrees, List.mem_cons, List.not_mem_nil, or_false] at he
  rcases he with rfl | rfl <;> decide

theorem slow_reads (k : Nat) : Readable slowTrees (List.replicate k 'a') := by
  cases k with
  | zero => exact .inl rfl
  | succ k =>
    exact .inr ⟨_, List.mem_cons_of_mem _ (List.mem_cons_self ..), .here (.chars (by simp)
      fun c hc => by simpa [LitSet] using (List.mem_replicate.1 hc).2)⟩

theorem slow_c : ∀ e ∈ slowTrees, ¬ Uses e 'c' := by
  have lit : ∀ (d : Char) (q : Option Quant), d ≠ 'c' → ¬ Uses (.lit (.mtch d) q) 'c' := by
    intro d q hd h
    cases h with
    | lit h => exact hd h.symm
  intro e he h
  simp only [slowTrees, List.mem_cons, List.not_mem_nil, or_false] at he
  rcases he with rfl | rfl
  · exact lit _ _ (by decide) h
  · cases h with
    | part hm h =>
      simp only [List.mem_cons, List.not_mem_nil, or_false] at hm
      rcases hm with rfl | rfl <;> exact lit _ _ (by decide) h

theorem slow_stops (w : List Char) : ¬ Readable slowTrees (w ++ ['c']) := by
  intro h
  obtain ⟨e, he, hu⟩ := h.uses 'c' (by simp)
  exact slow_c e he hu

/-- The only match in `aaa...` is `a`. -/
theorem slow_match {k : Nat} (h : AnyMatch (taken slowTrees) (List.replicate k 'a')) : k = 1 := by
  rw [taken_languages slow_for slow_regular] at h
  obtain ⟨M, hM, h⟩ := h
  simp only [languages, slowTrees, List.map_cons, List.map_nil, List.mem_cons, List.not_mem_nil, or_false] at hM
  rcases hM with rfl | rfl
  · obtain ⟨c, hc, _⟩ := matches_lit h
    simpa using congrArg List.length hc
  · have : ∀ {w : List Char}, Matches (.concat [.lit (.mtch 'a') (some .asterisk), .lit (.mtch 'b') none]) w → 'b' ∈ w := by
      intro w h
      cases h with
      | cons _ h =>
        cases h with
        | cons h _ =>
          obtain ⟨c, rfl, hc⟩ := matches_lit h
          rw [show c = 'b' from hc]
          simp
    have := (List.mem_replicate.1 (this h)).2
    exact absurd this (by decide)

theorem slow_a : FirstMatch (taken slowTrees) ['a'] 0 := by
  refine ⟨⟨_, rfl, .inr ⟨_, .lit rfl⟩⟩, fun j M hj => by omega⟩

/-- With `k` times `a` and `c` left, `k + 1` calls read everything, then everything but the first, and so on. -/
theorem slow_calls {k : Nat} : ∀ {sc : Scanner} {it : InputIter} (n : Nat), Rep sc it →
    word sc.left = List.replicate k 'a' ++ ['c'] →
    ∃ as it' n', as.length = k + 1 ∧ 2 * n + (k + 1) * (k + 2) ≤ 2 * n' ∧
      lexCallsN (nfaMachine slow.nfa (simFuel slow.nfa (fragTrees 2 slowTrees))) slow.tokens (k + 1) it n =
        .ok ((as, it'), n') := by
  have b := slow_for.toBuilt
  have kinds : ∀ i src k, KindOf slow.tokens i src k →
      Lex.kindAt [("a".toList, fun _ => 0), ("a*b".toList, fun _ => 1)] i src = some k := fun i src k => b.kindAt
  have mono : ∀ w v, Readable slowTrees (w ++ v) → Readable slowTrees w := fun _ _ h => b.readable_mono h
  have pass : ∀ w, Passes slowTrees w := by
    intro w e he v hv hs
    have hc := b.compiles e he
    exact (c11_exact_partial e hc v).1 ((c10_exact_partial e hc).2 (slow_regular e he).1 v) ⟨v, List.prefix_refl _, hs⟩
  induction k with
  | zero =>
    intro sc it n hr hw
    obtain ⟨⟨a, it1⟩, h1⟩ := (b.next_iff (Nat.le_refl _) hr).2 (pass _)
    obtain ⟨sc', hc, hr'⟩ := lexNext_call (b.readsTaken _) kinds hr h1
    obtain ⟨q, hq⟩ := lexNextN_of h1 n
    obtain ⟨_, q', hq', hrd⟩ := lexNextN_ok hq
    obtain rfl : q = q' := by omega
    obtain ⟨x, hx, hxc⟩ : ∃ x, sc.left = [x] ∧ x.2 = 'c' := by
      simpa [word, List.map_eq_singleton_iff] using hw
    have hc' : Call (taken slowTrees) (Readable slowTrees)
        (Lex.kindAt [("a".toList, fun _ => 0), ("a*b".toList, fun _ => 1)]) sc none _ :=
      .nothing (u := []) (x := x) (by rw [hx]; exact List.prefix_rfl) (.inl rfl) (by
        have := slow_stops []
        simpa [word, hxc] using this) (fun w h h' => absurd (List.prefix_nil.1 h') h)
    obtain ⟨rfl, rfl⟩ := Call.unique mono hc hc'
    have e1 := hrd.none rfl
    have e2 := hr.pending.1
    have e3 := hr'.pending.1
    rw [hx] at e2
    have e4 : (sc.again.drop ([] ++ [x] : List (Nat × Char)).length ++
        sc.ahead.drop (([] ++ [x] : List (Nat × Char)).length - sc.again.length)).length = 0 := by
      have := congrArg List.length hx
      simp only [Scanner.left, List.length_append, List.length_singleton] at this
      simp only [List.length_append, List.length_drop, List.length_nil, List.length_singleton]
      omega
    simp only [Scanner.left] at e3
    rw [e4] at e3
    refine ⟨[none], it1, n + q, rfl, ?_, by simp [lexCallsN, hq]⟩
    simp only [List.length_singleton] at e2
    omega
  | succ k ih =>
    intro sc it n hr hw
    obtain ⟨⟨a, it1⟩, h1⟩ := (b.next_iff (Nat.le_refl _) hr).2 (pass _)
    obtain ⟨sc', hc, hr'⟩ := lexNext_call (b.readsTaken _) kinds hr h1
    obtain ⟨q, hq⟩ := lexNextN_of h1 n
    obtain ⟨_, q', hq', hrd⟩ := lexNextN_ok hq
    obtain rfl : q = q' := by omega
    obtain ⟨y, back, x, hx, hy, hback, hxc⟩ : ∃ y back x, sc.left = [y] ++ back ++ [x] ∧ y.2 = 'a' ∧
        word back = List.replicate k 'a' ∧ x.2 = 'c' := by
      obtain ⟨l1, l2, h2, h3, h4⟩ := List.map_eq_append_iff.1 hw
      obtain ⟨x, rfl, hx⟩ := List.map_eq_singleton_iff.1 h4
      rw [List.replicate_succ] at h3
      obtain ⟨y, back, rfl, hy, hb⟩ := List.map_eq_cons_iff.1 h3
      exact ⟨y, back, x, by simpa using h2, hy, hb, hx⟩
    have hall : word ([y] ++ back) = List.replicate (k + 1) 'a' := by
      rw [List.replicate_succ, ← hback, ← hy]; rfl
    have hy' : word [y] = ['a'] := by rw [← hy]; rfl
    have hc' : Call (taken slowTrees) (Readable slowTrees)
        (Lex.kindAt [("a".toList, fun _ => 0), ("a*b".toList, fun _ => 1)]) sc
        (some ⟨0, word (sc.skipped ++ [y]), (sc.start, stop [y])⟩) _ :=
      .token (w := [y]) (back := back) (x := x) (i := 0) (by rw [hx]; exact List.prefix_rfl)
        (by rw [hall]; exact slow_reads _) (by
          have : word ([y] ++ back ++ [x]) = word ([y] ++ back) ++ ['c'] := by simp [word, hxc]
          rw [this]
          exact slow_stops _)
        ⟨by simp [word], by simp [word], by rw [hy']; exact slow_a.anyMatch, fun v hv hm => by
          rw [hall] at hv
          obtain ⟨j, hj⟩ : ∃ j, v = List.replicate j 'a' := by
            refine ⟨v.length, List.eq_replicate_iff.2 ⟨rfl, fun c hc => ?_⟩⟩
            exact (List.mem_replicate.1 (hv.subset hc)).2
          rw [hj] at hm ⊢
          have := slow_match hm
          simp [this, word]⟩ (by rw [hy']; exact slow_a) rfl
    obtain ⟨rfl, rfl⟩ := Call.unique mono hc hc'
    have e0 : sc.ahead.drop (([y] ++ back ++ [x]).length - sc.again.length) = [] := by
      rw [List.drop_eq_nil_iff]
      have := congrArg List.length hx
      simp only [Scanner.left, List.length_append] at this ⊢
      omega
    have e1 := hrd.back' rfl rfl
    have e2 : it1.prev.length = k + 1 := by
      have hp := hr'.pending
      have hb : back.length = k := by simpa [word] using congrArg List.length hback
      rw [e0] at hr'
      rcases hr' with ⟨h5, _⟩ | ⟨_, h5, _⟩
      · simp [Scanner.left] at h5
      · rw [h5]; simp [hb]
    obtain ⟨as, it', n', hlen, hn', hrest⟩ := ih (n + q) hr' (by
      simp only [Scanner.left]
      rw [e0]
      rw [List.append_nil, word, List.map_append, List.map_singleton, hxc]
      exact congrArg (· ++ ['c']) hback)
    refine ⟨_ :: as, it', n', by simp [hlen], ?_, by
      rw [lexCallsN, hq, Outcome.bind_ok]
      dsimp only
      rw [hrest]
      rfl⟩
    have : (k + 1 + 1) * (k + 1 + 2) = (k + 1) * (k + 2) + 2 * (k + 2) := by
      simp only [Nat.mul_add, Nat.add_mul]; omega
    omega

/-- The bound of `c80_square_partial` is reached, for inputs of all lengths. -/
theorem c80_reached (k : Nat) : ∃ (as : List (Option (Tok Nat))) (n : Nat),
    CallsRead slow (List.replicate k 'a' ++ ['c']) as n ∧ 2 * n = (k + 1) * (k + 2) := by
  have hn : ∀ (cs : List Char) (n : Nat), word (numbered n cs) = cs := by
    intro cs
    induction cs with
    | nil => exact fun _ => rfl
    | cons c cs ih => exact fun n => by rw [numbered, word, List.map_cons]; exact congrArg _ (ih _)
  obtain ⟨as, it', n', h1, h2, h3⟩ := slow_calls (k := k) 0 (rep_new (List.replicate k 'a' ++ ['c'])) (by
    simp [Scanner.new, Scanner.left, hn])
  have h4 : CallsRead slow (List.replicate k 'a' ++ ['c']) as n' := ⟨_, it', by rw [h1]; exact h3⟩
  have := c80_square_partial _ _ _ _ h4
  simp only [List.length_append, List.length_replicate, List.length_singleton] at this
  rw [show k + 1 + 1 = k + 2 from rfl] at this
  exact ⟨as, n', h4, by omega⟩

/-- C80 is false: with the rules `a` and `a*b`, the input `aaa...ac` is read again from every character. -/
theorem c80_false : ¬ C80 := by
  intro h
  obtain ⟨k, hk⟩ := h _ _ _ _ slow_for
  obtain ⟨as, n, h1, h2⟩ := c80_reached (2 * k)
  have := hk _ _ _ h1
  simp only [List.length_append, List.length_replicate, List.length_singleton] at this
  have h3 : (2 * k + 1) * (2 * k + 2) = 2 * (k * (2 * k + 1)) + 2 * (2 * k + 1) := by
    simp only [Nat.mul_add, Nat.add_mul, Nat.mul_one, Nat.one_mul]
    have : 2 * k * (2 * k) = 2 * (k * (2 * k)) := by rw [Nat.mul_assoc]
    omega
  omega

/-- On `aaac` ten characters are read. -/
example : CallsRead slow "aaac".toList [some ⟨0, ['a'], (0, 1)⟩, some ⟨0, ['a'], (1, 2)⟩, some ⟨0, ['a'], (2, 3)⟩, none] 10 :=
  ⟨10, _, by with_unfolding_all rfl⟩

/-- The rules `a+`, `=` and `==` put nothing back, and on `aa===axa` eleven characters are read. -/
example : LexerFor .debug [("a+".toList, List.length), ("=".toList, fun _ => 100), ("==".toList, fun _ => 200)]
      wordsTrees words ∧ PutsNothingBack wordsTrees ∧
    CallsRead words "aa===axa".toList [some ⟨2, "aa".toList, (0, 2)⟩, some ⟨200, "==".toList, (2, 4)⟩,
      some ⟨100, "=".toList, (4, 5)⟩, some ⟨1, "a".toList, (5, 6)⟩, none] 11 :=
  ⟨words_for, words_kept, 10, _, by with_unfolding_all rfl⟩

/-- The rules `a`, `abcd`, `b` and `c` can be read for four characters, and put back two of them on `abcx`. -/
example : LexerFor .debug [("a".toList, fun _ => 0), ("abcd".toList, fun _ => 1), ("b".toList, fun _ => 2),
      ("c".toList, fun _ => 3)] lossyTrees lossy ∧ (∀ w, Readable lossyTrees w → w.length ≤ 3 + 1) ∧
    CallsRead lossy "abcx".toList [some ⟨0, ['a'], (0, 1)⟩, some ⟨2, ['b'], (1, 2)⟩, some ⟨3, ['c'], (2, 3)⟩, none] 7 := by
  refine ⟨lossy_for, fun w hw => ?_, 10, _, by with_unfolding_all rfl⟩
  have e : lossyTrees = ["a".toList, "abcd".toList, "b".toList, "c".toList].map wordTree := rfl
  rw [e, readable_words] at hw
  rcases hw with rfl | ⟨v, hv, h⟩
  · decide
  · refine Nat.le_trans h.length_le ?_
    clear h
    revert v
    decide

end Pango.Props
