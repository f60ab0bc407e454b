import Verif.Proofs.Work
import Verif.Proofs.RulesWays
import Verif.Props.Reads
import Verif.Props.FewRuns
import Verif.Props.Json

/-!
# C121: how much work lexing is
-/

namespace Pango.Props

open Pango Pango.Lex Pango.Fsm Pango.Regex Pango.Spec

variable [Unicode] {K : Type} {p : Profile} {rules : List (List Char × (List Char → K))} {es : List Expr} {l : Lexer K}

/-- The first calls of `next` return `as`, and have read characters and made runs, `t` together. -/
def CallsWork (l : Lexer K) (input : List Char) (as : List (Option (Tok K))) (t : Nat) : Prop :=
  ∃ fuel it, lexCallsT (nfaMachine l.nfa fuel) List.length l.tokens as.length (InputIter.new input) 0 = .ok ((as, it), t)

/-- C121, the full claim: the work of a lexer is proportional to the length of the input and the number of calls. -/
def C121 : Prop :=
  ∀ (p : Profile) (rules : List (List Char × (List Char → Nat))) (es : List Expr) (l : Lexer Nat), LexerFor p rules es l →
    ∃ k, ∀ (input : List Char) (as : List (Option (Tok Nat))) (t : Nat), CallsWork l input as t →
      t ≤ k * (input.length + as.length)

omit [Unicode] in
/-- C121, the calls are those of the lexer: for every machine, measure, table of tokens, iterator and number of calls the
calls that count return, panic or do not end as those of the lexer do. -/
theorem c121_erased {σ : Type} (m : Machine σ) (size : σ → Nat) (gs : Generators K) (calls : Nat) (it : InputIter)
    (t : Nat) : (lexCallsT m size gs calls it t >>= fun r => pure r.1) = lexCalls m gs calls it := lexCallsT_fst

/-! ## Bounds -/

/-- The runs that are held while at most `L` characters are read. -/
private theorem runs_bounded {nfa : Nfa} {fuel L B : Nat}
    (h : ∀ v runs, Fed nfa fuel v runs → v.length ≤ L → runs.length ≤ B) :
    Bounded (nfaMachine nfa fuel) List.length (fun runs r => ∃ v, Fed nfa fuel v runs ∧ v.length + r ≤ L) B := by
  constructor
  · rintro sim sim' r c b ⟨v, h1, h2⟩ h3
    exact ⟨_, h1.feed h3, by rw [List.length_append, List.length_singleton]; omega⟩
  · rintro sim r ⟨v, h1, h2⟩
    exact h v sim h1 (by omega)

private theorem work_le {input : List Char} {as : List (Option (Tok K))} {t B : Nat}
    (hB : ∀ fuel v runs, Fed l.nfa fuel v runs → v.length ≤ input.length → runs.length ≤ B)
    (h : CallsWork l input as t) : ∃ n, CallsRead l input as n ∧ t ≤ (B + 1) * n + B * as.length := by
  obtain ⟨fuel, it, h⟩ := h
  obtain ⟨k, w, e1, e2, _, e4⟩ := lexCallsT_ok (runs_bounded (hB fuel)) h 0
  rw [Nat.zero_add] at e1 e2
  subst e1
  refine ⟨k, ⟨fuel, it, e2⟩, e4 fun sim r hs hr => ⟨[], .init hs, ?_⟩⟩
  rw [pending_new] at hr
  simpa using hr

/-- The work is at least the number of characters that are read. -/
theorem work_ge {input : List Char} {as : List (Option (Tok K))} {t : Nat} (h : CallsWork l input as t) :
    ∃ n, CallsRead l input as n ∧ n ≤ t := by
  obtain ⟨fuel, it, h⟩ := h
  obtain ⟨k, w, e1, e2, e3, _⟩ := lexCallsT_ok (inv := fun _ _ => False) (B := 0) ⟨fun h => h.elim, fun h => h.elim⟩ h 0
  rw [Nat.zero_add] at e1 e2
  exact ⟨k, ⟨fuel, it, e2⟩, by omega⟩

/-- What holds of C121: if no repeated group matches the empty string, every rule can be read in one way only, and at
most `b` characters are put back, then the calls return, and the work is proportional to the length of the input and the
number of calls.  Missing: other rules, for which it need not hold (`c121_square`, `c121_exponential`). -/
theorem c121_linear_partial (hl : LexerFor p rules es l) (hr : ∀ e ∈ es, RepeatsNonEmpty e)
    (ho : ∀ e ∈ es, OneWay e fun _ => False) {b : Nat} (hb : PutsBackAtMost es b) :
    (∀ input n, ∃ as t, as.length = n ∧ CallsWork l input as t) ∧
    ∃ k, ∀ input as t, CallsWork l input as t → t ≤ k * (input.length + as.length) := by
  have bt := hl.toBuilt
  refine ⟨fun input n => ?_, ?_⟩
  · obtain ⟨⟨as, it⟩, h⟩ := ((bt.safe _).lexCalls n (InputIter.new input)).2 (bt.total hr (Nat.le_refl _))
    obtain ⟨t, ht⟩ := lexCallsT_of (size := List.length) 0 h
    have e : as.length = n := ((c23_calls_partial _ _ _ _ hl input n as).1 ⟨_, _, h⟩).1
    exact ⟨as, t, e, _, it, e ▸ ht⟩
  · obtain ⟨B, hB⟩ := bt.fed_constant hl.built hr ho
    refine ⟨(B + 1) * (b + 2), fun input as t h => ?_⟩
    obtain ⟨n, h1, h2⟩ := work_le (fun fuel v runs h _ => hB fuel v runs h) h
    have h3 := c80_back_partial hl b hb input as n h1
    refine Nat.le_trans h2 ?_
    rw [Nat.mul_add]
    refine Nat.add_le_add ?_ (Nat.mul_le_mul_right _ ?_)
    · rw [Nat.mul_assoc]
      exact Nat.mul_le_mul_left _ h3
    · exact Nat.le_trans (Nat.le_succ B) (Nat.le_mul_of_pos_right _ (by omega))

/-- If there are polynomially many runs then the work is polynomial. -/
theorem work_polynomial (h : ∃ c k, ∀ fuel v runs, Fed l.nfa fuel v runs → runs.length ≤ c * (v.length + 1) ^ k) :
    ∃ c k, ∀ input as t, CallsWork l input as t → t ≤ c * (input.length + as.length + 1) ^ k := by
  obtain ⟨c, k, hB⟩ := h
  refine ⟨c + 1, k + 2, fun input as t h => ?_⟩
  obtain ⟨n, h1, h2⟩ := work_le (B := c * (input.length + as.length + 1) ^ k) (fun fuel v runs h hv =>
    Nat.le_trans (hB fuel v runs h) (Nat.mul_le_mul_left _ (Nat.pow_le_pow_left (by omega) _))) h
  have h3 := c80_square_partial _ _ _ _ h1
  refine Nat.le_trans h2 ?_
  generalize hX : input.length + as.length + 1 = X
  have hpos : 1 ≤ X ^ k := Nat.one_le_pow _ _ (by omega)
  have e1 : n + as.length ≤ X ^ 2 := by
    have : input.length * (input.length + 1) ≤ input.length * X := Nat.mul_le_mul_left _ (by omega)
    have : X ^ 2 = input.length * X + as.length * X + X := by
      rw [Nat.pow_two]
      conv => lhs; lhs; rw [← hX]
      simp only [Nat.add_mul, Nat.one_mul]
    have : as.length ≤ as.length * X := Nat.le_mul_of_pos_right _ (by omega)
    omega
  calc (c * X ^ k + 1) * n + c * X ^ k * as.length
      ≤ (c * X ^ k + 1) * n + (c * X ^ k + 1) * as.length := Nat.add_le_add_left (Nat.mul_le_mul_right _ (by omega)) _
    _ = (c * X ^ k + 1) * (n + as.length) := (Nat.mul_add ..).symm
    _ ≤ ((c + 1) * X ^ k) * X ^ 2 := Nat.mul_le_mul (by rw [Nat.add_mul, Nat.one_mul]; omega) e1
    _ = (c + 1) * X ^ (k + 2) := by rw [Nat.mul_assoc, ← Nat.pow_add]

/-- If no repeated group matches the empty string and every repeated group can be read in one way only, then the work is
bounded by a polynomial.  Missing: other rules, for which it need not hold (`c121_exponential`). -/
theorem c121_polynomial_partial (hl : LexerFor p rules es l) (hr : ∀ e ∈ es, RepeatsNonEmpty e)
    (ho : ∀ e ∈ es, RepeatsOneWay e) :
    ∃ c k, ∀ input as t, CallsWork l input as t → t ≤ c * (input.length + as.length + 1) ^ k :=
  work_polynomial (hl.toBuilt.fed_polynomial hl.built hr ho)

/-! ## Rules for which it is not linear -/

/-- With the rules `a` and `a*b`, which are both read in one way only, the work on `aaa...ac` is quadratic: what is put
back is read again. -/
theorem c121_square (k : Nat) : ∃ (as : List (Option (Tok Nat))) (t : Nat),
    CallsWork slow (List.replicate k 'a' ++ ['c']) as t ∧ as.length = k + 1 ∧ (k + 1) * (k + 2) ≤ 2 * t := by
  have hn : ∀ (cs : List Char) (n : Nat), word (numbered n cs) = cs := by
    intro cs
    induction cs with
    | nil => exact fun _ => rfl
    | cons c cs ih => exact fun n => by rw [numbered, word, List.map_cons]; exact congrArg _ (ih _)
  obtain ⟨as, it', n', h1, h2, h3⟩ := slow_calls (k := k) 0 (rep_new (List.replicate k 'a' ++ ['c'])) (by
    simp [Scanner.new, Scanner.left, hn])
  obtain ⟨t, ht⟩ := lexCallsT_of (size := List.length) 0 (lexCallsN_ok h3)
  have hw : CallsWork slow (List.replicate k 'a' ++ ['c']) as t := ⟨_, it', by rw [h1]; exact ht⟩
  obtain ⟨q, w, e1, e2, e3, _⟩ := lexCallsT_ok (inv := fun _ _ => False) (B := 0) ⟨fun h => h.elim, fun h => h.elim⟩ ht 0
  rw [e2] at h3
  simp only [Outcome.ok.injEq, Prod.mk.injEq, true_and] at h3
  exact ⟨as, t, hw, h1, by omega⟩

/-- The lexer with the rule `(a|[a])*`. -/
def twice (x : K) : Lexer K :=
  ⟨⟨0, [⟨0, false, [(.eps, [3])]⟩, ⟨1, true, []⟩, ⟨2, true, []⟩, ⟨3, false, [(.quantified .asterisk, [2]),
    (.literal (.mtch 'a'), [3]), (.literal (.group false [.mtch 'a']), [3])]⟩]⟩, [(2, fun _ => x)]⟩

omit [Unicode] in
theorem twice_for (x : K) : LexerFor .debug [("(a|[a])*".toList, fun _ => x)] [twiceA] (twice x) := ⟨rfl, rfl⟩

/-- Its runs. -/
private def Usual (r : Run) : Prop :=
  r = ⟨0, []⟩ ∨ (∃ cs, r = ⟨2, cs⟩) ∨ r = ⟨3, []⟩ ∨ ∃ k, r = ⟨3, [(3, k)]⟩

/-- The number of runs that can read. -/
private def reading (runs : List Run) : Nat := (runs.filter fun r => r.state == 3).length

private theorem twice_feedRuns (x : K) : ∀ (runs : List Run), (∀ r ∈ runs, Usual r) →
    ∃ runs', (twice x).nfa.feedRuns 5 runs 'a' = .ok runs' ∧ (∀ r ∈ runs', Usual r) ∧ reading runs' = 2 * reading runs := by
  have closure : ∀ k, (twice x).nfa.epsClosure 5 ⟨3, [(3, k)]⟩ = .ok [⟨3, [(3, k)]⟩, ⟨2, [(3, 0)]⟩] := fun _ => rfl
  intro runs
  induction runs with
  | nil => exact fun _ => ⟨[], rfl, by simp, rfl⟩
  | cons r runs ih =>
    intro h
    obtain ⟨runs', h1, h2, h3⟩ := ih fun r hr => h r (List.mem_cons_of_mem _ hr)
    unfold Nfa.feedRuns at h1
    have two : ∀ r : Run, r.state = 3 → (∃ k, r.takeTransition 3 false = ⟨3, [(3, k)]⟩) →
        ∃ runs'', (twice x).nfa.feedRuns 5 (r :: runs) 'a' = .ok runs'' ∧ (∀ r ∈ runs'', Usual r) ∧
          reading runs'' = 2 * reading (r :: runs) := by
      rintro r hr ⟨k, hk⟩
      refine ⟨[⟨3, [(3, k)]⟩, ⟨2, [(3, 0)]⟩, ⟨3, [(3, k)]⟩, ⟨2, [(3, 0)]⟩] ++ runs', ?_, ?_, ?_⟩
      · have hs : (twice x).nfa.getState r.state = .ok ⟨3, false, [(.quantified .asterisk, [2]),
          (.literal (.mtch 'a'), [3]), (.literal (.group false [.mtch 'a']), [3])]⟩ := by rw [hr]; rfl
        have hm : NState.charMoves ⟨3, false, [(.quantified .asterisk, [2]),
          (.literal (.mtch 'a'), [3]), (.literal (.group false [.mtch 'a']), [3])]⟩ 'a' = [3, 3] := by
          simp [NState.charMoves, NState.edges, Input.canTake, Lit.contains, containsAny, GLit.contains]
        simp only [Nfa.feedRuns, flatMapOutcome, hs, Outcome.bind_ok, hm, hk, closure, h1, Outcome.pure_eq]
        rfl
      · intro r' hr'
        simp only [List.cons_append, List.nil_append, List.mem_cons] at hr'
        rcases hr' with rfl | rfl | rfl | rfl | hr'
        · exact .inr (.inr (.inr ⟨k, rfl⟩))
        · exact .inr (.inl ⟨_, rfl⟩)
        · exact .inr (.inr (.inr ⟨k, rfl⟩))
        · exact .inr (.inl ⟨_, rfl⟩)
        · exact h2 _ hr'
      · simp only [reading] at h3 ⊢
        simp [hr, h3]
        omega
    rcases h r (by simp) with rfl | ⟨cs, rfl⟩ | rfl | ⟨k, rfl⟩
    · refine ⟨runs', ?_, h2, by simpa [reading] using h3⟩
      have hs : (twice x).nfa.getState 0 = .ok ⟨0, false, [(.eps, [3])]⟩ := rfl
      have hm : NState.charMoves ⟨0, false, [(.eps, [3])]⟩ 'a' = [] := by
        simp [NState.charMoves, NState.edges, Input.canTake]
      simp only [Nfa.feedRuns, flatMapOutcome, hs, Outcome.bind_ok, hm, h1, Outcome.pure_eq]
      rfl
    · refine ⟨runs', ?_, h2, by simpa [reading] using h3⟩
      have hs : (twice x).nfa.getState 2 = .ok ⟨2, true, []⟩ := rfl
      have hm : NState.charMoves ⟨2, true, []⟩ 'a' = [] := by
        simp [NState.charMoves, NState.edges]
      simp only [Nfa.feedRuns, flatMapOutcome, hs, Outcome.bind_ok, hm, h1, Outcome.pure_eq]
      rfl
    · exact two _ rfl ⟨1, rfl⟩
    · exact two _ rfl ⟨k + 1, rfl⟩

private theorem feedRuns_more {nfa : Nfa} {n m : Nat} (hnm : n ≤ m) {runs runs' : List Run} {c : Char}
    (h : nfa.feedRuns n runs c = .ok runs') : nfa.feedRuns m runs c = .ok runs' := by
  refine flatMapOutcome_congr_ok h ?_
  intro a _ bs hb
  simp only [Outcome.bind_eq_ok] at hb ⊢
  obtain ⟨st, hst, hb⟩ := hb
  exact ⟨st, hst, flatMapOutcome_congr_ok hb fun d _ cs hc => worklist_mono hc hnm⟩

private theorem twice_canFeed (x : K) : ∀ (runs : List Run), (∀ r ∈ runs, Usual r) → 0 < reading runs →
    (twice x).nfa.canFeed runs 'a' = .ok true := by
  intro runs
  induction runs with
  | nil => intro _ h; cases h
  | cons r runs ih =>
    intro h hp
    have two : ∀ r : Run, r.state = 3 → (twice x).nfa.canFeed (r :: runs) 'a' = .ok true := by
      intro r hr
      have hs : (twice x).nfa.getState r.state = .ok ⟨3, false, [(.quantified .asterisk, [2]),
          (.literal (.mtch 'a'), [3]), (.literal (.group false [.mtch 'a']), [3])]⟩ := by rw [hr]; rfl
      simp [Nfa.canFeed, hs, Input.canTake, Lit.contains]
    have rest := ih fun r hr => h r (List.mem_cons_of_mem _ hr)
    rcases h r (by simp) with rfl | ⟨cs, rfl⟩ | rfl | ⟨k, rfl⟩
    · have hs : (twice x).nfa.getState 0 = .ok ⟨0, false, [(.eps, [3])]⟩ := rfl
      simpa [Nfa.canFeed, hs, Input.canTake] using rest (by simpa [reading] using hp)
    · have hs : (twice x).nfa.getState 2 = .ok ⟨2, true, []⟩ := rfl
      simpa [Nfa.canFeed, hs] using rest (by simpa [reading] using hp)
    · exact two _ rfl
    · exact two _ rfl

/-- With the rule `(a|[a])*` a single call does exponential work on `aaa...a`, because equal runs are not merged. -/
theorem c121_exponential (x : K) (n : Nat) : ∃ (as : List (Option (Tok K))) (t : Nat),
    CallsWork (twice x) (List.replicate n 'a') as t ∧ as.length = 1 ∧ 2 ^ n ≤ t := by
  have b := (twice_for x).toBuilt
  have hr : ∀ e ∈ [twiceA], RepeatsNonEmpty e := by
    intro e he
    rw [List.mem_singleton.1 he, ← repeatsNonEmptyB_iff]
    decide
  obtain ⟨⟨as, it⟩, h⟩ := ((b.safe (5 + simFuel (twice x).nfa (fragTrees 2 [twiceA]))).lexCalls 1
    (InputIter.new (List.replicate n 'a'))).2 (b.total hr (Nat.le_add_left _ _))
  have hlen : as.length = 1 := ((c23_calls_partial _ _ _ _ (twice_for x) _ _ as).1 ⟨_, _, h⟩).1
  obtain ⟨t, ht⟩ := lexCallsT_of (size := List.length) 0 h
  refine ⟨as, t, ⟨_, it, hlen ▸ ht⟩, hlen, ?_⟩
  simp only [lexCallsT, lexNextT, Outcome.bind_eq_ok] at ht
  obtain ⟨⟨⟨a, it1⟩, t1⟩, ⟨sim, h1, h2⟩, ⟨⟨as1, it2⟩, t2⟩, h3, h4⟩ := ht
  simp only [Outcome.pure_eq, Outcome.ok.injEq, Prod.mk.injEq] at h3 h4
  have h0 : (nfaMachine (twice x).nfa (5 + simFuel (twice x).nfa (fragTrees 2 [twiceA]))).start = .ok [⟨0, []⟩, ⟨3, []⟩, ⟨2, []⟩] :=
    (initRuns_le (Nat.le_add_right 5 _)).ok rfl
  rw [h0] at h1
  cases h1
  have hl := lexLoopT_fst (m := nfaMachine (twice x).nfa (5 + simFuel (twice x).nfa (fragTrees 2 [twiceA]))) (size := List.length)
    (gs := (twice x).tokens) (sim := [⟨0, []⟩, ⟨3, []⟩, ⟨2, []⟩]) (kind := none) (it := InputIter.new (List.replicate n 'a')) (t := 0 + 3)
  have h2' : lexLoopT (nfaMachine (twice x).nfa (5 + simFuel (twice x).nfa (fragTrees 2 [twiceA]))) List.length (twice x).tokens
    [⟨0, []⟩, ⟨3, []⟩, ⟨2, []⟩] none (InputIter.new (List.replicate n 'a')) (0 + 3) = .ok ((a, it1), t1) := h2
  rw [h2', Outcome.bind_ok] at hl
  obtain ⟨w, e1, e2⟩ := (lexLoop_ok hl.symm).doubles (size := List.length) (c := 'a')
    (G := fun runs => (∀ r ∈ runs, Usual r) ∧ 0 < reading runs) (s := reading)
    (fun _ => List.length_filter_le _ _) (by
      rintro sim ⟨g1, g2⟩
      refine ⟨twice_canFeed x sim g1 g2, fun sim' b hf => ?_⟩
      obtain ⟨runs', f1, f2, f3⟩ := twice_feedRuns x sim g1
      obtain ⟨f4, _⟩ := feed_ok hf
      have f5 : (twice x).nfa.feedRuns (5 + simFuel (twice x).nfa (fragTrees 2 [twiceA])) sim 'a' = .ok runs' :=
        feedRuns_more (Nat.le_add_right 5 _) f1
      rw [f4] at f5
      cases f5
      exact ⟨⟨f2, by omega⟩, by omega⟩) (by
      have : ∀ (n k : Nat), ∀ x ∈ enumFrom k (List.replicate n 'a'), x.2 = 'a' := by
        intro n
        induction n with
        | zero => intro k x hx; cases hx
        | succ n ih =>
          intro k x hx
          rw [List.replicate_succ, enumFrom] at hx
          rcases List.mem_cons.1 hx with rfl | hx
          · rfl
          · exact ih _ x hx
      exact fun x hx => this n 0 x (by simpa [InputIter.new] using hx)) (by
      refine ⟨?_, by decide⟩
      intro r hr
      simp only [List.mem_cons, List.not_mem_nil, or_false] at hr
      rcases hr with rfl | rfl | rfl
      · exact .inl rfl
      · exact .inr (.inr (.inl rfl))
      · exact .inr (.inl ⟨_, rfl⟩)) (0 + 3)
  rw [h2'] at e1
  simp only [Outcome.ok.injEq, Prod.mk.injEq, true_and] at e1
  rw [pending_new, List.length_replicate, show reading [⟨0, []⟩, ⟨3, []⟩, ⟨2, []⟩] = 1 from rfl] at e2
  omega

/-- C121 is false. -/
theorem c121_false : ¬ C121 := by
  intro h
  obtain ⟨k, hk⟩ := h _ _ _ _ (twice_for 0)
  obtain ⟨n, hn⟩ := exp_beats_poly k 1
  obtain ⟨as, t, h1, h2, h3⟩ := c121_exponential 0 n
  have := hk _ _ _ h1
  rw [List.length_replicate, h2] at this
  rw [Nat.pow_one] at hn
  omega

/-- Nor is a polynomial enough. -/
theorem c121_no_polynomial (x : K) : ¬ ∃ c k, ∀ (input : List Char) (as : List (Option (Tok K))) (t : Nat),
    CallsWork (twice x) input as t → t ≤ c * (input.length + as.length) ^ k := by
  rintro ⟨c, k, h⟩
  obtain ⟨n, hn⟩ := exp_beats_poly c k
  obtain ⟨as, t, h1, h2, h3⟩ := c121_exponential x n
  have := h _ _ _ h1
  rw [List.length_replicate, h2] at this
  omega

/-! ## Examples -/

/-- The rules of `c121_square` can be read in one way only. -/
example : ∀ e ∈ slowTrees, OneWay e fun _ => False := by
  simp [slowTrees, OneWay, OneWaySeq, OpensSeq, Opens, LitSet]

private theorem words_linear : (∀ e ∈ wordsTrees, RepeatsNonEmpty e) ∧ (∀ e ∈ wordsTrees, OneWay e fun _ => False) ∧
    PutsBackAtMost wordsTrees 0 := by
  refine ⟨fun e he => (words_regular e he).1, ?_, fun w back x h1 h2 h3 h4 => ?_⟩
  · simp [wordsTrees, OneWay, OneWaySeq]
  · rw [words_kept w back x h1 h2 h3 h4]
    exact Nat.le_refl _

/-- The rules `a+`, `=` and `==` meet the conditions of `c121_linear_partial`, and on `aa=` three calls read four characters and make twelve
runs. -/
example : CallsWork words "aa=".toList [some ⟨2, "aa".toList, (0, 2)⟩, some ⟨100, "=".toList, (2, 3)⟩, none] 16 ∧
    (∀ e ∈ wordsTrees, RepeatsNonEmpty e) ∧ (∀ e ∈ wordsTrees, OneWay e fun _ => False) ∧ PutsBackAtMost wordsTrees 0 :=
  ⟨⟨10, _, by with_unfolding_all rfl⟩, words_linear⟩

/-- The rule `a*a*b` meets those of `c121_polynomial_partial`, and is not read in one way only. -/
example : let e : Expr := .concat [.lit (.mtch 'a') (some .asterisk), .lit (.mtch 'a') (some .asterisk), .lit (.mtch 'b') none]
    (∃ l : Lexer Nat, LexerFor .debug [("a*a*b".toList, fun _ => 0)] [e] l) ∧ RepeatsNonEmpty e ∧ RepeatsOneWay e ∧
    ¬ OneWay e fun _ => False := by
  refine ⟨⟨_, rfl, rfl⟩, ?_, ?_, ?_⟩
  · rw [← repeatsNonEmptyB_iff]
    decide
  · simp [RepeatsOneWay, RepeatsOneWayAll]
  · intro h
    exact h.1 'a' ⟨rfl, .inl (.inl rfl)⟩

private theorem never_lit (l : Lit) : ¬ Matches (.lit l none) [] := by
  intro h
  cases h with
  | lit h _ => cases h

private theorem never_seq (l : Lit) (es : List Expr) : ¬ Matches (.concat (.lit l none :: es)) [] := by
  intro h
  generalize hw : ([] : List Char) = w at h
  cases h with
  | cons h1 _ =>
    obtain ⟨rfl, _⟩ := List.append_eq_nil_iff.1 hw.symm
    exact never_lit l h1

/-- The lexer for data in the style of JSON of C120 does work that is proportional to the length of the text and the
number of calls. -/
theorem c121_json {l : Lexer JsonTok} (hl : LexerFor .debug jsonRules jsonTrees l) :
    (∀ input n, ∃ as t, as.length = n ∧ CallsWork l input as t) ∧
    ∃ k, ∀ input as t, CallsWork l input as t → t ≤ k * (input.length + as.length) := by
  refine c121_linear_partial (b := 0) hl (fun e he => (json_regular e he).1) ?_ ?_
  · intro e he
    obtain ⟨c, hc, rfl⟩ := List.mem_map.1 he
    have blank : ∀ d, LitSet jsonBlank d → ¬ ClassSet .digit d ∧ d ≠ '-' := by
      intro d hd
      simp only [jsonBlank, LitSet, List.mem_cons, List.not_mem_nil, or_false, exists_eq_or_imp, exists_eq_left,
        Spec.ItemSet] at hd
      rcases hd with rfl | rfl | rfl | rfl <;> simp [ClassSet]
    have core : ∀ after : Char → Prop, (∀ d, after d → ¬ ClassSet .digit d ∧ d ≠ '-') → OneWay c.2.1 after := by
      intro after ha
      simp only [jsonCores, List.mem_cons, List.not_mem_nil, or_false] at hc
      rcases hc with rfl | rfl | rfl | rfl | rfl | rfl | rfl | rfl | rfl | rfl | rfl | rfl
      · simp [stringTree, escapesTree, plainChars, OneWay, OneWaySeq, Opens, OpensSeq, LitSet, ClassSet, Spec.ItemSet,
          never_lit, never_seq]
        intro c h
        rcases h with h | rfl
        · exact h.1
        · decide
      · simp only [numTree, OneWay, OneWaySeq, OpensSeq, Opens, LitSet, or_false, and_false, and_true]
        refine ⟨?_, ?_⟩
        · rintro d ⟨rfl, h | ⟨_, h⟩⟩
          · simp [ClassSet] at h
          · exact (ha _ h).2 rfl
        · rintro d ⟨h1, h2 | ⟨_, h2⟩⟩
          · exact h2.elim
          · exact (ha d h2).1 h1
      all_goals simp [wordTree, OneWay, OneWaySeq]
    simp only [blankTree, OneWay, OneWaySeq]
    refine ⟨core _ ?_, ?_, trivial⟩
    · rintro d (h | ⟨_, h⟩)
      · simp only [OpensSeq, Opens, and_false, or_false] at h
        exact blank d h
      · exact h.elim
    · rintro d ⟨_, h | ⟨_, h⟩⟩
      · simp only [OpensSeq] at h
      · exact h
  · intro w back x h1 h2 h3 h4
    rw [(looksOneAhead_of hl json_regular json_lookahead).putsNothingBack hl w back x h1 h2 h3 h4]
    exact Nat.le_refl _

end Pango.Props
