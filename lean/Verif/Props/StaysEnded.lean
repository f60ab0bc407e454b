import Verif.Props.Scanning
import Verif.Proofs.EffectLog

/-!
# C19: when the token stream stays ended
-/

namespace Pango.Spec

open Pango.Regex

variable [Unicode]

theorem Spins.mayRead {e : Expr} {w : List Char} (h : Spins e w) : MayRead e w := by
  induction h with
  | altL _ ih => exact .altL ih
  | altR _ ih => exact .altR ih
  | here _ ih => exact .here ih
  | later h _ ih => exact .later h ih
  | group _ ih => exact .once ih
  | rounds h _ => simpa using MayRead.times h .nothing
  | inside h _ ih => exact .times h ih

theorem SpinsFirst.mayBegin {e : Expr} {w : List Char} (h : SpinsFirst e w) : MayBegin e w := by
  induction h with
  | altL _ ih => exact .altL ih
  | altR _ ih => exact .altR ih
  | here _ ih => exact .here ih
  | after h hs => exact .after h hs.mayRead
  | later h _ ih => exact .later h ih
  | group _ ih => exact .group ih
  | first _ ih => exact .first ih
  | rounds h hw _ => simpa using MayBegin.inside h hw .nothing
  | inside h hw hs => exact .inside h hw hs.mayRead

end Pango.Spec

namespace Pango.Props

open Pango Pango.Lex Pango.Fsm Pango.Regex Pango.Spec

variable [Unicode] {K : Type}

/-- The patterns can be led astray: behind a word of which no beginning is a match comes a character that cannot be
read.  The empty word is such a word. -/
def CanGiveUp (es : List Expr) : Prop :=
  ∃ u c, Readable es u ∧ ¬ Readable es (u ++ [c]) ∧ NoMatch (taken es) u ∧ Passes es (u ++ [c])

/-- Some word is a match. -/
def CanFind (es : List Expr) : Prop := ∃ w, w ≠ [] ∧ AnyMatch (taken es) w ∧ Passes es w

theorem passes_prefix {es : List Expr} {w v : List Char} (h : Passes es v) (hw : w <+: v) : Passes es w :=
  fun e he u hu => h e he u (hu.trans hw)

omit [Unicode] in
theorem word_prefix {a b : List (Nat × Char)} (h : a <+: b) : word a <+: word b := by
  obtain ⟨r, rfl⟩ := h
  exact ⟨word r, by simp⟩

theorem calls_find {es : List Expr} {kind : Nat → List Char → Option K} {sc : Scanner}
    {as : List (Option (Tok K))} (h : Calls (taken es) (Readable es) (Passes es) kind sc as) {t : Tok K}
    (ht : some t ∈ as) : CanFind es := by
  induction h with
  | done => simp at ht
  | @next sc sc' a as hp hc _ ih =>
    rcases List.mem_cons.1 ht with rfl | ht
    · cases hc with
      | @token w back x i k h1 h2 h3 h4 h5 h6 =>
        refine ⟨word w, h4.nonempty, h4.isMatch, passes_prefix hp (word_prefix ?_)⟩
        exact (List.append_assoc w back [x] ▸ List.prefix_append w _).trans h1
      | @last i k h1 h2 h3 h4 =>
        obtain ⟨M, hM, hm⟩ := h3.isMatch
        exact ⟨_, by simpa using h1, ⟨M, List.mem_of_getElem? hM, hm⟩, hp⟩
    · exact ih ht

theorem calls_done {es : List Expr} {kind : Nat → List Char → Option K} {sc : Scanner}
    {as : List (Option (Tok K))} (h : Calls (taken es) (Readable es) (Passes es) kind sc as) (hl : sc.left = []) :
    ∀ a ∈ as, a = none := by
  induction h with
  | done => simp
  | @next sc sc' a as hp hc _ ih =>
    have key : a = none ∧ sc'.left = [] := by
      cases hc with
      | token h1 => rw [hl] at h1; simp at h1
      | last h1 => exact absurd hl h1
      | nothing h1 => rw [hl] at h1; simp at h1
      | over => exact ⟨rfl, rfl⟩
    intro b hb
    rcases List.mem_cons.1 hb with rfl | hb
    · exact key.1
    · exact ih key.2 b hb

theorem calls_behind {es : List Expr} {kind : Nat → List Char → Option K} : ∀ {before after : List (Option (Tok K))}
    {sc : Scanner}, Calls (taken es) (Readable es) (Passes es) kind sc (before ++ none :: after) →
    CanGiveUp es ∨ ∀ a ∈ after, a = none
  | [], after, sc, h => by
    cases h with
    | @next _ sc' _ _ hp hc hr =>
      cases hc with
      | @nothing u x h1 h2 h3 h4 =>
        refine .inl ⟨word u, x.2, h2, ?_, h4, ?_⟩
        · simpa using h3
        · have := passes_prefix hp (word_prefix h1)
          simpa using this
      | over => exact .inr (calls_done hr rfl)
  | b :: before, after, sc, h => by
    cases h with
    | next _ _ hr => exact calls_behind hr

omit [Unicode] in
theorem kindAt_some {p : Profile} {rules : List (List Char × (List Char → K))} {es : List Expr} {l : Lexer K}
    (hl : LexerFor p rules es l) {i : Nat} (hi : i < es.length) (src : List Char) : ∃ k, kindAt rules i src = some k := by
  have hlen := congrArg List.length hl.trees
  simp only [List.length_map] at hlen
  refine ⟨(rules[i]'(by omega)).2 src, ?_⟩
  simp [kindAt, List.getElem?_eq_getElem (show i < rules.length by omega)]

/-- C19, exactly: for every lexer, there are no tokens behind the first `None`, on all inputs, if and only if its
patterns cannot be led astray or match nothing.  Missing: the other lexers, for which the claim is false. -/
theorem c19_exact_partial (p : Profile) (rules : List (List Char × (List Char → K))) (es : List Expr)
    (l : Lexer K) (hl : LexerFor p rules es l) :
    (∀ (input : List Char) (fuel n : Nat) (as : List (Option (Tok K))) (it : InputIter),
      lexCalls (nfaMachine l.nfa fuel) l.tokens n (InputIter.new input) = .ok (as, it) →
      ∀ before after : List (Option (Tok K)), as = before ++ none :: after → ∀ a ∈ after, a = none) ↔
    ¬ (CanGiveUp es ∧ CanFind es) := by
  constructor
  · rintro h ⟨⟨u, c, h1, h2, h3, h4⟩, w, hw, h5, h6⟩
    obtain ⟨i, hi⟩ := h5.first
    obtain ⟨k, hk⟩ : ∃ k, kindAt rules i ((u ++ [c]) ++ w) = some k := by
      refine kindAt_some hl ?_ _
      obtain ⟨M, hM, _⟩ := hi.isMatch
      have := (List.getElem?_eq_some_iff.1 hM).1
      simpa [taken] using this
    have hnum : numbered 0 (u ++ [c] ++ w) =
        numbered 0 u ++ [(u.length, c)] ++ numbered (u.length + 1) w := by
      rw [numbered_append, numbered_append]
      simp [numbered]
    have hlen : (numbered 0 u).length = u.length := by
      have := congrArg List.length (word_numbered u 0)
      rwa [word_length] at this
    have hpass : Passes es (u ++ [c] ++ w) := by
      intro e he v hv hs
      rcases Nat.lt_or_ge v.length (u ++ [c]).length with hlt | hge
      · exact h4 e he v (List.prefix_of_prefix_length_le hv (List.prefix_append _ _) (by omega)) hs
      · obtain ⟨r, rfl⟩ := List.prefix_of_prefix_length_le (List.prefix_append (u ++ [c]) w) hv hge
        exact h2 (hl.toBuilt.readable_mono (v := r) (.inr ⟨e, he, hs.mayBegin⟩))
    have hcall : Call (taken es) (Readable es) (kindAt rules) (Scanner.new (u ++ [c] ++ w)) none
        ⟨numbered 0 u ++ [(u.length, c)], [], numbered (u.length + 1) w, 0⟩ := by
      have hc := Call.nothing (rules := taken es) (Live := Readable es) (kind := kindAt rules)
        (sc := Scanner.new (u ++ [c] ++ w)) (u := numbered 0 u) (x := (u.length, c))
        (by
          show _ <+: numbered 0 (u ++ [c] ++ w)
          rw [hnum]
          exact List.prefix_append _ _)
        (by rw [word_numbered]; exact h1) (by simpa using h2) (by rw [word_numbered]; exact h3)
      have hdrop : (numbered 0 (u ++ [c] ++ w)).drop ((numbered 0 u ++ [(u.length, c)]).length - 0) =
          numbered (u.length + 1) w := by
        rw [hnum, Nat.sub_zero]
        exact List.drop_left
      simp only [Scanner.new, List.length_nil, List.drop_nil, List.nil_append] at hc
      rw [hdrop] at hc
      exact hc
    have hw' : word (numbered (u.length + 1) w) = w := word_numbered w _
    have hcall' := Call.last (rules := taken es) (Live := Readable es) (kind := kindAt rules) (i := i) (k := k)
      (sc := ⟨numbered 0 u ++ [(u.length, c)], [], numbered (u.length + 1) w, 0⟩)
      (by
        intro h0
        have := congrArg word h0
        simp only [Scanner.left, List.nil_append, hw', word_nil] at this
        exact hw this)
      (by
        simp only [Scanner.left, List.nil_append, hw']
        exact hl.toBuilt.readable_taken h5)
      (by simpa only [Scanner.left, List.nil_append, hw'] using hi)
      (by simpa [Scanner.left] using hk)
    obtain ⟨t, hs⟩ : ∃ t, Scans es rules (u ++ [c] ++ w) [none, some t] := by
      refine ⟨_, .next ?_ hcall (.next ?_ hcall' .done)⟩
      · show Passes es (word (numbered 0 (u ++ [c] ++ w)))
        rw [word_numbered]
        exact hpass
      · simpa only [Scanner.left, List.nil_append, hw'] using h6
    obtain ⟨fuel, it, hx⟩ := (c23_calls_partial p rules es l hl _ 2 _).2 ⟨rfl, hs⟩
    have := h _ _ _ _ _ hx [] _ rfl _ (List.mem_singleton.2 rfl)
    cases this
  · rintro h input fuel n as it hc before after rfl a ha
    have hs := ((c23_calls_partial p rules es l hl input n _).1 ⟨fuel, it, hc⟩).2
    cases a with
    | none => rfl
    | some t =>
      rcases calls_behind hs with hg | hn
      · exact absurd ⟨hg, calls_find hs (t := t) (by simp [ha])⟩ h
      · exact hn _ ha

/-- The patterns of the lexer of `c19_false`, which has the rule `a`, can be led astray and match something. -/
example : CanGiveUp [.lit (.mtch 'a') none] ∧ CanFind [.lit (.mtch 'a') none] := by
  have hp : ∀ v, Passes [.lit (.mtch 'a') none] v := by
    intro v e he u _ hs
    rw [List.mem_singleton.1 he] at hs
    cases hs
  refine ⟨⟨[], 'x', .inl rfl, ?_, ?_, hp _⟩, ['a'], by simp, ⟨_, List.mem_singleton.2 rfl, .inr ⟨true, .lit rfl⟩⟩, hp _⟩
  · rintro (h | ⟨e, he, h⟩)
    · simp at h
    · rw [List.mem_singleton.1 he] at h
      generalize hx : [] ++ ['x'] = w at h
      cases h with
      | char h =>
        simp only [List.nil_append, List.cons.injEq, and_true] at hx
        subst hx
        exact absurd (show 'x' = 'a' from h) (by decide)
  · intro w hw h
    exact absurd (List.prefix_nil.1 h) hw

/-- C19 for lexers with a rule for every character: there are no tokens behind the first `None`.  Missing: other
lexers. -/
theorem c19_every_partial (p : Profile) (rules : List (List Char × (List Char → K))) (es : List Expr)
    (l : Lexer K) (hl : LexerFor p rules es l) (hc : ∀ c, AnyMatch (taken es) [c])
    (input : List Char) (fuel n : Nat) (as : List (Option (Tok K))) (it : InputIter)
    (h : lexCalls (nfaMachine l.nfa fuel) l.tokens n (InputIter.new input) = .ok (as, it))
    (before after : List (Option (Tok K))) (hs : as = before ++ none :: after) : ∀ a ∈ after, a = none := by
  refine (c19_exact_partial p rules es l hl).2 ?_ input fuel n as it h before after hs
  rintro ⟨⟨u, c, _, h2, h3, _⟩, _⟩
  cases u with
  | nil => exact h2 (hl.toBuilt.readable_taken (hc c))
  | cons d u => exact h3 [d] (by simp) ⟨u, rfl⟩ (hc d)

/-- The rules `a` and `[^a]` match every character, and the calls on `xa` return two tokens and then `None`. -/
example : (∀ c, AnyMatch (taken [.lit (.mtch 'a') none, .lit (.group true [.mtch 'a']) none]) [c]) ∧
    ∃ l it, LexerFor (K := Nat) .debug [("a".toList, fun _ => 0), ("[^a]".toList, fun _ => 1)]
        [.lit (.mtch 'a') none, .lit (.group true [.mtch 'a']) none] l ∧
      lexCalls (nfaMachine l.nfa 10) l.tokens 4 (InputIter.new "xa".toList) =
        .ok ([some ⟨1, ['x'], (0, 1)⟩, some ⟨0, ['a'], (1, 2)⟩, none, none], it) := by
  refine ⟨fun c => ?_, _, _, ⟨by with_unfolding_all rfl, by with_unfolding_all rfl⟩, by with_unfolding_all rfl⟩
  by_cases hc : c = 'a'
  · exact ⟨_, List.mem_map_of_mem (List.mem_cons_self ..), .inr ⟨true, .lit hc⟩⟩
  · refine ⟨_, List.mem_map_of_mem (List.mem_cons_of_mem _ (List.mem_singleton.2 rfl)), .inr ⟨true, .lit ?_⟩⟩
    rintro ⟨i, hi, h⟩
    rw [List.mem_singleton.1 hi] at h
    exact hc h

end Pango.Props
