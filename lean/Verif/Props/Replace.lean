import Verif.Props.Local
import Verif.Props.RuleOrder
import Verif.Props.Words

/-!
# C73, C74: replacing and removing rules
-/

namespace Pango.Props

open Pango Pango.Lex Pango.Fsm Pango.Regex Pango.Spec

variable [Unicode] {K : Type}

/-- The rules have, one by one, the same functions and patterns that by themselves accept the same words. -/
def Interchangeable (p : Profile) (rules rules' : List (List Char × (List Char → K))) : Prop :=
  rules.length = rules'.length ∧
  ∀ (i : Nat) (r r' : List Char × (List Char → K)), rules[i]? = some r → rules'[i]? = some r' →
    r.2 = r'.2 ∧ ∀ w, Accepts p r.1 w ↔ Accepts p r'.1 w

/-- C73, the full claim: a lexer returns the same tokens if its patterns are replaced by patterns that accept the same
words. -/
def C73 : Prop :=
  ∀ (K : Type) (p : Profile) (rules rules' : List (List Char × (List Char → K))) (l l' : Lexer K),
    buildLexer p rules = .ok (.ok l) → buildLexer p rules' = .ok (.ok l') → Interchangeable p rules rules' →
    ∀ (input : List Char) (ts : List (Tok K)), Tokens l input ts → Tokens l' input ts

/-- The rule makes none of the tokens: where it accepts the source of one, an earlier rule does. -/
def Unused (p : Profile) (pre : List (List Char × (List Char → K))) (r : List Char × (List Char → K))
    (ts : List (Tok K)) : Prop :=
  ∀ t ∈ ts, Accepts p r.1 t.source → ∃ r' ∈ pre, Accepts p r'.1 t.source

/-- C74, the full claim: a rule that makes none of the tokens of a text can be removed. -/
def C74 : Prop :=
  ∀ (K : Type) (p : Profile) (pre post : List (List Char × (List Char → K))) (r : List Char × (List Char → K))
    (l l' : Lexer K), buildLexer p (pre ++ r :: post) = .ok (.ok l) → buildLexer p (pre ++ post) = .ok (.ok l') →
    ∀ (input : List Char) (ts : List (Tok K)), Tokens l input ts → Unused p pre r ts → Tokens l' input ts

/-! ## They are false -/

theorem accepts_iff {p : Profile} {pattern : List Char} {e : Expr} (h : Regex.parse p pattern = .ok (.ok e)) (w : List Char) :
    Accepts p pattern w ↔ Answers e w true := by
  constructor
  · rintro ⟨e', h1, h2⟩
    rw [h] at h1
    cases h1
    exact h2
  · exact fun h2 => ⟨e, h, h2⟩

/-- C73 is false: `acc` and `ac{2}` accept the same words, but only with the first one there is a token in `accc`. -/
theorem c73_false : ¬ C73 := by
  intro h
  have k1 : parse .debug "acc".toList = .ok (.ok (.concat (lits "acc".toList))) := rfl
  have k2 : parse .debug "ac{2}".toList =
      .ok (.ok (.concat [.lit (.mtch 'a') none, .lit (.mtch 'c') (some (.max 2))])) := rfl
  have same : Interchangeable .debug [("acc".toList, fun _ => 0)] [("ac{2}".toList, fun _ => 0)] := by
    refine ⟨rfl, fun i r r' h1 h2 => ?_⟩
    cases i with
    | succ i => simp at h1
    | zero =>
      cases h1
      cases h2
      refine ⟨rfl, fun w => ?_⟩
      rw [accepts_iff k1, accepts_iff k2, answers_iff (by decide) (by rw [← repeatsNonEmptyB_iff]; decide)
        (by rw [← countsAtStartB_iff]; decide), answers_iff (by decide) (by rw [← repeatsNonEmptyB_iff]; decide)
        (by rw [← countsAtStartB_iff]; decide), matches_lits]
      constructor
      · rintro rfl
        exact .cons (u := ['a']) (v := "cc".toList) (.lit rfl (by simp [LitSet]))
          (.cons (u := "cc".toList) (v := []) (.lit rfl (by simp [LitSet])) .nil)
      · intro hm
        cases hm with
        | cons m1 m2 =>
          obtain ⟨c, rfl, hc⟩ := matches_lit m1
          cases m2 with
          | @cons _ _ u v m2 m3 =>
            cases m3
            cases m2 with
            | lit m4 m5 =>
              obtain ⟨d, d', rfl⟩ : ∃ d d', u = [d, d'] := by
                match u, m4 with
                | [d, d'], _ => exact ⟨d, d', rfl⟩
              have e1 := m5 d (by simp)
              have e2 := m5 d' (by simp)
              simp only [LitSet] at hc e1 e2
              rw [hc, e1, e2]
              rfl
  have h1 := h Nat .debug _ _ _ _ rfl rfl same "accc".toList [⟨0, "acc".toList, (0, 3)⟩]
    ⟨10, 5, _, by with_unfolding_all rfl⟩
  have h3 := congrArg List.length (tokens_unique (ts' := []) h1 ⟨10, 5, _, by with_unfolding_all rfl⟩)
  simp at h3

/-- C74 is false: with the rules `a` and `abc` there are no tokens in `ab`, with the rule `a` there is one. -/
theorem c74_false : ¬ C74 := by
  intro h
  have h1 := h Nat .debug [("a".toList, fun _ => 0)] [] ("abc".toList, fun _ => 1) _ _ early_for.built rfl
    "ab".toList [] early_tokens (by simp [Unused])
  have h3 := congrArg List.length (tokens_unique (ts' := [⟨0, ['a'], (0, 1)⟩]) h1
    ⟨10, 5, _, by with_unfolding_all rfl⟩)
  simp at h3

/-! ## With one character of lookahead -/

variable {p : Profile} {rules rules' : List (List Char × (List Char → K))} {es es' : List Expr} {l l' : Lexer K}

theorem accepts_taken (b : Lex.Built p rules l es) {r : List Char × (List Char → K)} {e : Expr}
    (hr : Regex.parse p r.1 = .ok (.ok e)) (he : e ∈ es) (w : List Char) :
    (Accepts p r.1 w → Taken e w) ∧ (Passes es w → Taken e w → Accepts p r.1 w) := by
  rw [accepts_iff hr, c11_answers_partial e (b.compiles e he)]
  exact ⟨fun h => h.2.1 rfl, fun h1 h2 => ⟨fun ⟨v, hv, hs⟩ => h1 e he v hv hs, by simp [h2]⟩⟩

/-- From the tokens of one lexer to those of another. -/
theorem tokens_replace (hl : LexerFor p rules es l) (hl' : LexerFor p rules' es' l') (ha : LooksOneAhead es)
    (ends : ∀ w, Passes es w → Passes es' w)
    (dead : ∀ w c, w ≠ [] → AnyMatch (taken es') w → Passes es (w ++ [c]) → Readable es' (w ++ [c]) → Readable es (w ++ [c]))
    (fewer : ∀ w, Passes es w → AnyMatch (taken es') w → AnyMatch (taken es) w) {input : List Char} {ts : List (Tok K)}
    (first : ∀ t ∈ ts, ∀ i, Passes es t.source → FirstMatch (taken es) t.source i →
      ∃ i', FirstMatch (taken es') t.source i' ∧ kindAt rules' i' t.source = kindAt rules i t.source)
    (h : Tokens l input ts) : Tokens l' input ts := by
  have mono : ∀ w v, Readable es (w ++ v) → Readable es w := fun _ _ h => hl.toBuilt.readable_mono h
  rw [c23_tokens_partial p rules es l hl, scans_cut hl (ha.putsNothingBack hl) (plain_none _)] at h
  rw [c23_tokens_partial p rules' es' l' hl']
  refine Cut.calls (.inl rfl) (plain_none _) (.new input)
    (h.replace (passes_mono es) ends (fun _ h => hl'.toBuilt.readable_taken h) dead (fun s he hn => ?_) first)
  have hm := hn.noMatch (Ends := Passes es) ha mono (passes_mono es) he
  refine .inl fun v hv hp hmv => hm v hv hp (fewer v ?_ hmv)
  obtain ⟨r, rfl⟩ := hp
  exact passes_mono es _ _ he

/-- C73 for patterns for which one character of lookahead is enough, before and after, if no pattern repeats something
empty afterwards.  Missing: other lexers, for which the claim is false in general. -/
theorem c73_partial (hl : LexerFor p rules es l) (hl' : LexerFor p rules' es' l') (ha : LooksOneAhead es)
    (ha' : LooksOneAhead es') (hr : ∀ e ∈ es', RepeatsNonEmpty e) (same : Interchangeable p rules rules')
    (input : List Char) (ts : List (Tok K)) (h : Tokens l input ts) : Tokens l' input ts := by
  have b := hl.toBuilt
  have b' := hl'.toBuilt
  have pass : ∀ w, Passes es' w := by
    intro w e he v hv hs
    have hc := b'.compiles e he
    exact (c11_exact_partial e hc v).1 ((c10_exact_partial e hc).2 (hr e he) v) ⟨v, List.prefix_refl _, hs⟩
  have both : ∀ i : Nat, (es[i]? = none ∧ es'[i]? = none) ∨ ∃ (r r' : List Char × (List Char → K)) (e e' : Expr), rules[i]? = some r ∧ rules'[i]? = some r' ∧
      es[i]? = some e ∧ es'[i]? = some e' ∧ Regex.parse p r.1 = .ok (.ok e) ∧ Regex.parse p r'.1 = .ok (.ok e') := by
    intro i
    have h1 := b.tree_at i
    have h2 := b'.tree_at i
    rcases Nat.lt_or_ge i rules.length with hi | hi
    · have hi' := same.1 ▸ hi
      rw [List.getElem?_eq_getElem hi, Option.map_some, eq_comm, Option.map_eq_some_iff] at h1
      rw [List.getElem?_eq_getElem hi', Option.map_some, eq_comm, Option.map_eq_some_iff] at h2
      obtain ⟨e, h3, h4⟩ := h1
      obtain ⟨e', h5, h6⟩ := h2
      exact .inr ⟨_, _, e, e', List.getElem?_eq_getElem hi, List.getElem?_eq_getElem hi', h3, h5, h4.symm, h6.symm⟩
    · have hi' := same.1 ▸ hi
      rw [List.getElem?_eq_none hi, Option.map_none, eq_comm, Option.map_eq_none_iff] at h1
      rw [List.getElem?_eq_none hi', Option.map_none, eq_comm, Option.map_eq_none_iff] at h2
      exact .inl ⟨h1, h2⟩
  have down : ∀ (i : Nat) (w : List Char) (e e' : Expr), es[i]? = some e → es'[i]? = some e' → Taken e' w → Taken e w := by
    intro i w e e' h1 h2 h3
    rcases both i with ⟨h4, _⟩ | ⟨r, r', e1, e2, k1, k2, k3, k4, k5, k6⟩
    · rw [h1] at h4; cases h4
    · rw [h1] at k3; rw [h2] at k4; cases k3; cases k4
      exact (accepts_taken b k5 (List.mem_of_getElem? h1) w).1 (((same.2 i r r' k1 k2).2 w).2
        ((accepts_taken b' k6 (List.mem_of_getElem? h2) w).2 (pass w) h3))
  have up : ∀ (i : Nat) (w : List Char) (e e' : Expr), es[i]? = some e → es'[i]? = some e' → Passes es w →
      Taken e w → Taken e' w := by
    intro i w e e' h1 h2 hp h3
    rcases both i with ⟨h4, _⟩ | ⟨r, r', e1, e2, k1, k2, k3, k4, k5, k6⟩
    · rw [h1] at h4; cases h4
    · rw [h1] at k3; rw [h2] at k4; cases k3; cases k4
      exact (accepts_taken b' k6 (List.mem_of_getElem? h2) w).1 (((same.2 i r r' k1 k2).2 w).1
        ((accepts_taken b k5 (List.mem_of_getElem? h1) w).2 hp h3))
  have fewer : ∀ w, AnyMatch (taken es') w → AnyMatch (taken es) w := by
    rintro w ⟨M, hM, hw⟩
    obtain ⟨i, hi⟩ := List.mem_iff_getElem?.1 hM
    simp only [taken, List.getElem?_map, Option.map_eq_some_iff] at hi
    obtain ⟨e', hi, rfl⟩ := hi
    rcases both i with ⟨_, h4⟩ | ⟨r, r', e1, e2, k1, k2, k3, k4, k5, k6⟩
    · rw [hi] at h4; cases h4
    · exact ⟨_, List.mem_map_of_mem (List.mem_of_getElem? k3), down i w e1 e' k3 hi hw⟩
  refine tokens_replace hl hl' ha (fun w _ => pass w) (fun w c h0 h1 _ h3 => ?_) (fun w _ => fewer w) (fun t _ i hp hf => ?_) h
  · exact b.readable_taken (fewer _ (ha' w c h0 h1 h3 (pass _)))
  · obtain ⟨M, hM, hw⟩ := hf.isMatch
    simp only [taken, List.getElem?_map, Option.map_eq_some_iff] at hM
    obtain ⟨e, hi, rfl⟩ := hM
    rcases both i with ⟨h4, _⟩ | ⟨r, r', e1, e2, k1, k2, k3, k4, k5, k6⟩
    · rw [hi] at h4; cases h4
    · rw [hi] at k3; cases k3
      refine ⟨i, ⟨⟨_, by simp [taken, k4], up i _ e e2 hi k4 hp hw⟩, fun j M hj hM hm => ?_⟩, ?_⟩
      · simp only [taken, List.getElem?_map, Option.map_eq_some_iff] at hM
        obtain ⟨e', hj', rfl⟩ := hM
        rcases both j with ⟨_, h4⟩ | ⟨r1, r2, e3, e4, m1, m2, m3, m4, _, _⟩
        · rw [hj'] at h4; cases h4
        · exact hf.first j _ hj (by simp [taken, m3]) (down j _ e3 e' m3 hj' hm)
      · simp [kindAt, k1, k2, (same.2 i r r' k1 k2).1]

omit [Unicode] in
/-- The first rule without one that is not it. -/
theorem firstMatch_without {A B : List (List Char → Prop)} {M : List Char → Prop} {w : List Char} {i : Nat}
    (h : FirstMatch (A ++ M :: B) w i) (hi : i ≠ A.length) :
    FirstMatch (A ++ B) w (if i < A.length then i else i - 1) := by
  obtain ⟨N, hN, hw⟩ := h.isMatch
  by_cases hlt : i < A.length
  · rw [if_pos hlt]
    refine ⟨⟨N, ?_, hw⟩, fun j N' hj hN' => h.first j N' hj ?_⟩
    · rw [List.getElem?_append_left hlt] at hN ⊢
      exact hN
    · rw [List.getElem?_append_left (by omega)] at hN' ⊢
      exact hN'
  · rw [if_neg hlt]
    have hB : ∀ j, A.length ≤ j → (A ++ B)[j]? = (A ++ M :: B)[j + 1]? := by
      intro j hj
      rw [List.getElem?_append_right hj, List.getElem?_append_right (by omega), Nat.succ_sub hj, List.getElem?_cons_succ]
    refine ⟨⟨N, ?_, hw⟩, fun j N' hj hN' => ?_⟩
    · rw [hB _ (by omega), Nat.sub_add_cancel (by omega)]
      exact hN
    · rcases Nat.lt_or_ge j A.length with hj' | hj'
      · refine h.first j N' (by omega) ?_
        rw [List.getElem?_append_left hj'] at hN' ⊢
        exact hN'
      · rw [hB j hj'] at hN'
        exact h.first (j + 1) N' (by omega) hN'

/-- A token that the removed rule did not make is made by the same rule. -/
theorem firstMatch_removed [Unicode] {pre post : List (List Char × (List Char → K))} {r : List Char × (List Char → K)}
    {es1 es2 : List Expr} {e : Expr} (b : Lex.Built p (pre ++ r :: post) l (es1 ++ e :: es2))
    (h1 : es1.map (fun e => .ok (.ok e)) = pre.map fun r => Regex.parse p r.1)
    (h3 : Outcome.ok (.ok e) = Regex.parse p r.1) {ts : List (Tok K)} (hu : Unused p pre r ts) {t : Tok K} (ht : t ∈ ts)
    {i : Nat} (hp : Passes (es1 ++ e :: es2) t.source) (hf : FirstMatch (taken (es1 ++ e :: es2)) t.source i) :
    ∃ j, FirstMatch (taken (es1 ++ es2)) t.source j ∧
      kindAt (pre ++ post) j t.source = kindAt (pre ++ r :: post) i t.source := by
  have hlen : es1.length = pre.length := by simpa using congrArg List.length h1
  have hi : i ≠ (taken es1).length := by
    rintro rfl
    obtain ⟨M, hM, hw⟩ := hf.isMatch
    simp only [taken, List.map_append, List.map_cons, List.length_map] at hM
    rw [List.getElem?_append_right (by simp)] at hM
    simp only [List.length_map, Nat.sub_self, List.getElem?_cons_zero, Option.some.injEq] at hM
    subst hM
    obtain ⟨r', hr', hacc⟩ := hu t ht ((accepts_taken b h3.symm (by simp) _).2 hp hw)
    obtain ⟨j, hj⟩ := List.mem_iff_getElem?.1 hr'
    have hjlt := (List.getElem?_eq_some_iff.1 hj).1
    have h5 := congrArg (fun l => l[j]?) h1
    simp only [List.getElem?_map, hj, Option.map_some, Option.map_eq_some_iff] at h5
    obtain ⟨e', h6, h7⟩ := h5
    have h8 : e' ∈ es1 := List.mem_of_getElem? h6
    refine hf.first j (fun w => Taken e' w) (by simp [taken]; omega) ?_
      ((accepts_taken b h7.symm (by simp [h8]) _).1 hacc)
    rw [taken, List.map_append, List.getElem?_append_left (by simp; omega)]
    simp [h6]
  have hf' : FirstMatch (taken es1 ++ (fun w => Taken e w) :: taken es2) t.source i := by
    simpa [taken] using hf
  refine ⟨_, by simpa [taken] using firstMatch_without hf' hi, ?_⟩
  rw [taken, List.length_map, hlen] at hi
  unfold kindAt
  rw [hlen]
  congr 1
  split
  · rename_i hlt
    rw [List.getElem?_append_left hlt, List.getElem?_append_left hlt]
  · rw [List.getElem?_append_right (by omega), List.getElem?_append_right (by omega)]
    have : i - pre.length = (i - 1 - pre.length) + 1 := by omega
    rw [this, List.getElem?_cons_succ]

/-- C74 for lexers for which one character of lookahead is enough; what is left of the rules need not be such a lexer.
Missing: the other lexers, for which the claim is false in general. -/
theorem c74_partial (pre post : List (List Char × (List Char → K))) (r : List Char × (List Char → K))
    (hl : LexerFor p (pre ++ r :: post) es l) (ha : LooksOneAhead es) :
    ∃ l', buildLexer p (pre ++ post) = .ok (.ok l') ∧
    ∀ (input : List Char) (ts : List (Tok K)), Tokens l input ts → Unused p pre r ts → Tokens l' input ts := by
  have b := hl.toBuilt
  obtain ⟨l', hl'⟩ := (c55_partial p (pre ++ post)).2.1 fun r' hr' => b.usable r' (by
    simp only [List.mem_append, List.mem_cons] at hr' ⊢
    rcases hr' with h | h <;> simp [h])
  refine ⟨l', hl', fun input ts h hu => ?_⟩
  have ht := hl.trees
  rw [List.map_append, List.map_cons] at ht
  obtain ⟨es1, es2', rfl, h1, h2⟩ := List.map_eq_append_iff.1 ht.symm
  obtain ⟨e, es2, rfl, h3, h4⟩ := List.map_eq_cons_iff.1 h2
  have hl2 : LexerFor p (pre ++ post) (es1 ++ es2) l' := ⟨hl', by rw [List.map_append, List.map_append, h1, h4]⟩
  have hlen : es1.length = pre.length := by simpa using congrArg List.length h1
  have sub : ∀ e', e' ∈ es1 ++ es2 → e' ∈ es1 ++ e :: es2 := by
    intro e' h
    simp only [List.mem_append, List.mem_cons] at h ⊢
    rcases h with h | h <;> simp [h]
  have fewer : ∀ w, AnyMatch (taken (es1 ++ es2)) w → AnyMatch (taken (es1 ++ e :: es2)) w := by
    rintro w ⟨M, hM, hw⟩
    obtain ⟨e', he', rfl⟩ := List.mem_map.1 hM
    exact ⟨_, List.mem_map_of_mem (sub e' he'), hw⟩
  refine tokens_replace hl hl2 ha (fun w hp e' he' => hp e' (sub e' he')) (fun w c _ _ _ hr => ?_) (fun w _ => fewer w)
    (fun t ht i hp hf => ?_) h
  · rcases hr with hr | ⟨e', he', hr⟩
    · exact .inl hr
    · exact .inr ⟨e', sub e' he', hr⟩
  · exact firstMatch_removed b h1 h3 hu ht hp hf

/-- C74 for all lexers, also without one character of lookahead: the rule can be removed if whatever can be read with
it can be read with the other rules. -/
theorem c74_every_partial (pre post : List (List Char × (List Char → K))) (r : List Char × (List Char → K))
    {es1 es2 : List Expr} {e : Expr} (hlen : es1.length = pre.length)
    (hl : LexerFor p (pre ++ r :: post) (es1 ++ e :: es2) l)
    (hr : ∀ w, MayBegin e w → Readable (es1 ++ es2) w) :
    ∃ l', buildLexer p (pre ++ post) = .ok (.ok l') ∧
    ∀ (input : List Char) (ts : List (Tok K)), Tokens l input ts → Unused p pre r ts → Tokens l' input ts := by
  have b := hl.toBuilt
  obtain ⟨l', hl'⟩ := (c55_partial p (pre ++ post)).2.1 fun r' hr' => b.usable r' (by
    simp only [List.mem_append, List.mem_cons] at hr' ⊢
    rcases hr' with h | h <;> simp [h])
  refine ⟨l', hl', fun input ts h hu => ?_⟩
  have htr := hl.trees
  rw [List.map_append, List.map_cons, List.map_append, List.map_cons] at htr
  obtain ⟨h1, h2⟩ := List.append_inj htr (by simp [hlen])
  obtain ⟨h3, h4⟩ := List.cons.inj h2
  have hl2 : LexerFor p (pre ++ post) (es1 ++ es2) l' := ⟨hl', by rw [List.map_append, List.map_append, h1, h4]⟩
  have sub : ∀ e', e' ∈ es1 ++ es2 → e' ∈ es1 ++ e :: es2 := by
    intro e' h
    simp only [List.mem_append, List.mem_cons] at h ⊢
    rcases h with h | h <;> simp [h]
  have fewer : ∀ w, AnyMatch (taken (es1 ++ es2)) w → AnyMatch (taken (es1 ++ e :: es2)) w := by
    rintro w ⟨M, hM, hw⟩
    obtain ⟨e', he', rfl⟩ := List.mem_map.1 hM
    exact ⟨_, List.mem_map_of_mem (sub e' he'), hw⟩
  have reads : Readable (es1 ++ e :: es2) = Readable (es1 ++ es2) := by
    funext w
    refine propext ⟨?_, ?_⟩
    · rintro (h | ⟨e', he', h⟩)
      · exact .inl h
      · simp only [List.mem_append, List.mem_cons] at he'
        rcases he' with he' | rfl | he'
        · exact .inr ⟨e', by simp [he'], h⟩
        · exact hr w h
        · exact .inr ⟨e', by simp [he'], h⟩
    · rintro (h | ⟨e', he', h⟩)
      · exact .inl h
      · exact .inr ⟨e', sub e' he', h⟩
  rw [c23_tokens_partial p _ _ l hl] at h
  rw [c23_tokens_partial p _ _ l' hl2]
  unfold Scans at h ⊢
  have hsk : (Scanner.new input).skipped = [] := rfl
  generalize Scanner.new input = sc at h hsk
  rw [reads] at h
  induction ts generalizing sc with
  | nil =>
    cases h with
    | next he hc _ =>
      have he' : Passes (es1 ++ es2) (word sc.left) := fun e' h' => he e' (sub e' h')
      cases hc with
      | nothing h5 h6 h7 h8 => exact .next he' (.nothing h5 h6 h7 fun w hw hp hm => h8 w hw hp (fewer w hm)) .done
      | over h5 h6 => exact .next he' (.over h5 (h6.imp id fun h7 h8 => h7 (fewer _ h8))) .done
  | cons t ts ih =>
    cases h with
    | next he hc hn =>
      have hu' : Unused p pre r ts := fun t ht => hu t (List.mem_cons_of_mem _ ht)
      have he' : Passes (es1 ++ es2) (word sc.left) := fun e' h' => he e' (sub e' h')
      cases hc with
      | @token w back x i k h5 h6 h7 h8 h9 h10 =>
        simp only [hsk, List.nil_append] at h10 hu hn ⊢
        have hp : Passes (es1 ++ e :: es2) (word w) := fun e' h' v hv => he e' h' v (hv.trans (by
          refine List.IsPrefix.trans ?_ (h5.map Prod.snd)
          rw [List.append_assoc, List.map_append]
          exact List.prefix_append _ _))
        obtain ⟨j, h11, h12⟩ := firstMatch_removed b h1.symm h3.symm hu (List.mem_cons_self ..) hp h9
        have h13 : AnyMatch (taken (es1 ++ es2)) (word w) := by
          obtain ⟨M, hM, hw⟩ := h11.isMatch
          exact ⟨M, List.mem_of_getElem? hM, hw⟩
        have := Call.token (sc := sc) h5 h6 h7 ⟨h8.nonempty, h8.isPrefix, h13, fun v hv hm => h8.longest v hv (fewer v hm)⟩
          h11 (k := k) (kind := kindAt (pre ++ post)) (by rw [hsk, List.nil_append, ← h10]; exact h12)
        simp only [hsk, List.nil_append] at this
        exact .next he' this (ih hu' _ hn rfl)
      | @last i k h5 h6 h7 h8 =>
        simp only [hsk, List.nil_append] at h8 hu hn ⊢
        obtain ⟨j, h11, h12⟩ := firstMatch_removed b h1.symm h3.symm hu (List.mem_cons_self ..) he h7
        have := Call.last (sc := sc) h5 h6 h11 (k := k) (kind := kindAt (pre ++ post))
          (by rw [hsk, List.nil_append, ← h8]; exact h12)
        simp only [hsk, List.nil_append] at this
        exact .next he' this (ih hu' _ hn rfl)

/-! ## Examples -/

/-- The rules `a+`, and `aa*` instead. -/
def plusTrees : List Expr := [.lit (.mtch 'a') (some .plus)]
def starTrees : List Expr := [.concat [.lit (.mtch 'a') none, .lit (.mtch 'a') (some .asterisk)]]

theorem plus_matches {w : List Char} : Matches (.lit (.mtch 'a') (some .plus)) w ↔ w ≠ [] ∧ ∀ c ∈ w, c = 'a' := by
  constructor
  · intro h
    cases h with
    | lit h1 h2 =>
      refine ⟨?_, h2⟩
      rintro rfl
      simp [QuantSet] at h1
  · rintro ⟨h1, h2⟩
    exact .lit (by simpa [QuantSet, Nat.one_le_iff_ne_zero] using h1) h2

theorem star_matches {w : List Char} :
    Matches (.concat [.lit (.mtch 'a') none, .lit (.mtch 'a') (some .asterisk)]) w ↔ w ≠ [] ∧ ∀ c ∈ w, c = 'a' := by
  constructor
  · intro h
    cases h with
    | cons h1 h2 =>
      obtain ⟨c, rfl, hc⟩ := matches_lit h1
      cases h2 with
      | cons h2 h3 =>
        cases h3
        cases h2 with
        | lit _ h4 =>
          refine ⟨by simp, fun d hd => ?_⟩
          simp only [List.append_nil, List.cons_append, List.nil_append, List.mem_cons] at hd
          rcases hd with rfl | hd
          · exact hc
          · exact h4 d hd
  · rintro ⟨h1, h2⟩
    cases w with
    | nil => exact absurd rfl h1
    | cons c w =>
      have := Matches.cons (u := [c]) (v := w ++ []) (.lit (l := .mtch 'a') (q := none) rfl (by simpa [LitSet] using h2 c (by simp)))
        (.cons (.lit (l := .mtch 'a') (q := some .asterisk) trivial fun d hd => h2 d (by simp [hd])) .nil)
      simpa using this

theorem plus_regular : Regular plusTrees := by
  intro e he
  rw [← repeatsNonEmptyB_iff, ← countsAtStartB_iff]
  simp only [plusTrees, List.mem_cons, List.not_mem_nil, or_false] at he
  subst he
  decide

theorem star_regular : Regular starTrees := by
  intro e he
  rw [← repeatsNonEmptyB_iff, ← countsAtStartB_iff]
  simp only [starTrees, List.mem_cons, List.not_mem_nil, or_false] at he
  subst he
  decide

/-- The lexers with these rules. -/
def plusLexer : Lexer Nat :=
  ⟨⟨0, [⟨0, false, [(.eps, [3])]⟩, ⟨1, true, []⟩, ⟨2, true, []⟩,
    ⟨3, false, [(.quantified .plus, [2]), (.literal (.mtch 'a'), [3])]⟩]⟩, [(2, List.length)]⟩
def starLexer : Lexer Nat :=
  ⟨⟨0, [⟨0, false, [(.literal (.mtch 'a'), [3])]⟩, ⟨1, true, []⟩, ⟨2, true, []⟩, ⟨3, false, [(.eps, [4])]⟩,
    ⟨4, false, [(.quantified .asterisk, [2]), (.literal (.mtch 'a'), [4])]⟩]⟩, [(2, List.length)]⟩

omit [Unicode] in
theorem plus_for : LexerFor .debug [("a+".toList, List.length)] plusTrees plusLexer := ⟨rfl, rfl⟩
omit [Unicode] in
theorem star_for : LexerFor .debug [("aa*".toList, List.length)] starTrees starLexer := ⟨rfl, rfl⟩

theorem plus_ahead : LooksOneAhead plusTrees := by
  refine looksOneAhead_of plus_for plus_regular ?_
  rintro w c _ _ ⟨e, he, h⟩
  simp only [plusTrees, List.mem_cons, List.not_mem_nil, or_false] at he
  subst he
  refine ⟨_, List.mem_map_of_mem (List.mem_cons_self ..), plus_matches.2 ⟨by simp, ?_⟩⟩
  generalize w ++ [c] = v at h
  cases h with
  | nothing => simp
  | chars h => exact h

theorem star_ahead : LooksOneAhead starTrees := by
  refine looksOneAhead_of star_for star_regular ?_
  rintro w c _ _ ⟨e, he, h⟩
  simp only [starTrees, List.mem_cons, List.not_mem_nil, or_false] at he
  subst he
  refine ⟨_, List.mem_map_of_mem (List.mem_cons_self ..), star_matches.2 ⟨by simp, ?_⟩⟩
  generalize w ++ [c] = v at h
  cases h with
  | nothing => simp
  | here h =>
    cases h with
    | nothing => simp
    | char h => simpa [LitSet] using h
  | later h1 h2 =>
    obtain ⟨c, rfl, hc⟩ := matches_lit h1
    have : ∀ {v}, MayRead (.concat [.lit (.mtch 'a') (some .asterisk)]) v → ∀ d ∈ v, d = 'a' := by
      intro v h
      cases h with
      | nothing => simp
      | here h =>
        cases h with
        | nothing => simp
        | chars h => exact h
      | later h1 h2 =>
        cases h2
        cases h1 with
        | lit _ h => simpa [LitSet] using h
    intro d hd
    simp only [List.cons_append, List.nil_append, List.mem_cons] at hd
    rcases hd with rfl | hd
    · exact hc
    · exact this h2 d hd

theorem plus_star : Interchangeable .debug [("a+".toList, List.length)] [("aa*".toList, List.length)] := by
  refine ⟨rfl, fun i r r' h1 h2 => ?_⟩
  cases i with
  | succ i => simp at h1
  | zero =>
    cases h1
    cases h2
    have k1 : Regex.parse .debug "a+".toList = .ok (.ok (.lit (.mtch 'a') (some .plus))) := rfl
    have k2 : Regex.parse .debug "aa*".toList =
      .ok (.ok (.concat [.lit (.mtch 'a') none, .lit (.mtch 'a') (some .asterisk)])) := rfl
    have r1 := plus_regular _ (List.mem_cons_self ..)
    have r2 := star_regular _ (List.mem_cons_self ..)
    refine ⟨rfl, fun w => ?_⟩
    rw [accepts_iff k1, accepts_iff k2, answers_iff (by decide) r1.1 r1.2, answers_iff (by decide) r2.1 r2.2,
      plus_matches, star_matches]

/-- The tokens of `aaa-a` with the rule `aa*`. -/
example : Tokens starLexer "aaa-a".toList [⟨3, "aaa".toList, (0, 3)⟩] :=
  c73_partial plus_for star_for plus_ahead star_ahead (fun e he => (star_regular e he).1) plus_star _ _
    ⟨10, 3, _, by with_unfolding_all rfl⟩

/-- The rule `=` is not used in `aa==a`. -/
example : ∃ l, buildLexer .debug [("a+".toList, List.length), ("==".toList, fun _ => 200)] = .ok (.ok l) ∧
    Tokens l "aa==a".toList [⟨2, "aa".toList, (0, 2)⟩, ⟨200, "==".toList, (2, 4)⟩, ⟨1, "a".toList, (4, 5)⟩] := by
  obtain ⟨l, hl, h⟩ := c74_partial [("a+".toList, List.length)] [("==".toList, fun _ => 200)] ("=".toList, fun _ => 100)
    words_for words_ahead
  refine ⟨l, hl, h _ _ ⟨10, 9, _, by with_unfolding_all rfl⟩ ?_⟩
  have hk : Regex.parse .debug "=".toList = .ok (.ok (.lit (.mtch '=') none)) := rfl
  intro t ht ha
  rw [accepts_iff hk, answers_iff (by decide) (by rw [← repeatsNonEmptyB_iff]; decide)
        (by rw [← countsAtStartB_iff]; decide)] at ha
  obtain ⟨c, hc, rfl⟩ := matches_lit ha
  simp only [List.mem_cons, List.not_mem_nil, or_false] at ht
  rcases ht with rfl | rfl | rfl <;> simp at hc

/-- With the rules `a` and `abc`, for which one character of lookahead is not enough, the rule `a` is not used in
`abc`. -/
example : ∃ l, buildLexer .debug [("abc".toList, fun _ => 1)] = .ok (.ok l) ∧
    Tokens l "abc".toList [⟨1, "abc".toList, (0, 3)⟩] := by
  obtain ⟨l, hl, h⟩ := c74_every_partial [] [("abc".toList, fun _ => 1)] ("a".toList, fun _ => 0) (es1 := []) rfl
    early_for fun w hw => by
      cases hw with
      | char h => exact .inr ⟨_, List.mem_cons_self .., .here (.char h)⟩
  refine ⟨l, hl, h _ _ ⟨10, 9, _, by with_unfolding_all rfl⟩ ?_⟩
  have hk : Regex.parse .debug "a".toList = .ok (.ok (.lit (.mtch 'a') none)) := rfl
  intro t ht ha
  rw [accepts_iff hk, answers_iff (by decide) (by rw [← repeatsNonEmptyB_iff]; decide)
        (by rw [← countsAtStartB_iff]; decide)] at ha
  obtain ⟨c, hc, rfl⟩ := matches_lit ha
  simp only [List.mem_cons, List.not_mem_nil, or_false] at ht
  rcases ht with rfl
  simp at hc

end Pango.Props
