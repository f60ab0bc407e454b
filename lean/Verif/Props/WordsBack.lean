import Verif.Props.Words

/-!
# C72, exactly: when texts made of words are taken apart into these words
-/

namespace Pango.Props

open Pango Pango.Regex Pango.Fsm Pango.Lex Pango.Spec

variable [Unicode] {K : Type}

/-- No word begins with two words, and no word is a word with a beginning of a word behind it. -/
def TakenApart (ws : List (List Char)) : Prop :=
  ∀ u ∈ ws, ∀ v ∈ ws, (∀ w ∈ ws, ¬ u ++ v <+: w) ∧ ∀ x, x ≠ [] → x <+: v → u ++ x ∉ ws

omit [Unicode] in
/-- The place where something that holds of nothing more stops to hold. -/
theorem first_stop {α : Type} {P : List α → Prop} : ∀ (u v : List α), P u → ¬ P (u ++ v) →
    ∃ back x rest, v = back ++ x :: rest ∧ P (u ++ back) ∧ ¬ P (u ++ back ++ [x]) := by
  intro u v
  induction v generalizing u with
  | nil => intro h h'; exact absurd (by simpa using h) h'
  | cons c v ih =>
    intro h h'
    by_cases hc : P (u ++ [c])
    · obtain ⟨back, x, rest, rfl, h1, h2⟩ := ih (u ++ [c]) hc (by simpa using h')
      exact ⟨c :: back, x, rest, rfl, by simpa using h1, by simpa using h2⟩
    · exact ⟨[], c, v, rfl, by simpa using h, by simpa using hc⟩

omit [Unicode] in
theorem word_split {l : List (Nat × Char)} {a b : List Char} (h : word l = a ++ b) :
    ∃ x y, l = x ++ y ∧ word x = a ∧ word y = b := by
  obtain ⟨x, y, h1, h2, h3⟩ := List.map_eq_append_iff.1 h
  exact ⟨x, y, h1, h2, h3⟩

omit [Unicode] in
/-- The kind that the first rule with this word makes of it. -/
theorem kindAt_idxOf {kinds : List (List Char × (List Char → K))} {u : List Char} (hu : u ∈ ruleWords kinds) :
    ∃ k, kindAt kinds ((ruleWords kinds).idxOf u) u = some k ∧
      (kinds.find? fun k => k.1 = u).map (fun k => k.2 u) = some k := by
  induction kinds with
  | nil => simp [ruleWords] at hu
  | cons k kinds ih =>
    by_cases hk : k.1 = u
    · exact ⟨k.2 u, by simp [ruleWords, kindAt, List.idxOf_cons, hk], by simp [hk]⟩
    · have hm : u ∈ ruleWords kinds := by
        rcases List.mem_cons.1 hu with h | h
        · exact absurd h.symm hk
        · exact h
      obtain ⟨k', e1, e2⟩ := ih hm
      have hb : (k.1 == u) = false := by simp [hk]
      refine ⟨k', ?_, ?_⟩
      · simp only [kindAt, ruleWords] at e1
        simp only [ruleWords, kindAt, List.map_cons, List.idxOf_cons, hb, cond_false, Bool.false_eq_true, if_false,
          List.getElem?_cons_succ, e1]
      · rw [List.find?_cons_of_neg (by simp [hk])]
        exact e2

/-- The calls that take a text made of words apart. -/
theorem calls_back {kinds : List (List Char × (List Char → K))} (hne : [] ∉ ruleWords kinds)
    (hc : TakenApart (ruleWords kinds)) :
    ∀ (us : List (List Char)) (sc : Scanner), (∀ u ∈ us, u ∈ ruleWords kinds) → sc.skipped = [] →
      word sc.left = us.flatten → (∀ u ∈ us.head?, sc.again.length ≤ u.length) →
      ∃ ts : List (Tok K), Calls (only (ruleWords kinds)) (Readable ((ruleWords kinds).map wordTree))
          (Passes ((ruleWords kinds).map wordTree)) (kindAt kinds) sc (ts.map some ++ [none]) ∧
        ts.map (fun t => (t.source, some t.kind)) =
          us.map fun u => (u, (kinds.find? fun k => k.1 = u).map fun k => k.2 u) := by
  intro us
  induction us with
  | nil =>
    intro sc _ hsk hleft _
    have h0 : sc.left = [] := by simpa [word] using hleft
    refine ⟨[], .next (passes_words _) (.over ?_ (.inl h0)) .done, rfl⟩
    rw [h0]
    exact .inl rfl
  | cons u us ih =>
    intro sc hus hsk hleft hag
    have hu := hus u (by simp)
    have hune : u ≠ [] := fun h => hne (h ▸ hu)
    have hag := hag u rfl
    obtain ⟨k, hk1, hk2⟩ := kindAt_idxOf hu
    cases us with
    | nil =>
      have hleft : word sc.left = u := by simpa using hleft
      obtain ⟨ts, h1, h2⟩ := ih ⟨[], [], [], stop sc.left⟩ (by simp) rfl rfl (by simp)
      refine ⟨⟨k, u, (sc.start, stop sc.left)⟩ :: ts, ?_, by simp only [List.map_cons, h2, hk2]⟩
      have := Call.last (rules := only (ruleWords kinds)) (Live := Readable ((ruleWords kinds).map wordTree))
        (kind := kindAt kinds) (sc := sc) (i := (ruleWords kinds).idxOf u) (k := k)
        (by intro h; rw [h] at hleft; exact hune hleft.symm)
        (by rw [hleft]; exact readable_words.2 (.inr ⟨u, hu, List.prefix_refl _⟩))
        (by rw [hleft]; exact firstMatch_only hu) (by rw [hsk]; simpa [hleft] using hk1)
      rw [hsk, List.nil_append, hleft] at this
      exact .next (passes_words _) this h1
    | cons v us =>
      have hv := hus v (by simp)
      have hvne : v ≠ [] := fun h => hne (h ▸ hv)
      obtain ⟨c1, c2⟩ := hc u hu v hv
      obtain ⟨back, x, rest, rfl, r1, r2⟩ := first_stop (P := Readable ((ruleWords kinds).map wordTree)) u v
        (readable_words.2 (.inr ⟨u, hu, List.prefix_refl _⟩))
        (by
          rw [readable_words]
          rintro (h | ⟨w, hw, h⟩)
          · simp [hvne] at h
          · exact c1 w hw h)
      obtain ⟨lw, l1, e1, e2, e3⟩ := word_split (l := sc.left) (a := u) (b := back ++ x :: (rest ++ us.flatten))
        (by rw [hleft]; simp)
      obtain ⟨lb, l2, rfl, e4, e5⟩ := word_split e3
      obtain ⟨lx, l3, rfl, e6, e7⟩ := word_split (a := [x]) (b := rest ++ us.flatten) e5
      obtain ⟨y, rfl⟩ : ∃ y, lx = [y] := by
        have : lx.length = 1 := by simpa [word] using congrArg List.length e6
        exact List.length_eq_one_iff.1 this
      have hleft' : sc.again ++ sc.ahead = (lw ++ lb ++ [y]) ++ l3 := by
        have : sc.left = (lw ++ lb ++ [y]) ++ l3 := by rw [e1]; simp
        exact this
      have hlw : lw.length = u.length := by rw [← e2]; simp [word]
      have hahead : sc.ahead.drop ((lw ++ lb ++ [y]).length - sc.again.length) = l3 := by
        have h1 := congrArg (List.drop (lw ++ lb ++ [y]).length) hleft'
        rw [List.drop_left, List.drop_append, List.drop_eq_nil_of_le (by simp; omega), List.nil_append] at h1
        exact h1
      obtain ⟨ts, h1, h2⟩ := ih ⟨[], lb ++ [y], l3, stop lw⟩ (fun w hw => hus w (by simp [hw])) rfl
        (by simp [Scanner.left, e4, e7]; simpa using e6) (by
          intro w hw
          simp only [List.head?_cons, Option.mem_def, Option.some.injEq] at hw
          rw [← hw, ← e4]
          simp [word])
      refine ⟨⟨k, u, (sc.start, stop lw)⟩ :: ts, ?_, by simp only [List.map_cons, h2, hk2]⟩
      have hy : y.2 = x := by simpa [word] using e6
      have := Call.token (rules := only (ruleWords kinds)) (Live := Readable ((ruleWords kinds).map wordTree))
        (kind := kindAt kinds) (sc := sc) (w := lw) (back := lb) (x := y) (i := (ruleWords kinds).idxOf u) (k := k)
        ⟨l3, hleft'.symm⟩ (by rw [word_append, e2, e4]; exact r1)
        (by rw [word_append, word_append, e2, e4, e6]; exact r2)
        (by
          rw [word_append, e2, e4]
          refine ⟨hune, List.prefix_append _ _, anyMatch_only.2 hu, ?_⟩
          intro w hw hm
          rw [anyMatch_only] at hm
          apply Classical.byContradiction
          intro hlt
          obtain ⟨z, rfl⟩ : u <+: w := List.prefix_of_prefix_length_le (List.prefix_append _ _) hw (by omega)
          have hz := (List.prefix_append_right_inj u).1 hw
          exact c2 z (by rintro rfl; simp at hlt) (hz.trans (List.prefix_append _ _)) hm)
        (by rw [e2]; exact firstMatch_only hu) (by rw [hsk]; simpa [e2] using hk1)
      rw [hsk, List.nil_append, e2, hahead] at this
      exact .next (passes_words _) this h1

/-- C72 with the kinds: the kind of each token is the one of the first rule with its word. -/
theorem c72_kinds_partial (p : Profile) (kinds : List (List Char × (List Char → K))) (l : Lexer K)
    (hne : [] ∉ ruleWords kinds) (hl : buildLexer p (wordRules kinds) = .ok (.ok l)) (hc : TakenApart (ruleWords kinds))
    (us : List (List Char)) (hus : ∀ u ∈ us, u ∈ ruleWords kinds) :
    ∃ ts, Tokens l us.flatten ts ∧ ts.map (fun t => (t.source, some t.kind)) =
      us.map fun u => (u, (kinds.find? fun k => k.1 = u).map fun k => k.2 u) := by
  obtain ⟨ts, h1, h2⟩ := calls_back hne hc us (Scanner.new us.flatten) hus rfl
    (by rw [enumerated]; simp) (by simp [Scanner.new])
  refine ⟨ts, (c23_tokens_partial p _ _ l (lexerFor_words hne hl) _ _).2 ?_, h2⟩
  unfold Scans
  rw [taken_only hne, kindAt_words]
  exact h1

/-- C72, exactly, for all lists of words: all texts made of words are taken apart into these words if and only if no
word begins with two words, and no word is a word with a beginning of a word behind it.  Missing: that this is so for
all lists of words. -/
theorem c72_all_partial (p : Profile) (kinds : List (List Char × (List Char → K))) (l : Lexer K)
    (hne : [] ∉ ruleWords kinds) (hl : buildLexer p (wordRules kinds) = .ok (.ok l)) :
    (∀ us, (∀ u ∈ us, u ∈ ruleWords kinds) → ∃ ts, Tokens l us.flatten ts ∧ ts.map Tok.source = us) ↔
      TakenApart (ruleWords kinds) := by
  constructor
  · intro h u hu v hv
    have hvne : v ≠ [] := fun h => hne (h ▸ hv)
    obtain ⟨ts, h1, h2⟩ := h [u, v] (by simp [hu, hv])
    rw [c23_tokens_partial p _ _ l (lexerFor_words hne hl)] at h1
    unfold Scans at h1
    rw [taken_only hne] at h1
    obtain ⟨t, ts, rfl⟩ : ∃ t ts', ts = t :: ts' := by
      cases ts with
      | nil => simp at h2
      | cons t ts => exact ⟨t, ts, rfl⟩
    simp only [List.map_cons, List.cons.injEq] at h2
    have ht := h2.1
    have hleft : word (Scanner.new [u, v].flatten).left = u ++ v := by rw [enumerated]; simp
    have hsk : (Scanner.new [u, v].flatten).skipped = [] := rfl
    generalize Scanner.new [u, v].flatten = sc at h1 hleft hsk
    have live : ∀ {a b : List Char} {w : List Char}, w ∈ ruleWords kinds → a <+: b → b <+: w →
        Readable ((ruleWords kinds).map wordTree) a := fun hw h h' => readable_words.2 (.inr ⟨_, hw, h.trans h'⟩)
    simp only [List.map_cons, List.cons_append] at h1
    cases h1 with
    | next _ hcall _ =>
      cases hcall with
      | last _ _ _ _ =>
        exfalso
        simp only [hsk, List.nil_append, hleft] at ht
        exact hvne (by simpa using ht)
      | @token w back x i k e1 e2 e3 e4 e5 e6 =>
        simp only [hsk, List.nil_append] at ht
        obtain ⟨rest, e7⟩ := e1
        have e8 : u ++ v = word (w ++ back ++ [x]) ++ word rest := by rw [← word_append, e7, hleft]
        constructor
        · intro w' hw' hp
          exact e3 (live hw' ⟨_, e8.symm⟩ hp)
        · intro z hz hzv hm
          have hlt : (u ++ z).length < (word (w ++ back ++ [x])).length := by
            apply Nat.lt_of_not_le
            intro hle
            refine e3 (live hm (List.prefix_of_prefix_length_le ⟨_, e8.symm⟩ ?_ hle) (List.prefix_refl _))
            exact (List.prefix_append_right_inj u).2 hzv
          have hpre : u ++ z <+: word (w ++ back) := by
            refine List.prefix_of_prefix_length_le ((List.prefix_append_right_inj u).2 hzv)
              ⟨word ([x] ++ rest), by rw [e8]; simp⟩ ?_
            simp [word] at hlt ⊢
            omega
          have := e4.longest _ hpre (anyMatch_only.2 hm)
          rw [ht] at this
          simp only [List.length_append] at this
          exact hz (List.eq_nil_of_length_eq_zero (by omega))
  · intro hc us hus
    obtain ⟨ts, h1, h2⟩ := c72_kinds_partial p kinds l hne hl hc us hus
    refine ⟨ts, h1, ?_⟩
    have := congrArg (List.map Prod.fst) h2
    simpa [Function.comp_def] using this

omit [Unicode] in
theorem takenApart_of {ws : List (List Char)} (h : ∀ u ∈ ws, ∀ v ∈ ws, ∀ w ∈ ws,
    ¬ u ++ v <+: w ∧ ¬ (u <+: w ∧ u ≠ w ∧ w.drop u.length <+: v)) : TakenApart ws := by
  intro u hu v hv
  refine ⟨fun w hw => (h u hu v hv w hw).1, fun x hx hxv hm => (h u hu v hv _ hm).2 ⟨List.prefix_append _ _, ?_, ?_⟩⟩
  · intro e
    exact hx (by simpa using e)
  · rw [List.drop_left]
    exact hxv

omit [Unicode] in
/-- The words `a`, `bd` and `abc` can be told apart, although `a` goes on with the `b` of `bd`, and there is no word of two
letters between `a` and `abc`. -/
example : TakenApart ["a".toList, "bd".toList, "abc".toList] ∧ ¬ FillsUp ["a".toList, "bd".toList, "abc".toList] :=
  ⟨takenApart_of (by decide), fun h =>
    absurd (h "a".toList (by decide) "abc".toList (by decide) "ab".toList (by decide) (by decide)) (by decide)⟩

omit [Unicode] in
/-- The words `a`, `b` and `abc` cannot. -/
example : ¬ TakenApart ["a".toList, "b".toList, "abc".toList] := fun h =>
  (h "a".toList (by decide) "b".toList (by decide)).1 "abc".toList (by decide) (by decide)

end Pango.Props
