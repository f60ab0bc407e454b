import Verif.Props.Compose
import Verif.Props.RuleOrder
import Verif.Proofs.EffectLog
import Verif.Proofs.LexFuel

/-!
# C93: a pattern with a bar is two rules
-/

namespace Pango.Props

open Pango Pango.Lex Pango.Fsm Pango.Regex Pango.Spec

variable [Unicode] {K : Type} {p : Profile}

/-- C93 as stated: in place of the rules with the patterns `a` and `b` and the same function there may be one rule with
the pattern `a|b`. -/
def BarIsTwoRules : Prop :=
  ∀ (K : Type) (p : Profile) (pre post : List (List Char × (List Char → K))) (a b : List Char) (f : List Char → K)
    (l : Lexer K), buildLexer p (pre ++ (a, f) :: (b, f) :: post) = .ok (.ok l) →
    ∃ l', buildLexer p (pre ++ (a ++ '|' :: b, f) :: post) = .ok (.ok l') ∧
      ∀ input as, CallsReturn l input as ↔ CallsReturn l' input as

/-- What calls return does not depend on the number of steps that are allowed. -/
theorem _root_.Pango.Props.CallsReturn.unique {l : Lexer K} {input : List Char} {as as' : List (Option (Tok K))}
    (h : CallsReturn l input as) (h' : CallsReturn l input as') (len : as.length = as'.length) : as = as' := by
  obtain ⟨k, it, h⟩ := h
  obtain ⟨k', it', h'⟩ := h'
  rw [← len] at h'
  have h1 := (lexCalls_le (gs := l.tokens) (nfaMachine_le (nfa := l.nfa) (Nat.le_max_left k k'))).ok h
  have h2 := (lexCalls_le (gs := l.tokens) (nfaMachine_le (nfa := l.nfa) (Nat.le_max_right k k'))).ok h'
  rw [h1] at h2
  cases h2
  rfl

/-- The lexers with the rule `a)`, and with the rules `a)` and `b`. -/
def parenLexer : Lexer Nat :=
  ⟨⟨0, [⟨0, false, [(.literal (.mtch 'a'), [2])]⟩, ⟨1, true, []⟩, ⟨2, true, []⟩]⟩, [(2, fun _ => 7)]⟩

def parenLexer' : Lexer Nat :=
  ⟨⟨0, [⟨0, false, [(.literal (.mtch 'a'), [2]), (.literal (.mtch 'b'), [3])]⟩, ⟨1, true, []⟩, ⟨2, true, []⟩,
    ⟨3, true, []⟩]⟩, [(2, fun _ => 7), (3, fun _ => 7)]⟩

/-- C93 is false: `a)` and `b` are accepted, but `a)|b` is read as `a`, and then there is no token for `b`. -/
theorem c93_false : ¬ BarIsTwoRules := by
  intro h
  obtain ⟨l', h1, h2⟩ := h Nat .debug [] [] "a)".toList "b".toList (fun _ => 7) parenLexer' rfl
  have h5 : l' = parenLexer := by
    have := h1.symm.trans (show buildLexer .debug [("a)".toList ++ '|' :: "b".toList, fun _ => 7)] =
      .ok (.ok parenLexer) from rfl)
    simpa using this
  subst h5
  have h3 := (h2 "b".toList [some ⟨7, ['b'], (0, 1)⟩]).1 ⟨10, _, by with_unfolding_all rfl⟩
  have h4 : CallsReturn parenLexer "b".toList [none] := ⟨10, _, by with_unfolding_all rfl⟩
  cases h3.unique h4 rfl

/-! ## The rule that is chosen -/

/-- The function of the first rule that matches. -/
def Picks : List ((List Char → Prop) × (List Char → K)) → List Char → (List Char → K) → Prop
  | [], _, _ => False
  | (M, f) :: rs, w, g => M w ∧ g = f ∨ ¬ M w ∧ Picks rs w g

omit [Unicode] in
theorem picks_iff {rs : List ((List Char → Prop) × (List Char → K))} {w : List Char} {g : List Char → K} :
    Picks rs w g ↔ ∃ i, FirstMatch (rs.map Prod.fst) w i ∧ (rs[i]?).map Prod.snd = some g := by
  induction rs with
  | nil =>
    constructor
    · exact fun h => h.elim
    · rintro ⟨i, h, -⟩
      obtain ⟨M, h, -⟩ := h.isMatch
      simp at h
  | cons r rs ih =>
    obtain ⟨M, f⟩ := r
    simp only [Picks, ih]
    constructor
    · rintro (⟨h, rfl⟩ | ⟨h, i, h1, h2⟩)
      · exact ⟨0, ⟨⟨M, rfl, h⟩, fun j _ hj => absurd hj (Nat.not_lt_zero j)⟩, rfl⟩
      · obtain ⟨N, h3, h4⟩ := h1.isMatch
        refine ⟨i + 1, ⟨⟨N, by simpa using h3, h4⟩, fun j N hj hN => ?_⟩, by simpa using h2⟩
        cases j with
        | zero => cases hN; exact h
        | succ j => exact h1.first j N (by omega) (by simpa using hN)
    · rintro ⟨i, h1, h2⟩
      obtain ⟨N, h3, h4⟩ := h1.isMatch
      cases i with
      | zero => cases h3; cases h2; exact .inl ⟨h4, rfl⟩
      | succ i =>
        refine .inr ⟨h1.first 0 M (Nat.succ_pos i) rfl, i, ⟨⟨N, by simpa using h3, h4⟩, fun j N hj hN => ?_⟩,
          by simpa using h2⟩
        exact h1.first (j + 1) N (by omega) (by simpa using hN)

omit [Unicode] in
theorem picks_append {pre rs rs' : List ((List Char → Prop) × (List Char → K))} {w : List Char}
    (h : ∀ g, Picks rs w g ↔ Picks rs' w g) (g : List Char → K) : Picks (pre ++ rs) w g ↔ Picks (pre ++ rs') w g := by
  induction pre with
  | nil => exact h g
  | cons r pre ih => obtain ⟨M, f⟩ := r; simp only [List.cons_append, Picks, ih]

omit [Unicode] in
/-- Calls depend only on the words that are matched, and on the function that is chosen. -/
theorem calls_mono {rules rules' : List (List Char → Prop)} {Live Ends : List Char → Prop}
    {kind kind' : Nat → List Char → Option K} (any : ∀ w, AnyMatch rules w ↔ AnyMatch rules' w)
    (pick : ∀ w i, FirstMatch rules w i → ∃ j, FirstMatch rules' w j ∧ ∀ src, kind i src = kind' j src) {sc : Scanner}
    {as : List (Option (Tok K))} (h : Calls rules Live Ends kind sc as) : Calls rules' Live Ends kind' sc as := by
  have long : ∀ u w, Longest rules u w → Longest rules' u w := fun u w h =>
    ⟨h.nonempty, h.isPrefix, (any w).1 h.isMatch, fun v hv hm => h.longest v hv ((any v).2 hm)⟩
  induction h with
  | done => exact .done
  | next he hc _ ih =>
    refine .next he ?_ ih
    cases hc with
    | token h1 h2 h3 h4 h5 h6 =>
      obtain ⟨j, h7, h8⟩ := pick _ _ h5
      exact .token h1 h2 h3 (long _ _ h4) h7 (by rw [← h8]; exact h6)
    | last h1 h2 h3 h4 =>
      obtain ⟨j, h7, h8⟩ := pick _ _ h3
      exact .last h1 h2 h7 (by rw [← h8]; exact h4)
    | nothing h1 h2 h3 h4 => exact .nothing h1 h2 h3 fun w hw hp hm => h4 w hw hp ((any w).2 hm)
    | over h1 h2 => exact .over h1 (h2.imp_right fun h hm => h ((any _).2 hm))

/-- The words that the rules take, with their functions. -/
def takes (es : List Expr) (rules : List (List Char × (List Char → K))) :
    List ((List Char → Prop) × (List Char → K)) := (taken es).zip (rules.map Prod.snd)

/-- Two lexers return the same if for every word the first rules that take it have the same function, and their
patterns together can be read as far and get stuck on the same words. -/
theorem c93_rules {rules rules' : List (List Char × (List Char → K))} {es es' : List Expr} {l l' : Lexer K}
    (hl : LexerFor p rules es l) (hl' : LexerFor p rules' es' l')
    (picks : ∀ w g, Picks (takes es rules) w g ↔ Picks (takes es' rules') w g)
    (reads : ∀ w, Readable es w ↔ Readable es' w) (stuck : ∀ w, Passes es w ↔ Passes es' w)
    (input : List Char) (as : List (Option (Tok K))) : CallsReturn l input as ↔ CallsReturn l' input as := by
  have one : ∀ {rules rules' : List (List Char × (List Char → K))} {es es' : List Expr} {l l' : Lexer K},
      LexerFor p rules es l → LexerFor p rules' es' l' →
      (∀ w g, Picks (takes es rules) w g ↔ Picks (takes es' rules') w g) →
      (∀ w, Readable es w ↔ Readable es' w) → (∀ w, Passes es w ↔ Passes es' w) →
      Scans es rules input as → Scans es' rules' input as := by
    clear picks reads stuck hl hl' rules rules' es es' l l'
    intro rules rules' es es' l l' hl hl' picks reads stuck h
    have first : ∀ {rules : List (List Char × (List Char → K))} {es : List Expr} {l : Lexer K}, LexerFor p rules es l →
        (takes es rules).map Prod.fst = taken es ∧ ∀ i src, kindAt rules i src = ((takes es rules)[i]?).map fun r => r.2 src := by
      intro rules es l hl
      have len : rules.length = es.length := by simpa using congrArg List.length hl.trees
      refine ⟨List.map_fst_zip (by simp [taken, len]), fun i src => ?_⟩
      simp only [kindAt, takes, taken]
      by_cases hi : i < rules.length
      · simp [List.zip, List.getElem?_zipWith, List.getElem?_eq_getElem hi, List.getElem?_eq_getElem (len ▸ hi)]
      · simp [List.zip, List.getElem?_zipWith, List.getElem?_eq_none (Nat.le_of_not_lt hi),
          List.getElem?_eq_none (len ▸ Nat.le_of_not_lt hi)]
    have pick : ∀ {rules rules' : List (List Char × (List Char → K))} {es es' : List Expr} {l l' : Lexer K},
        LexerFor p rules es l → LexerFor p rules' es' l' →
        (∀ w g, Picks (takes es rules) w g ↔ Picks (takes es' rules') w g) →
        ∀ w i, FirstMatch (taken es) w i →
          ∃ j, FirstMatch (taken es') w j ∧ ∀ src, kindAt rules i src = kindAt rules' j src := by
      intro rules rules' es es' l l' hl hl' picks w i h
      obtain ⟨m, k⟩ := first hl
      obtain ⟨m', k'⟩ := first hl'
      obtain ⟨M, h1, -⟩ := h.isMatch
      rw [← m, List.getElem?_map, Option.map_eq_some_iff] at h1
      obtain ⟨r, h1, -⟩ := h1
      obtain ⟨j, h2, h3⟩ := picks_iff.1 ((picks w r.2).1 (picks_iff.2 ⟨i, by rw [m]; exact h, by rw [h1]; rfl⟩))
      rw [m'] at h2
      refine ⟨j, h2, fun src => ?_⟩
      rw [k, k', h1]
      rw [Option.map_eq_some_iff] at h3
      obtain ⟨r', h4, h5⟩ := h3
      rw [h4]
      simp [h5]
    have exists_first : ∀ (rules : List (List Char → Prop)) w, AnyMatch rules w ↔ ∃ i, FirstMatch rules w i :=
      fun _ _ => ⟨fun h => h.first, fun ⟨_, h⟩ => h.anyMatch⟩
    have r : Readable es = Readable es' := funext fun w => propext (reads w)
    have e : Passes es = Passes es' := funext fun w => propext (stuck w)
    rw [Scans] at h ⊢
    rw [← r, ← e]
    refine calls_mono (fun w => ?_) (pick hl hl' picks) h
    rw [exists_first, exists_first]
    constructor
    · rintro ⟨i, h⟩; obtain ⟨j, h, -⟩ := pick hl hl' picks w i h; exact ⟨j, h⟩
    · rintro ⟨i, h⟩; obtain ⟨j, h, -⟩ := pick hl' hl (fun w g => (picks w g).symm) w i h; exact ⟨j, h⟩
  unfold CallsReturn
  rw [c23_calls_partial p rules es l hl, c23_calls_partial p rules' es' l' hl']
  exact ⟨fun h => ⟨h.1, one hl hl' picks reads stuck h.2⟩,
    fun h => ⟨h.1, one hl' hl (fun w g => (picks w g).symm) (fun w => (reads w).symm) (fun w => (stuck w).symm) h.2⟩⟩

theorem taken_bar {l r : Expr} {w : List Char} : Taken (orTree l r) w ↔ Taken l w ∨ Taken r w := by
  have s := (orTree_rewrites l r).same
  simp only [Taken, ← s.skips, ← s.begins, Skips, beg_alt]
  constructor
  · rintro (⟨h, h1 | h1⟩ | ⟨b, h1 | h1⟩)
    · exact .inl (.inl ⟨h, h1⟩)
    · exact .inr (.inl ⟨h, h1⟩)
    · exact .inl (.inr ⟨b, h1⟩)
    · exact .inr (.inr ⟨b, h1⟩)
  · rintro ((⟨h, h1⟩ | ⟨b, h1⟩) | (⟨h, h1⟩ | ⟨b, h1⟩))
    · exact .inl ⟨h, .inl h1⟩
    · exact .inr ⟨b, .inl h1⟩
    · exact .inl ⟨h, .inr h1⟩
    · exact .inr ⟨b, .inr h1⟩

/-- C93 if the first pattern is read to the end and the second is not empty: the one lexer is built if and only if the
other one is, and both return the same.  What is left are first patterns with a right parenthesis that no left one
belongs to, for which the claim is false (`c93_ignored_partial`), and empty patterns (`c93_empty_partial`). -/
theorem c93_partial {a b : List Char} {e1 e2 : Expr} (h1 : Whole p a e1) (h2 : Whole p b e2 ∨ Unmatched p b e2)
    (pre post : List (List Char × (List Char → K))) (f : List Char → K) :
    ((∃ l, buildLexer p (pre ++ (a, f) :: (b, f) :: post) = .ok (.ok l)) ↔
      ∃ l', buildLexer p (pre ++ (a ++ '|' :: b, f) :: post) = .ok (.ok l')) ∧
    ∀ l l', buildLexer p (pre ++ (a, f) :: (b, f) :: post) = .ok (.ok l) →
      buildLexer p (pre ++ (a ++ '|' :: b, f) :: post) = .ok (.ok l') →
      ∀ input as, CallsReturn l input as ↔ CallsReturn l' input as := by
  have h3 : parse p (a ++ '|' :: b) = .ok (.ok (orTree e1 e2)) ∧ ¬ HasEmptySeq (orTree e1 e2) :=
    (c92_which_partial _ _ _).2 (h2.elim (fun h => .inl (h1.bar h)) fun h => .inr (.inl (bar_unmatched h1 h)))
  have h2 : parse p b = .ok (.ok e2) ∧ ¬ HasEmptySeq e2 :=
    (c92_which_partial _ _ _).2 (h2.elim .inl fun h => .inr (.inl h))
  constructor
  · constructor
    · rintro ⟨l, hl⟩
      obtain ⟨es, bt⟩ := buildLexer_built hl
      refine (c55_partial p _).2.1 fun r hr => ?_
      rcases List.mem_append.1 hr with hr | hr
      · exact bt.usable r (by simp [hr])
      · rcases List.mem_cons.1 hr with rfl | hr
        · exact ⟨_, h3⟩
        · exact bt.usable r (by simp [hr])
    · rintro ⟨l, hl⟩
      obtain ⟨es, bt⟩ := buildLexer_built hl
      refine (c55_partial p _).2.1 fun r hr => ?_
      rcases List.mem_append.1 hr with hr | hr
      · exact bt.usable r (by simp [hr])
      · rcases List.mem_cons.1 hr with rfl | hr
        · exact ⟨_, h1.parses, h1.noEmpty⟩
        · rcases List.mem_cons.1 hr with rfl | hr
          · exact ⟨_, h2⟩
          · exact bt.usable r (by simp [hr])
  · intro l l' hl hl' input as
    obtain ⟨es, bt⟩ := buildLexer_built hl
    have ht := bt.parsed
    rw [List.map_append, List.map_cons, List.map_cons, h1.parses, h2.1, eq_comm, List.map_eq_append_iff] at ht
    obtain ⟨es1, es2, rfl, ht1, ht2⟩ := ht
    rw [List.map_eq_cons_iff] at ht2
    obtain ⟨e, es3, rfl, he, ht2⟩ := ht2
    rw [List.map_eq_cons_iff] at ht2
    obtain ⟨e', es2, rfl, he', ht2⟩ := ht2
    cases he
    cases he'
    have for' : LexerFor p (pre ++ (a ++ '|' :: b, f) :: post) (es1 ++ orTree e1 e2 :: es2) l' :=
      ⟨hl', by simp only [List.map_append, List.map_cons, h3.1, ht1, ht2]⟩
    have len : pre.length = es1.length := by simpa using (congrArg List.length ht1).symm
    have s := (orTree_rewrites e1 e2).same
    refine c93_rules ⟨hl, bt.parsed⟩ for' (fun w g => ?_) (fun w => ?_) (fun w => ?_) input as
    · have zip : ∀ (x y : List Expr) (u v : List (List Char × (List Char → K))), x.length = u.length →
          takes (x ++ y) (u ++ v) = takes x u ++ takes y v := by
        intro x y u v h
        simp only [takes, taken, List.map_append]
        exact List.zip_append (by simpa using h)
      rw [zip _ _ _ _ len.symm, zip _ _ _ _ len.symm]
      refine picks_append (fun g => ?_) g
      simp only [takes, taken, List.map_cons, List.zip_cons_cons, Picks, taken_bar]
      by_cases t1 : Taken e1 w <;> by_cases t2 : Taken e2 w <;> simp [t1, t2]
    · simp only [Readable, List.mem_append, List.mem_cons, or_and_right, exists_or, exists_eq_left, ← s.mayBegin, may_alt,
        or_assoc]
    · simp only [Passes, List.mem_append, List.mem_cons]
      constructor
      · rintro h x (hx | rfl | hx)
        · exact h x (.inl hx)
        · intro v hv
          rw [← s.spinsFirst, first_alt, not_or]
          exact ⟨h _ (.inr (.inl rfl)) v hv, h _ (.inr (.inr (.inl rfl))) v hv⟩
        · exact h x (.inr (.inr (.inr hx)))
      · intro h x hx
        have ho : ∀ v, v <+: w → ¬ SpinsFirst e1 v ∧ ¬ SpinsFirst e2 v := fun v hv => by
          have := h _ (.inr (.inl rfl)) v hv
          rwa [← s.spinsFirst, first_alt, not_or] at this
        rcases hx with hx | rfl | rfl | hx
        · exact h x (.inl hx)
        · exact fun v hv => (ho v hv).1
        · exact fun v hv => (ho v hv).2
        · exact h x (.inr (.inr hx))

omit [Unicode] in
/-- Patterns with the same tree make the same lexer. -/
theorem buildLexer_parse {a a' : List Char} (h : parse p a = parse p a') (pre post : List (List Char × (List Char → K)))
    (f : List Char → K) : buildLexer p (pre ++ (a, f) :: post) = buildLexer p (pre ++ (a', f) :: post) := by
  have key : ∀ (pre : List (List Char × (List Char → K))) (g : LexerGenerator K),
      g.addTokens p (pre ++ (a, f) :: post) = g.addTokens p (pre ++ (a', f) :: post) := by
    intro pre
    induction pre with
    | nil => intro g; simp only [List.nil_append, LexerGenerator.addTokens, LexerGenerator.addToken, h]
    | cons r pre ih => intro g; simp only [List.cons_append, LexerGenerator.addTokens, ih]
  simp only [buildLexer, key]

omit [Unicode] in
/-- Behind a right parenthesis that no left one belongs to, the bar and the second pattern are ignored. -/
theorem c93_ignored_partial {a : List Char} {e : Expr} (h : Unmatched p a e) (b : List Char)
    (pre post : List (List Char × (List Char → K))) (f : List Char → K) :
    buildLexer p (pre ++ (a ++ '|' :: b, f) :: post) = buildLexer p (pre ++ (a, f) :: post) := by
  refine buildLexer_parse ?_ pre post f
  have := c92_ignored_partial h []
  rw [List.append_nil] at this
  rw [c92_ignored_partial h, this]

omit [Unicode] in
theorem expression_front {r : Relaxed} (hr : r.emptySeq = false) {e : Expr} {k : TokenKind} {ks : List TokenKind}
    (h : Expression r e (k :: ks)) : k ≠ .operator .vertical := by
  have item : ∀ {e ks}, SubExpressionItem r e ks → ∃ k ks', ks = k :: ks' ∧ k ≠ .operator .vertical := by
    intro e ks h
    cases h with
    | mtch h _ => cases h <;> exact ⟨_, _, rfl, by simp⟩
    | group _ _ => exact ⟨_, _, rfl, by simp⟩
  have seq : ∀ {es ks}, SubExpression r es ks → ∃ k ks', ks = k :: ks' ∧ k ≠ .operator .vertical := by
    intro es ks h
    cases h with
    | none h => rw [hr] at h; cases h
    | one h => exact item h
    | more h _ => obtain ⟨k, ks', rfl, hk⟩ := item h; exact ⟨_, _, rfl, hk⟩
  generalize hks : k :: ks = l at h
  cases h with
  | sub h =>
    obtain ⟨k', ks', rfl, hk⟩ := seq h
    cases hks
    exact hk
  | alt h _ =>
    obtain ⟨k', ks', rfl, hk⟩ := seq h
    cases hks
    exact hk

omit [Unicode] in
theorem orTree_ne : ∀ x y : Expr, orTree x y ≠ x
  | .alt l r, y => fun h => by
    simp only [orTree, Expr.alt.injEq, true_and] at h
    exact orTree_ne r y h
  | .lit _ _, _ => fun h => by cases h
  | .concat _, _ => fun h => by cases h
  | .group _ _, _ => fun h => by cases h
  | .empty, _ => fun h => by cases h

omit [Unicode] in
theorem _root_.Pango.Spec.Whole.not_unmatched {a : List Char} {e e' : Expr} (h : Whole p a e) : ¬ Unmatched p a e' := by
  intro h'
  have h1 := (h.bar h).parses
  rw [c92_ignored_partial h'] at h1
  have h2 := h.parses
  have h3 := c92_ignored_partial h' []
  rw [List.append_nil, h2] at h3
  cases h3
  injection h1 with h1
  injection h1 with h1
  exact orTree_ne _ _ h1.symm

/-- No lexer is built from a rule with a bar and nothing in front of it, or nothing behind it (if what is in front of it
is read to the end), although one can be from a rule for nothing and one for the rest. -/
theorem c93_empty_partial (pre post : List (List Char × (List Char → K))) (f : List Char → K) :
    (∀ b l, buildLexer p (pre ++ ('|' :: b, f) :: post) ≠ .ok (.ok l)) ∧
    (∀ a e l, Whole p a e → buildLexer p (pre ++ (a ++ ['|'], f) :: post) ≠ .ok (.ok l)) ∧
    ∀ a e, Whole p a e → (∀ r ∈ pre ++ post, Usable p r.1) →
      (∃ l, buildLexer p (pre ++ ([], f) :: (a, f) :: post) = .ok (.ok l)) ∧
      ∃ l, buildLexer p (pre ++ (a, f) :: ([], f) :: post) = .ok (.ok l) := by
  refine ⟨fun b l hl => ?_, fun a e l ha hl => ?_, fun a e ha hu => ?_⟩
  · obtain ⟨es, bt⟩ := buildLexer_built hl
    obtain ⟨e, he⟩ := bt.usable ('|' :: b, f) (by simp)
    rcases (c92_which_partial _ _ _).1 he with h | ⟨used, rest, h1, h2⟩ | ⟨h, _⟩
    · have := h.tokens
      rw [(scan_bar p b).1] at this
      exact expression_front rfl this rfl
    · rw [(scan_bar p b).1] at h1
      cases used with
      | nil => exact (expression_closed rfl h2).ne_nil rfl
      | cons k used => exact expression_front rfl h2 (List.cons.inj h1).1.symm
    · cases h
  · obtain ⟨es, bt⟩ := buildLexer_built hl
    obtain ⟨e', he⟩ := bt.usable (a ++ ['|'], f) (by simp)
    have hk : (scan p (a ++ ['|'])).kinds = (scan p a).kinds ++ [.operator .vertical] := by
      rw [(scan_append_cons (c := '|') (y := []) rfl a ha.ends ha.valid).1, (scan_bar p []).1]
      rfl
    rcases (c92_which_partial _ _ _).1 he with h | ⟨used, rest, h1, h2⟩ | ⟨h, _⟩
    · obtain ⟨init, last, h1, h2⟩ := expression_closed rfl h.tokens
      rw [hk] at h1
      exact h2 (List.append_inj' h1 rfl |>.2 |> fun h => by injection h with h; exact h.symm)
    · rw [hk] at h1
      rcases List.eq_nil_or_concat rest with rfl | ⟨rest, k, rfl⟩
      · have := (List.append_inj' h1 rfl).2
        cases this
      · rw [List.concat_eq_append, ← List.cons_append, ← List.append_assoc] at h1
        exact ha.not_unmatched ⟨used, rest, (List.append_inj' h1 rfl).1, h2⟩
    · simp at h
  · have hn : Usable p [] := ⟨.empty, (c92_which_partial _ _ _).2 (.inr (.inr ⟨rfl, rfl⟩))⟩
    have ha : Usable p a := ⟨e, ha.parses, ha.noEmpty⟩
    constructor <;>
    · refine (c55_partial p _).2.1 fun r hr => ?_
      rcases List.mem_append.1 hr with hr | hr
      · exact hu r (by simp [hr])
      · rcases List.mem_cons.1 hr with rfl | hr
        · assumption
        · rcases List.mem_cons.1 hr with rfl | hr
          · assumption
          · exact hu r (by simp [hr])

/-! ## The theorems apply -/

/-- The lexer with the rules `x`, `b|c` and `d+`, the last two with the same function. -/
def threeRules : Lexer Nat :=
  ⟨⟨0, [⟨0, false, [(.literal (.mtch 'x'), [2]), (.literal (.mtch 'b'), [3]), (.literal (.mtch 'c'), [3]), (.eps, [5])]⟩,
    ⟨1, true, []⟩, ⟨2, true, []⟩, ⟨3, true, []⟩, ⟨4, true, []⟩,
    ⟨5, false, [(.quantified .plus, [4]), (.literal (.mtch 'd'), [5])]⟩]⟩,
    [(2, fun _ => 0), (3, List.length), (4, List.length)]⟩

/-- The lexer with the rules `x` and `b|c|d+`. -/
def twoRules : Lexer Nat :=
  ⟨⟨0, [⟨0, false, [(.literal (.mtch 'x'), [2]), (.literal (.mtch 'b'), [3]), (.literal (.mtch 'c'), [3]), (.eps, [4])]⟩,
    ⟨1, true, []⟩, ⟨2, true, []⟩, ⟨3, true, []⟩,
    ⟨4, false, [(.quantified .plus, [3]), (.literal (.mtch 'd'), [4])]⟩]⟩, [(2, fun _ => 0), (3, List.length)]⟩

omit [Unicode] in
theorem run_whole : Whole .debug "d+".toList (.lit (.mtch 'd') (some .plus)) :=
  ⟨Expression.sub (.one (.mtch (.chr 'd') (.some .plus))), rfl⟩

omit [Unicode] in
theorem choice_whole : Whole .debug "b|c".toList (.alt (.lit (.mtch 'b') none) (.lit (.mtch 'c') none)) :=
  ⟨Expression.alt (es := [_]) (.one (.mtch (.chr 'b') .none)) (.sub (.one (.mtch (.chr 'c') .none))), rfl⟩

example : buildLexer .debug [("x".toList, fun _ => 0), ("b|c".toList, List.length), ("d+".toList, List.length)] =
      .ok (.ok threeRules) ∧
    buildLexer .debug [("x".toList, fun _ => 0), ("b|c|d+".toList, List.length)] = .ok (.ok twoRules) ∧
    CallsReturn threeRules "ddxc".toList [some ⟨2, ['d', 'd'], (0, 2)⟩, some ⟨0, ['x'], (2, 3)⟩, some ⟨1, ['c'], (3, 4)⟩] ∧
    ∀ input as, CallsReturn threeRules input as ↔ CallsReturn twoRules input as :=
  ⟨rfl, rfl, ⟨12, _, by with_unfolding_all rfl⟩,
    (c93_partial choice_whole (.inl run_whole) [("x".toList, fun _ => 0)] [] List.length).2 _ _ rfl rfl⟩

/-- For `b|c` and `d+)x` as well. -/
example (l l' : Lexer Nat) (h : buildLexer .debug [("b|c".toList, List.length), ("d+)x".toList, List.length)] = .ok (.ok l))
    (h' : buildLexer .debug [("b|c|d+)x".toList, List.length)] = .ok (.ok l')) (input : List Char)
    (as : List (Option (Tok Nat))) : CallsReturn l input as ↔ CallsReturn l' input as :=
  (c93_partial choice_whole (.inr ⟨[.mtch 'd', .quantifier .plus], [.mtch 'x'], rfl, run_whole.tokens⟩) [] []
    List.length).2 _ _ h h' input as

/-- `b|c|` is no rule; the empty pattern and `b|c` are. -/
example : (∀ l, buildLexer .debug [("b|c|".toList, fun _ => 7)] ≠ .ok (.ok l)) ∧
    ∃ l, buildLexer .debug [([], fun _ => 7), ("b|c".toList, fun _ => 7)] = .ok (.ok l) :=
  ⟨fun l => (c93_empty_partial [] [] fun _ => 7).2.1 _ _ l choice_whole,
    ((c93_empty_partial [] [] fun _ => 7).2.2 _ _ choice_whole (by simp)).1⟩

/-- `a)|b` with anything behind it makes the same lexer as `a)`. -/
example (b : List Char) : buildLexer .debug [("a)".toList ++ '|' :: b, fun _ => 7)] =
    buildLexer .debug [("a)".toList, fun _ => 7)] :=
  c93_ignored_partial (e := .lit (.mtch 'a') none) ⟨[.mtch 'a'], [], rfl, Expression.sub (.one (.mtch (.chr 'a') .none))⟩
    b [] [] fun _ => 7

end Pango.Props
