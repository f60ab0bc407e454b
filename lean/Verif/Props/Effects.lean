import Verif.Proofs.EffectLog
import Verif.Proofs.Words
import Verif.Props.Scanning

/-!
# C69: how often the functions of the user are called
-/

namespace Pango.Props

open Pango Pango.Lex Pango.Fsm Pango.Regex Pango.Spec

variable [Unicode] {W K : Type}

/-- The functions called: the numbers of the rules and the sources. -/
abbrev Log := List (Nat × List Char)

/-- Rules with functions that write down that they are called, and return the number of the rule. -/
def noting (patterns : List (List Char)) : List (List Char × (List Char → Action Log Nat)) :=
  patterns.mapIdx fun i pattern => (pattern, fun source log => .ok (i, log ++ [(i, source)]))

/-- The first calls of `next` return `as`, and the functions have been called as in `log`. -/
def Notes (l : Lexer (Action Log Nat)) (input : List Char) (as : List (Option (Tok Nat))) (log : Log) : Prop :=
  ∃ fuel it, lexCallsE (nfaMachine l.nfa fuel) l.tokens as.length (InputIter.new input) [] = .ok ((as, it), log)

/-- One call for each token, with its source. -/
def onePerToken (as : List (Option (Tok Nat))) : Log := as.filterMap (Option.map fun t => (t.kind, t.source))

/-- C69, the full claim: the function given with a rule is called once for each token of the rule, with the source of
the token, in the order of the tokens, and not otherwise. -/
def C69 : Prop :=
  ∀ (p : Profile) (patterns : List (List Char)) (es : List Expr) (l : Lexer (Action Log Nat)),
    LexerFor p (noting patterns) es l → ∀ (input : List Char) (as : List (Option (Tok Nat))) (log : Log),
    Notes l input as log → log = onePerToken as

/-! ## Examples -/

/-- The lexer with the rules `a+`, `=` and `==`. -/
def notingWords : Lexer (Action Log Nat) :=
  ⟨words.nfa, [(2, fun s log => .ok (0, log ++ [(0, s)])), (4, fun s log => .ok (1, log ++ [(1, s)])),
    (5, fun s log => .ok (2, log ++ [(2, s)]))]⟩

omit [Unicode] in
theorem notingWords_for : LexerFor .debug (noting ["a+".toList, "=".toList, "==".toList]) wordsTrees notingWords :=
  ⟨rfl, rfl⟩

theorem notingWords_notes : Notes notingWords "aa=".toList
    [some ⟨0, "aa".toList, (0, 2)⟩, some ⟨1, "=".toList, (2, 3)⟩, none]
    [(0, "a".toList), (0, "aa".toList), (1, "=".toList)] :=
  ⟨10, ⟨[], [], (3, 0), [], []⟩, by with_unfolding_all rfl⟩

/-- C69 is false: with the rule `a+` the function is called twice for the token `aa`. -/
theorem c69_false : ¬ C69 := by
  intro h
  have := h _ _ _ _ notingWords_for _ _ _ notingWords_notes
  exact absurd this (by decide)

/-! ## What is called -/

/-- C69 for all lexers, all functions with effects and all inputs, in place of one call for each token: the calls of
`next` return `as` and turn the world into `world'` if and only if this is what `CallsE` says.  Missing: that there is
one call for each token, which is false in general. -/
theorem c69_calls_partial (p : Profile) (rules : List (List Char × (List Char → Action W K))) (es : List Expr)
    (l : Lexer (Action W K)) (hl : LexerFor p rules es l) (input : List Char) (n : Nat)
    (as : List (Option (Tok K))) (world world' : W) :
    (∃ fuel it, lexCallsE (nfaMachine l.nfa fuel) l.tokens n (InputIter.new input) world = .ok ((as, it), world')) ↔
      as.length = n ∧ ∃ sc, CallsE (taken es) (Readable es) (Passes es) (kindAt rules) (Scanner.new input) world as
        sc world' :=
  hl.toBuilt.callsE_iff (rep_new input)

example : ∃ sc, CallsE (taken wordsTrees) (Readable wordsTrees) (Passes wordsTrees)
    (kindAt (noting ["a+".toList, "=".toList, "==".toList])) (Scanner.new "aa=".toList) []
    [some ⟨0, "aa".toList, (0, 2)⟩, some ⟨1, "=".toList, (2, 3)⟩, none] sc
    [(0, "a".toList), (0, "aa".toList), (1, "=".toList)] :=
  ((c69_calls_partial _ _ _ _ notingWords_for _ 3 _ _ _).1 notingWords_notes).2

omit [Unicode] in
theorem kindAt_noting {patterns : List (List Char)} {i : Nat} {src : List Char} {f : Action Log Nat}
    (h : kindAt (noting patterns) i src = some f) (log : Log) : f log = .ok (i, log ++ [(i, src)]) := by
  simp only [kindAt, noting, List.getElem?_mapIdx, Option.map_map, Option.map_eq_some_iff, Function.comp] at h
  obtain ⟨_, _, rfl⟩ := h
  rfl

omit [Unicode] in
theorem kindAt_noting_some {patterns : List (List Char)} {i : Nat} {src : List Char} (h : i < patterns.length) :
    ∃ f, kindAt (noting patterns) i src = some f := by
  simp [kindAt, noting, List.getElem?_mapIdx, List.getElem?_eq_getElem h]

omit [Unicode] in
theorem runAll_noting {patterns : List (List Char)} : ∀ {log : Log} {k : Option Nat} {world : Log},
    (∀ x ∈ log, x.1 < patterns.length) →
    runAll (kindAt (noting patterns)) log k world = .ok ((log.getLast?.map Prod.fst).or k, world ++ log) := by
  intro log
  induction log with
  | nil => intro k world _; simp [runAll]
  | cons x log ih =>
    intro k world h
    obtain ⟨i, src⟩ := x
    obtain ⟨f, hf⟩ := kindAt_noting_some (patterns := patterns) (src := src) (h _ (List.mem_cons_self ..))
    simp only [runAll, hf, kindAt_noting hf]
    rw [ih (fun x hx => h x (List.mem_cons_of_mem _ hx))]
    cases log with
    | nil => simp
    | cons y log =>
      simp [List.getLast?_cons]

omit [Unicode] in
theorem noting_length {p : Profile} {patterns : List (List Char)} {es : List Expr} {l : Lexer (Action Log Nat)}
    (hl : LexerFor p (noting patterns) es l) : es.length = patterns.length := by
  have := congrArg List.length hl.trees
  simpa [noting] using this.symm

theorem applies_lt {p : Profile} {patterns : List (List Char)} {es : List Expr} {l : Lexer (Action Log Nat)}
    (hl : LexerFor p (noting patterns) es l) {skipped w rest : List Char} {log : Log}
    (h : Applies (taken es) skipped w rest log) : ∀ x ∈ log, x.1 < patterns.length := by
  rintro ⟨i, src⟩ hx
  obtain ⟨v, _, _, ⟨⟨M, h1, _⟩, _⟩, _⟩ := h.mem hx
  have := (List.getElem?_eq_some_iff.1 h1).1
  simpa [taken, noting_length hl] using this

/-- One call of a lexer whose functions write down that they are called. -/
theorem noting_call {p : Profile} {patterns : List (List Char)} {es : List Expr} {l : Lexer (Action Log Nat)}
    (hl : LexerFor p (noting patterns) es l) {sc sc' : Scanner} {a : Option (Tok (Action Log Nat))}
    {u : List (Nat × Char)} {log : Log} (hc : Call (taken es) (Readable es) (kindAt (noting patterns)) sc a sc')
    (hu : ReadsUpTo (Readable es) sc.left u) (hlog : Applies (taken es) (word sc.skipped) [] (word u) log)
    (world : Log) : ∃ k, runAll (kindAt (noting patterns)) log none world = .ok (k, world ++ log) ∧
      (a = none → withKind a k = none) ∧ ∀ t, a = some t → ∃ log' i, log = log' ++ [(i, t.source)] ∧
        withKind a k = some ⟨i, t.source, t.pos⟩ := by
  refine ⟨_, runAll_noting (applies_lt hl hlog), fun h => by subst h; rfl, ?_⟩
  rintro t rfl
  obtain ⟨log', i, h1, _⟩ := hc.log (fun _ _ h => hl.toBuilt.readable_mono h) hu hlog
  exact ⟨log', i, h1, by simp [h1, withKind]⟩

/-- C69, for all lexers and all inputs: among the calls of the functions there is one for each token, with the source of
the token, and these calls come in the order of the tokens.  Missing: that there are no other calls. -/
theorem c69_each_partial (p : Profile) (patterns : List (List Char)) (es : List Expr) (l : Lexer (Action Log Nat))
    (hl : LexerFor p (noting patterns) es l) (input : List Char) (as : List (Option (Tok Nat))) (log : Log)
    (h : Notes l input as log) : (onePerToken as).Sublist log := by
  obtain ⟨_, sc', h⟩ := (c69_calls_partial _ _ _ _ hl _ _ _ _ _).1 h
  have key : ∀ {sc sc' : Scanner} {world world' : Log} {as : List (Option (Tok Nat))},
      CallsE (taken es) (Readable es) (Passes es) (kindAt (noting patterns)) sc world as sc' world' →
      ∃ log, world' = world ++ log ∧ (onePerToken as).Sublist log := by
    intro sc sc' world world' as h
    induction h with
    | done => exact ⟨[], by simp, by simp [onePerToken]⟩
    | @next sc sc' sc'' world world' world'' a as u log k hp hc hu hlog hrun _ ih =>
      obtain ⟨log', h1, h2⟩ := ih
      obtain ⟨k', h3, h4, h5⟩ := noting_call hl hc hu hlog world
      rw [hrun, Outcome.ok.injEq, Prod.mk.injEq] at h3
      obtain ⟨rfl, rfl⟩ := h3
      refine ⟨log ++ log', by simp [h1], ?_⟩
      cases a with
      | none =>
        rw [h4 rfl]
        exact h2.trans (List.sublist_append_right _ _)
      | some t =>
        obtain ⟨log0, i, h6, h7⟩ := h5 t rfl
        rw [h7, h6]
        have : onePerToken (some ⟨i, t.source, t.pos⟩ :: as) = [(i, t.source)] ++ onePerToken as := rfl
        rw [this]
        exact (List.sublist_append_right _ _).append h2
  obtain ⟨log', h1, h2⟩ := key h
  simpa [h1] using h2

example : Notes notingWords "aa=".toList [some ⟨0, "aa".toList, (0, 2)⟩, some ⟨1, "=".toList, (2, 3)⟩, none]
    [(0, "a".toList), (0, "aa".toList), (1, "=".toList)] := notingWords_notes

/-- Nothing can be read behind a match. -/
def StopsAtMatches (es : List Expr) : Prop :=
  ∀ w c, w ≠ [] → AnyMatch (taken es) w → Passes es (w ++ [c]) → ¬ Readable es (w ++ [c])

/-- What the last of the characters adds to what comes before it. -/
theorem stops_prefix {p : Profile} {rules : List (List Char × (List Char → K))} {es : List Expr} {l : Lexer K}
    (hl : LexerFor p rules es l) (hs : StopsAtMatches es) {v r : List Char} (hv : v ≠ []) (hr : r ≠ [])
    (hm : AnyMatch (taken es) v) (hread : Readable es (v ++ r)) (hp : Passes es (v ++ r)) : False := by
  cases r with
  | nil => exact hr rfl
  | cons c r =>
    have h1 : v ++ c :: r = (v ++ [c]) ++ r := by simp
    rw [h1] at hread hp
    exact hs v c hv hm (fun e he u hu => hp e he u (hu.trans (List.prefix_append _ _))) (hl.toBuilt.readable_mono hread)

theorem stops_log {p : Profile} {patterns : List (List Char)} {es : List Expr} {l : Lexer (Action Log Nat)}
    (hl : LexerFor p (noting patterns) es l) (hs : StopsAtMatches es) {sc sc' : Scanner}
    {a : Option (Tok (Action Log Nat))} {u : List (Nat × Char)} {log : Log} (hp : Passes es (word sc.left))
    (hc : Call (taken es) (Readable es) (kindAt (noting patterns)) sc a sc') (hu : ReadsUpTo (Readable es) sc.left u)
    (hlog : Applies (taken es) (word sc.skipped) [] (word u) log) :
    (a = none → log = []) ∧ ∀ t, a = some t → ∃ i, log = [(i, t.source)] := by
  have mono : ∀ w v, Readable es (w ++ v) → Readable es w := fun _ _ h => hl.toBuilt.readable_mono h
  have pass : ∀ {v : List Char}, v <+: word sc.left → Passes es v := fun hv e he u hu => hp e he u (hu.trans hv)
  have hup : word u <+: word sc.left := hu.isPrefix.map _
  -- only all that was read can be matched
  have only : ∀ i src, (i, src) ∈ log → AnyMatch (taken es) (word u) ∧ src = word sc.skipped ++ word u := by
    intro i src hx
    obtain ⟨v, h1, ⟨r, h2⟩, h3, h4⟩ := hlog.mem hx
    simp only [List.nil_append] at h3 h4
    by_cases hr : r = []
    · subst hr
      rw [List.append_nil] at h2
      subst h2
      exact ⟨h3.anyMatch, h4⟩
    · refine (stops_prefix hl hs h1 hr h3.anyMatch ?_ ?_).elim
      · rw [h2]; exact hu.live
      · rw [h2]; exact pass hup
  have none_of : (¬ AnyMatch (taken es) (word u) ∨ word u = []) → log = [] := by
    intro h
    cases hlg : log with
    | nil => rfl
    | cons x log' =>
      obtain ⟨i, src⟩ := x
      have hx : (i, src) ∈ log := by rw [hlg]; exact List.mem_cons_self ..
      rcases h with h | h
      · exact absurd (only i src hx).1 h
      · obtain ⟨v, h1, h2, _⟩ := hlog.mem hx
        rw [h] at h2
        exact absurd (List.prefix_nil.1 h2) h1
  constructor
  · rintro rfl
    cases hc with
    | @nothing u' x h1 h2 h3 h4 =>
      have : u = u' := by
        refine hu.unique mono ⟨(List.prefix_append _ _).trans h1, h2, fun y hy => ?_⟩
        have := (List.prefix_of_prefix_length_le hy h1 (by simp)).eq_of_length (by simp)
        rw [this]
        exact h3
      subst this
      by_cases hw : word u = []
      · exact none_of (.inr hw)
      · exact none_of (.inl (h4 _ hw (List.prefix_refl _)))
    | over h1 h2 =>
      have : u = sc.left :=
        hu.unique mono ⟨List.prefix_refl _, h1, fun y hy => absurd hy.length_le (by simp)⟩
      subst this
      rcases h2 with h2 | h2
      · exact none_of (.inr (by rw [h2]; rfl))
      · exact none_of (.inl h2)
  · rintro t rfl
    obtain ⟨log', i, h1, _⟩ := hc.log mono hu hlog
    refine ⟨i, ?_⟩
    cases hlg : log' with
    | nil => rw [h1, hlg]; rfl
    | cons x log'' =>
      exfalso
      obtain ⟨j, src⟩ := x
      -- two entries for the same word
      have hcount : ∀ {w rest : List Char} {log : Log}, Applies (taken es) (word sc.skipped) w rest log →
          (∀ i src, (i, src) ∈ log → src = word sc.skipped ++ (w ++ rest)) → log.length ≤ 1 := by
        intro w rest log h
        induction h with
        | done => simp
        | skip _ _ ih =>
          intro hh
          exact ih (fun i src hx => by simpa using hh i src hx)
        | @apply w rest c i log hf h ih =>
          intro hh
          have h1 := hh _ _ (List.mem_cons_self ..)
          have h2 := congrArg List.length h1
          simp only [List.length_append, List.length_cons, List.length_nil] at h2
          have : rest = [] := List.length_eq_zero_iff.1 (by omega)
          subst this
          cases h
          simp
      have := hcount hlog (fun i src hx => by simpa using (only i src hx).2)
      rw [h1, hlg] at this
      simp at this

/-- C69, exactly: the functions are called once for each token and not otherwise, whatever the input, if and only if
nothing can be read behind a match.  Missing: that this is so for all rules. -/
theorem c69_exact_partial (p : Profile) (patterns : List (List Char)) (es : List Expr) (l : Lexer (Action Log Nat))
    (hl : LexerFor p (noting patterns) es l) :
    (∀ input as log, Notes l input as log → log = onePerToken as) ↔ StopsAtMatches es := by
  constructor
  · intro h w c hw hm hp hr
    have b := hl.toBuilt
    have hword : word (Scanner.new (w ++ [c])).left = w ++ [c] := by
      simp [Scanner.new, Scanner.left, word_numbered]
    obtain ⟨a, it', sc', u, log, hrep, hc, hu, hlog, hrun⟩ := b.nextE (Nat.le_refl _) (rep_new (w ++ [c]))
      (by rw [hword]; exact hp)
    have hu' : u = (Scanner.new (w ++ [c])).left := by
      refine hu.unique (fun _ _ h => b.readable_mono h)
        ⟨List.prefix_refl _, ?_, fun y hy => absurd hy.length_le (by simp)⟩
      rw [hword]
      exact hr
    obtain ⟨k, h1, h2, h3⟩ := noting_call hl hc hu hlog []
    have hn : Notes l (w ++ [c]) [withKind a k] log := by
      refine ⟨simFuel l.nfa (fragTrees 2 es), it', ?_⟩
      have h4 := hrun []
      rw [h1, Outcome.bind_ok] at h4
      simp only [List.length_singleton, lexCallsE, h4, Outcome.bind_ok, List.nil_append, Outcome.pure_eq]
    have heq := h _ _ _ hn
    rw [hu', hword] at hlog
    obtain ⟨i, hi⟩ := hm.first
    obtain ⟨log1, log2, _, _, h7⟩ := hlog.at hw hi
    have hmem : (i, w) ∈ log := by rw [h7]; simp [Scanner.new]
    rw [heq] at hmem
    cases a with
    | none => simp [h2 rfl, onePerToken] at hmem
    | some t =>
      obtain ⟨log', j, h8, h9⟩ := h3 t rfl
      rw [h9] at hmem
      simp only [onePerToken, List.filterMap_cons, Option.map_some, List.filterMap_nil, List.mem_singleton,
        Prod.mk.injEq] at hmem
      obtain ⟨_, ht⟩ := hmem
      cases hc with
      | @token w' back x _ _ g1 g2 g3 =>
        have g5 : u = w' ++ back := by
          refine hu.unique (fun _ _ h => b.readable_mono h) ⟨(List.prefix_append _ _).trans g1, g2, fun y hy => ?_⟩
          have := (List.prefix_of_prefix_length_le hy g1 (by simp)).eq_of_length (by simp)
          rw [this]
          exact g3
        have g6 := g1.length_le
        have g7 := congrArg List.length g5
        have g8 := congrArg List.length hu'
        simp only [List.length_append, List.length_singleton] at g6 g7
        omega
      | last g1 g2 g3 g4 =>
        have := congrArg List.length ht
        rw [word_append, hword] at this
        simp [Scanner.new] at this
  · intro hs input as log h
    obtain ⟨_, sc', h⟩ := (c69_calls_partial _ _ _ _ hl _ _ _ _ _).1 h
    have key : ∀ {sc sc' : Scanner} {world world' : Log} {as : List (Option (Tok Nat))},
        CallsE (taken es) (Readable es) (Passes es) (kindAt (noting patterns)) sc world as sc' world' →
        world' = world ++ onePerToken as := by
      intro sc sc' world world' as h
      induction h with
      | done => simp [onePerToken]
      | @next sc sc' sc'' world world' world'' a as u log k hp hc hu hlog hrun _ ih =>
        obtain ⟨k', h3, h4, h5⟩ := noting_call hl hc hu hlog world
        rw [hrun, Outcome.ok.injEq, Prod.mk.injEq] at h3
        obtain ⟨rfl, rfl⟩ := h3
        obtain ⟨h6, h7⟩ := stops_log hl hs hp hc hu hlog
        cases a with
        | none =>
          rw [h4 rfl, ih, h6 rfl]
          simp [onePerToken]
        | some t =>
          obtain ⟨log0, i, h8, h9⟩ := h5 t rfl
          obtain ⟨j, h10⟩ := h7 t rfl
          rw [h10] at h8
          have h11 := congrArg List.getLast? h8
          simp only [List.getLast?_singleton, List.getLast?_append, Option.some_or, Option.some.injEq,
            Prod.mk.injEq] at h11
          rw [h9, ih, h10, h11.1]
          simp [onePerToken]
    simpa using key h

/-! ## Rules that are words -/

theorem stops_words {ws : List (List Char)} (hne : [] ∉ ws) :
    StopsAtMatches (ws.map wordTree) ↔ PrefixFree ws := by
  constructor
  · rintro h u hu v hv ⟨r, hr⟩
    cases r with
    | nil => simpa using hr
    | cons c r =>
      refine absurd (readable_words.2 (.inr ⟨v, hv, r, ?_⟩))
        (h u c (fun h => hne (h ▸ hu)) ((anyMatch_words hne).2 hu) (passes_words _))
      simpa using hr
  · intro h w c hw hm _ hr
    rw [anyMatch_words hne] at hm
    rcases readable_words.1 hr with hr | ⟨v, hv, hr⟩
    · simp at hr
    · have h1 := h w hm v hv ((List.prefix_append _ _).trans hr)
      have h2 := hr.length_le
      rw [← h1] at h2
      simp only [List.length_append, List.length_singleton] at h2
      omega

/-- C69 for rules whose patterns are words: the functions are called once for each token and not otherwise, whatever
the input, if and only if no word begins with another one.  Missing: other patterns. -/
theorem c69_words_partial (p : Profile) (patterns ws : List (List Char)) (l : Lexer (Action Log Nat))
    (hne : [] ∉ ws) (hl : LexerFor p (noting patterns) (ws.map wordTree) l) :
    (∀ input as log, Notes l input as log → log = onePerToken as) ↔ PrefixFree ws := by
  rw [c69_exact_partial p patterns _ l hl, stops_words hne]

/-- The lexer with the rules `a` and `bc`. -/
def notingAbc : Lexer (Action Log Nat) :=
  ⟨⟨0, [⟨0, false, [(.literal (.mtch 'a'), [2]), (.literal (.mtch 'b'), [4])]⟩, ⟨1, true, []⟩, ⟨2, true, []⟩,
    ⟨3, true, []⟩, ⟨4, false, [(.literal (.mtch 'c'), [3])]⟩]⟩,
    [(2, fun s log => .ok (0, log ++ [(0, s)])), (3, fun s log => .ok (1, log ++ [(1, s)]))]⟩

omit [Unicode] in
theorem notingAbc_for : LexerFor .debug (noting ["a".toList, "bc".toList]) (["a".toList, "bc".toList].map wordTree)
    notingAbc := ⟨rfl, rfl⟩

theorem notingAbc_notes : Notes notingAbc "bcab".toList
    [some ⟨1, "bc".toList, (0, 2)⟩, some ⟨0, "a".toList, (2, 3)⟩, none] [(1, "bc".toList), (0, "a".toList)] :=
  ⟨10, _, by with_unfolding_all rfl⟩

/-- Both sides of `c69_exact_partial` and `c69_words_partial` hold for the words `a` and `bc`. -/
example : PrefixFree ["a".toList, "bc".toList] ∧ StopsAtMatches (["a".toList, "bc".toList].map wordTree) ∧
    ∀ input as log, Notes notingAbc input as log → log = onePerToken as := by
  have h : PrefixFree ["a".toList, "bc".toList] := by unfold PrefixFree; decide
  exact ⟨h, (stops_words (by decide)).2 h, (c69_words_partial _ _ _ _ (by decide) notingAbc_for).2 h⟩

/-- Both sides are false for the rules `a+`, `=` and `==`. -/
example : ¬ StopsAtMatches wordsTrees := fun h => by
  have := (c69_exact_partial _ _ _ _ notingWords_for).2 h _ _ _ notingWords_notes
  exact absurd this (by decide)

/-! ## Functions without effects -/

/-- A function without effects. -/
def pureRule (r : List Char × (List Char → K)) : List Char × (List Char → Action W K) :=
  (r.1, fun source world => .ok (r.2 source, world))

omit [Unicode] in
theorem kindAt_pure {rules : List (List Char × (List Char → K))} {i : Nat} {src : List Char} :
    kindAt (rules.map (pureRule (W := W))) i src =
      (kindAt rules i src).map fun k world => .ok (k, world) := by
  simp only [kindAt, List.getElem?_map, Option.map_map]
  rfl

/-- What a call does does not depend on what is made of the sources. -/
theorem call_pure {rules : List (List Char × (List Char → K))} {es : List Expr} {sc sc' : Scanner}
    {a : Option (Tok (Action W K))}
    (h : Call (taken es) (Readable es) (kindAt (rules.map (pureRule (W := W)))) sc a sc') :
    ∃ b : Option (Tok K), Call (taken es) (Readable es) (kindAt rules) sc b sc' ∧
      a = b.map fun t => ⟨fun world => .ok (t.kind, world), t.source, t.pos⟩ := by
  cases h with
  | token h1 h2 h3 h4 h5 h6 =>
    rw [kindAt_pure, Option.map_eq_some_iff] at h6
    obtain ⟨k, h6, rfl⟩ := h6
    exact ⟨_, .token h1 h2 h3 h4 h5 h6, rfl⟩
  | last h1 h2 h3 h4 =>
    rw [kindAt_pure, Option.map_eq_some_iff] at h4
    obtain ⟨k, h4, rfl⟩ := h4
    exact ⟨_, .last h1 h2 h3 h4, rfl⟩
  | nothing h1 h2 h3 h4 => exact ⟨none, .nothing h1 h2 h3 h4, rfl⟩
  | over h1 h2 => exact ⟨none, .over h1 h2, rfl⟩

theorem pure_call {rules : List (List Char × (List Char → K))} {es : List Expr} {sc sc' : Scanner}
    {b : Option (Tok K)} (h : Call (taken es) (Readable es) (kindAt rules) sc b sc') :
    Call (taken es) (Readable es) (kindAt (rules.map (pureRule (W := W)))) sc
      (b.map fun t => ⟨fun world => .ok (t.kind, world), t.source, t.pos⟩) sc' := by
  cases h with
  | token h1 h2 h3 h4 h5 h6 => exact .token h1 h2 h3 h4 h5 (by rw [kindAt_pure, h6]; rfl)
  | last h1 h2 h3 h4 => exact .last h1 h2 h3 (by rw [kindAt_pure, h4]; rfl)
  | nothing h1 h2 h3 h4 => exact .nothing h1 h2 h3 h4
  | over h1 h2 => exact .over h1 h2

omit [Unicode] in
theorem runAll_pure {rules : List (List Char × (List Char → K))} : ∀ {log : Log} {k : Option K} {world : W},
    (∀ x ∈ log, x.1 < rules.length) →
    ∃ k', runAll (kindAt (rules.map (pureRule (W := W)))) log k world = .ok (k', world) := by
  intro log
  induction log with
  | nil => exact fun _ => ⟨_, rfl⟩
  | cons x log ih =>
    intro k world h
    obtain ⟨i, src⟩ := x
    have hi : i < rules.length := h _ (List.mem_cons_self ..)
    have hk : kindAt rules i src = some ((rules[i]).2 src) := by simp [kindAt, List.getElem?_eq_getElem hi]
    simp only [runAll, kindAt_pure, hk, Option.map_some]
    have := ih (k := some ((rules[i]).2 src)) (world := world) (fun x hx => h x (List.mem_cons_of_mem _ hx))
    simpa only [kindAt_pure] using this

/-- One call with functions without effects. -/
theorem pure_run {p : Profile} {rules : List (List Char × (List Char → K))} {es : List Expr} {l : Lexer K}
    (hl : LexerFor p rules es l) {sc sc' : Scanner} {b : Option (Tok K)} {u : List (Nat × Char)} {log : Log}
    (hc : Call (taken es) (Readable es) (kindAt rules) sc b sc') (hu : ReadsUpTo (Readable es) sc.left u)
    (hlog : Applies (taken es) (word sc.skipped) [] (word u) log) (world : W) :
    ∃ k, runAll (kindAt (rules.map (pureRule (W := W)))) log none world = .ok (k, world) ∧
      withKind (b.map fun t => (⟨fun world => .ok (t.kind, world), t.source, t.pos⟩ : Tok (Action W K))) k = b := by
  have hlen : es.length = rules.length := by
    have := congrArg List.length hl.trees
    simpa using this.symm
  have lt : ∀ x ∈ log, x.1 < rules.length := by
    rintro ⟨i, src⟩ hx
    obtain ⟨v, _, _, ⟨⟨M, h1, _⟩, _⟩, _⟩ := hlog.mem hx
    have := (List.getElem?_eq_some_iff.1 h1).1
    simpa [taken, hlen] using this
  cases b with
  | none =>
    obtain ⟨k, h⟩ := runAll_pure (W := W) lt (k := none) (world := world)
    exact ⟨k, h, rfl⟩
  | some t =>
    obtain ⟨log', i, rfl, h2⟩ := hc.log (fun _ _ h => hl.toBuilt.readable_mono h) hu hlog
    obtain ⟨k, h⟩ := runAll_pure (W := W) (rules := rules) (log := log') (k := none) (world := world)
      (fun x hx => lt x (List.mem_append_left _ hx))
    refine ⟨some t.kind, ?_, rfl⟩
    rw [runAll_append, h]
    simp [runAll, kindAt_pure, h2]

/-- C69: functions without effects may be called as often as the lexer likes: the tokens are those of
`Model/Lexer.lean`, and the world stays as it is. -/
theorem c69_pure (p : Profile) (rules : List (List Char × (List Char → K))) (es : List Expr) (l : Lexer K)
    (l' : Lexer (Action W K)) (hl : LexerFor p rules es l) (hl' : LexerFor p (rules.map pureRule) es l')
    (input : List Char) (n : Nat) (as : List (Option (Tok K))) (world world' : W) :
    (∃ fuel it, lexCallsE (nfaMachine l'.nfa fuel) l'.tokens n (InputIter.new input) world = .ok ((as, it), world')) ↔
      world' = world ∧ ∃ fuel it, lexCalls (nfaMachine l.nfa fuel) l.tokens n (InputIter.new input) = .ok (as, it) := by
  rw [c69_calls_partial p _ es l' hl', c23_calls_partial p rules es l hl]
  have b := hl.toBuilt
  have mono : ∀ w v, Readable es (w ++ v) → Readable es w := fun _ _ h => b.readable_mono h
  constructor
  · rintro ⟨hlen, sc', h⟩
    refine (?_ : world' = world ∧ Scans es rules input as).imp_right fun h => ⟨hlen, h⟩
    unfold Scans
    clear hlen
    generalize Scanner.new input = sc at h
    induction h with
    | done => exact ⟨rfl, .done⟩
    | @next sc sc' sc'' world world' world'' a as u log k hp hc hu hlog hrun _ ih =>
      obtain ⟨b', h1, rfl⟩ := call_pure hc
      obtain ⟨k', h2, h3⟩ := pure_run hl h1 hu hlog world
      rw [hrun, Outcome.ok.injEq, Prod.mk.injEq] at h2
      obtain ⟨rfl, rfl⟩ := h2
      rw [h3]
      exact ⟨ih.1, .next hp h1 ih.2⟩
  · rintro ⟨rfl, hlen, h⟩
    refine ⟨hlen, ?_⟩
    unfold Scans at h
    clear hlen
    generalize Scanner.new input = sc at h
    induction h with
    | @done sc => exact ⟨sc, .done⟩
    | @next sc sc1 a as hp hc _ ih =>
      obtain ⟨sc', ih⟩ := ih
      obtain ⟨u, hu⟩ := ReadsUpTo.exists (Live := Readable es) (.inl rfl) sc.left
      obtain ⟨log, hlog⟩ := Applies.exists (rules := taken es) (word sc.skipped) (word u) []
      obtain ⟨k, h1, h2⟩ := pure_run (W := W) hl hc hu hlog world'
      refine ⟨sc', ?_⟩
      rw [← h2]
      exact .next hp (pure_call hc) hu hlog h1 ih

/-- A lexer with functions without effects. -/
example : LexerFor .debug ([("a".toList, fun _ => 0), ("abc".toList, fun _ => 1)].map (pureRule (W := Nat))) earlyTrees
      ⟨early.nfa, early.tokens.map fun g => (g.1, fun source world => .ok (g.2 source, world))⟩ ∧
    ∃ fuel it, lexCalls (nfaMachine early.nfa fuel) early.tokens 2 (InputIter.new "abc".toList) =
      .ok ([some ⟨1, "abc".toList, (0, 3)⟩, none], it) :=
  ⟨⟨rfl, rfl⟩, 10, _, by with_unfolding_all rfl⟩

/-! ## Panics -/

/-- The rules `a`, with a function that panics, and `abc`. -/
def fragileRules : List (List Char × (List Char → Action Unit Nat)) :=
  [("a".toList, fun _ _ => .panic), ("abc".toList, fun _ _ => .ok (1, ()))]

/-- Their lexer. -/
def fragile : Lexer (Action Unit Nat) := ⟨early.nfa, [(2, fun _ _ => .panic), (3, fun _ _ => .ok (1, ()))]⟩

omit [Unicode] in
theorem fragile_for : LexerFor .debug fragileRules (["a".toList, "abc".toList].map wordTree) fragile := ⟨rfl, rfl⟩

/-- C69: if no function panics then no call of `next` does. -/
theorem c69_no_panic (p : Profile) (rules : List (List Char × (List Char → Action W K))) (l : Lexer (Action W K))
    (hl : buildLexer p rules = .ok (.ok l)) (hf : ∀ r ∈ rules, ∀ source world, r.2 source world ≠ .panic)
    (input : List Char) (fuel n : Nat) (world : W) :
    lexCallsE (nfaMachine l.nfa fuel) l.tokens n (InputIter.new input) world ≠ .panic := by
  obtain ⟨es, b⟩ := buildLexer_built hl
  refine (b.safe fuel).lexCallsE ?_ n _ world
  rw [b.gens]
  intro g hg
  obtain ⟨r, hr, rfl⟩ := List.mem_map.1 hg
  exact hf r hr

/-- Functions that do not panic, and one that does. -/
example : (∀ r ∈ noting ["a+".toList, "=".toList, "==".toList], ∀ source world, r.2 source world ≠ .panic) ∧
    ¬ ∀ r ∈ fragileRules, ∀ source world, r.2 source world ≠ .panic := by
  constructor
  · intro r hr source world
    obtain ⟨i, hi, rfl⟩ := List.mem_mapIdx.1 hr
    simp
  · intro h
    exact h _ (List.mem_cons_self ..) [] () rfl

/-- C69: if a function that is called in the first call of `next` panics, so does the call.  This is so even if the
token that the function is called for is not returned. -/
theorem c69_panics (p : Profile) (rules : List (List Char × (List Char → Action W K))) (es : List Expr)
    (l : Lexer (Action W K)) (hl : LexerFor p rules es l) (input : List Char) (hp : Passes es input)
    (u : List (Nat × Char)) (hu : ReadsUpTo (Readable es) (Scanner.new input).left u) (log : Log)
    (hlog : Applies (taken es) [] [] (word u) log) (world : W)
    (hrun : runAll (kindAt rules) log none world = .panic) :
    ∃ bound, ∀ fuel ≥ bound, lexNextE (nfaMachine l.nfa fuel) l.tokens (InputIter.new input) world = .panic := by
  have b := hl.toBuilt
  refine ⟨simFuel l.nfa (fragTrees 2 es), fun fuel hf => ?_⟩
  obtain ⟨a, it', sc', u', log', _, _, e1, e2, e3⟩ := b.nextE hf (rep_new input)
    (by simpa [Scanner.new, Scanner.left] using hp)
  have := hu.unique (fun _ _ h => b.readable_mono h) e1
  subst this
  have := hlog.unique e2
  subst this
  rw [e3, hrun]
  rfl

/-- On `abc` the function of the rule `a` is called, and panics, although the token would be `abc`. -/
example : ∃ bound, ∀ fuel ≥ bound,
    lexNextE (nfaMachine fragile.nfa fuel) fragile.tokens (InputIter.new "abc".toList) () = .panic := by
  have hne : [] ∉ ["a".toList, "abc".toList] := by decide
  refine c69_panics _ _ _ _ fragile_for "abc".toList (passes_words _) (numbered 0 "abc".toList) ?_
    [(0, ['a']), (1, "abc".toList)] ?_ () rfl
  · refine ⟨List.prefix_refl _, readable_words.2 (.inr ⟨"abc".toList, by decide, by decide⟩), ?_⟩
    exact fun x hx => absurd hx.length_le (by simp [Scanner.new, Scanner.left])
  · have first : ∀ (w : List Char) (i : Nat), FirstMatch (taken (["a".toList, "abc".toList].map wordTree)) w i ↔
        (w = ['a'] ∧ i = 0) ∨ (w = "abc".toList ∧ i = 1) := by
      intro w i
      constructor
      · rintro ⟨⟨M, h1, h2⟩, _⟩
        match i with
        | 0 => cases h1; exact .inl ⟨(taken_word (by decide)).1 h2, rfl⟩
        | 1 => cases h1; exact .inr ⟨(taken_word (by decide)).1 h2, rfl⟩
        | i + 2 => cases h1
      · rintro (⟨rfl, rfl⟩ | ⟨rfl, rfl⟩)
        · exact ⟨⟨_, rfl, (taken_word (by decide)).2 rfl⟩, fun j _ hj => absurd hj (by omega)⟩
        · refine ⟨⟨_, rfl, (taken_word (by decide)).2 rfl⟩, fun j M hj hM h => ?_⟩
          obtain rfl : j = 0 := by omega
          cases hM
          exact absurd ((taken_word (by decide)).1 h) (by decide)
    refine .apply ((first _ _).2 (.inl ⟨rfl, rfl⟩)) (.skip ?_ (.apply ((first _ _).2 (.inr ⟨rfl, rfl⟩)) .done))
    rw [anyMatch_words hne]
    decide

end Pango.Props
