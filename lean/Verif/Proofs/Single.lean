import Verif.Proofs.Union
import Verif.Proofs.Munch
import Verif.Props.Matching
import Verif.Props.Compile

/-!
# The automaton of a lexer recognizes what the automata of its patterns recognize
-/

namespace Pango.Fsm

open Pango Pango.Regex Pango.Spec Pango.Props

section Worklist

variable {α : Type} [DecidableEq α] {step : α → Outcome (List α)}

/-- Every element of the result is taken from the queue once. -/
theorem worklist_length {n : Nat} {queue result res : List α}
    (h : worklist step n queue result = .ok res) : res.length + queue.length ≤ n + result.length := by
  induction n generalizing queue result with
  | zero =>
    cases queue with
    | nil => simp only [worklist, Outcome.ok.injEq] at h; simp [h]
    | cons a q => simp [worklist] at h
  | succ n ih =>
    cases queue with
    | nil => simp only [worklist, Outcome.ok.injEq] at h; simp [h]
    | cons a q =>
      simp only [worklist, Outcome.bind_eq_ok] at h
      obtain ⟨news, hs, h⟩ := h
      obtain ⟨d, e, _⟩ := foldl_insert news q result
      rw [e] at h
      have := ih h
      simp only [List.length_append, List.length_cons] at this ⊢
      omega

/-- The worklist finishes exactly if not more than `n` elements can be reached. -/
theorem worklist_iff {n : Nat} {a : α} (hok : ∀ b, Reaches step a b → ∃ news, step b = .ok news) :
    (∃ res, worklist step n [a] [a] = .ok res) ↔
      ∃ u : List α, (∀ b, Reaches step a b → b ∈ u) ∧ u.length ≤ n := by
  constructor
  · rintro ⟨res, h⟩
    have := worklist_length h
    simp only [List.length_singleton] at this
    exact ⟨res, fun b hb => ((worklist_single h).1 b).2 hb, by omega⟩
  · rintro ⟨u, h1, h2⟩
    classical
    have hu : ∀ b, b ∈ u.filter (fun b => decide (Reaches step a b)) ↔ Reaches step a b := by
      intro b
      simp only [List.mem_filter, decide_eq_true_eq]
      exact ⟨fun h => h.2, fun h => ⟨h1 b h, h⟩⟩
    refine worklist_terminates (u := u.filter (fun b => decide (Reaches step a b))) ?_ ?_ ?_ (by simp) ?_
    · intro b hb
      obtain ⟨news, hn⟩ := hok b ((hu b).1 hb)
      exact ⟨news, hn, fun c hc => (hu c).2 (((hu b).1 hb).tail hn hc)⟩
    · intro b hb
      rw [List.mem_singleton.1 hb]
      exact (hu a).2 .refl
    · intro b hb
      rw [List.mem_singleton.1 hb]
      exact (hu a).2 .refl
    · have := List.length_filter_le (fun b => decide (Reaches step a b)) u
      simp only [List.length_singleton]
      omega

/-- An injection into a list. -/
theorem exists_preimage {α β : Type} {P : α → Prop} {f : α → β} (hf : ∀ a b, f a = f b → a = b) {u : List β}
    (h : ∀ a, P a → f a ∈ u) : ∃ v : List α, (∀ a, P a → a ∈ v) ∧ v.length ≤ u.length := by
  classical
  refine ⟨u.filterMap fun b => if h : ∃ a, f a = b then some (Classical.choose h) else none, ?_,
    List.length_filterMap_le _ _⟩
  intro a ha
  refine List.mem_filterMap.2 ⟨f a, h a ha, ?_⟩
  have he : ∃ a', f a' = f a := ⟨a, rfl⟩
  rw [dif_pos he]
  exact congrArg some (hf _ _ (Classical.choose_spec he))

end Worklist

variable {nfa : Nfa}

/-- When a closure ends. -/
theorem epsClosure_iff (w : Wf nfa) {fuel : Nat} {r : Run} (hr : r.state < nfa.states.length) :
    (∃ res, nfa.epsClosure fuel r = .ok res) ↔
      ∃ u : List Run, (∀ s, ER nfa r s → s ∈ u) ∧ u.length ≤ fuel := by
  rw [epsClosure_eq, worklist_iff]
  · simp only [reaches_iff_ER w hr]
  · intro b hb
    obtain ⟨news, h, _⟩ := epsStep_wf w (((reaches_iff_ER w hr).1 hb).lt w hr)
    exact ⟨news, h⟩

variable [Unicode]

/-- When feeding a character ends. -/
theorem feedRuns_iff (w : Wf nfa) {fuel : Nat} {runs : List Run} {c : Char}
    (hr : ∀ r ∈ runs, r.state < nfa.states.length) :
    (∃ res, nfa.feedRuns fuel runs c = .ok res) ↔
      ∀ r ∈ runs, ∀ s, CharStep nfa r c s → ∃ u : List Run, (∀ t, ER nfa s t → t ∈ u) ∧ u.length ≤ fuel := by
  constructor
  · rintro ⟨res, h⟩ r hr' s hs
    obtain ⟨bs, hb⟩ := (flatMapOutcome_ok h).1 r hr'
    have hst := w.getState (hr r hr')
    rw [hst, Outcome.bind_ok] at hb
    obtain ⟨d, hd, rfl⟩ := (charMoves_wf w hst c s).2 hs
    obtain ⟨i, he⟩ := hs.edge
    exact (epsClosure_iff w (w.edge_lt he).2).1 ((flatMapOutcome_ok hb).1 d hd)
  · intro h
    unfold Nfa.feedRuns
    refine flatMapOutcome_of_ok fun r hr' => ?_
    have hst := w.getState (hr r hr')
    rw [hst, Outcome.bind_ok]
    refine flatMapOutcome_of_ok fun d hd => ?_
    have hs := (charMoves_wf w hst c _).1 ⟨d, hd, rfl⟩
    obtain ⟨i, he⟩ := hs.edge
    exact (epsClosure_iff w (w.edge_lt he).2).2 (h r hr' _ hs)

theorem fed_mono {n m : Nat} (hnm : n ≤ m) {v : List Char} {runs : List Run} (h : Fed nfa n v runs) :
    Fed nfa m v runs := by
  induction h with
  | init h =>
    refine .init ?_
    simp only [Nfa.initRuns, Outcome.bind_eq_ok] at h ⊢
    obtain ⟨ids, h1, h2⟩ := h
    exact ⟨ids, worklist_mono h1 hnm, h2⟩
  | feed _ hf ih => exact ih.feed (feed_mono hnm hf)

/-- If the lexer has read a word, the pattern by itself can be made to read it as well. -/
theorem Part.fed {rs : List (Fr × Nat)} {e : Expr} {f : Nat} {one : Nfa} (p : Part nfa rs e f one)
    {fuel : Nat} {v : List Char} {runs : List Run} (h : Fed nfa fuel v runs) :
    ∃ runs1, Fed one (max fuel one.states.length) v runs1 := by
  induction h with
  | init _ =>
    obtain ⟨runs1, h1⟩ := initRuns_exists p.single.wf (Nat.le_max_right fuel one.states.length)
    exact ⟨runs1, .init h1⟩
  | @feed v c runs runs' b hfed hf ih =>
    obtain ⟨runs1, h1⟩ := ih
    have hmem := h1.mem p.single.wf
    have hlt : ∀ r ∈ runs1, r.state < one.states.length := fun r hr => ((hmem r).1 hr).lt p.single.wf
    have hlt' : ∀ r ∈ runs, r.state < nfa.states.length :=
      fun r hr => ((hfed.mem p.bundle.wf r).1 hr).lt p.bundle.wf
    have hok := (feedRuns_iff p.bundle.wf hlt').1 ⟨_, (feed_ok hf).1⟩
    obtain ⟨runs1', h2⟩ := (feedRuns_iff (fuel := max fuel one.states.length) (c := c) p.single.wf hlt).2 (by
      intro r hr s hs
      have hin := (hfed.mem p.bundle.wf _).2 (p.runs_in ((hmem r).1 hr))
      obtain ⟨u, hu1, hu2⟩ := hok _ hin _ (p.charStep_in hs)
      obtain ⟨u', h3, h4⟩ := exists_preimage (P := fun t => ER one s t) (f := fun t : Run => t.shift f)
        (fun a b h => Run.shift_inj h) (fun t ht => hu1 _ (p.er_in ht))
      exact ⟨u', h3, by have := Nat.le_max_left fuel one.states.length; omega⟩)
    obtain ⟨acc, h3, _⟩ := feed_of_feedRuns h2
    exact ⟨runs1', h1.feed h3⟩

/-- What a pattern by itself answers, given that the lexer has read the word. -/
theorem Part.answers {rs : List (Fr × Nat)} {e : Expr} {f : Nat} {one : Nfa} (p : Part nfa rs e f one)
    {fuel : Nat} {v : List Char} {runs : List Run} (h : Fed nfa fuel v runs) :
    Answers e v true ↔ ∃ r, RunsAt one v r ∧ one.IsFinal r.state := by
  constructor
  · rintro ⟨nfa', fuel', h1, h2⟩
    rw [p.compiled] at h1
    cases h1
    obtain ⟨runs', h3, h4⟩ := simulate_fed h2
    exact (h3.isAccepting p.single.wf h4).1 rfl
  · intro hr
    obtain ⟨runs1, h1⟩ := p.fed h
    obtain ⟨b, h2, _⟩ := isAccepting_ok (nfa := one) (runs := runs1)
      (fun r hr => ⟨_, p.single.wf.getState (((h1.mem p.single.wf r).1 hr).lt p.single.wf)⟩)
    have hb := (h1.isAccepting p.single.wf h2).2 hr
    subst hb
    exact ⟨one, _, p.compiled, fed_simulate h1 h2⟩

theorem Part.answers_runs {rs : List (Fr × Nat)} {e : Expr} {f : Nat} {one : Nfa} (p : Part nfa rs e f one)
    {v : List Char} (h : Answers e v true) : ∃ r, RunsAt one v r ∧ one.IsFinal r.state := by
  obtain ⟨nfa', fuel', h1, h2⟩ := h
  rw [p.compiled] at h1
  cases h1
  obtain ⟨runs', h3, h4⟩ := simulate_fed h2
  exact (h3.isAccepting p.single.wf h4).1 rfl

end Pango.Fsm

namespace Pango.Lex

open Pango Pango.Fsm Pango.Regex Pango.Spec Pango.Props

variable [Unicode] {K : Type}

/-- The final states of the rules. -/
def finalsFrom (n : Nat) : List Expr → List (Expr × Nat)
  | [] => []
  | e :: es => (e, n) :: finalsFrom (frag e 0 n (n + 1)).2 es

omit [Unicode] in
theorem finalsFrom_frag (n : Nat) (es : List Expr) :
    fragTrees n es = (finalsFrom n es).map fun p => ((frag p.1 0 p.2 (p.2 + 1)).1, p.2) := by
  induction es generalizing n with
  | nil => rfl
  | cons e es ih => simp [fragTrees, finalsFrom, ih]

omit [Unicode] in
theorem finalsFrom_fst (n : Nat) (es : List Expr) : (finalsFrom n es).map Prod.fst = es := by
  induction es generalizing n with
  | nil => rfl
  | cons e es ih => simp [finalsFrom, ih]

omit [Unicode] in
theorem finalsFrom_le (n : Nat) (es : List Expr) : ∀ p ∈ finalsFrom n es, n ≤ p.2 := by
  induction es generalizing n with
  | nil => intro p hp; cases hp
  | cons e es ih =>
    intro p hp
    rcases List.mem_cons.1 hp with rfl | hp
    · exact Nat.le_refl _
    · have h1 := ih _ p hp
      have h2 := frag_le e 0 n (n + 1)
      omega

omit [Unicode] in
theorem finalsFrom_sorted (n : Nat) (es : List Expr) :
    ((finalsFrom n es).map Prod.snd).Pairwise (· < ·) := by
  induction es generalizing n with
  | nil => exact .nil
  | cons e es ih =>
    refine .cons ?_ (ih _)
    intro f hf
    obtain ⟨p, hp, rfl⟩ := List.mem_map.1 hf
    have h1 := finalsFrom_le _ es p hp
    have h2 := frag_le e 0 n (n + 1)
    simp only
    omega

/-- What is known of a built lexer. -/
structure Built (p : Profile) (patterns : List (List Char × (List Char → K))) (l : Lexer K)
    (es : List Expr) : Prop where
  parsed : patterns.map (fun r => parse p r.1) = es.map (fun e => .ok (.ok e))
  compiles : ∀ e ∈ es, ¬ HasEmptySeq e
  parts : Parts l.nfa (fragTrees 2 es) (finalsFrom 2 es)
  keys : l.tokens.map Prod.fst = (finalsFrom 2 es).map Prod.snd
  gens : l.tokens.map Prod.snd = patterns.map Prod.snd

omit [Unicode] in
theorem buildLexer_built {p : Profile} {patterns : List (List Char × (List Char → K))} {l : Lexer K}
    (h : buildLexer p patterns = .ok (.ok l)) : ∃ es, Built p patterns l es := by
  simp only [buildLexer, Outcome.bind_eq_ok] at h
  obtain ⟨x, hx, h⟩ := h
  cases x with
  | error es => simp at h
  | ok g =>
    obtain ⟨es, h1, h2, h3, h4⟩ := addTokens_good goodGenerator_new hx
    have h3' : GoodGenerator g (fragTrees 2 es) := h3
    have hb : g.build = .ok ⟨g.compiler.nfa, g.tokens⟩ := by
      simp [LexerGenerator.build, build_ok h3'.bundle.wf]
    simp only [hb] at h
    simp only [Outcome.bind_ok, Outcome.pure_eq, Outcome.ok.injEq, Except.ok.injEq] at h
    subst h
    refine ⟨es, h1, h2, ⟨h3'.bundle, finalsFrom_frag 2 es, fun p hp => finalsFrom_le 2 es p hp, ?_⟩, ?_, ?_⟩
    · intro p hp
      refine h2 p.1 ?_
      rw [← finalsFrom_fst 2 es]
      exact List.mem_map.2 ⟨p, hp, rfl⟩
    · show g.tokens.map Prod.fst = _
      rw [h3'.tokens, finalsFrom_frag]
      simp
    · show g.tokens.map Prod.snd = _
      rw [h4]
      rfl

/-- The rules of a lexer as predicates on words: what the patterns by themselves accept. -/
def alone (es : List Expr) : List (List Char → Prop) := es.map fun e w => Answers e w true

omit [Unicode] in
theorem Built.token_at {p : Profile} {patterns : List (List Char × (List Char → K))} {l : Lexer K}
    {es : List Expr} (b : Built p patterns l es) {e : Expr} {f : Nat} :
    (e, f) ∈ finalsFrom 2 es ↔ ∃ (i : Nat) (g : List Char → K), l.tokens[i]? = some (f, g) ∧ es[i]? = some e := by
  have hk : ∀ i : Nat, (l.tokens[i]?).map Prod.fst = ((finalsFrom 2 es)[i]?).map Prod.snd := by
    intro i
    have := congrArg (fun l => l[i]?) b.keys
    simpa using this
  have he : ∀ i : Nat, ((finalsFrom 2 es)[i]?).map Prod.fst = es[i]? := by
    intro i
    have := congrArg (fun l => l[i]?) (finalsFrom_fst 2 es)
    simpa using this
  constructor
  · intro h
    obtain ⟨i, hi⟩ := List.mem_iff_getElem?.1 h
    have h1 := hk i
    have h2 := he i
    rw [hi] at h1 h2
    simp only [Option.map_some, Option.map_eq_some_iff] at h1
    obtain ⟨⟨f', g⟩, h3, rfl⟩ := h1
    exact ⟨i, g, h3, h2.symm⟩
  · rintro ⟨i, g, h1, h2⟩
    have h3 := hk i
    have h4 := he i
    rw [h1] at h3
    rw [h2] at h4
    simp only [Option.map_some] at h3
    cases hx : (finalsFrom 2 es)[i]? with
    | none => rw [hx] at h3; cases h3
    | some x =>
      rw [hx] at h3 h4
      simp only [Option.map_some, Option.some.injEq] at h3 h4
      have : x = (e, f) := by rw [h3, ← h4]
      rw [this] at hx
      exact List.mem_of_getElem? hx

omit [Unicode] in
theorem mem_btreeInsert {a b : Nat} {l : List Nat} : b ∈ btreeInsert a l ↔ b = a ∨ b ∈ l := by
  induction l with
  | nil => simp [btreeInsert]
  | cons c l ih =>
    simp only [btreeInsert]
    split
    · simp
    · split
      · rename_i h; subst h; simp
      · simp only [List.mem_cons, ih]
        exact or_left_comm

omit [Unicode] in
theorem btreeInsert_sorted {a : Nat} {l : List Nat} (h : l.Pairwise (· < ·)) :
    (btreeInsert a l).Pairwise (· < ·) := by
  induction l with
  | nil => simp [btreeInsert]
  | cons c l ih =>
    have ⟨h1, h2⟩ := List.pairwise_cons.1 h
    simp only [btreeInsert]
    split
    · refine List.pairwise_cons.2 ⟨?_, h⟩
      intro x hx
      rcases List.mem_cons.1 hx with rfl | hx
      · assumption
      · have := h1 x hx; omega
    · split
      · exact h
      · refine List.pairwise_cons.2 ⟨?_, ih h2⟩
        intro x hx
        rcases mem_btreeInsert.1 hx with rfl | hx
        · omega
        · exact h1 x hx

omit [Unicode] in
theorem btree_foldl (l set : List Nat) (h : set.Pairwise (· < ·)) :
    (l.foldl (fun set s => btreeInsert s set) set).Pairwise (· < ·) ∧
    ∀ x, x ∈ l.foldl (fun set s => btreeInsert s set) set ↔ x ∈ set ∨ x ∈ l := by
  induction l generalizing set with
  | nil => simp [h]
  | cons a l ih =>
    obtain ⟨h1, h2⟩ := ih _ (btreeInsert_sorted (a := a) h)
    refine ⟨h1, fun x => ?_⟩
    rw [List.foldl_cons, h2, mem_btreeInsert, List.mem_cons]
    constructor
    · rintro ((h | h) | h) <;> simp [h]
    · rintro (h | h | h) <;> simp [h]

omit [Unicode] in
theorem mem_currentFinals {nfa : Nfa} (w : Wf nfa) {runs : List Run}
    (hr : ∀ r ∈ runs, r.state < nfa.states.length) {f : Nat} :
    f ∈ nfa.currentFinals runs ↔ nfa.IsFinal f ∧ ∃ r ∈ runs, r.state = f := by
  rw [Nfa.currentFinals, (btree_foldl _ [] List.Pairwise.nil).2]
  simp only [List.mem_filter, List.mem_map, List.contains_iff_mem, List.not_mem_nil, false_or]
  constructor
  · rintro ⟨⟨r, h1, rfl⟩, s, ⟨h2, h3⟩, h4⟩
    refine ⟨?_, r, h1, rfl⟩
    rw [← h4]
    simp [Nfa.IsFinal, Nfa.fins, (w.mem_at h2).1, h3]
  · rintro ⟨h1, r, h2, rfl⟩
    refine ⟨⟨r, h2, rfl⟩, ?_⟩
    have hst := w.getState (hr r h2)
    exact ⟨_, ⟨(getState_ok hst).1, (w.isFinal_iff hst).1 h1⟩, (getState_ok hst).2⟩

omit [Unicode] in
theorem currentFinals_sorted (nfa : Nfa) (runs : List Run) : (nfa.currentFinals runs).Pairwise (· < ·) :=
  (btree_foldl _ [] List.Pairwise.nil).1

/-- The machine of a built lexer recognizes its rules. -/
theorem Built.reads {p : Profile} {patterns : List (List Char × (List Char → K))} {l : Lexer K}
    {es : List Expr} (b : Built p patterns l es) (fuel : Nat) :
    Reads (nfaMachine l.nfa fuel) l.tokens (alone es) (fun w => ∃ r, RunsAt l.nfa w r)
      (fun runs w => Fed l.nfa fuel w runs) := by
  have wf := b.parts.bundle.wf
  -- final states that are reached
  have acc : ∀ {w runs}, Fed l.nfa fuel w runs → ∀ f, (∃ r, RunsAt l.nfa w r ∧ r.state = f) ∧ l.nfa.IsFinal f ↔
      ∃ e, (e, f) ∈ finalsFrom 2 es ∧ Answers e w true := by
    intro w runs hfed f
    constructor
    · rintro ⟨⟨r, hr, rfl⟩, hf⟩
      obtain ⟨e, he⟩ := b.parts.final hr hf
      obtain ⟨one, q⟩ := b.parts.part he
      exact ⟨e, he, (q.answers hfed).2 ((b.parts.final_iff he q).1 ⟨r, hr, rfl⟩)⟩
    · rintro ⟨e, he, ha⟩
      obtain ⟨one, q⟩ := b.parts.part he
      refine ⟨(b.parts.final_iff he q).2 ((q.answers hfed).1 ha), ?_⟩
      rw [b.parts.bundle.finals]
      exact .inr ⟨_, q.mem, rfl⟩
  have any : ∀ {w runs}, Fed l.nfa fuel w runs → ((∃ r, RunsAt l.nfa w r ∧ l.nfa.IsFinal r.state) ↔
      AnyMatch (alone es) w) := by
    intro w runs hfed
    constructor
    · rintro ⟨r, hr, hf⟩
      obtain ⟨e, he, ha⟩ := (acc hfed r.state).1 ⟨⟨r, hr, rfl⟩, hf⟩
      refine ⟨_, List.mem_map.2 ⟨e, ?_, rfl⟩, ha⟩
      rw [← finalsFrom_fst 2 es]
      exact List.mem_map.2 ⟨_, he, rfl⟩
    · rintro ⟨M, hM, ha⟩
      obtain ⟨e, he, rfl⟩ := List.mem_map.1 hM
      rw [← finalsFrom_fst 2 es] at he
      obtain ⟨⟨e', f⟩, he', rfl⟩ := List.mem_map.1 he
      obtain ⟨⟨r, hr, rfl⟩, hf⟩ := (acc hfed f).2 ⟨_, he', ha⟩
      exact ⟨r, hr, hf⟩
  refine ⟨?_, ?_, ?_, ?_, ?_, ?_, ?_, ?_, ?_, ?_⟩
  · rw [b.keys]; exact finalsFrom_sorted 2 es
  · intro s h; exact .init h
  · intro s w c b' hs h; exact hs.canFeed wf h
  · intro s s' w c b' hs h
    have hs' := hs.feed h
    refine ⟨hs', ?_⟩
    rw [← any hs']
    exact hs'.isAccepting wf (feed_ok h).2
  · intro s w b' hs h
    rw [← any hs]
    exact hs.isAccepting wf h
  · intro s w _; exact currentFinals_sorted _ _
  · intro s w hs f
    have hlt : ∀ r ∈ s, r.state < l.nfa.states.length := fun r hr => ((hs.mem wf r).1 hr).lt wf
    show f ∈ l.nfa.currentFinals s ↔ _
    rw [mem_currentFinals wf hlt]
    have h1 : (∃ r ∈ s, r.state = f) ↔ ∃ r, RunsAt l.nfa w r ∧ r.state = f := by
      simp only [hs.mem wf]
    rw [h1, and_comm, acc hs f]
    constructor
    · rintro ⟨e, he, ha⟩
      obtain ⟨i, g, h2, h3⟩ := b.token_at.1 he
      exact ⟨i, fun w => Answers e w true, g, h2, by simp [alone, h3], ha⟩
    · rintro ⟨i, M, g, h2, h3, h4⟩
      simp only [alone, List.getElem?_map, Option.map_eq_some_iff] at h3
      obtain ⟨e, h5, rfl⟩ := h3
      exact ⟨e, b.token_at.2 ⟨i, g, h2, h5⟩, h4⟩
  · exact ⟨_, .init (.refl _)⟩
  · rintro w v ⟨M, hM, ha⟩
    obtain ⟨e, he, rfl⟩ := List.mem_map.1 hM
    rw [← finalsFrom_fst 2 es] at he
    obtain ⟨⟨e', f⟩, he', rfl⟩ := List.mem_map.1 he
    obtain ⟨one, q⟩ := b.parts.part he'
    obtain ⟨r, hr, _⟩ := q.answers_runs ha
    exact (q.runs_in hr).prefix
  · rintro w v ⟨r, hr⟩
    exact hr.prefix

end Pango.Lex
