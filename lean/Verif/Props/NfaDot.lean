import Verif.Proofs.NfaDot
import Verif.Props.Dot

/-!
# C76: printing the automaton of a lexer
-/

namespace Pango.Props

open Pango Pango.Regex Pango.Fsm Pango.Spec Pango.Spec.Dot
open Pango.Lex (Lexer buildLexer)
open Pango.Parse (joinText)

/-- A graph that describes the automaton of a lexer: it has the states of the automaton, named by their numbers, as
nodes, with double circles for the final ones, and one edge for each transition with the `Debug` output of its input. -/
structure DrawsNfa (showC : Char → List Char) (nfa : Nfa) (g : Graph) : Prop where
  nodes : ∀ name, (∃ ds, (name, ds) ∈ g.mentions) ↔ ∃ s ∈ nfa.states, name = (toString s.id).toList
  bare : ∀ n ∈ g.nodes, n.2 = []
  shapes : ∀ s ∈ nfa.states,
    g.default (toString s.id).toList "shape" = some (if s.fin then "doublecircle".toList else "circle".toList)
  edges : (g.edges.map (fun e => (e.1, e.2.1, shownLabel e.2.2))).Perm
    (nfa.states.flatMap fun s => s.transitions.flatMap fun t => t.2.map fun d =>
      ((toString s.id).toList, (toString d).toList, some [inputDebug showC t.1]))

/-- The `Debug` output of characters: printable characters of ASCII other than the single quote and the backslash are
put between single quotes. -/
def ShowsChars (showC : Char → List Char) : Prop :=
  ∀ c : Char, 32 ≤ c.toNat → c.toNat < 127 → c ≠ '\'' → c ≠ '\\' → showC c = ['\'', c, '\'']

/-- C76 as stated: the printed automaton of every lexer is a DOT graph that describes it. -/
def PrintsNfa : Prop :=
  ∀ (K : Type) (p : Profile) (patterns : List (List Char × (List Char → K))) (l : Lexer K),
    buildLexer p patterns = .ok (.ok l) → ∀ (showC : Char → List Char) (ord : HashOrder), ShowsChars showC →
      ∃ g, read (l.nfa.toDot showC ord) = some g ∧ DrawsNfa showC l.nfa g

/-- The output for letters and the like. -/
def betweenQuotes (c : Char) : List Char := ['\'', c, '\'']

/-- The lexer with the pattern `"`. -/
def quoteLexer : Lexer Unit :=
  ⟨⟨0, [⟨0, false, [(.literal (.mtch '"'), [2])]⟩, ⟨1, true, []⟩, ⟨2, true, []⟩]⟩, [(2, fun _ => ())]⟩

theorem quoteLexer_eq : buildLexer .release [(['"'], fun _ => ())] = .ok (.ok quoteLexer) := rfl

/-- C76 is false: the label for the pattern `"` contains this quote, and the text is not in the DOT language. -/
theorem c76_false : ¬ PrintsNfa := by
  intro h
  obtain ⟨g, h, _⟩ := h Unit .release _ quoteLexer quoteLexer_eq betweenQuotes .insertion fun _ _ _ _ _ => rfl
  have : read (quoteLexer.nfa.toDot betweenQuotes .insertion) = none := by decide +kernel
  rw [this] at h
  cases h

/-- The characters in the label of an input. -/
def inputChars : Input → List Char
  | .literal (.mtch c) => [c]
  | .literal (.group _ ls) => ls.flatMap fun
    | .mtch c => [c]
    | .cls _ => []
    | .range lo hi => [lo, hi]
  | _ => []

theorem line_digits (n : Nat) : Line (Nat.toDigits 10 n) := by
  intro c hc
  have h : c.isDigit = true := Nat.isDigit_of_mem_toDigits (by omega) (by omega) hc
  refine ⟨?_, ?_, ?_⟩ <;> (rintro rfl; revert h; decide)

theorem line_tuple {name : String} {fields : List (List Char)} (h1 : Line name.toList) (h2 : ∀ f ∈ fields, Line f) :
    Line (tupleDebug name fields) :=
  ((h1.append (by unfold Line; decide)).append (line_join (by unfold Line; decide) h2)).append (by unfold Line; decide)

theorem line_class (k : ClassKind) : Line (classDebug k) := by
  cases k <;> (unfold Line classDebug; decide)

theorem line_input {showC : Char → List Char} {i : Input} (h : ∀ c ∈ inputChars i, Quiet (showC c)) :
    Line (inputDebug showC i) := by
  cases i with
  | eps => show Line "Eps".toList; unfold Line; decide
  | quantified q =>
    refine line_tuple (by unfold Line; decide) (by
      simp only [List.mem_singleton, forall_eq]
      cases q with
      | asterisk => unfold Line quantDebug; decide
      | plus => unfold Line quantDebug; decide
      | questionMark => unfold Line quantDebug; decide
      | max n =>
        refine line_tuple (by unfold Line; decide) ?_
        simp only [List.mem_singleton, forall_eq]
        exact line_tuple (by unfold Line; decide) (by simpa using line_digits n)
      | min n =>
        refine line_tuple (by unfold Line; decide) ?_
        simp only [List.mem_singleton, forall_eq]
        exact line_tuple (by unfold Line; decide) (by simpa using line_digits n)
      | range a b =>
        refine line_tuple (by unfold Line; decide) ?_
        simp only [List.mem_singleton, forall_eq]
        exact line_tuple (by unfold Line; decide) (by simpa using ⟨line_digits a, line_digits b⟩))
  | literal l =>
    refine line_tuple (by unfold Line; decide) ?_
    simp only [List.mem_singleton, forall_eq]
    cases l with
    | mtch c => exact line_tuple (by unfold Line; decide) (by
        simp only [List.mem_singleton, forall_eq]
        exact h c (by simp [inputChars]))
    | cls k => exact line_tuple (by unfold Line; decide) (by simpa using line_class k)
    | group neg ls =>
      have hls : Line (joinText [',', ' '] (ls.map (gLitDebug showC))) := by
        refine line_join (by unfold Line; decide) ?_
        intro x hx
        obtain ⟨a, ha, rfl⟩ := List.mem_map.1 hx
        have hin : ∀ c, c ∈ (match a with | .mtch c => [c] | .cls _ => [] | .range lo hi => [lo, hi] : List Char) →
            Quiet (showC c) := by
          intro c hc
          refine h c ?_
          simp only [inputChars, List.mem_flatMap]
          refine ⟨a, ha, ?_⟩
          cases a <;> exact hc
        cases a with
        | mtch c => exact line_tuple (by unfold Line; decide) (by
          simp only [List.mem_singleton, forall_eq]
          exact hin c (by simp))
        | cls k => exact line_tuple (by unfold Line; decide) (by simpa using line_class k)
        | range lo hi =>
          exact line_tuple (by unfold Line; decide) (by
            simp only [List.mem_cons, List.not_mem_nil, or_false, forall_eq_or_imp, forall_eq]
            exact ⟨hin lo (by simp), hin hi (by simp)⟩)
      refine Line.append (Line.append (Line.append (Line.append ?_ ?_) ?_) (line_tuple ?_ ?_)) ?_
      · unfold Line; decide
      · cases neg <;> (unfold Line; decide)
      · unfold Line; decide
      · unfold Line; decide
      · simp only [List.mem_singleton, forall_eq]
        exact Line.append (Line.append (by unfold Line; decide) hls) (by unfold Line; decide)
      · unfold Line; decide

theorem digits_inj {n m : Nat} (h : Nat.toDigits 10 n = Nat.toDigits 10 m) : n = m := by
  rw [← Nat.ofDigitChars_ten_toDigits (n := n), h, Nat.ofDigitChars_ten_toDigits]

theorem mem_tuples {ord : HashOrder} {s : NState} {e : Nat × Nat × Input} :
    e ∈ s.tuples ord ↔ e.1 = s.id ∧ (e.2.2, e.2.1) ∈ s.edges := by
  obtain ⟨x, y, i⟩ := e
  simp only [NState.tuples, List.mem_flatMap, List.mem_map, ord.mem_shuffle, NState.edges]
  constructor
  · rintro ⟨t, ht, d, hd, h⟩
    simp only [Prod.mk.injEq] at h
    obtain ⟨rfl, rfl, rfl⟩ := h
    exact ⟨rfl, t.1, List.fst_mem_of_mem_zipIdx ht, d, hd, rfl⟩
  · rintro ⟨rfl, t, ht, d, hd, h⟩
    simp only [Prod.mk.injEq] at h
    obtain ⟨rfl, rfl⟩ := h
    obtain ⟨k, hk⟩ := List.mem_iff_getElem?.1 ht
    exact ⟨(t, k), List.mk_mem_zipIdx_iff_getElem?.2 hk, d, hd, rfl⟩

theorem tuples_perm (ord : HashOrder) (s : NState) :
    (s.tuples ord).Perm (s.transitions.flatMap fun t => t.2.map fun d => (s.id, d, t.1)) := by
  have h1 : (s.tuples ord).Perm (s.transitions.zipIdx.flatMap fun t => t.1.2.map fun d => (s.id, d, t.1.1)) :=
    ((ord.perm _ _ _).flatMap_right _).trans (perm_flatMap fun t _ => (ord.perm _ _ _).map _)
  refine h1.trans (.of_eq ?_)
  have h2 : s.transitions = s.transitions.zipIdx.map Prod.fst := by simp
  conv => rhs; rw [h2]
  rw [List.flatMap_map]

theorem default_of {ds : Attrs} {name : Text} {k : String} {l : List (Text × Attrs)} (h1 : ∀ m ∈ l, m.2 = ds)
    (h2 : ∃ m ∈ l, m.1 = name) : ((l.find? (fun m => m.1 == name)).bind fun m => attr m.2 k) = attr ds k := by
  cases hf : l.find? (fun m => m.1 == name) with
  | none =>
    obtain ⟨m, hm, he⟩ := h2
    have := List.find?_eq_none.1 hf m hm
    simp [he] at this
  | some m =>
    rw [Option.bind_some, h1 m (List.mem_of_find?_eq_some hf)]

/-- C76, the part that holds: if the `Debug` outputs of the characters in labels contain no quotes, backslashes and
newlines, then the printed automaton of the lexer is a DOT graph that describes it, in whatever order the hash
containers are iterated.  Missing: other characters, for which the claim is false. -/
theorem c76_partial {K : Type} {p : Profile} {patterns : List (List Char × (List Char → K))} {l : Lexer K}
    (h : buildLexer p patterns = .ok (.ok l)) (showC : Char → List Char) (ord : HashOrder)
    (hchars : ∀ s ∈ l.nfa.states, ∀ t ∈ s.transitions, ∀ c ∈ inputChars t.1, Quiet (showC c)) :
    ∃ g, read (l.nfa.toDot showC ord) = some g ∧ DrawsNfa showC l.nfa g := by
  obtain ⟨wf, hdrawn⟩ := buildLexer_drawn h
  let finals := (l.nfa.states.filter (·.fin)).map NState.id
  let es := l.nfa.states.flatMap (NState.tuples ord)
  have hes : ∀ e, e ∈ es ↔ ∃ s ∈ l.nfa.states, e.1 = s.id ∧ (e.2.2, e.2.1) ∈ s.edges := by
    intro e
    simp only [es, List.mem_flatMap, mem_tuples]
  have hline : ∀ e ∈ es, Line (inputDebug showC e.2.2) := by
    intro e he
    obtain ⟨s, hs, _, h2⟩ := (hes e).1 he
    simp only [NState.edges, List.mem_flatMap, List.mem_map, Prod.mk.injEq] at h2
    obtain ⟨t, ht, d, _, h3, _⟩ := h2
    exact h3 ▸ line_input (hchars s hs t ht)
  have r1 : run .plain ("digraph nfa {\n\trankdir = LR;\n\n\t// final states\n\t".toList ++
      "node [shape = doublecircle]; ".toList) = some (nfaHead, .plain) := by decide
  have r2 := run_numerals finals
  have r3 : run .plain "\tnode [shape = circle]; 0;\n\n".toList = some (nfaMiddle, .plain) := by decide
  have r4 := run_joined (fun e : Nat × Nat × Input => '\t' :: lineText showC e)
    (fun e => edgeToks e.1 e.2.1 (inputDebug showC e.2.2) ++ [Tok.semi]) es
    (fun e he => run_line e.1 e.2.1 (hline e he).smooth)
  have r5 : run .plain "\n}".toList = some ([.rbrace], .plain) := by decide
  have hrun := run_append_of (run_append_of (run_append_of (run_append_of r1 r2) r3) r4) r5
  have htext : l.nfa.toDot showC ord = "digraph nfa {\n\trankdir = LR;\n\n\t// final states\n\t".toList ++
      "node [shape = doublecircle]; ".toList ++ (joinText [' '] (finals.map (Nat.toDigits 10)) ++ ['\n']) ++
      "\tnode [shape = circle]; 0;\n\n".toList ++
      joinText ['\n'] (es.map fun e => '\t' :: lineText showC e) ++ "\n}".toList := by
    have hstr : "\n\tnode [shape = circle]; 0;\n\n".toList = ['\n'] ++ "\tnode [shape = circle]; 0;\n\n".toList := by decide
    unfold Nfa.toDot
    rw [hstr]
    simp only [finals, es, List.map_map, Function.comp_def, List.append_assoc]
  rw [← htext] at hrun
  refine ⟨_, read_nfa hrun, ?_, ?_, ?_, ?_⟩
  · intro name
    constructor
    · rintro ⟨ds, hds⟩
      simp only [List.mem_append, List.mem_map, List.mem_cons, List.mem_flatMap, Prod.mk.injEq, List.not_mem_nil,
        or_false] at hds
      rcases hds with ⟨n, hn, rfl, _⟩ | ⟨rfl, _⟩ | ⟨e, he, h1⟩
      · obtain ⟨s, hs, rfl⟩ := List.mem_map.1 hn
        exact ⟨s, (List.mem_filter.1 hs).1, toDigits_eq _⟩
      · have h0 : 0 < l.nfa.states.length := Nat.lt_of_le_of_lt (Nat.zero_le _) wf.start
        refine ⟨l.nfa.states[0], List.getElem_mem h0, ?_⟩
        rw [wf.id_at (List.getElem?_eq_getElem h0)]
        exact toDigits_eq _
      · obtain ⟨s, hs, h2, h3⟩ := (hes e).1 he
        rcases h1 with ⟨rfl, _⟩ | ⟨rfl, _⟩
        · exact ⟨s, hs, by rw [h2]; exact toDigits_eq _⟩
        · have hlt : e.2.1 < l.nfa.states.length := (wf.edge_lt ⟨s, hs, rfl, h3⟩).2
          refine ⟨l.nfa.states[e.2.1], List.getElem_mem hlt, ?_⟩
          rw [wf.id_at (List.getElem?_eq_getElem hlt)]
          exact toDigits_eq _
    · rintro ⟨s, hs, rfl⟩
      obtain ⟨hat, hlt⟩ := wf.mem_at hs
      simp only [List.mem_append, List.mem_map, List.mem_cons, List.mem_flatMap, Prod.mk.injEq, List.not_mem_nil,
        or_false, ← toDigits_eq]
      rcases hdrawn s.id hlt with h0 | h0 | ⟨i, y, h0⟩
      · exact ⟨_, .inr (.inl ⟨by rw [h0], rfl⟩)⟩
      · have hfin : s.fin = true := by
          simp only [Nfa.IsFinal, Nfa.fins, List.getElem?_map, hat, Option.map_some, Option.some.injEq] at h0
          exact h0
        exact ⟨_, .inl ⟨s.id, List.mem_map.2 ⟨s, List.mem_filter.2 ⟨hs, hfin⟩, rfl⟩, rfl, rfl⟩⟩
      · obtain ⟨s', hs', h1, h2⟩ := h0
        exact ⟨_, .inr (.inr ⟨(s.id, y, i), (hes _).2 ⟨s', hs', h1.symm, h2⟩, .inl ⟨rfl, rfl⟩⟩)⟩
  · intro n hn
    simp only [List.mem_append, List.mem_map, List.mem_singleton] at hn
    rcases hn with ⟨_, _, rfl⟩ | rfl <;> rfl
  · intro s hs
    rw [← toDigits_eq]
    by_cases hfin : s.fin = true
    · have hmem : s.id ∈ finals := List.mem_map.2 ⟨s, List.mem_filter.2 ⟨hs, hfin⟩, rfl⟩
      have hfind : (finals.map fun n => (Nat.toDigits 10 n, doubleDefaults)).find?
          (fun m => m.1 == Nat.toDigits 10 s.id) = some (Nat.toDigits 10 s.id, doubleDefaults) := by
        clear hrun htext r2
        clear_value finals
        induction finals with
        | nil => cases hmem
        | cons a finals ih =>
          rw [List.map_cons, List.find?_cons]
          by_cases ha : a = s.id
          · simp [ha]
          · have hne : (Nat.toDigits 10 a == Nat.toDigits 10 s.id) = false := by
              rw [beq_eq_false_iff_ne]
              exact fun hd => ha (digits_inj hd)
            simp only [hne]
            exact ih (by simpa [Ne.symm ha] using hmem)
      simp only [Graph.default, List.find?_append, hfind, Option.some_or, Option.bind_some, hfin, if_true]
      decide
    · have hnone : (finals.map fun n => (Nat.toDigits 10 n, doubleDefaults)).find?
          (fun m => m.1 == Nat.toDigits 10 s.id) = none := by
        rw [List.find?_eq_none]
        rintro x hx
        obtain ⟨n, hn, rfl⟩ := List.mem_map.1 hx
        obtain ⟨s', hs', rfl⟩ := List.mem_map.1 hn
        obtain ⟨h1, h2⟩ := List.mem_filter.1 hs'
        intro hd
        have he : s'.id = s.id := digits_inj (by simpa using hd)
        have a1 := (wf.mem_at h1).1
        have a2 := (wf.mem_at hs).1
        rw [he, a2] at a1
        cases a1
        exact hfin h2
      have hrest := default_of (ds := singleDefaults) (name := Nat.toDigits 10 s.id) (k := "shape")
        (l := (Nat.toDigits 10 0, singleDefaults) :: es.flatMap fun e =>
          [(Nat.toDigits 10 e.1, singleDefaults), (Nat.toDigits 10 e.2.1, singleDefaults)])
        (by
          intro m hm
          simp only [List.mem_cons, List.mem_flatMap, List.not_mem_nil, or_false] at hm
          rcases hm with rfl | ⟨e, _, rfl | rfl⟩ <;> rfl)
        (by
          rcases hdrawn s.id (wf.mem_at hs).2 with h0 | h0 | ⟨i, y, s', hs', h1, h2⟩
          · exact ⟨_, List.mem_cons_self, by rw [h0]⟩
          · simp only [Nfa.IsFinal, Nfa.fins, List.getElem?_map, (wf.mem_at hs).1, Option.map_some,
              Option.some.injEq] at h0
            exact absurd h0 hfin
          · exact ⟨(Nat.toDigits 10 s.id, singleDefaults), List.mem_cons_of_mem _ (List.mem_flatMap.2
              ⟨(s.id, y, i), (hes _).2 ⟨s', hs', h1.symm, h2⟩, List.mem_cons_self⟩), rfl⟩)
      simp only [Graph.default, List.find?_append, hnone, Option.none_or, hrest, hfin]
      decide
  · rw [List.map_map]
    have h1 : es.map ((fun e : Text × Text × Attrs => (e.1, e.2.1, shownLabel e.2.2)) ∘ fun e =>
        (Nat.toDigits 10 e.1, Nat.toDigits 10 e.2.1, [("label".toList, inputDebug showC e.2.2)])) =
        es.map fun e => ((toString e.1).toList, (toString e.2.1).toList, some [inputDebug showC e.2.2]) := by
      refine List.map_congr_left fun e he => ?_
      have := labelLines_join (xs := [inputDebug showC e.2.2]) (by simp) (by simpa using hline e he)
      simp only [joinText] at this
      simp only [Function.comp_apply, shownLabel, attr_label, Option.bind_some, this, toDigits_eq]
    rw [h1]
    simp only [es, List.map_flatMap]
    refine perm_flatMap fun s _ => ?_
    have h2 := (tuples_perm ord s).map
      (fun e => ((toString e.1).toList, (toString e.2.1).toList, some [inputDebug showC e.2.2]))
    simpa only [List.map_flatMap, List.map_map, Function.comp_def] using h2

/-- C76, what the text tells: if the `Debug` outputs of characters moreover are different, and none begins with
another one, then lexers whose automata are printed as the same text have the same automaton, up to the order in its
hash containers. -/
theorem c76_determines_partial {K K' : Type} {p p' : Profile} {patterns : List (List Char × (List Char → K))}
    {patterns' : List (List Char × (List Char → K'))} {l : Lexer K} {l' : Lexer K'}
    (h : buildLexer p patterns = .ok (.ok l)) (h' : buildLexer p' patterns' = .ok (.ok l'))
    (showC : Char → List Char) (ord ord' : HashOrder)
    (hcode : ∀ c c' r r', showC c ++ r = showC c' ++ r' → c = c')
    (hchars : ∀ s ∈ l.nfa.states, ∀ t ∈ s.transitions, ∀ c ∈ inputChars t.1, Quiet (showC c))
    (hchars' : ∀ s ∈ l'.nfa.states, ∀ t ∈ s.transitions, ∀ c ∈ inputChars t.1, Quiet (showC c))
    (heq : l.nfa.toDot showC ord = l'.nfa.toDot showC ord') :
    (∀ n fin, (∃ s ∈ l.nfa.states, s.id = n ∧ s.fin = fin) ↔ ∃ s ∈ l'.nfa.states, s.id = n ∧ s.fin = fin) ∧
    ∀ n i d, (∃ s ∈ l.nfa.states, s.id = n ∧ ∃ ds, (i, ds) ∈ s.transitions ∧ d ∈ ds) ↔
      ∃ s ∈ l'.nfa.states, s.id = n ∧ ∃ ds, (i, ds) ∈ s.transitions ∧ d ∈ ds := by
  obtain ⟨g, hg, d1⟩ := c76_partial h showC ord hchars
  obtain ⟨g', hg', d2⟩ := c76_partial h' showC ord' hchars'
  rw [heq, hg'] at hg
  obtain rfl := Option.some.inj hg
  have hc : Code showC := fun a b r r' e => by
    have := hcode a b r r' e
    subst this
    exact ⟨rfl, List.append_cancel_left e⟩
  have hinj : ∀ {n m : Nat}, (toString n).toList = (toString m).toList → n = m := fun {n m} e =>
    digits_inj (by rw [toDigits_eq, toDigits_eq, e])
  constructor
  · intro n fin
    have key : ∀ {nfa nfa' : Nfa}, DrawsNfa showC nfa g' → DrawsNfa showC nfa' g' →
        (∃ s ∈ nfa.states, s.id = n ∧ s.fin = fin) → ∃ s ∈ nfa'.states, s.id = n ∧ s.fin = fin := by
      rintro nfa nfa' d1 d2 ⟨s, hs, rfl, rfl⟩
      obtain ⟨s', hs', he⟩ := (d2.nodes _).1 ((d1.nodes _).2 ⟨s, hs, rfl⟩)
      refine ⟨s', hs', (hinj he).symm, ?_⟩
      have e1 := d1.shapes s hs
      have e2 := d2.shapes s' hs'
      rw [← he, e1] at e2
      revert e2
      cases s.fin <;> cases s'.fin <;> decide
    exact ⟨key d1 d2, key d2 d1⟩
  · intro n i d
    have hmem : ∀ {nfa : Nfa}, DrawsNfa showC nfa g' →
        ((∃ s ∈ nfa.states, s.id = n ∧ ∃ ds, (i, ds) ∈ s.transitions ∧ d ∈ ds) ↔
          ((toString n).toList, (toString d).toList, some [inputDebug showC i]) ∈
            g'.edges.map (fun e => (e.1, e.2.1, shownLabel e.2.2))) := by
      intro nfa dr
      rw [dr.edges.mem_iff]
      simp only [List.mem_flatMap, List.mem_map, Prod.mk.injEq, Option.some.injEq, List.cons.injEq, and_true]
      constructor
      · rintro ⟨s, hs, rfl, ds, h1, h2⟩
        exact ⟨s, hs, (i, ds), h1, d, h2, rfl, rfl, rfl⟩
      · rintro ⟨s, hs, t, ht, d', hd', e1, e2, e3⟩
        have := input_inj hc e3
        subst this
        exact ⟨s, hs, hinj e1, t.2, ht, hinj e2 ▸ hd'⟩
    rw [hmem d1, hmem d2]

/-- The lexer with the patterns `a*b` and `[c-e]`. -/
def printedLexer : Lexer Nat :=
  ⟨⟨0, [⟨0, false, [(.eps, [4]), (.literal (.group false [.range 'c' 'e']), [5])]⟩, ⟨1, true, []⟩, ⟨2, true, []⟩,
    ⟨3, false, [(.literal (.mtch 'b'), [2])]⟩,
    ⟨4, false, [(.quantified .asterisk, [3]), (.literal (.mtch 'a'), [4])]⟩, ⟨5, true, []⟩]⟩,
    [(2, fun _ => 0), (5, fun _ => 1)]⟩

theorem printedLexer_eq :
    buildLexer .release [("a*b".toList, fun _ => 0), ("[c-e]".toList, fun _ => 1)] = .ok (.ok printedLexer) := rfl

/-- It meets the hypotheses. -/
example : (∀ s ∈ printedLexer.nfa.states, ∀ t ∈ s.transitions, ∀ c ∈ inputChars t.1, Quiet (betweenQuotes c)) ∧
    (∀ c c' r r', betweenQuotes c ++ r = betweenQuotes c' ++ r' → c = c') ∧ ShowsChars betweenQuotes ∧
    (read (printedLexer.nfa.toDot betweenQuotes .reversed)).map
      (fun g => (g.nodes.length, g.edges.length, g.default ['2'] "shape", g.default ['3'] "shape")) =
      some (4, 5, some "doublecircle".toList, some "circle".toList) := by
  refine ⟨?_, ?_, fun _ _ _ _ _ => rfl, by decide +kernel⟩
  · have : ∀ s ∈ printedLexer.nfa.states, ∀ t ∈ s.transitions, ∀ c ∈ inputChars t.1,
        ∀ d ∈ betweenQuotes c, d ≠ '"' ∧ d ≠ '\\' ∧ d ≠ '\n' := by decide +kernel
    exact this
  · intro c c' r r' h
    simp only [betweenQuotes, List.cons_append, List.cons.injEq] at h
    exact h.2.1

/-- The labels, as the code writes them. -/
example : inputDebug betweenQuotes .eps = "Eps".toList ∧
    inputDebug betweenQuotes (.literal (.mtch 'a')) = "Literal(Match('a'))".toList ∧
    inputDebug betweenQuotes (.literal (.cls .nonWhitespace)) = "Literal(Class(NonWhitespace))".toList ∧
    inputDebug betweenQuotes (.literal (.group true [.range 'b' 'd', .cls .digit, .mtch 'x'])) =
      "Literal(Group { negated: true, literals: W([Range('b', 'd'), Class(Digit), Match('x')]) })".toList ∧
    inputDebug betweenQuotes (.literal (.group false [])) =
      "Literal(Group { negated: false, literals: W([]) })".toList ∧
    inputDebug betweenQuotes (.quantified (.range 2 13)) = "Quantified(Range(Range(2, 13)))".toList ∧
    inputDebug betweenQuotes (.quantified (.max 4)) = "Quantified(Range(Max(4)))".toList ∧
    inputDebug betweenQuotes (.quantified (.min 0)) = "Quantified(Range(Min(0)))".toList ∧
    inputDebug betweenQuotes (.quantified .asterisk) = "Quantified(Asterisk)".toList ∧
    inputDebug betweenQuotes (.quantified .plus) = "Quantified(Plus)".toList ∧
    inputDebug betweenQuotes (.quantified .questionMark) = "Quantified(QuestionMark)".toList := by
  decide +kernel

end Pango.Props
