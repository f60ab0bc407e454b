import Verif.Proofs.Dot
import Verif.Model.NfaDot
import Verif.Props.Compile

/-!
# Reading the printed automaton of a lexer
-/

namespace Pango.Spec.Dot

open Pango.Parse (joinText)

/-- A numeral and a character that ends it. -/
theorem run_numeral_end {c : Char} {ts : List Tok} (hw : wordChar c = false) (hp : plainStep c = some (ts, .plain))
    (n : Nat) : run .plain (Nat.toDigits 10 n ++ [c]) = some (.word (Nat.toDigits 10 n) :: ts, .plain) := by
  have hne := toDigits_ne_nil n
  have hd : ∀ c ∈ Nat.toDigits 10 n, c.isDigit = true := fun _ hc => Nat.isDigit_of_mem_toDigits (by omega) (by omega) hc
  revert hne hd
  generalize Nat.toDigits 10 n = s
  intro hne h
  have hok : okWord s = true := by simp [okWord, List.all_eq_true.2 h]
  cases s with
  | nil => exact absurd rfl hne
  | cons d s =>
    have hc := wordChar_digit (h d (by simp))
    have h1 : run .plain [d] = some ([], .word [d]) := by simp [run, step, plainStep, hc]
    have h2 := run_word (s := s) (fun c hc => h c (by simp [hc])) [d]
    have h3 : run (.word (d :: s)) [c] = some (.word (d :: s) :: ts, .plain) := by
      simp [run, step, hok, hw, hp]
    have := run_append_of (run_append_of h1 h2) h3
    simpa using this

/-- Numerals with spaces between them, and the end of the line. -/
theorem run_numerals (ns : List Nat) :
    run .plain (joinText [' '] (ns.map (Nat.toDigits 10)) ++ ['\n']) =
      some (ns.map fun n => .word (Nat.toDigits 10 n), .plain) := by
  induction ns with
  | nil => rfl
  | cons n ns ih =>
    cases ns with
    | nil => exact run_numeral_end (c := '\n') (by decide) (by decide) n
    | cons m ns =>
      have := run_append_of (run_toDigits n) ih
      simpa [joinText] using this

theorem run_line (n d : Nat) {label : Text} (h : Smooth label) :
    run .plain ('\t' :: (Nat.toDigits 10 n ++ " -> ".toList ++ Nat.toDigits 10 d ++ " [label = \"".toList ++
      label ++ "\"];".toList)) = some (edgeToks n d label ++ [.semi], .plain) := by
  have h1 : run .plain ['\t'] = some ([], .plain) := by decide
  have h2 : run .plain "-> ".toList = some ([.arrow], .plain) := by decide
  have h3 : run .plain "[label = ".toList = some ([.lbracket, .word "label".toList, .eq], .plain) := by decide
  have h4 : run .plain "];".toList = some ([.rbracket, .semi], .plain) := by decide
  have := run_append_of (run_append_of (run_append_of (run_append_of (run_append_of (run_append_of h1
    (run_toDigits n)) h2) (run_toDigits d)) h3) (run_quoted h)) h4
  simpa [edgeToks] using this

theorem run_joined {α : Type} (f : α → Text) (t : α → List Tok) (xs : List α)
    (h : ∀ x ∈ xs, run .plain (f x) = some (t x, .plain)) :
    run .plain (joinText ['\n'] (xs.map f)) = some (xs.flatMap t, .plain) := by
  induction xs with
  | nil => rfl
  | cons x xs ih =>
    have h1 : run .plain ['\n'] = some ([], .plain) := by decide
    cases xs with
    | nil => simpa [joinText] using h x (by simp)
    | cons y ys =>
      have := run_append_of (run_append_of (h x (by simp)) h1) (ih fun z hz => h z (by simp [hz]))
      simpa [joinText] using this

theorem statements_lines {α : Type} (id dest : α → Nat) (label : α → Text) (xs : List α) (f : Nat) (ds : Attrs)
    (r : List Tok) :
    statements (f + 2 * xs.length) ds (xs.flatMap (fun x => edgeToks (id x) (dest x) (label x) ++ [.semi]) ++ r) =
      (statements f ds r).map fun g =>
        ⟨g.nodes, xs.map (fun x => (Nat.toDigits 10 (id x), Nat.toDigits 10 (dest x),
            [("label".toList, label x)])) ++ g.edges,
          xs.flatMap (fun x => [(Nat.toDigits 10 (id x), ds), (Nat.toDigits 10 (dest x), ds)]) ++ g.mentions⟩ := by
  induction xs with
  | nil => simp
  | cons x xs ih =>
    rw [show f + 2 * (x :: xs).length = f + 2 * xs.length + 1 + 1 by simp; omega, List.flatMap_cons,
      List.append_assoc, List.append_assoc, statements_edge, List.singleton_append, statements, ih, Option.map_map]
    rfl

/-- Numerals in front of something else than attributes, `=` and `->`. -/
theorem statements_names (ns : List Nat) (f : Nat) (ds : Attrs) (r : List Tok) (t : Tok) (h1 : t ≠ .lbracket)
    (h2 : t ≠ .eq) (h3 : t ≠ .arrow) :
    statements (f + ns.length) ds (ns.map (fun n => .word (Nat.toDigits 10 n)) ++ t :: r) =
      (statements f ds (t :: r)).map fun g =>
        ⟨ns.map (fun n => (Nat.toDigits 10 n, [])) ++ g.nodes, g.edges,
          ns.map (fun n => (Nat.toDigits 10 n, ds)) ++ g.mentions⟩ := by
  induction ns with
  | nil => simp
  | cons n ns ih =>
    have hnext : ∃ t' r', ns.map (fun n => Tok.word (Nat.toDigits 10 n)) ++ t :: r = t' :: r' ∧ t' ≠ .lbracket ∧
        t' ≠ .eq ∧ t' ≠ .arrow := by
      cases ns with
      | nil => exact ⟨t, r, rfl, h1, h2, h3⟩
      | cons m ns => exact ⟨_, _, rfl, by simp, by simp, by simp⟩
    obtain ⟨t', r', e, g1, g2, g3⟩ := hnext
    have hs : ∀ k, statements (k + 1) ds (.word (Nat.toDigits 10 n) :: t' :: r') =
        (statements k ds (t' :: r')).map fun g => g.addNode ds (Nat.toDigits 10 n) [] := by
      intro k
      have hal : attrList (t' :: r') = some ([], t' :: r') := by
        cases t' <;> first | rfl | exact absurd rfl g1
      rw [statements]
      · simp only [not_node, if_false, name_toDigits, hal]
      all_goals simp_all
    rw [show f + (n :: ns).length = f + ns.length + 1 by simp; omega, List.map_cons, List.cons_append, e, hs, ← e, ih,
      Option.map_map]
    rfl

theorem attrs_shape (w : Text) (hw : keyword w = false) (r : List Tok) :
    attrs (.word "shape".toList :: .eq :: .word w :: .rbracket :: r) = some ([("shape".toList, w)], r) := by
  have h : keyword ['s', 'h', 'a', 'p', 'e'] = false := by decide
  simp [attrs, attrs.add, h, hw, Tok.name?]

/-- The tokens in front of the final states. -/
def nfaHead : List Tok :=
  [.word "digraph".toList, .word "nfa".toList, .lbrace, .word "rankdir".toList, .eq, .word "LR".toList, .semi,
    .word "node".toList, .lbracket, .word "shape".toList, .eq, .word "doublecircle".toList, .rbracket, .semi]

/-- The tokens behind them. -/
def nfaMiddle : List Tok :=
  [.word "node".toList, .lbracket, .word "shape".toList, .eq, .word "circle".toList, .rbracket, .semi,
    .word (Nat.toDigits 10 0), .semi]

/-- The defaults for the final states and for the others. -/
def doubleDefaults : Attrs := [("shape".toList, "doublecircle".toList)]
def singleDefaults : Attrs := ("shape".toList, "circle".toList) :: doubleDefaults

theorem statements_nfaHead (f : Nat) (r : List Tok) :
    statements (f + 4) [] (nfaHead.drop 3 ++ r) = statements f doubleDefaults r := by
  have h1 : (Tok.word "rankdir".toList).name? = some "rankdir".toList := by decide
  have h2 : (Tok.word "LR".toList).name? = some "LR".toList := by decide
  have h3 := attrs_shape "doublecircle".toList (by decide)
  have h5 : Tok.word "node".toList = .word ['n', 'o', 'd', 'e'] := rfl
  simp only [nfaHead, List.drop_succ_cons, List.drop_zero, List.cons_append, List.nil_append, statements, h1, h2,
    h3, h5, attrList, if_true, List.append_nil, doubleDefaults]

theorem statements_nfaMiddle (f : Nat) (r : List Tok) :
    statements (f + 4) doubleDefaults (nfaMiddle ++ r) =
      (statements f singleDefaults r).map fun g => g.addNode singleDefaults (Nat.toDigits 10 0) [] := by
  have h3 := attrs_shape "circle".toList (by decide)
  have h5 : Tok.word "node".toList = .word ['n', 'o', 'd', 'e'] := rfl
  simp only [nfaMiddle, List.cons_append, List.nil_append, statements, h3, h5, attrList, if_true, not_node, if_false,
    name_toDigits]
  rfl

theorem read_nfa {α : Type} {text : Text} {ns : List Nat} {id dest : α → Nat} {label : α → Text} {xs : List α}
    (h : run .plain text = some (nfaHead ++ ns.map (fun n => .word (Nat.toDigits 10 n)) ++ nfaMiddle ++
      xs.flatMap (fun x => edgeToks (id x) (dest x) (label x) ++ [.semi]) ++ [.rbrace], .plain)) :
    read text = some ⟨ns.map (fun n => (Nat.toDigits 10 n, [])) ++ [(Nat.toDigits 10 0, [])],
      xs.map (fun x => (Nat.toDigits 10 (id x), Nat.toDigits 10 (dest x), [("label".toList, label x)])),
      ns.map (fun n => (Nat.toDigits 10 n, doubleDefaults)) ++ (Nat.toDigits 10 0, singleDefaults) ::
        xs.flatMap (fun x => [(Nat.toDigits 10 (id x), singleDefaults), (Nat.toDigits 10 (dest x), singleDefaults)])⟩ := by
  have ht : tokens text = some (.word "digraph".toList :: .word "nfa".toList :: .lbrace :: (nfaHead.drop 3 ++
      (ns.map (fun n => .word (Nat.toDigits 10 n)) ++ (nfaMiddle ++
      (xs.flatMap (fun x => edgeToks (id x) (dest x) (label x) ++ [.semi]) ++ [.rbrace]))))) := by
    unfold tokens
    rw [h]
    simp [nfaHead]
  have hn : (Tok.word "nfa".toList).name?.isSome = true := by decide
  have hd : "digraph".toList = ['d', 'i', 'g', 'r', 'a', 'p', 'h'] := rfl
  unfold read
  rw [ht, hd]
  simp only [hn, if_true]
  clear h ht
  have hx : (xs.flatMap (fun x => edgeToks (id x) (dest x) (label x) ++ [.semi])).length = 9 * xs.length := by
    induction xs with
    | nil => rfl
    | cons x xs ih => simp only [List.flatMap_cons, List.length_append, ih, List.length_cons]; simp [edgeToks]; omega
  have hl : (nfaHead.drop 3 ++ (ns.map (fun n => Tok.word (Nat.toDigits 10 n)) ++ (nfaMiddle ++
      (xs.flatMap (fun x => edgeToks (id x) (dest x) (label x) ++ [Tok.semi]) ++ [Tok.rbrace])))).length + 1 =
      (13 + 7 * xs.length) + 1 + 2 * xs.length + 4 + ns.length + 4 := by
    simp only [List.length_append, hx, List.length_singleton, List.length_map]
    simp only [nfaHead, nfaMiddle, List.drop_succ_cons, List.drop_zero, List.length_cons, List.length_nil]
    omega
  rw [hl, statements_nfaHead]
  have hm : nfaMiddle = .word "node".toList :: nfaMiddle.tail := rfl
  rw [hm, List.cons_append, statements_names _ _ _ _ _ (by simp) (by simp) (by simp), ← List.cons_append, ← hm,
    statements_nfaMiddle, statements_lines]
  simp [statements, Graph.addNode]

end Pango.Spec.Dot

namespace Pango.Fsm

open Pango Pango.Regex Pango.Lex Pango.Spec Pango.Props
open Pango.Parse (joinText)

theorem Fr.Shape.out {fr : Fr} {s t : Nat} (h : fr.Shape s t) : ∃ i y, fr.Edge s i y := by
  induction fr generalizing s t with
  | eps s' t' => exact ⟨.eps, t, h.1.symm, rfl, h.2.symm⟩
  | lit s' t' l => exact ⟨.literal l, t, h.1.symm, rfl, h.2.symm⟩
  | alt a b iha _ => obtain ⟨i, y, hy⟩ := iha h.1; exact ⟨i, y, .inl hy⟩
  | seq a m b iha _ => obtain ⟨i, y, hy⟩ := iha h.1; exact ⟨i, y, .inl hy⟩
  | loop s' x t' q body _ => exact ⟨.eps, x, .inl ⟨h.1.symm, rfl, rfl⟩⟩

/-- No state of a fragment is without a way out. -/
theorem Fr.Shape.inner_out {fr : Fr} {s t : Nat} (h : fr.Shape s t) {x : Nat} (hx : x ∈ fr.inner) :
    ∃ i y, fr.Edge x i y := by
  induction fr generalizing s t with
  | eps s' t' => cases hx
  | lit s' t' l => cases hx
  | alt a b iha ihb =>
    rcases List.mem_append.1 hx with hx | hx
    · obtain ⟨i, y, hy⟩ := iha h.1 hx; exact ⟨i, y, .inl hy⟩
    · obtain ⟨i, y, hy⟩ := ihb h.2 hx; exact ⟨i, y, .inr hy⟩
  | seq a m b iha ihb =>
    rcases List.mem_cons.1 hx with rfl | hx
    · obtain ⟨i, y, hy⟩ := h.2.out; exact ⟨i, y, .inr hy⟩
    rcases List.mem_append.1 hx with hx | hx
    · obtain ⟨i, y, hy⟩ := iha h.1 hx; exact ⟨i, y, .inl hy⟩
    · obtain ⟨i, y, hy⟩ := ihb h.2 hx; exact ⟨i, y, .inr hy⟩
  | loop s' x' t' q body ih =>
    rcases List.mem_cons.1 hx with rfl | hx
    · exact ⟨.quantified q, t', .inr (.inl ⟨rfl, rfl, rfl⟩)⟩
    · obtain ⟨i, y, hy⟩ := ih h.2.2 hx; exact ⟨i, y, .inr (.inr hy)⟩

mutual

/-- All states that are made for an expression belong to its fragment. -/
theorem frag_inner_all (e : Expr) (s t n : Nat) : ∀ x, n ≤ x → x < (frag e s t n).2 → x ∈ (frag e s t n).1.inner := by
  intro x h1 h2
  match e with
  | .concat es => rw [frag] at h2 ⊢; exact fragConcat_inner_all es s t n x h1 h2
  | .empty => simp only [frag] at h2; omega
  | .alt l r =>
    simp only [frag] at h2 ⊢
    rw [Fr.inner]
    by_cases h : x < (frag l s t n).2
    · exact List.mem_append_left _ (frag_inner_all l s t n x h1 h)
    · exact List.mem_append_right _ (frag_inner_all r s t _ x (by omega) h2)
  | .lit l none => simp only [frag] at h2; omega
  | .lit l (some q) =>
    simp only [frag] at h2 ⊢
    simp [Fr.inner]
    omega
  | .group e none => rw [frag] at h2 ⊢; exact frag_inner_all e s t n x h1 h2
  | .group e (some q) =>
    simp only [frag] at h2 ⊢
    rw [Fr.inner]
    by_cases h : x = n
    · simp [h]
    · exact List.mem_cons_of_mem _ (frag_inner_all e n n (n + 1) x (by omega) h2)

theorem fragConcat_inner_all (es : List Expr) (s t n : Nat) :
    ∀ x, n ≤ x → x < (fragConcat es s t n).2 → x ∈ (fragConcat es s t n).1.inner := by
  intro x h1 h2
  match es with
  | [] => simp only [fragConcat] at h2; omega
  | [e] => rw [fragConcat] at h2 ⊢; exact frag_inner_all e s t n x h1 h2
  | e :: e' :: es =>
    simp only [fragConcat] at h2 ⊢
    rw [Fr.inner]
    by_cases h : x = n
    · simp [h]
    refine List.mem_cons_of_mem _ ?_
    by_cases h' : x < (frag e s n (n + 1)).2
    · exact List.mem_append_left _ (frag_inner_all e s n (n + 1) x (by omega) h')
    · exact List.mem_append_right _ (fragConcat_inner_all (e' :: es) n t _ x (by omega) h2)

end

/-- Every state is one of those that are known. -/
def Full (nfa : Nfa) (rs : List (Fr × Nat)) : Prop :=
  ∀ x, x < nfa.states.length → x = 0 ∨ x = 1 ∨ x ∈ rs.flatMap (fun r => r.2 :: r.1.inner)

theorem addTokens_full {K : Type} {p : Profile} {rules : List (List Char × (List Char → K))} :
    ∀ {g g' : LexerGenerator K} {rs : List (Fr × Nat)}, GoodGenerator g rs → Full g.compiler.nfa rs →
    g.addTokens p rules = .ok (.ok g') → ∃ rs', GoodGenerator g' rs' ∧ Full g'.compiler.nfa rs' := by
  induction rules with
  | nil =>
    intro g g' rs hg hf h
    simp only [LexerGenerator.addTokens, Outcome.ok.injEq, Except.ok.injEq] at h
    subst h
    exact ⟨rs, hg, hf⟩
  | cons r rules ih =>
    intro g g' rs hg hf h
    obtain ⟨pattern, gen⟩ := r
    simp only [LexerGenerator.addTokens, Outcome.bind_eq_ok] at h
    obtain ⟨x, hx, h⟩ := h
    cases x with
    | error es => simp at h
    | ok g1 =>
      have hp : ∃ e, parse p pattern = .ok (.ok e) := by
        simp only [LexerGenerator.addToken, Outcome.bind_eq_ok] at hx
        obtain ⟨y, hy, hx⟩ := hx
        cases y with
        | error es => simp at hx
        | ok e => exact ⟨e, hy⟩
      obtain ⟨e, hp⟩ := hp
      obtain ⟨k1, k2⟩ := addToken_good hg gen hp
      by_cases he : HasEmptySeq e
      · rw [k2 he] at hx; cases hx
      obtain ⟨g2, fr, e1, e2, e3, e4, e5⟩ := k1 he
      rw [e1] at hx
      cases hx
      refine ih e2 ?_ h
      intro x hx
      rw [e5] at hx
      simp only [List.flatMap_append, List.mem_append, List.flatMap_cons, List.flatMap_nil, List.append_nil,
        List.mem_cons]
      by_cases h1 : x < g.compiler.nfa.states.length
      · rcases hf x h1 with h2 | h2 | h2
        · exact .inl h2
        · exact .inr (.inl h2)
        · exact .inr (.inr (.inl h2))
      · by_cases h2 : x = g.compiler.nfa.states.length
        · exact .inr (.inr (.inr (.inl h2)))
        · subst e3
          exact .inr (.inr (.inr (.inr (frag_inner_all e _ _ _ x (by omega) hx))))

/-- The states of a lexer: all of them are the start, final, or have a way out. -/
theorem buildLexer_drawn {K : Type} {p : Profile} {patterns : List (List Char × (List Char → K))} {l : Lexer K}
    (h : buildLexer p patterns = .ok (.ok l)) :
    Wf l.nfa ∧ ∀ x, x < l.nfa.states.length → x = 0 ∨ l.nfa.IsFinal x ∨ ∃ i y, l.nfa.HasEdge x i y := by
  simp only [buildLexer, Outcome.bind_eq_ok] at h
  obtain ⟨x, hx, h⟩ := h
  cases x with
  | error es => simp at h
  | ok g =>
    obtain ⟨rs, h1, h2⟩ := addTokens_full goodGenerator_new (by
      intro x hx
      have : x < 2 := hx
      omega) hx
    have hb : g.build = .ok ⟨g.compiler.nfa, g.tokens⟩ := by
      simp [LexerGenerator.build, build_ok h1.bundle.wf]
    simp only [hb] at h
    simp only [Outcome.bind_ok, Outcome.pure_eq, Outcome.ok.injEq, Except.ok.injEq] at h
    subst h
    refine ⟨h1.bundle.wf, fun x hx => ?_⟩
    rcases h2 x hx with h3 | h3 | h3
    · exact .inl h3
    · exact .inr (.inl ((h1.bundle.finals x).2 (.inl h3)))
    · obtain ⟨r, hr, h4⟩ := List.mem_flatMap.1 h3
      rcases List.mem_cons.1 h4 with h5 | h5
      · exact .inr (.inl ((h1.bundle.finals x).2 (.inr ⟨r, hr, h5⟩)))
      · obtain ⟨i, y, hy⟩ := (h1.bundle.shape r hr).inner_out h5
        exact .inr (.inr ⟨i, y, (h1.bundle.edges _ _ _).2 ⟨r, hr, hy⟩⟩)

/-- Texts of which none begins with another one. -/
def Code {α : Type} (f : α → List Char) : Prop := ∀ a b r r', f a ++ r = f b ++ r' → a = b ∧ r = r'

theorem code_class : Code classDebug := by
  intro a b r r' h
  have key : ∀ a b : ClassKind, classDebug a <+: classDebug b → a = b := by
    intro a b
    cases a <;> cases b <;> decide
  have hab : a = b := by
    rcases List.prefix_or_prefix_of_prefix (List.prefix_append (classDebug a) r) (h ▸ List.prefix_append (classDebug b) r')
      with h1 | h1
    · exact key _ _ h1
    · exact (key _ _ h1).symm
  subst hab
  exact ⟨rfl, List.append_cancel_left h⟩

theorem code_glit {showC : Char → List Char} (hc : Code showC) : Code (gLitDebug showC) := by
  intro a b r r' h
  cases a <;> cases b <;> simp [gLitDebug, tupleDebug, joinText] at h ⊢
  · obtain ⟨h1, h2⟩ := hc _ _ _ _ h; simpa [h1] using h2
  · obtain ⟨h1, h2⟩ := code_class _ _ _ _ h; simpa [h1] using h2
  · obtain ⟨h1, h2⟩ := hc _ _ _ _ h
    simp at h2
    obtain ⟨h3, h4⟩ := hc _ _ _ _ h2
    simpa [h1, h3] using h4

theorem glit_head (showC : Char → List Char) (a : GLit) (r r' : List Char) : gLitDebug showC a ++ r ≠ ']' :: r' := by
  cases a <;> simp [gLitDebug, tupleDebug]

theorem code_glits {showC : Char → List Char} (hc : Code showC) (xs ys : List GLit) (r r' : List Char)
    (h : joinText [',', ' '] (xs.map (gLitDebug showC)) ++ ']' :: r =
      joinText [',', ' '] (ys.map (gLitDebug showC)) ++ ']' :: r') : xs = ys ∧ r = r' := by
  induction xs generalizing ys with
  | nil =>
    match ys with
    | [] => simpa [joinText] using h
    | [y] => exact absurd (by simpa [joinText] using h.symm) (glit_head showC y (']' :: r') r)
    | y :: y' :: ys => exact absurd (by simpa [joinText] using h.symm) (glit_head showC y _ r)
  | cons x xs ih =>
    match ys with
    | [] =>
      match xs with
      | [] => exact absurd (by simpa [joinText] using h) (glit_head showC x (']' :: r) r')
      | x' :: xs => exact absurd (by simpa [joinText] using h) (glit_head showC x _ r')
    | y :: ys =>
      match xs, ys with
      | [], [] =>
        obtain ⟨h1, h2⟩ := code_glit hc _ _ _ _ (by simpa only [joinText, List.map_cons, List.map_nil] using h)
        simpa [h1] using h2
      | [], y' :: ys =>
        obtain ⟨h1, h2⟩ := code_glit hc _ _ _ _ (by
          simpa only [joinText, List.map_cons, List.map_nil, List.append_assoc] using h)
        simp at h2
      | x' :: xs, [] =>
        obtain ⟨h1, h2⟩ := code_glit hc _ _ _ _ (by
          simpa only [joinText, List.map_cons, List.map_nil, List.append_assoc] using h)
        simp at h2
      | x' :: xs, y' :: ys =>
        obtain ⟨h1, h2⟩ := code_glit hc _ _ _ _ (by
          simpa only [joinText, List.map_cons, List.map_nil, List.append_assoc] using h)
        simp only [List.cons_append, List.nil_append, List.cons.injEq, true_and] at h2
        obtain ⟨h3, h4⟩ := ih (y' :: ys) (by simpa only [joinText, List.map_cons] using h2)
        exact ⟨by rw [h1, h3], h4⟩

theorem litDebug_group_eq (showC : Char → List Char) (n : Bool) (ls : List GLit) : litDebug showC (.group n ls) =
    "Group { negated: ".toList ++ (if n then "true".toList else "false".toList) ++ ", literals: ".toList ++
      tupleDebug "W" [['['] ++ joinText [',', ' '] (ls.map (gLitDebug showC)) ++ [']']] ++ " }".toList := rfl

theorem litDebug_group (showC : Char → List Char) (n : Bool) (ls : List GLit) :
    ∃ r, litDebug showC (.group n ls) = 'G' :: r := by
  have h : "Group { negated: ".toList = 'G' :: "roup { negated: ".toList := by decide
  rw [litDebug_group_eq, h]
  exact ⟨_, rfl⟩

theorem litDebug_mtch (showC : Char → List Char) (c : Char) :
    litDebug showC (.mtch c) = ['M', 'a', 't', 'c', 'h', '('] ++ showC c ++ [')'] := rfl

theorem litDebug_cls (showC : Char → List Char) (c : ClassKind) :
    litDebug showC (.cls c) = ['C', 'l', 'a', 's', 's', '('] ++ classDebug c ++ [')'] := rfl

theorem code_lit {showC : Char → List Char} (hc : Code showC) : Code (litDebug showC) := by
  intro a b r r' h
  cases a with
  | mtch c => cases b with
    | mtch d =>
      simp only [litDebug_mtch, List.append_assoc] at h
      obtain ⟨h1, h2⟩ := hc _ _ _ _ (List.append_cancel_left h); simpa [h1] using h2
    | cls k => simp [litDebug_mtch, litDebug_cls] at h
    | group n ls => obtain ⟨x, hx⟩ := litDebug_group showC n ls; simp [litDebug_mtch, hx] at h
  | cls c => cases b with
    | mtch d => simp [litDebug_mtch, litDebug_cls] at h
    | cls k =>
      simp only [litDebug_cls, List.append_assoc] at h
      obtain ⟨h1, h2⟩ := code_class _ _ _ _ (List.append_cancel_left h); simpa [h1] using h2
    | group n ls => obtain ⟨x, hx⟩ := litDebug_group showC n ls; simp [litDebug_cls, hx] at h
  | group m ks => cases b with
    | mtch d => obtain ⟨x, hx⟩ := litDebug_group showC m ks; simp [litDebug_mtch, hx] at h
    | cls k => obtain ⟨x, hx⟩ := litDebug_group showC m ks; simp [litDebug_cls, hx] at h
    | group n ls =>
      have hb : ∀ r r' : List Char, (if m then "true".toList else "false".toList) ++ r =
          (if n then "true".toList else "false".toList) ++ r' → m = n ∧ r = r' := by
        intro r r' h
        cases m <;> cases n <;> simp at h ⊢ <;> exact h
      have hg : ∀ x y : List Char, tupleDebug "W" [x] ++ y = ['W', '('] ++ (x ++ ([')'] ++ y)) := by
        intro x y; simp [tupleDebug, joinText]
      simp only [litDebug_group_eq, List.append_assoc, hg] at h
      have h1 := List.append_cancel_left h
      obtain ⟨rfl, h2⟩ := hb _ _ h1
      have h3 := List.append_cancel_left (List.append_cancel_left h2)
      simp only [List.singleton_append, List.cons.injEq, true_and] at h3
      obtain ⟨h4, h5⟩ := code_glits hc _ _ _ _ h3
      refine ⟨by rw [h4], ?_⟩
      simpa using h5

theorem digits_end {n m : Nat} {c d : Char} {r r' : List Char} (hc : c.isDigit = false) (hd : d.isDigit = false)
    (h : Nat.toDigits 10 n ++ c :: r = Nat.toDigits 10 m ++ d :: r') : n = m ∧ c :: r = d :: r' := by
  have h1 := congrArg (List.takeWhile Char.isDigit) h
  have key : ∀ (n : Nat) (c : Char) (r : List Char), c.isDigit = false →
      (Nat.toDigits 10 n ++ c :: r).takeWhile Char.isDigit = Nat.toDigits 10 n := by
    intro n c r hc
    rw [List.takeWhile_append_of_pos (fun x hx => Nat.isDigit_of_mem_toDigits (by omega) (by omega) hx)]
    simp [hc]
  rw [key _ _ _ hc, key _ _ _ hd] at h1
  refine ⟨by rw [← Nat.ofDigitChars_ten_toDigits (n := n), h1, Nat.ofDigitChars_ten_toDigits], ?_⟩
  rw [h1] at h
  exact List.append_cancel_left h

/-- The kind of a quantifier. -/
def quantTag : Quant → Fin 6
  | .asterisk => 0
  | .plus => 1
  | .questionMark => 2
  | .max _ => 3
  | .min _ => 4
  | .range _ _ => 5

/-- The text for a kind of quantifiers up to the numbers. -/
def quantHead : Fin 6 → List Char
  | 0 => "Asterisk".toList
  | 1 => "Plus".toList
  | 2 => "QuestionMark".toList
  | 3 => "Range(Max(".toList
  | 4 => "Range(Min(".toList
  | 5 => "Range(Range(".toList

/-- The numbers. -/
def quantTail : Quant → List Char
  | .max n => Nat.toDigits 10 n ++ "))".toList
  | .min n => Nat.toDigits 10 n ++ "))".toList
  | .range lo hi => Nat.toDigits 10 lo ++ ", ".toList ++ Nat.toDigits 10 hi ++ "))".toList
  | _ => []

theorem quant_split (q : Quant) : quantDebug q = quantHead (quantTag q) ++ quantTail q := by
  cases q with
  | asterisk => rfl
  | plus => rfl
  | questionMark => rfl
  | max n => 
    show "Range".toList ++ ['('] ++ ("Max".toList ++ ['('] ++ Nat.toDigits 10 n ++ [')']) ++ [')'] =
      "Range(Max(".toList ++ (Nat.toDigits 10 n ++ "))".toList)
    rw [show "Range(Max(".toList = "Range".toList ++ ['('] ++ "Max".toList ++ ['('] by decide,
      show "))".toList = [')'] ++ [')'] by decide]
    simp only [List.append_assoc]
  | min n =>
    show "Range".toList ++ ['('] ++ ("Min".toList ++ ['('] ++ Nat.toDigits 10 n ++ [')']) ++ [')'] =
      "Range(Min(".toList ++ (Nat.toDigits 10 n ++ "))".toList)
    rw [show "Range(Min(".toList = "Range".toList ++ ['('] ++ "Min".toList ++ ['('] by decide,
      show "))".toList = [')'] ++ [')'] by decide]
    simp only [List.append_assoc]
  | range n m =>
    show "Range".toList ++ ['('] ++ ("Range".toList ++ ['('] ++ (Nat.toDigits 10 n ++ [',', ' '] ++ Nat.toDigits 10 m) ++
      [')']) ++ [')'] = "Range(Range(".toList ++ (Nat.toDigits 10 n ++ ", ".toList ++ Nat.toDigits 10 m ++ "))".toList)
    rw [show "Range(Range(".toList = "Range".toList ++ ['('] ++ "Range".toList ++ ['('] by decide,
      show "))".toList = [')'] ++ [')'] by decide, show ", ".toList = [',', ' '] by decide]
    simp only [List.append_assoc]

theorem quant_inj {a b : Quant} {r r' : List Char} (h : quantDebug a ++ r = quantDebug b ++ r') : a = b := by
  have key : ∀ i j : Fin 6, quantHead i <+: quantHead j → i = j := by decide
  rw [quant_split, quant_split, List.append_assoc, List.append_assoc] at h
  have hab : quantTag a = quantTag b := by
    rcases List.prefix_or_prefix_of_prefix (List.prefix_append (quantHead (quantTag a)) (quantTail a ++ r))
      (h ▸ List.prefix_append (quantHead (quantTag b)) (quantTail b ++ r')) with h1 | h1
    · exact key _ _ h1
    · exact (key _ _ h1).symm
  rw [hab] at h
  have ht := List.append_cancel_left h
  clear h key
  have e2 : "))".toList = ')' :: [')'] := by decide
  have e3 : ", ".toList = ',' :: [' '] := by decide
  have d1 : ')'.isDigit = false := by decide
  have d2 : ','.isDigit = false := by decide
  cases a with
  | asterisk => cases b <;> first | rfl | (simp [quantTag] at hab)
  | plus => cases b <;> first | rfl | (simp [quantTag] at hab)
  | questionMark => cases b <;> first | rfl | (simp [quantTag] at hab)
  | max n =>
    cases b with
    | max m =>
      replace ht : (Nat.toDigits 10 n ++ "))".toList) ++ r = (Nat.toDigits 10 m ++ "))".toList) ++ r' := ht
      rw [e2, List.append_assoc, List.append_assoc] at ht
      rw [(digits_end d1 d1 ht).1]
    | _ => simp [quantTag] at hab
  | min n =>
    cases b with
    | min m =>
      replace ht : (Nat.toDigits 10 n ++ "))".toList) ++ r = (Nat.toDigits 10 m ++ "))".toList) ++ r' := ht
      rw [e2, List.append_assoc, List.append_assoc] at ht
      rw [(digits_end d1 d1 ht).1]
    | _ => simp [quantTag] at hab
  | range n n' =>
    cases b with
    | range m m' =>
      replace ht : Nat.toDigits 10 n ++ ", ".toList ++ Nat.toDigits 10 n' ++ "))".toList ++ r =
        Nat.toDigits 10 m ++ ", ".toList ++ Nat.toDigits 10 m' ++ "))".toList ++ r' := ht
      rw [e2, e3] at ht
      simp only [List.append_assoc, List.cons_append, List.nil_append] at ht
      obtain ⟨h1, h2⟩ := digits_end d2 d2 ht
      simp only [List.cons.injEq, true_and] at h2
      rw [h1, (digits_end d1 d1 h2).1]
    | _ => simp [quantTag] at hab

/-- Inputs with the same label are the same. -/
theorem input_inj {showC : Char → List Char} (hc : Code showC) {a b : Input}
    (h : inputDebug showC a = inputDebug showC b) : a = b := by
  cases a <;> cases b <;> simp [inputDebug, tupleDebug, joinText] at h ⊢
  · exact (code_lit hc _ _ [] [] (by simpa using h)).1
  · exact quant_inj (r := []) (r' := []) (by simpa using h)
end Pango.Fsm
