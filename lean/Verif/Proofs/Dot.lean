import Verif.Spec.Dot
import Verif.Model.Dot

/-!
# Reading the printed automaton
-/

namespace Pango.Spec.Dot

theorem run_append (m : Mode) (a b : Text) :
    run m (a ++ b) = (run m a).bind fun r => (run r.2 b).map fun r' => (r.1 ++ r'.1, r'.2) := by
  induction a generalizing m with
  | nil => simp [run]
  | cons c a ih =>
    simp only [List.cons_append, run]
    cases step m c with
    | none => rfl
    | some r =>
      simp only [ih]
      cases run r.2 a with
      | none => rfl
      | some r' =>
        simp only [Option.bind_some]
        cases run r'.2 b <;> simp

theorem run_append_of {m m' m'' : Mode} {a b : Text} {s t : List Tok} (h1 : run m a = some (s, m'))
    (h2 : run m' b = some (t, m'')) : run m (a ++ b) = some (s ++ t, m'') := by
  simp [run_append, h1, h2]

/-- Texts that stay as they are inside a quoted string. -/
def Smooth (s : Text) : Prop := ∀ w, run (.quoted w) s = some ([], .quoted (w ++ s))

theorem Smooth.append {a b : Text} (ha : Smooth a) (hb : Smooth b) : Smooth (a ++ b) := fun w => by
  have := run_append_of (ha w) (hb (w ++ a))
  simpa using this

theorem smooth_nil : Smooth [] := fun w => by simp [run]

theorem smooth_newline : Smooth ['\\', 'n'] := fun w => by simp [run, step]

theorem smooth_of {s : Text} (h : ∀ c ∈ s, c ≠ '"' ∧ c ≠ '\\') : Smooth s := by
  induction s with
  | nil => exact smooth_nil
  | cons c s ih =>
    intro w
    have hc := h c (by simp)
    have := ih (fun c hc => h c (by simp [hc])) (w ++ [c])
    simp [run, step, hc.1, hc.2, this]

theorem run_quoted {s : Text} (h : Smooth s) :
    run .plain ('"' :: s ++ ['"']) = some ([.quoted s], .plain) := by
  have h1 : run .plain ['"'] = some ([], .quoted []) := by decide
  have h2 : run (.quoted s) ['"'] = some ([.quoted s], .plain) := by simp [run, step]
  have := run_append_of (run_append_of h1 (h [])) h2
  simpa using this

theorem wordChar_digit {c : Char} (h : c.isDigit = true) : wordChar c = true := by
  simp [wordChar, Char.isAlphanum, h]

theorem run_word {s : Text} (h : ∀ c ∈ s, c.isDigit = true) (w : Text) :
    run (.word w) s = some ([], .word (w ++ s)) := by
  induction s generalizing w with
  | nil => simp [run]
  | cons c s ih =>
    have hc := wordChar_digit (h c (by simp))
    have := ih (fun c hc => h c (by simp [hc])) (w ++ [c])
    simp [run, step, hc, this]

/-- A numeral and a space. -/
theorem run_numeral {s : Text} (hne : s ≠ []) (h : ∀ c ∈ s, c.isDigit = true) :
    run .plain (s ++ [' ']) = some ([.word s], .plain) := by
  have hok : okWord s = true := by simp [okWord, List.all_eq_true.2 h]
  cases s with
  | nil => exact absurd rfl hne
  | cons c s =>
    have hc := wordChar_digit (h c (by simp))
    have h1 : run .plain [c] = some ([], .word [c]) := by simp [run, step, plainStep, hc]
    have h2 := run_word (s := s) (fun c hc => h c (by simp [hc])) [c]
    have h3 : run (.word (c :: s)) [' '] = some ([.word (c :: s)], .plain) := by
      have e1 : wordChar ' ' = false := by decide
      have e2 : plainStep ' ' = some ([], .plain) := by decide
      simp [run, step, hok, e1, e2]
    have := run_append_of (run_append_of h1 h2) h3
    simpa using this

theorem toDigits_ne_nil (n : Nat) : Nat.toDigits 10 n ≠ [] := by
  have := Nat.length_toDigits_pos (b := 10) (n := n)
  intro h
  simp [h] at this

theorem run_toDigits (n : Nat) :
    run .plain (Nat.toDigits 10 n ++ [' ']) = some ([.word (Nat.toDigits 10 n)], .plain) :=
  run_numeral (toDigits_ne_nil n) fun _ hc => Nat.isDigit_of_mem_toDigits (by omega) (by omega) hc

theorem toLower_digit {c : Char} (h : c.isDigit = true) : c.toLower = c := by
  simp only [Char.isDigit, ge_iff_le, Bool.and_eq_true, decide_eq_true_eq] at h
  simp only [Char.toLower]
  rw [dif_neg]
  rintro ⟨h1, h2⟩
  have := h.2
  have h3 : (57 : UInt32) < 65 := by decide
  exact absurd (UInt32.lt_of_lt_of_le h3 h1) (UInt32.not_lt.2 h.2)

theorem keyword_toDigits (n : Nat) : keyword (Nat.toDigits 10 n) = false := by
  have hne := toDigits_ne_nil n
  have hd : ∀ c ∈ Nat.toDigits 10 n, c.isDigit = true := fun _ hc => Nat.isDigit_of_mem_toDigits (by omega) (by omega) hc
  revert hne hd
  generalize Nat.toDigits 10 n = w
  intro hne hd
  cases w with
  | nil => exact absurd rfl hne
  | cons c w =>
    have hc := hd c (by simp)
    have hl := toLower_digit hc
    have key : ∀ k : List Char, k.head?.all (fun c => !c.isDigit) = true → (k == (c :: w).map Char.toLower) = false := by
      intro k hk
      rw [beq_eq_false_iff_ne]
      rintro rfl
      simp [hl, hc] at hk
    simp only [keyword, List.any_cons, List.any_nil]
    rw [key _ (by decide), key _ (by decide), key _ (by decide), key _ (by decide), key _ (by decide),
      key _ (by decide)]
    rfl

theorem name_toDigits (n : Nat) : (Tok.word (Nat.toDigits 10 n)).name? = some (Nat.toDigits 10 n) := by
  simp [Tok.name?, keyword_toDigits]

/-- The tokens of a node statement. -/
def nodeToks (n : Nat) (label : Text) : List Tok :=
  [.word (Nat.toDigits 10 n), .lbracket, .word "label".toList, .eq, .quoted label, .rbracket, .semi]

/-- The tokens of an edge statement. -/
def edgeToks (n d : Nat) (label : Text) : List Tok :=
  [.word (Nat.toDigits 10 n), .arrow, .word (Nat.toDigits 10 d), .lbracket, .word "label".toList, .eq,
    .quoted label, .rbracket]

theorem run_node (n : Nat) {label : Text} (h : Smooth label) :
    run .plain ('\t' :: (Nat.toDigits 10 n ++ " [label=\"".toList ++ label ++ "\"];".toList) ++ ['\n']) =
      some (nodeToks n label, .plain) := by
  have h1 : run .plain ['\t'] = some ([], .plain) := by decide
  have h2 : run .plain "[label=".toList = some ([.lbracket, .word "label".toList, .eq], .plain) := by decide
  have h3 : run .plain "];\n".toList = some ([.rbracket, .semi], .plain) := by decide
  have := run_append_of (run_append_of (run_append_of (run_append_of h1 (run_toDigits n)) h2) (run_quoted h)) h3
  simpa [nodeToks] using this

theorem run_edge (n d : Nat) {label : Text} (h : Smooth label) :
    run .plain ('\t' :: (Nat.toDigits 10 n ++ " -> ".toList ++ Nat.toDigits 10 d ++ " [label = \"".toList ++
      label ++ "\"]".toList) ++ ['\n']) = some (edgeToks n d label, .plain) := by
  have h1 : run .plain ['\t'] = some ([], .plain) := by decide
  have h2 : run .plain "-> ".toList = some ([.arrow], .plain) := by decide
  have h3 : run .plain "[label = ".toList = some ([.lbracket, .word "label".toList, .eq], .plain) := by decide
  have h4 : run .plain "]\n".toList = some ([.rbracket], .plain) := by decide
  have := run_append_of (run_append_of (run_append_of (run_append_of (run_append_of (run_append_of h1
    (run_toDigits n)) h2) (run_toDigits d)) h3) (run_quoted h)) h4
  simpa [edgeToks] using this

theorem run_lines {α : Type} (f : α → Text) (t : α → List Tok) (xs : List α)
    (h : ∀ x ∈ xs, run .plain ('\t' :: f x ++ ['\n']) = some (t x, .plain)) :
    run .plain ((xs.map f).flatMap (fun l => '\t' :: l ++ ['\n'])) = some (xs.flatMap t, .plain) := by
  induction xs with
  | nil => rfl
  | cons x xs ih =>
    have := run_append_of (h x (by simp)) (ih fun y hy => h y (by simp [hy]))
    simpa using this

theorem attrs_label (label : Text) (r : List Tok) :
    attrs (.word "label".toList :: .eq :: .quoted label :: .rbracket :: r) =
      some ([("label".toList, label)], r) := by
  have h : keyword ['l', 'a', 'b', 'e', 'l'] = false := by decide
  simp [attrs, attrs.add, h, Tok.name?]

theorem not_node (n : Nat) : Tok.word (Nat.toDigits 10 n) ≠ .word ['n', 'o', 'd', 'e'] := by
  intro h
  have h1 := keyword_toDigits n
  rw [Tok.word.inj h] at h1
  revert h1
  decide

theorem statements_node (f : Nat) (ds : Attrs) (n : Nat) (label : Text) (r : List Tok) :
    statements (f + 2) ds (nodeToks n label ++ r) =
      (statements f ds r).map fun g => g.addNode ds (Nat.toDigits 10 n) [("label".toList, label)] := by
  simp only [nodeToks, List.cons_append, List.nil_append, statements, not_node, if_false, name_toDigits, attrList,
    attrs_label]

theorem statements_edge (f : Nat) (ds : Attrs) (n d : Nat) (label : Text) (r : List Tok) :
    statements (f + 1) ds (edgeToks n d label ++ r) =
      (statements f ds r).map fun g =>
        g.addEdge ds (Nat.toDigits 10 n) (Nat.toDigits 10 d) [("label".toList, label)] := by
  simp only [edgeToks, List.cons_append, List.nil_append, statements, name_toDigits, attrList, attrs_label]

theorem statements_nodes {α : Type} (id : α → Nat) (label : α → Text) (xs : List α) (f : Nat) (ds : Attrs)
    (r : List Tok) :
    statements (f + 2 * xs.length) ds (xs.flatMap (fun x => nodeToks (id x) (label x)) ++ r) =
      (statements f ds r).map fun g =>
        ⟨xs.map (fun x => (Nat.toDigits 10 (id x), [("label".toList, label x)])) ++ g.nodes, g.edges,
          xs.map (fun x => (Nat.toDigits 10 (id x), ds)) ++ g.mentions⟩ := by
  induction xs with
  | nil => simp
  | cons x xs ih =>
    rw [show f + 2 * (x :: xs).length = f + 2 * xs.length + 2 by simp; omega, List.flatMap_cons,
      List.append_assoc, statements_node, ih, Option.map_map]
    rfl

theorem statements_edges {α : Type} (id dest : α → Nat) (label : α → Text) (xs : List α) (f : Nat) (ds : Attrs)
    (r : List Tok) :
    statements (f + xs.length) ds (xs.flatMap (fun x => edgeToks (id x) (dest x) (label x)) ++ r) =
      (statements f ds r).map fun g =>
        ⟨g.nodes, xs.map (fun x => (Nat.toDigits 10 (id x), Nat.toDigits 10 (dest x),
            [("label".toList, label x)])) ++ g.edges,
          xs.flatMap (fun x => [(Nat.toDigits 10 (id x), ds), (Nat.toDigits 10 (dest x), ds)]) ++ g.mentions⟩ := by
  induction xs with
  | nil => simp
  | cons x xs ih =>
    rw [show f + (x :: xs).length = f + xs.length + 1 by simp; omega, List.flatMap_cons,
      List.append_assoc, statements_edge, ih, Option.map_map]
    rfl

/-- The tokens in front of the nodes. -/
def headToks : List Tok :=
  [.word "digraph".toList, .word "cfsm".toList, .lbrace, .word "rankdir".toList, .eq, .word "LR".toList, .semi,
    .word "node".toList, .lbracket, .word "shape".toList, .eq, .word "rectangle".toList, .rbracket, .semi]

theorem statements_head (f : Nat) (r : List Tok) :
    statements (f + 4) [] (headToks.drop 3 ++ r) = statements f [("shape".toList, "rectangle".toList)] r := by
  have h1 : (Tok.word "rankdir".toList).name? = some "rankdir".toList := by decide
  have h2 : (Tok.word "LR".toList).name? = some "LR".toList := by decide
  have h3 : ∀ r, attrs (.word "shape".toList :: .eq :: .word "rectangle".toList :: .rbracket :: r) =
      some ([("shape".toList, "rectangle".toList)], r) := by
    intro r
    have h3 : keyword ['s', 'h', 'a', 'p', 'e'] = false := by decide
    have h4 : keyword ['r', 'e', 'c', 't', 'a', 'n', 'g', 'l', 'e'] = false := by decide
    simp [attrs, attrs.add, h3, h4, Tok.name?]
  have h5 : Tok.word "node".toList = .word ['n', 'o', 'd', 'e'] := rfl
  simp only [headToks, List.drop_succ_cons, List.drop_zero, List.cons_append, List.nil_append, statements, h1, h2,
    h3, h5, attrList, if_true, List.append_nil]

theorem read_of_run {α β : Type} {text : Text} {id : α → Nat} {label : α → Text} {xs : List α}
    {src dst : β → Nat} {name : β → Text} {ys : List β}
    (h : run .plain text = some (headToks ++ xs.flatMap (fun x => nodeToks (id x) (label x)) ++
      ys.flatMap (fun y => edgeToks (src y) (dst y) (name y)) ++ [.rbrace], .plain)) :
    ∃ ms, read text = some ⟨xs.map fun x => (Nat.toDigits 10 (id x), [("label".toList, label x)]),
      ys.map fun y => (Nat.toDigits 10 (src y), Nat.toDigits 10 (dst y), [("label".toList, name y)]), ms⟩ := by
  have ht : tokens text = some (.word "digraph".toList :: .word "cfsm".toList :: .lbrace ::
      (headToks.drop 3 ++ (xs.flatMap (fun x => nodeToks (id x) (label x)) ++
      (ys.flatMap (fun y => edgeToks (src y) (dst y) (name y)) ++ [.rbrace])))) := by
    unfold tokens
    rw [h]
    simp [headToks]
  have hn : (Tok.word "cfsm".toList).name?.isSome = true := by decide
  have hd : "digraph".toList = ['d', 'i', 'g', 'r', 'a', 'p', 'h'] := rfl
  unfold read
  rw [ht, hd]
  simp only [hn, if_true]
  clear h ht
  have hx : (xs.flatMap (fun x => nodeToks (id x) (label x))).length = 7 * xs.length := by
    induction xs with
    | nil => rfl
    | cons x xs ih => simp only [List.flatMap_cons, List.length_append, ih, List.length_cons]; simp [nodeToks]; omega
  have hy : (ys.flatMap (fun y => edgeToks (src y) (dst y) (name y))).length = 8 * ys.length := by
    induction ys with
    | nil => rfl
    | cons y ys ih => simp only [List.flatMap_cons, List.length_append, ih, List.length_cons]; simp [edgeToks]; omega
  have hl : (headToks.drop 3 ++ (xs.flatMap (fun x => nodeToks (id x) (label x)) ++
      (ys.flatMap (fun y => edgeToks (src y) (dst y) (name y)) ++ [Tok.rbrace]))).length + 1 =
      (8 + 5 * xs.length + 7 * ys.length) + 1 + ys.length + 2 * xs.length + 4 := by
    simp only [List.length_append, hx, hy, List.length_singleton]
    simp only [headToks, List.drop_succ_cons, List.drop_zero, List.length_cons, List.length_nil]
    omega
  rw [hl, statements_head, statements_nodes, statements_edges]
  simp [statements]

theorem attr_label (label : Text) : attr [("label".toList, label)] "label" = some label := by
  simp [attr]

/-- Texts that a label shows as they are. -/
def Line (s : Text) : Prop := ∀ c ∈ s, c ≠ '"' ∧ c ≠ '\\' ∧ c ≠ '\n'

theorem Line.append {a b : Text} (ha : Line a) (hb : Line b) : Line (a ++ b) := fun c hc =>
  (List.mem_append.1 hc).elim (ha c) (hb c)

theorem Line.smooth {s : Text} (h : Line s) : Smooth s := smooth_of fun c hc => ⟨(h c hc).1, (h c hc).2.1⟩

theorem labelLines_ne {s : Text} {ls : List Text} (h : labelLines s = some ls) : ls ≠ [] := by
  unfold labelLines at h
  repeat' split at h
  all_goals first
    | (cases h; done)
    | (cases h; simp; done)
    | (simp only [Option.map_eq_some_iff] at h; obtain ⟨_, _, rfl⟩ := h; simp)

theorem labelLines_line {s : Text} (h : Line s) (r : Text) :
    labelLines (s ++ r) = (labelLines r).map fun ls => (s ++ ls.headD []) :: ls.tail := by
  induction s with
  | nil =>
    cases hr : labelLines r with
    | none => simp [hr]
    | some ls =>
      have := labelLines_ne hr
      cases ls with
      | nil => exact absurd rfl this
      | cons => simp [hr]
  | cons c s ih =>
    have hc := h c (by simp)
    have := ih fun c hc => h c (by simp [hc])
    rw [List.cons_append, labelLines.eq_3 _ _ (fun _ _ h _ => hc.2.1 h), if_neg hc.2.2, this]
    simp [Option.map_map, Function.comp_def]

theorem labelLines_join {xs : List Text} (hne : xs ≠ []) (h : ∀ x ∈ xs, Line x) :
    labelLines (Parse.joinText ['\\', 'n'] xs) = some xs := by
  induction xs with
  | nil => exact absurd rfl hne
  | cons x xs ih =>
    cases xs with
    | nil =>
      have := labelLines_line (h x (by simp)) []
      simpa [Parse.joinText, labelLines] using this
    | cons y xs =>
      have h1 := ih (by simp) fun z hz => h z (by simp [hz])
      rw [Parse.joinText, List.append_assoc, labelLines_line (h x (by simp))]
      simp [labelLines, h1]

theorem smooth_join {sep : Text} (hsep : Smooth sep) {xs : List Text} (h : ∀ x ∈ xs, Smooth x) :
    Smooth (Parse.joinText sep xs) := by
  induction xs with
  | nil => exact smooth_nil
  | cons x xs ih =>
    cases xs with
    | nil => exact h x (by simp)
    | cons y xs =>
      exact ((h x (by simp)).append hsep).append (ih fun z hz => h z (by simp [hz]))

theorem line_join {sep : Text} (hsep : Line sep) {xs : List Text} (h : ∀ x ∈ xs, Line x) :
    Line (Parse.joinText sep xs) := by
  induction xs with
  | nil => exact fun _ h => by simp [Parse.joinText] at h
  | cons x xs ih =>
    cases xs with
    | nil => exact h x (by simp)
    | cons y xs =>
      exact ((h x (by simp)).append hsep).append (ih fun z hz => h z (by simp [hz]))

end Pango.Spec.Dot
