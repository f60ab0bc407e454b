import Verif.Proofs.Compose
import Verif.Props.RegexAccept
import Verif.Props.Rewrite

/-!
# C92: patterns that are put together
-/

namespace Pango.Props

open Pango Pango.Lex Pango.Fsm Pango.Regex Pango.Spec

/-- C92 as stated: accepted patterns can be put together with `|`, with parentheses and with quantifiers, and the
result means what it says. -/
def PutTogether [Unicode] : Prop :=
  ∀ (p : Profile) (a b : List Char) (e1 e2 : Expr) (q : Quant), parse p a = .ok (.ok e1) →
    parse p b = .ok (.ok e2) → QuantFits (some q) →
    (∃ e, parse p (a ++ '|' :: b) = .ok (.ok e) ∧ ∀ w, Matches e w ↔ Matches e1 w ∨ Matches e2 w) ∧
    (∃ e, parse p ('(' :: a ++ ')' :: ('(' :: b ++ [')'])) = .ok (.ok e) ∧
      ∀ w, Matches e w ↔ ∃ u v, w = u ++ v ∧ Matches e1 u ∧ Matches e2 v) ∧
    ∃ e, parse p ('(' :: a ++ ')' :: quantText (some q)) = .ok (.ok e) ∧
      ∀ w, Matches e w ↔ ∃ ws : List (List Char), w = ws.flatten ∧ QuantSet (some q) ws.length ∧
        ∀ u ∈ ws, Matches e1 u

/-- C92 is false: `a)` is accepted, and so is `b`, but `a)|b` is read as `a`. -/
theorem c92_false [Unicode] : ¬ PutTogether := by
  intro h
  obtain ⟨⟨e, h1, h2⟩, -⟩ := h .debug "a)".toList "b".toList (.lit (.mtch 'a') none) (.lit (.mtch 'b') none) .asterisk
    rfl rfl trivial
  cases h1.symm.trans (show parse .debug ("a)".toList ++ '|' :: "b".toList) = .ok (.ok (.lit (.mtch 'a') none)) from rfl)
  have := (h2 ['b']).2 (.inr (mat_lit.2 ⟨rfl, by simp [LitSet]⟩))
  rw [mat_lit] at this
  simp [LitSet] at this

variable {p : Profile} {a b : List Char} {e e1 e2 : Expr}

/-- A text whose tokens are all read is accepted. -/
theorem _root_.Pango.Spec.Whole.parses (h : Whole p a e) : parse p a = .ok (.ok e) := by
  refine (c06_exact_partial p a e).2 (.inr ⟨_, [], (List.append_nil _).symm, ?_, .inr ⟨rfl, h.ends, ?_⟩⟩)
  · exact expression_relax (fun _ => rfl) h.tokens (.inl fun _ => rfl)
  · exact expression_closed rfl h.tokens

/-- C92 for texts that are read to the end: the trees of the patterns that are put together.  Missing: texts with a
right parenthesis that no left one belongs to, for which the claim is false, and the empty text. -/
theorem c92_trees_partial (h1 : Whole p a e1) (h2 : Whole p b e2) (q : Option Quant) (hq : QuantFits q) :
    Whole p (a ++ '|' :: b) (orTree e1 e2) ∧
    Whole p ('(' :: a ++ ')' :: ('(' :: b ++ [')'])) (.concat [.group e1 none, .group e2 none]) ∧
    Whole p ('(' :: a ++ ')' :: quantText q) (.group e1 q) := by
  refine ⟨h1.bar h2, h1.sequence h2, ?_⟩
  cases q with
  | none => exact h1.repeated .none rfl
  | some q =>
    obtain ⟨h3, h4⟩ := writes_quant p (.some q) hq []
    simp only [List.append_nil] at h3 h4
    refine h1.repeated ?_ h4
    rw [h3]
    exact .some q

/-- C92 for texts that are read to the end: what the patterns that are put together mean.  Missing: texts with a right
parenthesis that no left one belongs to, for which the claim is false, and the empty text. -/
theorem c92_partial [Unicode] (h1 : Whole p a e1) (h2 : Whole p b e2) (q : Quant) (hq : QuantFits (some q)) :
    parse p a = .ok (.ok e1) ∧ parse p b = .ok (.ok e2) ∧
    (∃ e, parse p (a ++ '|' :: b) = .ok (.ok e) ∧ ¬ HasEmptySeq e ∧ ∀ w, Matches e w ↔ Matches e1 w ∨ Matches e2 w) ∧
    (∃ e, parse p ('(' :: a ++ ')' :: ('(' :: b ++ [')'])) = .ok (.ok e) ∧ ¬ HasEmptySeq e ∧
      ∀ w, Matches e w ↔ ∃ u v, w = u ++ v ∧ Matches e1 u ∧ Matches e2 v) ∧
    ∃ e, parse p ('(' :: a ++ ')' :: quantText (some q)) = .ok (.ok e) ∧ ¬ HasEmptySeq e ∧
      ∀ w, Matches e w ↔ ∃ ws : List (List Char), w = ws.flatten ∧ QuantSet (some q) ws.length ∧
        ∀ u ∈ ws, Matches e1 u := by
  obtain ⟨h3, h4, h5⟩ := c92_trees_partial h1 h2 (some q) hq
  refine ⟨h1.parses, h2.parses, ⟨_, h3.parses, h3.noEmpty, fun w => ?_⟩, ⟨_, h4.parses, h4.noEmpty, fun w => ?_⟩,
    ⟨_, h5.parses, h5.noEmpty, fun w => ?_⟩⟩
  · rw [← (orTree_rewrites e1 e2).same.mat, mat_alt]
  · have m1 : ∀ u, Matches (.group e1 none) u ↔ Matches e1 u := (Rewrites.paren (e := e1)).same.mat
    have m2 : ∀ u, Matches (.group e2 none) u ↔ Matches e2 u := (Rewrites.paren (e := e2)).same.mat
    simp only [mat_cons, mat_nil, m1, m2]
    constructor
    · rintro ⟨u, _, rfl, h1, v, _, rfl, h2, rfl⟩; exact ⟨u, v, by simp, h1, h2⟩
    · rintro ⟨u, v, rfl, h1, h2⟩; exact ⟨u, v, rfl, h1, v, [], by simp, h2, rfl⟩
  · rw [mat_group]

/-- Two patterns without bars may be put one behind the other, unless an escape with a hexadecimal number could go
on. -/
theorem c92_sequence_partial [Unicode] (h1 : Whole p a e1) (h2 : Whole p b e2) (n1 : ∀ x y, e1 ≠ .alt x y)
    (n2 : ∀ x y, e2 ≠ .alt x y) (h : '\\' ∈ a → ∀ c ∈ b.head?, hexDigit? c = none) :
    ∃ e, parse p (a ++ b) = .ok (.ok e) ∧ ¬ HasEmptySeq e ∧
      ∀ w, Matches e w ↔ ∃ u v, w = u ++ v ∧ Matches e1 u ∧ Matches e2 v := by
  have h3 := h1.append h2 n1 n2 h
  refine ⟨_, h3.parses, h3.noEmpty, fun w => ?_⟩
  rw [mat_sequence]
  simp only [mat_parts]

/-- The tokens of the text begin with an expression of this tree, and a right parenthesis follows. -/
def Unmatched (p : Profile) (a : List Char) (e : Expr) : Prop :=
  ∃ used rest, (scan p a).kinds = used ++ .operator .rightParen :: rest ∧ Expression ⟨false, true⟩ e used

/-- The texts for which a lexer can be built: those that are read to the end, those in which a right parenthesis that
no left one belongs to comes behind the pattern, and the empty one. -/
theorem c92_which_partial (p : Profile) (a : List Char) (e : Expr) :
    (parse p a = .ok (.ok e) ∧ ¬ HasEmptySeq e) ↔ Whole p a e ∨ Unmatched p a e ∨ (a = [] ∧ e = .empty) := by
  constructor
  · rintro ⟨h, hn⟩
    rcases (c06_exact_partial p a e).1 h with ⟨h1, h2, h3⟩ | ⟨used, rest, h1, h2, h3⟩
    · refine .inr (.inr ⟨?_, h3⟩)
      cases a with
      | nil => rfl
      | cons ch cs =>
        rw [scan_eq_scanK] at h1 h2
        rcases scanK_cons p (ch :: cs).length ch cs with ⟨_, e⟩ | ⟨_, _, _, _, e⟩
        · rw [e] at h2; cases h2
        · rw [e] at h1; cases h1
    · have h4 : Expression ⟨false, true⟩ e used := expression_relax (fun _ => rfl) h2 (.inr hn)
      rcases h3 with h3 | ⟨rfl, h3, -⟩
      · cases rest with
        | nil => cases h3
        | cons k rest => cases h3; exact .inr (.inl ⟨used, rest, h1, h4⟩)
      · rw [List.append_nil] at h1
        exact .inl ⟨by rw [h1]; exact h4, h3⟩
  · rintro (h | ⟨used, rest, h1, h2⟩ | ⟨rfl, rfl⟩)
    · exact ⟨h.parses, h.noEmpty⟩
    · exact ⟨(c06_exact_partial p a e).2 (.inr ⟨used, _, h1, expression_relax (fun _ => rfl) h2 (.inl fun _ => rfl), .inl rfl⟩),
        expression_noEmpty rfl h2⟩
    · exact ⟨rfl, by simp [HasEmptySeq]⟩

/-- Behind a right parenthesis that no left one belongs to, all text is ignored. -/
theorem c92_ignored_partial (h : Unmatched p a e) (y : List Char) : parse p (a ++ y) = .ok (.ok e) := by
  obtain ⟨used, rest, h1, h2⟩ := h
  obtain ⟨a2, h3, -, -, h4⟩ := scan_front a h1 (expression_valid h2)
  obtain ⟨a3, rfl⟩ := scan_starts_right h3
  obtain ⟨h5, -⟩ := h4 y fun _ => apart_cons _ _ _
  rw [List.cons_append, (scan_right p (a3 ++ y)).1] at h5
  exact ((c92_which_partial p (a ++ y) e).2 (.inr (.inl ⟨used, _, h5, h2⟩))).1

theorem bar_unmatched (h1 : Whole p a e1) (h2 : Unmatched p b e2) :
    Unmatched p (a ++ '|' :: b) (orTree e1 e2) := by
  obtain ⟨used, rest, h3, h4⟩ := h2
  refine ⟨(scan p a).kinds ++ .operator .vertical :: used, rest, ?_, h1.tokens.bar h4⟩
  rw [(scan_append_cons (c := '|') (y := b) rfl a h1.ends h1.valid).1, (scan_bar p b).1, h3]
  simp

/-- For a bar only the first text has to be read to the end. -/
theorem c92_bar_partial [Unicode] (h1 : Whole p a e1) (h2 : parse p b = .ok (.ok e2)) (hn : ¬ HasEmptySeq e2)
    (hb : b ≠ []) : ∃ e, parse p (a ++ '|' :: b) = .ok (.ok e) ∧ ¬ HasEmptySeq e ∧
      ∀ w, Matches e w ↔ Matches e1 w ∨ Matches e2 w := by
  have h3 : parse p (a ++ '|' :: b) = .ok (.ok (orTree e1 e2)) ∧ ¬ HasEmptySeq (orTree e1 e2) := by
    refine (c92_which_partial _ _ _).2 ?_
    rcases (c92_which_partial _ _ _).1 ⟨h2, hn⟩ with h | h | ⟨h, _⟩
    · exact .inl (h1.bar h)
    · exact .inr (.inl (bar_unmatched h1 h))
    · exact absurd h hb
  exact ⟨_, h3.1, h3.2, fun w => by rw [← (orTree_rewrites e1 e2).same.mat, mat_alt]⟩

/-- A text that is read to the end can be followed by a right parenthesis and any text. -/
theorem c92_cut_partial (h : Whole p a e) (y : List Char) : parse p (a ++ ')' :: y) = .ok (.ok e) := by
  have h1 : Unmatched p (a ++ [')']) e := by
    refine ⟨_, [], ?_, h.tokens⟩
    rw [(scan_append_cons (c := ')') (y := []) rfl a h.ends h.valid).1, (scan_right p []).1]
    rfl
  have h2 := c92_ignored_partial h1 y
  rwa [List.append_assoc] at h2

/-- C92, part of what was left: if `(a` is accepted, because a right parenthesis in `a` belongs to the new left one, then
the rest of `(a)(b)` behind it is ignored, as behind every text that is accepted. -/
theorem c92_group_partial (h : parse p ('(' :: a) = .ok (.ok e)) (hn : ¬ HasEmptySeq e) (b y : List Char) :
    parse p ('(' :: a ++ ')' :: ('(' :: b ++ [')'])) = .ok (.ok e) ∧ parse p ('(' :: a ++ ')' :: y) = .ok (.ok e) := by
  have key : ∀ y, parse p ('(' :: a ++ ')' :: y) = .ok (.ok e) := by
    intro y
    rcases (c92_which_partial _ _ _).1 ⟨h, hn⟩ with h | h | ⟨h, _⟩
    · exact c92_cut_partial h y
    · exact c92_ignored_partial h _
    · cases h
  exact ⟨key _, key y⟩

/-! ## The theorems apply -/

/-- `(a)(b)` for a text `a` with an unmatched right parenthesis: what is ignored in `a` is not ignored in it. -/
example : parse .debug "x)y".toList = .ok (.ok (.lit (.mtch 'x') none)) ∧
    parse .debug "(x)y)(b)".toList = .ok (.ok (.concat [.group (.lit (.mtch 'x') none) none, .lit (.mtch 'y') none])) ∧
    parse .debug "x)*".toList = .ok (.ok (.lit (.mtch 'x') none)) ∧
    parse .debug "(x)*)(b)".toList = .ok (.ok (.group (.lit (.mtch 'x') none) (some .asterisk))) :=
  ⟨rfl, rfl, rfl, rfl⟩

/-- The tree of `ab|c` is that of `ab|c)` with anything behind it. -/
example (y : List Char) : parse .debug ("ab|c".toList ++ ')' :: y) =
    .ok (.ok (.alt (.concat [.lit (.mtch 'a') none, .lit (.mtch 'b') none]) (.lit (.mtch 'c') none))) :=
  c92_cut_partial ⟨Expression.alt (es := [_, _]) (.more (.mtch (.chr 'a') .none) (.one (.mtch (.chr 'b') .none)))
    (.sub (.one (.mtch (.chr 'c') .none))), rfl⟩ y

/-- `ab|c` is read to the end, and so is `\\x41+`. -/
theorem bar_whole : Whole .debug "ab|c".toList
    (.alt (.concat [.lit (.mtch 'a') none, .lit (.mtch 'b') none]) (.lit (.mtch 'c') none)) :=
  ⟨Expression.alt (es := [_, _]) (.more (.mtch (.chr 'a') .none) (.one (.mtch (.chr 'b') .none)))
    (.sub (.one (.mtch (.chr 'c') .none))), rfl⟩

theorem hex_whole : Whole .debug "\\x41+".toList (.lit (.mtch 'A') (some .plus)) :=
  ⟨Expression.sub (.one (.mtch (.chr 'A') (.some .plus))), rfl⟩

example : parse .debug "ab|c|\\x41+".toList = .ok (.ok (.alt (.concat [.lit (.mtch 'a') none, .lit (.mtch 'b') none])
      (.alt (.lit (.mtch 'c') none) (.lit (.mtch 'A') (some .plus))))) ∧
    parse .debug "(ab|c){2,}".toList = .ok (.ok (.group (.alt (.concat [.lit (.mtch 'a') none, .lit (.mtch 'b') none])
      (.lit (.mtch 'c') none)) (some (.min 2)))) := by
  obtain ⟨h1, -, h2⟩ := c92_trees_partial bar_whole hex_whole (some (.min 2)) (show 2 < 2 ^ 32 by decide)
  refine ⟨h1.parses, ?_⟩
  have h4 : natText 2 = ['2'] := by rw [natText]; rfl
  have h3 : quantText (some (.min 2)) = "{2,}".toList := by rw [quantText, h4]; rfl
  rw [h3] at h2
  exact h2.parses

example [Unicode] (w : List Char) : Matches (.concat [.lit (.mtch 'A') (some .plus), .lit (.mtch 'x') none]) w ↔
    ∃ u v, w = u ++ v ∧ Matches (.lit (.mtch 'A') (some .plus)) u ∧ Matches (.lit (.mtch 'x') none) v := by
  obtain ⟨e, h1, -, h2⟩ := c92_sequence_partial (p := .debug) (b := ['x']) (e2 := .lit (.mtch 'x') none) hex_whole
    ⟨Expression.sub (.one (.mtch (.chr 'x') .none)), rfl⟩ (by simp) (by simp) (by simp [hexDigit?])
  cases h1.symm.trans (show parse .debug ("\\x41+".toList ++ ['x']) =
    .ok (.ok (.concat [.lit (.mtch 'A') (some .plus), .lit (.mtch 'x') none])) from rfl)
  exact h2 w

/-- Without the condition on numbers: `\\u0041` and `b` are accepted, and together they are one character. -/
example : parse .debug "\\u0041".toList = .ok (.ok (.lit (.mtch 'A') none)) ∧
    parse .debug "\\u0041b".toList = .ok (.ok (.lit (.mtch (Char.ofNat 0x41b)) none)) := ⟨rfl, rfl⟩

example (y : List Char) : parse .debug ("a)".toList ++ y) = .ok (.ok (.lit (.mtch 'a') none)) :=
  c92_ignored_partial ⟨[.mtch 'a'], [], rfl, Expression.sub (.one (.mtch (.chr 'a') .none))⟩ y

/-- In front of a bar the empty pattern is an empty sequence, which crashes the compiler, and behind a bar it is
rejected. -/
example : parse .debug "".toList = .ok (.ok .empty) ∧
    parse .debug "|a".toList = .ok (.ok (.alt (.concat []) (.lit (.mtch 'a') none))) ∧
    ∃ err, parse .debug "a|".toList = .ok (.error [err]) := ⟨rfl, rfl, _, rfl⟩

/-- `ab|c|d)x` means `ab`, `c` or `d`. -/
example [Unicode] : ∃ e, parse .debug "ab|c|d)x".toList = .ok (.ok e) ∧ ∀ w, Matches e w ↔
    Matches (.alt (.concat [.lit (.mtch 'a') none, .lit (.mtch 'b') none]) (.lit (.mtch 'c') none)) w ∨
      Matches (.lit (.mtch 'd') none) w := by
  obtain ⟨e, h, -, h'⟩ := c92_bar_partial (b := "d)x".toList) (e2 := .lit (.mtch 'd') none) bar_whole rfl
    (by simp [HasEmptySeq]) (by decide)
  exact ⟨e, h, h'⟩

/-- `x)y` is accepted as `x`, but `(x)y)(z)` is `(x)y`. -/
example : parse .debug "x)y".toList = .ok (.ok (.lit (.mtch 'x') none)) ∧
    parse .debug "(x)y".toList = .ok (.ok (.concat [.group (.lit (.mtch 'x') none) none, .lit (.mtch 'y') none])) ∧
    parse .debug "(x)y)(z)".toList = .ok (.ok (.concat [.group (.lit (.mtch 'x') none) none, .lit (.mtch 'y') none])) := by
  have h : parse .debug "(x)y".toList =
      .ok (.ok (.concat [.group (.lit (.mtch 'x') none) none, .lit (.mtch 'y') none])) := by with_unfolding_all rfl
  exact ⟨by with_unfolding_all rfl, h, (c92_group_partial h (by rw [← hasEmptySeqB_iff]; decide) ['z'] []).1⟩

end Pango.Props
