import Verif.Proofs.RegexError

/-!
# Exactly which token sequences the pattern parser accepts, and on which it crashes

`Blind`: a parser function that leaves a token does not see how the token stream ends, and one that neither crashes nor
diverges although the stream crashes at its end does not see what follows.  `closed_of_end`: an expression
that is read up to the end of the tokens has a last token, which is no bar.
-/

namespace Pango.Regex

open Pango Pango.Spec

/-- On a stream that ends normally the function leaves the end of the stream; if it leaves a token, then it does not
depend on how the stream ends. -/
def BlindEnd {α : Type} (x : P α) : Prop :=
  ∀ (toks : List Token) (cur : Option (Option Token)) (a : α) (s' : PState), x ⟨toks, .eof, cur⟩ = .ok a s' →
    s'.stop = .eof ∧ s'.toks <:+ toks ∧
    (s'.toks ≠ [] → ∀ st, x ⟨toks, st, cur⟩ = .ok a ⟨s'.toks, st, s'.cur⟩)

/-- If the function returns a value or an error on a stream that crashes at its end, then it does the same with more
tokens in place of the crash. -/
def BlindMore {α : Type} (x : P α) : Prop :=
  ∀ (toks more : List Token) (cur : Option (Option Token)),
    (∀ a s', x ⟨toks, .panic, cur⟩ = .ok a s' →
      s'.stop = .panic ∧ x ⟨toks ++ more, .eof, cur⟩ = .ok a ⟨s'.toks ++ more, .eof, s'.cur⟩) ∧
    ∀ es, x ⟨toks, .panic, cur⟩ = .err es → x ⟨toks ++ more, .eof, cur⟩ = .err es

def Blind {α : Type} (x : P α) : Prop := BlindEnd x ∧ BlindMore x

theorem BlindMore.bind {α β : Type} {x : P α} {f : α → P β} (hx : BlindMore x) (hf : ∀ a, BlindMore (f a)) :
    BlindMore (x >>= f) := by
  intro toks more cur
  obtain ⟨h1, h2⟩ := hx toks more cur
  rw [bind_apply, bind_apply]
  cases hr : x ⟨toks, .panic, cur⟩ with
  | ok a s1 =>
    obtain ⟨e1, e2⟩ := h1 a s1 hr
    obtain ⟨toks1, st1, cur1⟩ := s1
    simp only at e1 e2
    subst e1
    rw [e2]
    exact hf a toks1 more cur1
  | err es =>
    rw [h2 es hr]
    exact ⟨fun _ _ h => by simp at h, fun _ h => by simpa using h⟩
  | panic => exact ⟨fun _ _ h => by simp at h, fun _ h => by simp at h⟩
  | diverge => exact ⟨fun _ _ h => by simp at h, fun _ h => by simp at h⟩

theorem BlindEnd.bind {α β : Type} {x : P α} {f : α → P β} (hx : BlindEnd x) (hf : ∀ a, BlindEnd (f a)) :
    BlindEnd (x >>= f) := by
  intro toks cur b s' h
  rw [bind_apply] at h
  cases h1 : x ⟨toks, .eof, cur⟩ with
  | ok a s1 =>
    rw [h1] at h
    simp only at h
    obtain ⟨e1, e2, e3⟩ := hx _ _ _ _ h1
    obtain ⟨toks1, st1, cur1⟩ := s1
    simp only at e1 e2 e3
    subst e1
    obtain ⟨f1, f2, f3⟩ := hf a _ _ _ _ h
    refine ⟨f1, f2.trans e2, fun hne st => ?_⟩
    have : toks1 ≠ [] := by
      rintro rfl
      exact hne (List.suffix_nil.1 f2)
    rw [bind_apply, e3 this st]
    exact f3 hne st
  | err es => rw [h1] at h; simp at h
  | panic => rw [h1] at h; simp at h
  | diverge => rw [h1] at h; simp at h

theorem Blind.bind {α β : Type} {x : P α} {f : α → P β} (hx : Blind x) (hf : ∀ a, Blind (f a)) :
    Blind (x >>= f) := ⟨hx.1.bind fun a => (hf a).1, hx.2.bind fun a => (hf a).2⟩

theorem Blind.pure {α : Type} (a : α) : Blind (pure a : P α) := by
  refine ⟨?_, fun toks more cur => ⟨fun b s' h => ?_, fun es h => by simp [pure_apply] at h⟩⟩
  rotate_left
  · rw [pure_apply] at h
    simp only [PResult.ok.injEq] at h
    obtain ⟨rfl, rfl⟩ := h
    exact ⟨rfl, rfl⟩
  intro toks cur b s' h
  rw [pure_apply] at h
  simp only [PResult.ok.injEq] at h
  obtain ⟨rfl, rfl⟩ := h
  exact ⟨rfl, List.suffix_refl _, fun _ st => rfl⟩

theorem blind_peekKind : Blind peekKind := by
  refine ⟨?_, fun toks more cur => ?_⟩
  rotate_left
  · cases toks with
    | nil => exact ⟨fun _ _ h => (by cases h), fun _ h => by cases h⟩
    | cons t r => exact ⟨fun _ _ h => (by cases h; exact ⟨rfl, rfl⟩), fun _ h => by cases h⟩
  intro toks cur a s' h
  unfold peekKind P.bind peekTok at *
  cases toks with
  | nil =>
    simp only [P.pure, PResult.ok.injEq] at h
    obtain ⟨rfl, rfl⟩ := h
    exact ⟨rfl, List.suffix_refl _, fun h => absurd rfl h⟩
  | cons t r =>
    simp only [P.pure, PResult.ok.injEq] at h
    obtain ⟨rfl, rfl⟩ := h
    exact ⟨rfl, List.suffix_refl _, fun _ st => rfl⟩

theorem blind_nextTok : Blind nextTok := by
  refine ⟨?_, fun toks more cur => ?_⟩
  rotate_left
  · cases toks with
    | nil => exact ⟨fun _ _ h => (by cases h), fun _ h => by cases h⟩
    | cons t r => exact ⟨fun _ _ h => (by cases h; exact ⟨rfl, rfl⟩), fun _ h => by cases h⟩
  intro toks cur a s' h
  unfold nextTok at *
  cases toks with
  | nil =>
    simp only [PResult.ok.injEq] at h
    obtain ⟨rfl, rfl⟩ := h
    exact ⟨rfl, List.suffix_refl _, fun h => absurd rfl h⟩
  | cons t r =>
    simp only [PResult.ok.injEq] at h
    obtain ⟨rfl, rfl⟩ := h
    exact ⟨rfl, List.suffix_cons _ _, fun _ st => rfl⟩

theorem blind_err {α : Type} (es : List ParseError) : Blind (fun _ => .err es : P α) := by
  refine ⟨?_, fun toks more cur => ⟨fun b s' h => (by cases h), fun es h => h⟩⟩
  intro toks cur a s' h
  simp at h

theorem blind_diverge {α : Type} : Blind (fun _ => .diverge : P α) := by
  refine ⟨?_, fun toks more cur => ⟨fun b s' h => (by cases h), fun es h => by cases h⟩⟩
  intro toks cur a s' h
  simp at h

theorem blind_failHere {α : Type} (k : ParseErrorKind) : Blind (failHere k : P α) := by
  refine ⟨?_, fun toks more cur => ?_⟩
  rotate_left
  · cases toks with
    | nil => exact ⟨fun _ _ h => (by cases h), fun _ h => by cases h⟩
    | cons t r => exact ⟨fun _ _ h => (by cases h), fun _ h => by cases h; rfl⟩
  intro toks cur a s' h
  obtain ⟨es, he⟩ := failHere_eof (α := α) k toks cur
  rw [he] at h
  simp at h

theorem blind_optQuantifier : Blind optQuantifier := by
  refine blind_peekKind.bind fun k => ?_
  split
  · exact blind_nextTok.bind fun _ => .pure _
  · exact .pure _

theorem blind_characterGroupItem : Blind characterGroupItem := by
  refine blind_nextTok.bind fun t => ?_
  rcases t with _ | ⟨kind, pos⟩
  · exact blind_failHere _
  · cases kind with
    | cls k => exact .pure _
    | mtch start =>
      refine blind_peekKind.bind fun k => ?_
      split
      · refine blind_nextTok.bind fun _ => blind_nextTok.bind fun _ => ?_
        split
        · exact .pure _
        · exact blind_failHere _
      · exact .pure _
    | _ => exact blind_err _

theorem blind_characterGroupLoop (n : Nat) : Blind (characterGroupLoop n) := by
  induction n with
  | zero => exact blind_diverge
  | succ n ih =>
    refine blind_peekKind.bind fun k => ?_
    split
    · exact .pure _
    · exact .pure _
    · exact blind_characterGroupItem.bind fun _ => ih.bind fun _ => .pure _

theorem blind_characterGroup (n : Nat) : Blind (characterGroup n) := by
  refine blind_nextTok.bind fun t => ?_
  split
  · refine Blind.bind ?_ fun neg => blind_peekKind.bind fun k => ?_
    · refine blind_peekKind.bind fun k => ?_
      split
      · exact blind_nextTok.bind fun _ => .pure _
      · exact .pure _
    · split
      · exact blind_failHere _
      · refine (blind_characterGroupLoop n).bind fun _ => blind_nextTok.bind fun _ => ?_
        split
        · exact .pure _
        · exact blind_failHere _
  · exact blind_failHere _

theorem blind_match (n : Nat) : Blind (match_ n) := by
  refine Blind.bind ?_ fun _ => blind_optQuantifier.bind fun _ => .pure _
  refine blind_peekKind.bind fun k => ?_
  split
  · exact blind_nextTok.bind fun _ => .pure _
  · exact blind_characterGroup n
  · exact blind_nextTok.bind fun _ => .pure _
  · exact blind_failHere _

theorem blind_parser (n : Nat) :
    Blind (expression n) ∧ Blind (subExpression n) ∧ Blind (subExpressionLoop n) ∧ Blind (subExpressionItem n) ∧
      Blind (group n) := by
  induction n with
  | zero => exact ⟨blind_diverge, blind_diverge, blind_diverge, blind_diverge, blind_diverge⟩
  | succ n ih =>
    obtain ⟨ih1, ih2, ih3, ih4, ih5⟩ := ih
    refine ⟨?_, ?_, ?_, ?_, ?_⟩
    · simp only [expression]
      refine ih2.bind fun _ => blind_peekKind.bind fun k => ?_
      split
      · exact blind_nextTok.bind fun _ => ih1.bind fun _ => .pure _
      · exact .pure _
    · simp only [subExpression]
      refine blind_peekKind.bind fun k => ?_
      split
      · exact blind_failHere _
      · exact ih3
    · simp only [subExpressionLoop]
      refine blind_peekKind.bind fun k => ?_
      split
      · exact .pure _
      · exact .pure _
      · exact .pure _
      · exact ih4.bind fun _ => ih3.bind fun _ => .pure _
    · simp only [subExpressionItem]
      refine blind_peekKind.bind fun k => ?_
      split
      · exact blind_failHere _
      · exact ih5
      · exact blind_match n
    · simp only [group]
      refine blind_nextTok.bind fun t => ?_
      split
      · refine ih1.bind fun _ => blind_nextTok.bind fun _ => ?_
        split
        · exact blind_optQuantifier.bind fun _ => .pure _
        · exact blind_failHere _
      · exact blind_failHere _

theorem peekKind_ok {s s' : PState} {k : Option TokenKind} (h : peekKind s = .ok k s') :
    s' = s ∧ k = s.kinds.head? ∧ (s.kinds = [] → s.stop = .eof) := by
  unfold peekKind P.bind peekTok at h
  obtain ⟨toks, stop, cur⟩ := s
  cases toks with
  | nil =>
    cases stop <;> simp [P.pure] at h
    obtain ⟨rfl, rfl⟩ := h
    exact ⟨rfl, rfl, fun _ => rfl⟩
  | cons t r =>
    simp [P.pure] at h
    obtain ⟨rfl, rfl⟩ := h
    exact ⟨rfl, rfl, fun h => by simp [PState.kinds] at h⟩

theorem bind_ok {α β : Type} {x : P α} {f : α → P β} {s s' : PState} {b : β} (h : (x >>= f) s = .ok b s') :
    ∃ a s1, x s = .ok a s1 ∧ f a s1 = .ok b s' := by
  rw [bind_apply] at h
  cases h1 : x s with
  | ok a s1 => rw [h1] at h; exact ⟨a, s1, rfl, h⟩
  | err es => rw [h1] at h; simp at h
  | panic => rw [h1] at h; simp at h
  | diverge => rw [h1] at h; simp at h

/-- Behind every `-` stands a character. -/
def AfterMinus (ks : List TokenKind) : Prop :=
  ∀ a b, ks = a ++ .operator .minus :: b → ∃ c b', b = .mtch c :: b'

theorem AfterMinus.nil : AfterMinus [] := fun a b h => by simp at h

theorem AfterMinus.append {ks ks' : List TokenKind} (h : AfterMinus ks) (h' : AfterMinus ks') :
    AfterMinus (ks ++ ks') := by
  intro a b e
  rcases List.append_eq_append_iff.1 e with ⟨x, rfl, h2⟩ | ⟨x, h1, h2⟩
  · exact h' _ _ h2
  · cases x with
    | nil =>
      simp only [List.nil_append, List.append_nil] at h1 h2
      exact h' [] b (by simpa using h2.symm)
    | cons y x =>
      simp only [List.cons_append, List.cons.injEq] at h2
      obtain ⟨rfl, rfl⟩ := h2
      obtain ⟨c, b', rfl⟩ := h _ _ h1
      exact ⟨c, _, rfl⟩

theorem AfterMinus.single {k : TokenKind} (h : k ≠ .operator .minus) : AfterMinus [k] := by
  intro a b e
  cases a with
  | nil => simp at e; exact absurd e.1 h
  | cons y a => simp at e

theorem AfterMinus.cons {k : TokenKind} {ks : List TokenKind} (h : k ≠ .operator .minus) (h' : AfterMinus ks) :
    AfterMinus (k :: ks) := (AfterMinus.single h).append h'

theorem afterMinus_groupItem {i : GLit} {ks : List TokenKind} (h : GroupItem i ks) : AfterMinus ks := by
  cases h with
  | chr c => exact .single (by simp)
  | cls k => exact .single (by simp)
  | range a b =>
    refine .cons (by simp) ?_
    intro x y e
    cases x with
    | nil => simp at e; exact ⟨b, [], e.symm⟩
    | cons z x =>
      simp only [List.cons_append, List.cons.injEq] at e
      exact AfterMinus.single (k := .mtch b) (by simp) _ _ e.2

theorem afterMinus_groupItems {r : Relaxed} {is : List GLit} {ks : List TokenKind} (h : GroupItems r is ks) :
    AfterMinus ks := by
  induction h with
  | none _ => exact .nil
  | one h => exact afterMinus_groupItem h
  | more h _ ih => exact (afterMinus_groupItem h).append ih

theorem afterMinus_matchItem {r : Relaxed} {l : Lit} {ks : List TokenKind} (h : MatchItem r l ks) : AfterMinus ks := by
  cases h with
  | cls k => exact .single (by simp)
  | chr a => exact .single (by simp)
  | group h => exact .cons (by simp) ((afterMinus_groupItems h).append (.single (by simp)))
  | negated h => exact .cons (by simp) (.cons (by simp) ((afterMinus_groupItems h).append (.single (by simp))))

theorem afterMinus_optQuantifier {q : Option Quant} {ks : List TokenKind} (h : OptQuantifier q ks) : AfterMinus ks := by
  cases h with
  | none => exact .nil
  | some q => exact .single (by simp)

mutual

theorem afterMinus_expression {r : Relaxed} {e : Expr} {ks : List TokenKind} : Expression r e ks → AfterMinus ks
  | .sub h => afterMinus_subExpression h
  | .alt h h' => (afterMinus_subExpression h).append (.cons (by simp) (afterMinus_expression h'))

theorem afterMinus_subExpression {r : Relaxed} {es : List Expr} {ks : List TokenKind} :
    SubExpression r es ks → AfterMinus ks
  | .none _ => .nil
  | .one h => afterMinus_item h
  | .more h h' => (afterMinus_item h).append (afterMinus_subExpression h')

theorem afterMinus_item {r : Relaxed} {e : Expr} {ks : List TokenKind} : SubExpressionItem r e ks → AfterMinus ks
  | .mtch h hq => (afterMinus_matchItem h).append (afterMinus_optQuantifier hq)
  | .group h hq =>
    .cons (by simp) ((afterMinus_expression h).append (.cons (by simp) (afterMinus_optQuantifier hq)))

end

/-- An expression that is read up to the end of the tokens has a last token, which is no bar, and the stream of tokens
ends normally. -/
theorem closed_of_end (n : Nat) : ∀ (s s' : PState) (e : Expr), 5 * s.kinds.length + 5 ≤ n →
    expression n s = .ok e s' → s'.kinds = [] → Closed s.kinds ∧ s.stop = .eof := by
  induction n with
  | zero => intro s s' e hn; omega
  | succ n ih =>
    intro s s' e hn h h0
    simp only [expression] at h
    have g2 := (good_parser n).2.1 s (by omega)
    obtain ⟨es, s1, h1, h⟩ := bind_ok h
    obtain ⟨k, s2, h2, h⟩ := bind_ok h
    obtain ⟨rfl, rfl, hstop⟩ := peekKind_ok h2
    rw [h1] at g2
    obtain ⟨g3, ks, g4, g5, g6⟩ := g2
    have hs0 : s.kinds ≠ [] := by
      cases n with
      | zero => simp [subExpression] at h1
      | succ n =>
        simp only [subExpression] at h1
        obtain ⟨k, s4, h3, h4⟩ := bind_ok h1
        obtain ⟨rfl, rfl, _⟩ := peekKind_ok h3
        intro h5
        rw [h5] at h4
        rcases failHere_cases (α := List Expr) .subExpression s4 with h6 | ⟨h6, _⟩ | h6 <;>
          (simp only [List.head?_nil] at h4; rw [h6] at h4; simp at h4)
    generalize hk : s2.kinds.head? = k at h
    split at h
    · obtain ⟨t, s3, h3, h⟩ := bind_ok h
      obtain ⟨e', s4, h4, h⟩ := bind_ok h
      have e4 : s4 = s' := by
        rw [pure_apply] at h
        simp only [PResult.ok.injEq] at h
        exact h.2
      subst e4
      have g7 := good_nextTok s2
      rw [h3] at g7
      obtain ⟨g8, g9⟩ := g7
      have g10 := g9.of_head hk.symm
      have hlen : 5 * s3.kinds.length + 5 ≤ n := by
        rw [g5, g10] at hn; simp at hn; omega
      obtain ⟨i1, i2⟩ := ih s3 s4 e' hlen h4 h0
      refine ⟨?_, by rw [← g3, ← g8]; exact i2⟩
      rw [g5, g10]
      exact (closed_cons i1).append_left _
    · rw [pure_apply] at h
      simp only [PResult.ok.injEq] at h
      obtain ⟨_, rfl⟩ := h
      rw [h0, List.append_nil] at g5
      rw [g5] at hs0 ⊢
      exact ⟨seq_closed g4 hs0, by rw [← g3]; exact hstop h0⟩

/-! ### Where the parser crashes -/

/-- More tokens can be put behind these to make an expression. -/
def Viable (ks : List TokenKind) : Prop := ∃ w e, Expression lax e (ks ++ w)

theorem Viable.of_append {ks ks' : List TokenKind} (h : Viable (ks ++ ks')) : Viable ks := by
  obtain ⟨w, e, h⟩ := h
  exact ⟨ks' ++ w, e, by simpa using h⟩

/-- Tokens of these kinds. -/
def tokensOf (ks : List TokenKind) : List Token := ks.map fun k => ⟨k, (0, 1)⟩

theorem kindsOf_tokensOf (ks : List TokenKind) : kindsOf (tokensOf ks) = ks := by
  simp [kindsOf, tokensOf, Function.comp_def]

/-- An expression does not begin with another one that has a right parenthesis behind it. -/
theorem expression_closes {e e' : Expr} {ks v : List TokenKind} (h : Expression lax e ks)
    (h' : Expression lax e' (ks ++ .operator .rightParen :: v)) : False := by
  let all := ks ++ .operator .rightParen :: v ++ [.operator .rightParen]
  have hk : (⟨tokensOf all, .eof, none⟩ : PState).kinds = all := kindsOf_tokensOf all
  have y1 := yields_expression h (rest := .operator .rightParen :: v ++ [.operator .rightParen])
    (s := ⟨tokensOf all, .eof, none⟩) (n := 5 * all.length + 5) (by rw [hk]; simp [all]) rfl (.inr rfl)
    (fun _ => .inl (by simp)) (by rw [hk]; exact Nat.le_refl _)
  have y2 := yields_expression h' (rest := [.operator .rightParen])
    (s := ⟨tokensOf all, .eof, none⟩) (n := 5 * all.length + 5) (by rw [hk]) rfl (.inr rfl)
    (fun _ => .inl (by simp)) (by rw [hk]; exact Nat.le_refl _)
  obtain ⟨s1, a1, b1, _⟩ := y1
  obtain ⟨s2, a2, b2, _⟩ := y2
  rw [a1] at a2
  simp only [PResult.ok.injEq] at a2
  rw [a2.2, b2] at b1
  simp at b1

theorem parseScan_cons (t : Token) (r : List Token) (st : Stop) :
    parseScan ⟨t :: r, st⟩ = expression (parseFuel (t :: r).length) ⟨t :: r, st, none⟩ := rfl

/-- Where the stream crashes behind tokens that can be continued there is no error. -/
theorem no_error_of_viable {n : Nat} {toks : List Token} (hv : Viable (kindsOf toks)) {es : List ParseError} :
    expression n ⟨toks, .panic, none⟩ ≠ .err es := by
  intro h
  obtain ⟨w, e, he⟩ := hv
  have h1 := (((blind_parser n).1).2 toks (tokensOf (w ++ [.operator .rightParen])) none).2 es h
  have := yields_expression he (rest := [.operator .rightParen])
    (s := ⟨toks ++ tokensOf (w ++ [.operator .rightParen]), .eof, none⟩)
    (n := max n (5 * (toks.length + w.length + 1) + 5))
    (by simp [PState.kinds, kindsOf, tokensOf, Function.comp_def]) rfl (.inr rfl) (fun _ => .inl (by simp))
    (by simp [PState.kinds, tokensOf]; omega)
  rw [expression_err_fuel (Nat.le_max_left _ _) h1] at this
  obtain ⟨_, h, _⟩ := this
  simp at h

/-- The parser crashes on a stream that crashes at its end exactly if it gets there. -/
theorem parseScan_panic_iff (toks : List Token) :
    parseScan ⟨toks, .panic⟩ = .panic ↔ ∃ pre post, kindsOf toks = pre ++ post ∧ Viable pre ∧
      (post = [] ∨ post.length = 1 ∧ pre.getLast? = some (.operator .minus)) := by
  cases toks with
  | nil => exact ⟨fun _ => ⟨[], [], rfl, ⟨[], _, .sub (.none rfl)⟩, .inl rfl⟩, fun _ => rfl⟩
  | cons t0 r0 =>
    generalize hT : t0 :: r0 = toks
    have hne : toks ≠ [] := by rw [← hT]; simp
    have hrun : parseScan ⟨toks, .panic⟩ = expression (parseFuel toks.length) ⟨toks, .panic, none⟩ := by
      rw [← hT]; rfl
    have hi : Inv toks ⟨toks, .panic, none⟩ := ⟨[], rfl, rfl⟩
    constructor
    · intro h
      have hg := (goodE_parser (all := toks) hne (parseFuel toks.length)).1 _ hi
      unfold GoodE at hg
      rw [← hrun, h] at hg
      obtain ⟨d, rest, h1, ⟨w, e, h2⟩, h3⟩ := hg
      simp only at h1
      refine ⟨kindsOf d, kindsOf rest, by rw [h1]; simp [kindsOf], ⟨w, e, h2⟩, ?_⟩
      rcases h3 with rfl | ⟨t, done, rfl, h4, h5⟩
      · exact .inl rfl
      · rw [h1] at h4
        have : d = done := List.append_inj_left' h4 rfl
        exact .inr ⟨rfl, by rw [this]; exact h5⟩
    · rintro ⟨pre, post, h1, hv, h3⟩
      cases hr : parseScan ⟨toks, .panic⟩ with
      | panic => rfl
      | diverge =>
        have g := (good_parser (parseFuel toks.length)).1 ⟨toks, .panic, none⟩ (by simp [PState.kinds, parseFuel])
        rw [← hrun, hr] at g
        simp [Good] at g
      | ok e s' =>
        exfalso
        rw [hrun] at hr
        have g := (good_parser (parseFuel toks.length)).1 ⟨toks, .panic, none⟩ (by simp [PState.kinds, parseFuel])
        rw [hr] at g
        obtain ⟨_, used, g1, g2, g3⟩ := g
        have g2 : kindsOf toks = used ++ s'.kinds := g2
        rcases g3 with g3 | g3
        · have h0 : s'.kinds = [] := by simpa using g3
          have := (closed_of_end _ _ _ _ (by simp [PState.kinds, parseFuel]) hr h0).2
          simp at this
        · obtain ⟨v, hv'⟩ : ∃ v, s'.kinds = .operator .rightParen :: v := by
            cases hk : s'.kinds with
            | nil => rw [hk] at g3; simp at g3
            | cons a b => rw [hk] at g3; simp at g3; exact ⟨b, by rw [g3]⟩
          rw [hv', h1] at g2
          obtain ⟨w, e0, he0⟩ := hv
          rcases List.append_eq_append_iff.1 g2 with ⟨x, rfl, h4⟩ | ⟨x, rfl, h4⟩
          · rcases h3 with rfl | ⟨h3, h5⟩
            · simp at h4
            · have : x = [] := by
                rw [h4] at h3
                simp at h3
                exact List.eq_nil_of_length_eq_zero (by omega)
              subst this
              rw [List.append_nil] at g1
              obtain ⟨init, rfl⟩ := List.getLast?_eq_some_iff.1 h5
              obtain ⟨c, b', h6⟩ := afterMinus_expression g1 init [] rfl
              simp at h6
          · cases x with
            | nil =>
              simp only [List.nil_append, List.append_nil] at h4 h1
              rcases h3 with rfl | ⟨h3, h5⟩
              · simp at h4
              · simp only [List.append_nil] at h5 he0
                obtain ⟨init, rfl⟩ := List.getLast?_eq_some_iff.1 h5
                obtain ⟨c, b', h6⟩ := afterMinus_expression g1 init [] rfl
                simp at h6
            | cons y x =>
              simp only [List.cons_append, List.cons.injEq] at h4
              obtain ⟨rfl, _⟩ := h4
              exact expression_closes g1 (v := x ++ w) (by simpa using he0)
      | err es =>
        exfalso
        have hnv : ¬ Viable (kindsOf toks) := fun hv => no_error_of_viable hv (hrun ▸ hr)
        have hpost : post.length = 1 ∧ pre.getLast? = some (.operator .minus) := by
          rcases h3 with rfl | h3
          · rw [List.append_nil] at h1
            exact absurd (h1 ▸ hv) hnv
          · exact h3
        obtain ⟨hpl, hpm⟩ := hpost
        obtain ⟨init, hinit⟩ := List.getLast?_eq_some_iff.1 hpm
        have notSoon : ∀ {d r : List Token} {t t' : Token} {more : List Token}, toks ++ more = d ++ t :: t' :: r →
            more.length ≤ r.length → Viable (kindsOf (d ++ [t])) := by
          intro d r t t' more hd hl
          have hlen := congrArg List.length hd
          have hlen2 := congrArg List.length h1
          simp [kindsOf] at hlen hlen2
          have hk := congrArg kindsOf hd
          rw [kindsOf, List.map_append] at hk
          have hpre : kindsOf (d ++ [t]) <+: pre := by
            have p1 : kindsOf (d ++ [t]) <+: pre ++ (post ++ kindsOf more) :=
              ⟨kindsOf (t' :: r), by rw [← List.append_assoc, ← h1]; simpa [kindsOf] using hk.symm⟩
            refine List.prefix_of_prefix_length_le p1 (List.prefix_append _ _) ?_
            simp [kindsOf]
            omega
          obtain ⟨x, rfl⟩ := hpre
          exact hv.of_append
        have notOther : ∀ {k : TokenKind}, (∀ c, k ≠ .mtch c) → ¬ ∃ w e, Expression lax e (pre ++ ([k] ++ w)) := by
          rintro k hk ⟨w, e, he⟩
          rw [hinit] at he
          obtain ⟨c, b', h6⟩ := afterMinus_expression he init ([k] ++ w) (by simp)
          simp only [List.singleton_append, List.cons.injEq] at h6
          exact hk c h6.1
        obtain ⟨k, pos, d, rest, rfl, e1, e2, e3, e4⟩ := parseScan_error hr
        simp only at e1 e2
        cases rest with
        | nil =>
          obtain ⟨w, e, he⟩ := e3 [] (.inl rfl)
          rw [List.append_nil] at e1
          rw [← e1] at he
          exact hnv ⟨w, e, by simpa using he⟩
        | cons t rest =>
          cases rest with
          | cons t' r =>
            obtain ⟨w, e, he⟩ := notSoon (more := []) (by rw [List.append_nil]; exact e1) (Nat.zero_le _)
            exact e4 t _ rfl e w he
          | nil =>
            have hd : kindsOf d = pre := by
              have := congrArg kindsOf e1
              rw [h1] at this
              simp only [kindsOf, List.map_append] at this
              exact (List.append_inj_left' this (by simp [hpl])).symm
            rw [hd] at e3
            cases k with
            | matchCharacterClassLeftBracket =>
              exact notOther (by simp) (e3 [.operator .leftBracket] (.inr (.inr (.inr rfl))))
            | characterClassCharacter =>
              exact notOther (k := .cls .digit) (by simp) (e3 [.cls .digit] (.inr (.inl ⟨_, rfl⟩)))
            | mtch =>
              have hpos : ∀ m : Token, pos = m.pos := by
                intro m
                have h5 := (((blind_parser (parseFuel toks.length)).1).2 toks [m] none).2 _ (hrun ▸ hr)
                have hg := (goodE_parser (all := toks ++ [m]) (by simp) (parseFuel toks.length)).1
                  ⟨toks ++ [m], .eof, none⟩ ⟨[], rfl, rfl⟩
                unfold GoodE at hg
                rw [h5] at hg
                obtain ⟨k', pos', d', rest', f1, f2, f3, f4, f5⟩ := hg
                simp only [List.cons.injEq, ParseError.mk.injEq, and_true] at f1
                obtain ⟨rfl, rfl⟩ := f1
                have hv' : Viable (kindsOf d') := by
                  obtain ⟨w, e, he⟩ := f4 [] (.inl rfl)
                  exact ⟨w, e, by simpa using he⟩
                simp only at f2
                rcases f3 with ⟨rfl, _⟩ | ⟨x, rfl, _⟩ | ⟨x, x', r, rfl, f6⟩
                · rw [List.append_nil] at f2
                  rw [← f2] at hv'
                  refine absurd (Viable.of_append (ks' := kindsOf [m]) ?_) hnv
                  simpa [kindsOf] using hv'
                · have := List.append_inj_left' f2 rfl
                  exact absurd (this ▸ hv') hnv
                · cases r with
                  | nil =>
                    have f2' : toks ++ [m] = (d' ++ [x]) ++ [x'] := by simpa using f2
                    have := List.append_inj_right' f2' rfl
                    simp at this
                    rw [this]
                    exact f6
                  | cons y r =>
                    obtain ⟨w, e, he⟩ := notSoon f2 (by simp)
                    exact absurd he (stuck_not_sentence (fun r' => f5 x _ r' none rfl) e w)
              have h6 := hpos ⟨.invalid, (0, 0)⟩
              have h7 := hpos ⟨.invalid, (0, 1)⟩
              rw [h6] at h7
              simp at h7
            | _ => simp [Reported] at e2

end Pango.Regex
