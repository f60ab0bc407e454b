import Verif.Model.RegexParser
import Verif.Spec.RegexSyntax

/-!
# The pattern parser against the documented syntax
-/

namespace Pango.Regex

open Pango Pango.Spec

/-- The kinds of the tokens still to come. -/
def PState.kinds (s : PState) : List TokenKind := s.toks.map Token.kind

/-- A well-behaved result: a value satisfying `Q`, or exactly one error; a panic or an unfinished run
only if the token stream ends like that. -/
def Good {α : Type} (s : PState) (r : PResult α) (Q : α → PState → Prop) : Prop :=
  match r with
  | .ok a s' => s'.stop = s.stop ∧ Q a s'
  | .err es => es.length = 1
  | .panic => s.stop = .panic
  | .diverge => s.stop = .fuel

theorem bind_apply {α β : Type} (x : P α) (f : α → P β) (s : PState) :
    (x >>= f) s = match x s with
      | .ok a s => f a s
      | .err e => .err e
      | .panic => .panic
      | .diverge => .diverge := rfl

theorem pure_apply {α : Type} (a : α) (s : PState) : (pure a : P α) s = .ok a s := rfl

theorem Good.bind {α β : Type} {s : PState} {x : P α} {f : α → P β} {Q : α → PState → Prop}
    {R : β → PState → Prop} (h : Good s (x s) Q)
    (hf : ∀ a s', s'.stop = s.stop → Q a s' → Good s' (f a s') R) : Good s ((x >>= f) s) R := by
  rw [bind_apply]
  cases hx : x s with
  | ok a s' =>
    rw [hx] at h
    have := hf a s' h.1 h.2
    simp only
    revert this
    unfold Good
    cases f a s' with
    | ok b s'' => simp only; rw [h.1]; exact id
    | err es => exact id
    | panic => simp only; rw [h.1]; exact id
    | diverge => simp only; rw [h.1]; exact id
  | err es => rw [hx] at h; exact h
  | panic => rw [hx] at h; exact h
  | diverge => rw [hx] at h; exact h

theorem Good.pure {α : Type} {s : PState} {a : α} {Q : α → PState → Prop} (h : Q a s) :
    Good s ((pure a : P α) s) Q := ⟨rfl, h⟩

theorem Good.mono {α : Type} {s : PState} {r : PResult α} {Q R : α → PState → Prop} (h : Good s r Q)
    (hQ : ∀ a s', Q a s' → R a s') : Good s r R := by
  cases r with
  | ok a s' => exact ⟨h.1, hQ _ _ h.2⟩
  | err es => exact h
  | panic => exact h
  | diverge => exact h

theorem good_peekTok (s : PState) : Good s (peekTok s) (fun t s' => s' = s ∧ t = s.toks.head?) := by
  unfold peekTok
  cases ht : s.toks with
  | nil => cases hs : s.stop <;> simp [Good, hs]
  | cons t r => exact ⟨rfl, rfl, by simp⟩

theorem good_peekKind (s : PState) : Good s (peekKind s) (fun k s' => s' = s ∧ k = s.kinds.head?) := by
  refine Good.bind (x := peekTok) (f := fun t => P.pure (t.map Token.kind)) (good_peekTok s) ?_
  rintro a s' _ ⟨rfl, rfl⟩
  exact ⟨rfl, rfl, by simp [PState.kinds]⟩

/-- Taking a token off. -/
def Took (s : PState) (t : Option Token) (s' : PState) : Prop :=
  (∃ tk, t = some tk ∧ s.kinds = tk.kind :: s'.kinds) ∨ (t = none ∧ s.kinds = [] ∧ s'.kinds = [])

theorem good_nextTok (s : PState) : Good s (nextTok s) (fun t s' => Took s t s') := by
  unfold nextTok
  cases ht : s.toks with
  | nil =>
    cases hs : s.stop
    · exact ⟨hs.symm, .inr ⟨rfl, by simp [PState.kinds, ht], by simp [PState.kinds]⟩⟩
    · exact hs
    · exact hs
  | cons t r => exact ⟨rfl, .inl ⟨t, rfl, by simp [PState.kinds, ht]⟩⟩

theorem good_failHere {α : Type} (k : ParseErrorKind) (s : PState) (Q : α → PState → Prop) :
    Good s (failHere k s) Q := by
  refine Good.bind (x := currentPosition) (f := fun pos _ => .err [⟨k, pos⟩])
    (Q := fun _ s' => s' = s) ?_ ?_
  · unfold currentPosition
    have h := good_peekTok s
    revert h
    cases peekTok s with
    | ok t s' =>
      rintro ⟨_, rfl, _⟩
      cases t with
      | some t => exact ⟨rfl, rfl⟩
      | none =>
        simp only
        cases s'.cur.getD none <;> exact ⟨rfl, rfl⟩
    | err es => exact id
    | panic => exact id
    | diverge => exact id
  · rintro a s' _ rfl
    rfl

/-- Both relaxations. -/
def lax : Relaxed := ⟨true, true⟩

theorem Took.of_head {s s' : PState} {t : Option Token} {k : TokenKind} (h : Took s t s')
    (hk : some k = s.kinds.head?) : s.kinds = k :: s'.kinds := by
  rcases h with ⟨tk, rfl, h⟩ | ⟨_, h, _⟩
  · rw [h] at hk ⊢; simp at hk; rw [hk]
  · rw [h] at hk; simp at hk

theorem Took.of_map {s s' : PState} {t : Option Token} {k : TokenKind} (h : Took s t s')
    (hk : t.map Token.kind = some k) : s.kinds = k :: s'.kinds := by
  rcases h with ⟨tk, rfl, h⟩ | ⟨rfl, _⟩
  · simp at hk; rw [h, hk]
  · simp at hk

theorem good_optQuantifier (s : PState) :
    Good s (optQuantifier s) (fun q s' => ∃ ks, OptQuantifier q ks ∧ s.kinds = ks ++ s'.kinds) := by
  refine Good.bind (good_peekKind s) ?_
  rintro k s' _ ⟨rfl, hkk⟩
  split
  · rename_i q
    refine Good.bind (good_nextTok s') ?_
    intro t s'' _ ht
    exact Good.pure ⟨[.quantifier q], .some q, ht.of_head hkk⟩
  · exact Good.pure ⟨[], .none, rfl⟩

theorem good_characterGroupItem (s : PState) :
    Good s (characterGroupItem s) (fun i s' => ∃ ks, GroupItem i ks ∧ s.kinds = ks ++ s'.kinds) := by
  refine Good.bind (good_nextTok s) ?_
  intro t s1 _ ht
  rcases ht with ⟨⟨kind, pos⟩, rfl, ht⟩ | ⟨rfl, ht, _⟩
  · simp only at ht ⊢
    cases kind with
    | cls k => exact Good.pure ⟨_, .cls k, ht⟩
    | mtch a =>
      simp only
      refine Good.bind (good_peekKind s1) ?_
      rintro k s' _ ⟨rfl, hkk⟩
      split
      · refine Good.bind (good_nextTok s') ?_
        intro t s2 _ h2
        refine Good.bind (good_nextTok s2) ?_
        intro t' s3 _ h3
        generalize hm : t'.map Token.kind = m
        split
        · rename_i b
          refine Good.pure ⟨_, .range a b, ?_⟩
          rw [ht, h2.of_head hkk, h3.of_map hm]; rfl
        · exact good_failHere _ _ _
      · exact Good.pure ⟨_, .chr a, ht⟩
    | operator o => rfl
    | quantifier q => rfl
    | invalid => rfl
  · exact good_failHere _ _ _

theorem groupItem_ne_nil {i : GLit} {ks : List TokenKind} (h : GroupItem i ks) : ks ≠ [] := by
  cases h <;> simp

theorem groupItems_cons {r : Relaxed} {i : GLit} {is : List GLit} {ks ks' : List TokenKind}
    (h : GroupItem i ks) (h' : GroupItems r is ks') : GroupItems r (i :: is) (ks ++ ks') := .more h h'

theorem good_characterGroupLoop (n : Nat) : ∀ (s : PState), s.kinds.length < n →
    Good s (characterGroupLoop n s)
      (fun is s' => ∃ ks, GroupItems lax is ks ∧ s.kinds = ks ++ s'.kinds) := by
  induction n with
  | zero => intro s h; omega
  | succ n ih =>
    intro s hn
    refine Good.bind (good_peekKind s) ?_
    rintro k s' _ ⟨rfl, hkk⟩
    split
    · exact Good.pure ⟨[], .none rfl, rfl⟩
    · exact Good.pure ⟨[], .none rfl, rfl⟩
    · refine Good.bind (good_characterGroupItem s') ?_
      rintro i s1 _ ⟨ks, hi, hk⟩
      have hne := groupItem_ne_nil hi
      have hlen : s1.kinds.length < n := by
        have h1 : 0 < ks.length := List.length_pos_iff.2 hne
        have h2 := congrArg List.length hk
        simp at h2
        omega
      refine Good.bind (ih s1 hlen) ?_
      rintro is s2 _ ⟨ks', his, hk'⟩
      exact Good.pure ⟨ks ++ ks', .more hi his, by rw [hk, hk', List.append_assoc]⟩

theorem good_characterGroup (n : Nat) (s : PState) (hn : s.kinds.length ≤ n) :
    Good s (characterGroup n s) (fun l s' => ∃ ks, MatchItem lax l ks ∧ s.kinds = ks ++ s'.kinds) := by
  refine Good.bind (good_nextTok s) ?_
  intro t s1 _ h1
  generalize hm : t.map Token.kind = m
  split
  · have hs := h1.of_map hm
    have hl1 : s1.kinds.length < n := by rw [hs] at hn; simp at hn; omega
    refine Good.bind (Q := fun neg s' => s1.kinds = (if neg then [.operator .carret] else []) ++ s'.kinds)
      ?_ ?_
    · refine Good.bind (good_peekKind s1) ?_
      rintro k s' _ ⟨rfl, hkk⟩
      split
      · refine Good.bind (good_nextTok s') ?_
        intro t s2 _ h2
        exact Good.pure (h2.of_head hkk)
      · exact Good.pure rfl
    · intro neg s2 _ h2
      have hl2 : s2.kinds.length < n := by rw [h2] at hl1; simp at hl1; omega
      refine Good.bind (good_peekKind s2) ?_
      rintro k s' _ ⟨rfl, hkk⟩
      split
      · exact good_failHere _ _ _
      · refine Good.bind (good_characterGroupLoop n s' hl2) ?_
        rintro is s3 _ ⟨ks, his, h3⟩
        refine Good.bind (good_nextTok s3) ?_
        intro t s4 _ h4
        generalize hm : t.map Token.kind = m
        split
        · have h4' := h4.of_map hm
          cases neg with
          | false =>
            refine Good.pure ⟨_, .group his, ?_⟩
            rw [hs, h2, h3, h4']; simp
          | true =>
            refine Good.pure ⟨_, .negated his, ?_⟩
            rw [hs, h2, h3, h4']; simp
        · exact good_failHere _ _ _
  · exact good_failHere _ _ _

theorem good_matchItem (n : Nat) (s : PState) (hn : s.kinds.length ≤ n) :
    Good s (matchItem n s) (fun l s' => ∃ ks, MatchItem lax l ks ∧ s.kinds = ks ++ s'.kinds) := by
  refine Good.bind (good_peekKind s) ?_
  rintro k s' _ ⟨rfl, hkk⟩
  split
  · rename_i c
    refine Good.bind (good_nextTok s') ?_
    intro t s2 _ h2
    exact Good.pure ⟨_, .chr c, h2.of_head hkk⟩
  · exact good_characterGroup n s' hn
  · rename_i c
    refine Good.bind (good_nextTok s') ?_
    intro t s2 _ h2
    exact Good.pure ⟨_, .cls c, h2.of_head hkk⟩
  · exact good_failHere _ _ _

theorem matchItem_ne_nil {r : Relaxed} {l : Lit} {ks : List TokenKind} (h : MatchItem r l ks) :
    ks ≠ [] := by
  cases h <;> simp

theorem item_ne_nil {r : Relaxed} {e : Expr} {ks : List TokenKind} (h : SubExpressionItem r e ks) :
    ks ≠ [] := by
  cases h with
  | mtch h _ => have := matchItem_ne_nil h; simp [this]
  | group _ _ => simp

theorem good_match (n : Nat) (s : PState) (hn : s.kinds.length ≤ n) :
    Good s (match_ n s) (fun e s' => ∃ ks, SubExpressionItem lax e ks ∧ s.kinds = ks ++ s'.kinds) := by
  refine Good.bind (good_matchItem n s hn) ?_
  rintro l s1 _ ⟨ks, hl, h1⟩
  refine Good.bind (good_optQuantifier s1) ?_
  rintro q s2 _ ⟨kq, hq, h2⟩
  exact Good.pure ⟨ks ++ kq, .mtch hl hq, by rw [h1, h2, List.append_assoc]⟩

/-- Where an expression ends: at the end of the tokens or in front of a right parenthesis. -/
def EndsExpr (ks : List TokenKind) : Prop := ks.head? = none ∨ ks.head? = some (.operator .rightParen)

/-- Where a sequence ends. -/
def EndsSeq (ks : List TokenKind) : Prop := EndsExpr ks ∨ ks.head? = some (.operator .vertical)

theorem concatOf_eq (es : List Expr) : concatOf es = seqTree es := by
  unfold concatOf seqTree
  rcases es with _ | ⟨e, _ | ⟨e', es⟩⟩ <;> rfl

theorem good_parser (n : Nat) :
    (∀ s : PState, 5 * s.kinds.length + 5 ≤ n → Good s (expression n s)
      (fun e s' => ∃ ks, Expression lax e ks ∧ s.kinds = ks ++ s'.kinds ∧ EndsExpr s'.kinds)) ∧
    (∀ s : PState, 5 * s.kinds.length + 4 ≤ n → Good s (subExpression n s)
      (fun es s' => ∃ ks, SubExpression lax es ks ∧ s.kinds = ks ++ s'.kinds ∧ EndsSeq s'.kinds)) ∧
    (∀ s : PState, 5 * s.kinds.length + 3 ≤ n → Good s (subExpressionLoop n s)
      (fun es s' => ∃ ks, SubExpression lax es ks ∧ s.kinds = ks ++ s'.kinds ∧ EndsSeq s'.kinds)) ∧
    (∀ s : PState, 5 * s.kinds.length + 2 ≤ n → Good s (subExpressionItem n s)
      (fun e s' => ∃ ks, SubExpressionItem lax e ks ∧ s.kinds = ks ++ s'.kinds)) ∧
    (∀ s : PState, 5 * s.kinds.length + 1 ≤ n → Good s (group n s)
      (fun e s' => ∃ ks, SubExpressionItem lax e ks ∧ s.kinds = ks ++ s'.kinds)) := by
  induction n with
  | zero =>
    refine ⟨?_, ?_, ?_, ?_, ?_⟩ <;> (intro s h; omega)
  | succ n ih =>
    obtain ⟨ih1, ih2, ih3, ih4, ih5⟩ := ih
    refine ⟨?_, ?_, ?_, ?_, ?_⟩
    · intro s hn
      simp only [expression]
      refine Good.bind (ih2 s (by omega)) ?_
      rintro es s1 _ ⟨ks, h1, h2, h3⟩
      refine Good.bind (good_peekKind s1) ?_
      rintro k s' _ ⟨rfl, hkk⟩
      split
      · refine Good.bind (good_nextTok s') ?_
        intro t s2 _ h4
        have h4' := h4.of_head hkk
        have hlen : 5 * s2.kinds.length + 5 ≤ n := by
          rw [h2, h4'] at hn; simp at hn; omega
        refine Good.bind (ih1 s2 hlen) ?_
        rintro e s3 _ ⟨ks', h5, h6, h7⟩
        refine Good.pure ⟨ks ++ .operator .vertical :: ks', ?_, ?_, h7⟩
        · rw [concatOf_eq]; exact .alt h1 h5
        · rw [h2, h4', h6]; simp
      · rename_i hk
        refine Good.pure ⟨ks, by rw [concatOf_eq]; exact .sub h1, h2, ?_⟩
        rcases h3 with h3 | h3
        · exact h3
        · exact absurd (hkk.trans h3) (by simpa using hk)
    · intro s hn
      simp only [subExpression]
      refine Good.bind (good_peekKind s) ?_
      rintro k s' _ ⟨rfl, hkk⟩
      split
      · exact good_failHere _ _ _
      · exact ih3 s' (by omega)
    · intro s hn
      simp only [subExpressionLoop]
      refine Good.bind (good_peekKind s) ?_
      rintro k s' _ ⟨rfl, hkk⟩
      split
      · exact Good.pure ⟨[], .none rfl, rfl, .inl (.inl hkk.symm)⟩
      · exact Good.pure ⟨[], .none rfl, rfl, .inr hkk.symm⟩
      · exact Good.pure ⟨[], .none rfl, rfl, .inl (.inr hkk.symm)⟩
      · refine Good.bind (ih4 s' (by omega)) ?_
        rintro e s1 _ ⟨ks, h1, h2⟩
        have hlen : 5 * s1.kinds.length + 3 ≤ n := by
          have h3 : 0 < ks.length := List.length_pos_iff.2 (item_ne_nil h1)
          have h4 := congrArg List.length h2
          simp at h4
          omega
        refine Good.bind (ih3 s1 hlen) ?_
        rintro es s2 _ ⟨ks', h3, h4, h5⟩
        exact Good.pure ⟨ks ++ ks', .more h1 h3, by rw [h2, h4, List.append_assoc], h5⟩
    · intro s hn
      simp only [subExpressionItem]
      refine Good.bind (good_peekKind s) ?_
      rintro k s' _ ⟨rfl, hkk⟩
      split
      · exact good_failHere _ _ _
      · exact ih5 s' (by omega)
      · exact good_match n s' (by omega)
    · intro s hn
      simp only [group]
      refine Good.bind (good_nextTok s) ?_
      intro t s1 _ h1
      generalize hm : t.map Token.kind = m
      split
      · have h1' := h1.of_map hm
        have hlen : 5 * s1.kinds.length + 5 ≤ n := by rw [h1'] at hn; simp at hn; omega
        refine Good.bind (ih1 s1 hlen) ?_
        rintro e s2 _ ⟨ks, h2, h3, _⟩
        refine Good.bind (good_nextTok s2) ?_
        intro t s3 _ h4
        generalize hm : t.map Token.kind = m
        split
        · have h4' := h4.of_map hm
          refine Good.bind (good_optQuantifier s3) ?_
          rintro q s4 _ ⟨kq, hq, h5⟩
          refine Good.pure ⟨_, .group h2 hq, ?_⟩
          rw [h1', h3, h4', h5]; simp
        · exact good_failHere _ _ _
      · exact good_failHere _ _ _

/-! ## Completeness -/

/-- A successful result in front of the token kinds `ks` at the end of a stream that ends normally. -/
def Yields {α : Type} (r : PResult α) (a : α) (ks : List TokenKind) : Prop :=
  ∃ s', r = .ok a s' ∧ s'.kinds = ks ∧ s'.stop = .eof

theorem Yields.bind {α β : Type} {s : PState} {x : P α} {f : α → P β} {a : α} {b : β}
    {ks ks' : List TokenKind} (h : Yields (x s) a ks)
    (hf : ∀ s', s'.kinds = ks → s'.stop = .eof → Yields (f a s') b ks') :
    Yields ((x >>= f) s) b ks' := by
  obtain ⟨s', h1, h2, h3⟩ := h
  rw [bind_apply, h1]
  exact hf s' h2 h3

theorem Yields.pure {α : Type} {s : PState} {a : α} {ks : List TokenKind} (h : s.kinds = ks)
    (hs : s.stop = .eof) : Yields ((pure a : P α) s) a ks := ⟨s, rfl, h, hs⟩

theorem yields_peekKind {s : PState} {ks : List TokenKind} (h : s.kinds = ks) (hs : s.stop = .eof) :
    Yields (peekKind s) ks.head? ks := by
  refine ⟨s, ?_, h, hs⟩
  subst h
  unfold peekKind P.bind peekTok PState.kinds
  cases ht : s.toks with
  | nil => simp [hs, P.pure]
  | cons t r => simp [P.pure]

theorem yields_nextTok {s : PState} {k : TokenKind} {ks : List TokenKind} (h : s.kinds = k :: ks)
    (hs : s.stop = .eof) : ∃ t, t.kind = k ∧ Yields (nextTok s) (some t) ks := by
  unfold nextTok
  cases ht : s.toks with
  | nil => simp [PState.kinds, ht] at h
  | cons t r =>
    simp [PState.kinds, ht] at h
    exact ⟨t, h.1, _, rfl, h.2, hs⟩

/-- Does not start with a quantifier. -/
def NoQuant (ks : List TokenKind) : Prop := ∀ q, ks.head? ≠ some (.quantifier q)

theorem yields_optQuantifier {q : Option Quant} {kq rest : List TokenKind} (h : OptQuantifier q kq)
    {s : PState} (hk : s.kinds = kq ++ rest) (hs : s.stop = .eof) (hr : NoQuant rest) :
    Yields (optQuantifier s) q rest := by
  refine (yields_peekKind hk hs).bind ?_
  intro s' hk' hs'
  cases h with
  | none =>
    simp only [List.nil_append] at hk' ⊢
    generalize hm : rest.head? = m
    split
    · exact absurd hm (hr _)
    · exact .pure hk' hs'
  | some q =>
    simp only [List.cons_append, List.nil_append, List.head?_cons] at hk' ⊢
    obtain ⟨t, -, ht⟩ := yields_nextTok hk' hs'
    exact ht.bind fun s'' h1 h2 => .pure h1 h2

/-- Does not start with a minus. -/
def NoMinus (ks : List TokenKind) : Prop := ks.head? ≠ some (.operator .minus)

theorem yields_characterGroupItem {i : GLit} {ks rest : List TokenKind} (h : GroupItem i ks)
    {s : PState} (hk : s.kinds = ks ++ rest) (hs : s.stop = .eof) (hr : NoMinus rest) :
    Yields (characterGroupItem s) i rest := by
  cases h with
  | cls k =>
    obtain ⟨⟨kind, pos⟩, hk1, ht⟩ := yields_nextTok hk hs
    refine ht.bind ?_
    intro s' h1 h2
    simp only at hk1; subst hk1
    exact .pure h1 h2
  | chr a =>
    rw [List.cons_append, List.nil_append] at hk
    obtain ⟨⟨kind, pos⟩, hk1, ht⟩ := yields_nextTok hk hs
    refine ht.bind ?_
    intro s' h1 h2
    simp only at hk1; subst hk1
    refine (yields_peekKind h1 h2).bind ?_
    intro s'' h3 h4
    generalize hm : rest.head? = m
    split
    · exact absurd hm hr
    · exact .pure h3 h4
  | range a b =>
    rw [List.cons_append, List.cons_append, List.cons_append, List.nil_append] at hk
    obtain ⟨⟨kind, pos⟩, hk1, ht⟩ := yields_nextTok hk hs
    refine ht.bind ?_
    intro s' h1 h2
    simp only at hk1; subst hk1
    refine (yields_peekKind h1 h2).bind ?_
    intro s'' h3 h4
    simp only [List.head?_cons]
    obtain ⟨t, -, ht⟩ := yields_nextTok h3 h4
    refine ht.bind ?_
    intro s3 h5 h6
    obtain ⟨t', hk', ht⟩ := yields_nextTok h5 h6
    refine ht.bind ?_
    intro s4 h7 h8
    simp only [Option.map_some, hk']
    exact .pure h7 h8

theorem groupItem_head {i : GLit} {ks : List TokenKind} (h : GroupItem i ks) :
    (∃ c r, ks = .mtch c :: r) ∨ (∃ c r, ks = .cls c :: r) := by
  cases h with
  | cls k => exact .inr ⟨_, _, rfl⟩
  | range a b => exact .inl ⟨_, _, rfl⟩
  | chr a => exact .inl ⟨_, _, rfl⟩

theorem groupItems_noMinus {r : Relaxed} {is : List GLit} {ks rest : List TokenKind}
    (h : GroupItems r is ks) (hr : NoMinus rest) : NoMinus (ks ++ rest) := by
  cases h with
  | none _ => exact hr
  | one h =>
    rcases groupItem_head h with ⟨c, r, rfl⟩ | ⟨c, r, rfl⟩ <;> simp [NoMinus]
  | more h _ =>
    rcases groupItem_head h with ⟨c, r, rfl⟩ | ⟨c, r, rfl⟩ <;> simp [NoMinus]

theorem yields_characterGroupLoop {r : Relaxed} {is : List GLit} {ks : List TokenKind}
    (h : GroupItems r is ks) : ∀ {rest : List TokenKind} {s : PState} {n : Nat},
    s.kinds = ks ++ .operator .rightBracket :: rest → s.stop = .eof → s.kinds.length < n →
    Yields (characterGroupLoop n s) is (.operator .rightBracket :: rest) := by
  have stop : ∀ {rest : List TokenKind} {s : PState} {n : Nat},
      s.kinds = .operator .rightBracket :: rest → s.stop = .eof → 0 < n →
      Yields (characterGroupLoop n s) [] (.operator .rightBracket :: rest) := by
    intro rest s n hk hs hn
    obtain ⟨n, rfl⟩ : ∃ m, n = m + 1 := ⟨n - 1, by omega⟩
    exact (yields_peekKind hk hs).bind fun s' h1 h2 => .pure h1 h2
  have step : ∀ {i : GLit} {is : List GLit} {k1 k2 rest : List TokenKind} {s : PState} {n : Nat},
      GroupItem i k1 → NoMinus (k2 ++ .operator .rightBracket :: rest) →
      s.kinds = k1 ++ (k2 ++ .operator .rightBracket :: rest) → s.stop = .eof → s.kinds.length < n →
      (∀ {s : PState} {n : Nat}, s.kinds = k2 ++ .operator .rightBracket :: rest → s.stop = .eof →
        s.kinds.length < n → Yields (characterGroupLoop n s) is (.operator .rightBracket :: rest)) →
      Yields (characterGroupLoop n s) (i :: is) (.operator .rightBracket :: rest) := by
    intro i is k1 k2 rest s n hi hm hk hs hn ih
    obtain ⟨n, rfl⟩ : ∃ m, n = m + 1 := ⟨n - 1, by omega⟩
    refine (yields_peekKind hk hs).bind ?_
    intro s1 h1 h2
    have hbody : Yields ((do
        let item ← characterGroupItem
        let items ← characterGroupLoop n
        pure (item :: items) : P (List GLit)) s1) (i :: is) (.operator .rightBracket :: rest) := by
      refine (yields_characterGroupItem hi h1 h2 hm).bind ?_
      intro s2 h3 h4
      refine (ih h3 h4 ?_).bind fun s3 h5 h6 => .pure h5 h6
      rw [hk] at hn
      have := List.length_pos_iff.2 (groupItem_ne_nil hi)
      rw [h3]
      rw [List.length_append] at hn
      omega
    rcases groupItem_head hi with ⟨c, r, rfl⟩ | ⟨c, r, rfl⟩
    · exact hbody
    · exact hbody
  induction h with
  | none _ => intro rest s n hk hs hn; exact stop hk hs (by omega)
  | one hi =>
    intro rest s n hk hs hn
    refine step (k2 := []) hi (by simp [NoMinus]) hk hs hn ?_
    intro s n hk hs hn
    exact stop hk hs (by omega)
  | more hi his ih =>
    intro rest s n hk hs hn
    refine step hi (groupItems_noMinus his (by simp [NoMinus])) (by rw [hk, List.append_assoc]) hs hn ?_
    intro s n hk hs hn
    exact ih hk hs hn

theorem yields_matchItem {r : Relaxed} {l : Lit} {ks rest : List TokenKind} (h : MatchItem r l ks)
    {s : PState} {n : Nat} (hk : s.kinds = ks ++ rest) (hs : s.stop = .eof) (hn : s.kinds.length ≤ n) :
    Yields (matchItem n s) l rest := by
  have close : ∀ {neg : Bool} {is : List GLit} {ks : List TokenKind} {s : PState},
      GroupItems r is ks → s.kinds = ks ++ .operator .rightBracket :: rest → s.stop = .eof →
      s.kinds.length < n →
      Yields ((do match ← peekKind with
                  | none => failHere .characterGroupItem
                  | some _ =>
                    let literals ← characterGroupLoop n
                    match (← nextTok).map Token.kind with
                    | some (.operator .rightBracket) => pure (.group neg literals)
                    | _ => failHere .rightBracket : P Lit) s) (.group neg is) rest := by
    intro neg is ks s his hk hs hn
    refine (yields_peekKind hk hs).bind ?_
    intro s1 h1 h2
    have hh : ∃ k, (ks ++ .operator .rightBracket :: rest).head? = some k := by
      cases ks <;> simp
    obtain ⟨k, hh⟩ := hh
    rw [hh]
    refine (yields_characterGroupLoop his h1 h2 (by rw [h1, ← hk]; exact hn)).bind ?_
    intro s2 h3 h4
    obtain ⟨t, htk, ht⟩ := yields_nextTok h3 h4
    refine ht.bind ?_
    intro s3 h5 h6
    simp only [Option.map_some, htk]
    exact .pure h5 h6
  refine (yields_peekKind hk hs).bind ?_
  intro s1 h1 h2
  cases h with
  | cls k =>
    obtain ⟨t, -, ht⟩ := yields_nextTok h1 h2
    exact ht.bind fun s2 h3 h4 => .pure h3 h4
  | chr a =>
    obtain ⟨t, -, ht⟩ := yields_nextTok h1 h2
    exact ht.bind fun s2 h3 h4 => .pure h3 h4
  | @group is ks his =>
    have h1' : s1.kinds = .operator .leftBracket :: (ks ++ .operator .rightBracket :: rest) := by
      rw [h1]; simp
    have hlen : (ks ++ .operator .rightBracket :: rest).length < n := by
      rw [hk] at hn; simp at hn ⊢; omega
    obtain ⟨t, htk, ht⟩ := yields_nextTok h1' h2
    show Yields (characterGroup n s1) _ _
    refine ht.bind ?_
    intro s2 h3 h4
    simp only [Option.map_some, htk]
    refine Yields.bind (a := false) (ks := ks ++ .operator .rightBracket :: rest) ?_ ?_
    · refine (yields_peekKind h3 h4).bind ?_
      intro s3 h5 h6
      have hc : (ks ++ TokenKind.operator .rightBracket :: rest).head? ≠ some (.operator .carret) := by
        cases his with
        | none _ => simp
        | one h => rcases groupItem_head h with ⟨c, r, rfl⟩ | ⟨c, r, rfl⟩ <;> simp
        | more h _ => rcases groupItem_head h with ⟨c, r, rfl⟩ | ⟨c, r, rfl⟩ <;> simp
      generalize (ks ++ TokenKind.operator .rightBracket :: rest).head? = m at hc
      split
      · exact absurd rfl hc
      · exact .pure h5 h6
    · intro s3 h5 h6
      exact close his h5 h6 (by rw [h5]; exact hlen)
  | @negated is ks his =>
    have h1' : s1.kinds = .operator .leftBracket :: .operator .carret ::
        (ks ++ .operator .rightBracket :: rest) := by
      rw [h1]; simp
    have hlen : (ks ++ .operator .rightBracket :: rest).length < n := by
      rw [hk] at hn; simp at hn ⊢; omega
    obtain ⟨t, htk, ht⟩ := yields_nextTok h1' h2
    show Yields (characterGroup n s1) _ _
    refine ht.bind ?_
    intro s2 h3 h4
    simp only [Option.map_some, htk]
    refine Yields.bind (a := true) (ks := ks ++ .operator .rightBracket :: rest) ?_ ?_
    · refine (yields_peekKind h3 h4).bind ?_
      intro s3 h5 h6
      obtain ⟨t, -, ht⟩ := yields_nextTok h5 h6
      exact ht.bind fun s4 h7 h8 => .pure h7 h8
    · intro s3 h5 h6
      exact close his h5 h6 (by rw [h5]; exact hlen)

/-- The token kinds an item can start with. -/
def ItemHead (k : TokenKind) : Prop :=
  (∃ c, k = .mtch c) ∨ (∃ c, k = .cls c) ∨ k = .operator .leftBracket ∨ k = .operator .leftParen

theorem item_head {r : Relaxed} {e : Expr} {ks : List TokenKind} (h : SubExpressionItem r e ks) :
    ∃ k ks', ks = k :: ks' ∧ ItemHead k := by
  cases h with
  | mtch h _ =>
    cases h with
    | cls k => exact ⟨_, _, rfl, .inr (.inl ⟨_, rfl⟩)⟩
    | chr a => exact ⟨_, _, rfl, .inl ⟨_, rfl⟩⟩
    | group _ => exact ⟨_, _, rfl, .inr (.inr (.inl rfl))⟩
    | negated _ => exact ⟨_, _, rfl, .inr (.inr (.inl rfl))⟩
  | group _ _ => exact ⟨_, _, rfl, .inr (.inr (.inr rfl))⟩

theorem subExpression_head {r : Relaxed} (hr : r.emptySeq = false) {es : List Expr}
    {ks : List TokenKind} (h : SubExpression r es ks) : ∃ k ks', ks = k :: ks' ∧ ItemHead k := by
  cases h with
  | none h => rw [hr] at h; simp at h
  | one h => exact item_head h
  | more h _ =>
    obtain ⟨k, ks', rfl, hk⟩ := item_head h
    exact ⟨k, _, rfl, hk⟩

theorem subExpression_start {r : Relaxed} {es : List Expr} {ks : List TokenKind} (h : SubExpression r es ks) :
    (∃ k ks', ks = k :: ks' ∧ ItemHead k) ∨ ks = [] ∧ r.emptySeq = true := by
  cases h with
  | none h => exact .inr ⟨rfl, h⟩
  | one h => exact .inl (item_head h)
  | more h _ =>
    obtain ⟨k, ks', rfl, hk⟩ := item_head h
    exact .inl ⟨k, _, rfl, hk⟩

theorem ItemHead.noQuant {k : TokenKind} (h : ItemHead k) (ks : List TokenKind) : NoQuant (k :: ks) := by
  rcases h with ⟨c, rfl⟩ | ⟨c, rfl⟩ | rfl | rfl <;> simp [NoQuant]

theorem EndsSeq.noQuant {ks : List TokenKind} (h : EndsSeq ks) : NoQuant ks := by
  intro q
  rcases h with (h | h) | h <;> simp [h]

/-- There is a last token, and it is no bar. -/
def Closed (ks : List TokenKind) : Prop := ∃ init last, ks = init ++ [last] ∧ last ≠ .operator .vertical

theorem Closed.ne_nil {ks : List TokenKind} (h : Closed ks) : ks ≠ [] := by
  obtain ⟨init, last, rfl, _⟩ := h
  simp

theorem Closed.append_left {ks' : List TokenKind} (h : Closed ks') (ks : List TokenKind) : Closed (ks ++ ks') := by
  obtain ⟨init, last, rfl, h⟩ := h
  exact ⟨ks ++ init, last, by simp, h⟩

theorem Closed.of_bar {ks ks' : List TokenKind} (h : Closed (ks ++ .operator .vertical :: ks')) : Closed ks' := by
  obtain ⟨init, last, e, h⟩ := h
  rcases List.eq_nil_or_concat ks' with rfl | ⟨l, a, rfl⟩
  · have := congrArg List.getLast? e
    simp at this
    exact absurd this.symm h
  · refine ⟨l, a, by simp, ?_⟩
    have := congrArg List.getLast? e
    rw [List.concat_eq_append, ← List.cons_append, ← List.append_assoc, List.getLast?_concat, List.getLast?_concat] at this
    simp only [Option.some.injEq] at this
    rw [this]
    exact h

theorem closed_cons {k : TokenKind} {ks : List TokenKind} (h : Closed ks) : Closed (k :: ks) :=
  h.append_left [k]

theorem closed_single {k : TokenKind} (h : k ≠ .operator .vertical) : Closed [k] := ⟨[], k, rfl, h⟩

theorem matchItem_closed {r : Relaxed} {l : Lit} {ks : List TokenKind} (h : MatchItem r l ks) : Closed ks := by
  cases h with
  | cls k => exact closed_single (by simp)
  | chr a => exact closed_single (by simp)
  | group _ => exact closed_cons ((closed_single (by simp)).append_left _)
  | negated _ => exact closed_cons (closed_cons ((closed_single (by simp)).append_left _))

theorem item_closed {r : Relaxed} {e : Expr} {ks : List TokenKind} (h : SubExpressionItem r e ks) : Closed ks := by
  cases h with
  | mtch h hq =>
    cases hq with
    | none => simpa using matchItem_closed h
    | some q => exact (closed_single (by simp)).append_left _
  | group h hq =>
    refine closed_cons (Closed.append_left ?_ _)
    cases hq with
    | none => exact closed_single (by simp)
    | some q => exact closed_cons (closed_single (by simp))

theorem seq_closed {r : Relaxed} {es : List Expr} : ∀ {ks : List TokenKind}, SubExpression r es ks → ks ≠ [] →
    Closed ks := by
  induction es with
  | nil => intro ks h hne; cases h; exact absurd rfl hne
  | cons e es ih =>
    intro ks h hne
    cases h with
    | one h => exact item_closed h
    | more h hs =>
      rename_i ks ks'
      by_cases h0 : ks' = []
      · subst h0; simpa using item_closed h
      · exact (ih hs h0).append_left _

/-- If sequences may be empty, this holds in front of a right parenthesis, and if the last token is no bar. -/
theorem yields_expression {r : Relaxed} {e : Expr} {ks : List TokenKind}
    (h : Expression r e ks) : ∀ {rest : List TokenKind} {s : PState} {n : Nat},
    s.kinds = ks ++ rest → s.stop = .eof → EndsExpr rest → (r.emptySeq = true → rest ≠ [] ∨ Closed ks) →
    5 * s.kinds.length + 5 ≤ n → Yields (expression n s) e rest := by
  have seqStart : ∀ {es : List Expr} {ks rest : List TokenKind} {s : PState} {n : Nat},
      SubExpression r es ks → s.kinds = ks ++ rest → s.stop = .eof →
      5 * s.kinds.length + 4 ≤ n → EndsSeq rest → (r.emptySeq = true → ks ++ rest ≠ []) →
      (∀ {rest : List TokenKind} {s : PState} {n : Nat},
        s.kinds = ks ++ rest → s.stop = .eof → EndsSeq rest → 5 * s.kinds.length + 3 ≤ n →
        Yields (subExpressionLoop n s) es rest) →
      Yields (subExpression n s) es rest := by
    intro es ks rest s n hes hk hs hn hrest hne ih
    obtain ⟨n, rfl⟩ : ∃ m, n = m + 1 := ⟨n - 1, by omega⟩
    simp only [subExpression]
    refine (yields_peekKind hk hs).bind ?_
    intro s1 h1 h2
    obtain ⟨k, ks', hks⟩ : ∃ k ks', ks ++ rest = k :: ks' := by
      rcases subExpression_start hes with ⟨k, ks', rfl, _⟩ | ⟨rfl, h⟩
      · exact ⟨k, _, rfl⟩
      · exact List.ne_nil_iff_exists_cons.1 (hne h)
    rw [hks, List.head?_cons]
    exact ih h1 h2 hrest (by rw [h1, ← hk]; omega)
  have loopEnd : ∀ {rest : List TokenKind} {s : PState} {n : Nat}, s.kinds = rest → s.stop = .eof →
      EndsSeq rest → 0 < n → Yields (subExpressionLoop n s) [] rest := by
    intro rest s n hk hs hrest hn
    obtain ⟨n, rfl⟩ : ∃ m, n = m + 1 := ⟨n - 1, by omega⟩
    simp only [subExpressionLoop]
    refine (yields_peekKind hk hs).bind ?_
    intro s1 h1 h2
    rcases hrest with (h | h) | h <;> rw [h] <;> exact .pure h1 h2
  have loopStep : ∀ {e : Expr} {es : List Expr} {k1 k2 rest : List TokenKind} {s : PState} {n : Nat},
      SubExpressionItem r e k1 → s.kinds = k1 ++ (k2 ++ rest) → s.stop = .eof →
      NoQuant (k2 ++ rest) → 5 * s.kinds.length + 3 ≤ n →
      (∀ {rest : List TokenKind} {s : PState} {n : Nat},
        s.kinds = k1 ++ rest → s.stop = .eof → NoQuant rest → 5 * s.kinds.length + 2 ≤ n →
        Yields (subExpressionItem n s) e rest) →
      (∀ {s : PState} {n : Nat}, s.kinds = k2 ++ rest → s.stop = .eof → 5 * s.kinds.length + 3 ≤ n →
        Yields (subExpressionLoop n s) es rest) →
      Yields (subExpressionLoop n s) (e :: es) rest := by
    intro e es k1 k2 rest s n he hk hs hq hn ih1 ih2
    obtain ⟨n, rfl⟩ : ∃ m, n = m + 1 := ⟨n - 1, by omega⟩
    simp only [subExpressionLoop]
    refine (yields_peekKind hk hs).bind ?_
    intro s1 h1 h2
    have hbody : Yields ((do
        let item ← subExpressionItem n
        let items ← subExpressionLoop n
        pure (item :: items) : P (List Expr)) s1) (e :: es) rest := by
      refine (ih1 h1 h2 hq (by rw [h1, ← hk]; omega)).bind ?_
      intro s2 h3 h4
      refine (ih2 h3 h4 ?_).bind fun s3 h5 h6 => .pure h5 h6
      have := List.length_pos_iff.2 (item_ne_nil he)
      rw [hk, List.length_append] at hn
      rw [h3]; omega
    obtain ⟨k, ks', rfl, hk'⟩ := item_head he
    rcases hk' with ⟨c, rfl⟩ | ⟨c, rfl⟩ | rfl | rfl <;> exact hbody
  refine @Expression.rec r
    (motive_1 := fun e ks _ => ∀ {rest : List TokenKind} {s : PState} {n : Nat},
      s.kinds = ks ++ rest → s.stop = .eof → EndsExpr rest → (r.emptySeq = true → rest ≠ [] ∨ Closed ks) →
      5 * s.kinds.length + 5 ≤ n → Yields (expression n s) e rest)
    (motive_2 := fun es ks _ => ∀ {rest : List TokenKind} {s : PState} {n : Nat},
      s.kinds = ks ++ rest → s.stop = .eof → EndsSeq rest → 5 * s.kinds.length + 3 ≤ n →
      Yields (subExpressionLoop n s) es rest)
    (motive_3 := fun e ks _ => ∀ {rest : List TokenKind} {s : PState} {n : Nat},
      s.kinds = ks ++ rest → s.stop = .eof → NoQuant rest → 5 * s.kinds.length + 2 ≤ n →
      Yields (subExpressionItem n s) e rest)
    ?_ ?_ ?_ ?_ ?_ ?_ ?_ e ks h
  · intro es ks hes ih rest s n hk hs hrest hne hn
    obtain ⟨n, rfl⟩ : ∃ m, n = m + 1 := ⟨n - 1, by omega⟩
    simp only [expression]
    refine (seqStart hes hk hs (by omega) (.inl hrest)
      (fun h h' => (hne h).elim (fun h => h (List.append_eq_nil_iff.1 h').2)
        fun h => h.ne_nil (List.append_eq_nil_iff.1 h').1) ih).bind ?_
    intro s1 h1 h2
    refine (yields_peekKind h1 h2).bind ?_
    intro s2 h3 h4
    rw [concatOf_eq]
    rcases hrest with h | h <;> rw [h] <;> exact .pure h3 h4
  · intro es e ks ks' hes he ih1 ih2 rest s n hk hs hrest hne hn
    obtain ⟨n, rfl⟩ : ∃ m, n = m + 1 := ⟨n - 1, by omega⟩
    simp only [expression]
    have hk' : s.kinds = ks ++ (.operator .vertical :: (ks' ++ rest)) := by rw [hk]; simp
    refine (seqStart hes hk' hs (by omega) (.inr rfl) (fun _ => by simp) ih1).bind ?_
    intro s1 h1 h2
    refine (yields_peekKind h1 h2).bind ?_
    intro s2 h3 h4
    rw [concatOf_eq]
    simp only [List.head?_cons]
    obtain ⟨t, -, ht⟩ := yields_nextTok h3 h4
    refine ht.bind ?_
    intro s3 h5 h6
    refine (ih2 h5 h6 hrest (fun h => (hne h).imp id Closed.of_bar) ?_).bind fun s4 h7 h8 => .pure h7 h8
    rw [hk', List.length_append, List.length_cons] at hn
    rw [h5]; omega
  · intro _ rest s n hk hs hrest hn
    exact loopEnd hk hs hrest (by omega)
  · intro e ks he ih rest s n hk hs hrest hn
    refine loopStep (k2 := []) he hk hs hrest.noQuant hn ih ?_
    intro s n hk hs hn
    exact loopEnd hk hs hrest (by omega)
  · intro e es ks ks' he hes ih1 ih2 rest s n hk hs hrest hn
    refine loopStep (k2 := ks') he (by rw [hk, List.append_assoc]) hs ?_ hn ih1 ?_
    · rcases subExpression_start hes with ⟨k, ks', rfl, hk'⟩ | ⟨rfl, _⟩
      · exact hk'.noQuant _
      · exact hrest.noQuant
    · intro s n hk hs hn
      exact ih2 hk hs hrest hn
  · intro l q ks kq hl hq rest s n hk hs hrest hn
    obtain ⟨n, rfl⟩ : ∃ m, n = m + 1 := ⟨n - 1, by omega⟩
    simp only [subExpressionItem]
    rw [List.append_assoc] at hk
    refine (yields_peekKind hk hs).bind ?_
    intro s1 h1 h2
    have hbody : Yields (match_ n s1) (.lit l q) rest := by
      refine (yields_matchItem hl h1 h2 (by rw [h1, ← hk]; omega)).bind ?_
      intro s2 h3 h4
      refine (yields_optQuantifier hq h3 h4 hrest).bind fun s3 h5 h6 => .pure h5 h6
    cases hl <;> exact hbody
  · intro e q ks kq he hq ih rest s n hk hs hrest hn
    obtain ⟨n, rfl⟩ : ∃ m, n = m + 1 := ⟨n - 1, by omega⟩
    simp only [subExpressionItem]
    have hk' : s.kinds = .operator .leftParen :: (ks ++ .operator .rightParen :: (kq ++ rest)) := by
      rw [hk]; simp
    refine (yields_peekKind hk' hs).bind ?_
    intro s1 h1 h2
    show Yields (group n s1) _ _
    obtain ⟨n, rfl⟩ : ∃ m, n = m + 1 := ⟨n - 1, by omega⟩
    simp only [group]
    obtain ⟨t, htk, ht⟩ := yields_nextTok h1 h2
    refine ht.bind ?_
    intro s2 h3 h4
    simp only [Option.map_some, htk]
    refine (ih h3 h4 (.inr rfl) (fun _ => .inl (by simp)) ?_).bind ?_
    · rw [hk', List.length_cons] at hn
      rw [h3]; omega
    · intro s3 h5 h6
      obtain ⟨t, htk, ht⟩ := yields_nextTok h5 h6
      refine ht.bind ?_
      intro s4 h7 h8
      simp only [Option.map_some, htk]
      exact (yields_optQuantifier hq h7 h8 hrest).bind fun s5 h9 h10 => .pure h9 h10

theorem yields_parser {r : Relaxed} (hr : r.emptySeq = false) {e : Expr} {ks : List TokenKind}
    (h : Expression r e ks) {rest : List TokenKind} {s : PState} {n : Nat} (hk : s.kinds = ks ++ rest)
    (hs : s.stop = .eof) (he : EndsExpr rest) (hn : 5 * s.kinds.length + 5 ≤ n) :
    Yields (expression n s) e rest :=
  yields_expression h hk hs he (fun h => by rw [hr] at h; simp at h) hn

end Pango.Regex
