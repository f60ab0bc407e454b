import Verif.Proofs.RegexParser

/-!
# Where the pattern parser reports its errors
-/

namespace Pango.Regex

open Pango Pango.Spec

/-- The kinds of tokens. -/
abbrev kindsOf (ts : List Token) : List TokenKind := ts.map Token.kind

/-- The last character of a token. -/
def Token.lastChar (t : Token) : Nat × Nat := (t.pos.2 - 1, t.pos.2)

/-- Where an error is reported, given all tokens and those from the place on where the parser is
stuck. -/
def Reported (all rest : List Token) : ParseErrorKind → Nat × Nat → Prop
  | .rightParan, pos => rest = [] ∧ pos = (0, 1)
  | .rightBracket, pos => rest = [] ∧ pos = (0, 1)
  | .subExpression, pos => rest = [] ∧ ∃ t, all.getLast? = some t ∧ pos = t.lastChar
  | .characterGroupItem, pos => rest = [] ∧ ∃ t, all.getLast? = some t ∧ pos = t.lastChar
  | .matchCharacterClassLeftBracket, pos => ∃ t r, rest = t :: r ∧ pos = t.pos
  | .characterClassCharacter, pos => ∃ t r, rest = t :: r ∧ pos = t.pos
  | .mtch, pos => (rest = [] ∧ pos = (0, 1)) ∨ (∃ t, rest = [t] ∧ pos = t.lastChar) ∨
      (∃ t t' r, rest = t :: t' :: r ∧ pos = t'.pos)
  | _, _ => False

/-- What an error says is expected. -/
def Expect : ParseErrorKind → List TokenKind → Prop
  | .rightParan, ks => ks = [.operator .rightParen]
  | .rightBracket, ks => ks = [.operator .rightBracket]
  | .subExpression, ks => ∃ es, SubExpression lax es ks
  | .characterGroupItem, ks => ∃ i, GroupItem i ks
  | .matchCharacterClassLeftBracket, ks =>
      (∃ c, ks = [.mtch c]) ∨ (∃ k, ks = [.cls k]) ∨ ks = [.operator .leftBracket]
  | .characterClassCharacter, ks => (∃ k, ks = [.cls k]) ∨ ∃ c, ks = [.mtch c]
  | .mtch, ks => ∃ c, ks = [.mtch c]
  | _, _ => False

/-- Nothing, or what an error says is expected. -/
def Goes (k : ParseErrorKind) (ks : List TokenKind) : Prop := ks = [] ∨ Expect k ks

/-- The parser has read a part of the tokens, and its cached token is the last of them. -/
def Inv (all : List Token) (s : PState) : Prop :=
  ∃ c, all = c ++ s.toks ∧ s.cur.getD none = c.getLast?

/-- Where a run that started in `s` meets the end of a stream that crashes there: the tokens up to there can be continued
to something in `V`, or they can without the last of them, which is in place of the end of a range. -/
def MeetsEnd (all : List Token) (s : PState) (V : List TokenKind → Prop) : Prop :=
  ∃ d rest, s.toks = d ++ rest ∧ (∃ w, V (kindsOf d ++ w)) ∧
    (rest = [] ∨ ∃ t done, rest = [t] ∧ all = done ++ [t] ∧ (kindsOf done).getLast? = some (.operator .minus))

/-- A run of `x` started in `s`: a value that belongs to the tokens read, or an error at a place such that
the tokens up to there, also with what is said to be expected, can be continued to something in `V`.  Neither depends on more than one token
behind the place reached: with other tokens behind that one, the value is the same, and it remains an
error. -/
def GoodE {α : Type} (all : List Token) (s : PState) (x : P α)
    (Q : α → List TokenKind → PState → Prop) (V : List TokenKind → Prop) : Prop :=
  match x s with
  | .ok a s' => ∃ d, s.toks = d ++ s'.toks ∧ Inv all s' ∧ Q a (kindsOf d) s' ∧
      ∀ y r r' c, s'.toks = y :: r →
        ∃ c', x ⟨d ++ y :: r', .eof, c⟩ = .ok a ⟨y :: r', .eof, c'⟩
  | .err es => ∃ k pos d rest, es = [⟨k, pos⟩] ∧ s.toks = d ++ rest ∧ Reported all rest k pos ∧
      (∀ g, Goes k g → ∃ w, V (kindsOf d ++ (g ++ w))) ∧ ∀ t r r' c, rest = t :: r → ∃ es', x ⟨d ++ t :: r', .eof, c⟩ = .err es'
  | .panic => MeetsEnd all s V
  | .diverge => True

theorem MeetsEnd.nil {all : List Token} {s : PState} {V : List TokenKind → Prop} (h : s.toks = []) (hV : ∃ w, V w) :
    MeetsEnd all s V := ⟨[], [], h, hV, .inl rfl⟩

theorem MeetsEnd.mono {all : List Token} {s : PState} {V1 V : List TokenKind → Prop} (h : MeetsEnd all s V1)
    (hV : ∀ ks, V1 ks → ∃ w, V (ks ++ w)) : MeetsEnd all s V := by
  obtain ⟨d, rest, h1, ⟨w, h2⟩, h3⟩ := h
  obtain ⟨w', h4⟩ := hV _ h2
  exact ⟨d, rest, h1, ⟨w ++ w', by simpa using h4⟩, h3⟩

theorem MeetsEnd.behind {all : List Token} {s s' : PState} {V : List TokenKind → Prop} {d : List Token}
    (h : MeetsEnd all s' (fun ks => V (kindsOf d ++ ks))) (hd : s.toks = d ++ s'.toks) : MeetsEnd all s V := by
  obtain ⟨d', rest, h1, ⟨w, h2⟩, h3⟩ := h
  exact ⟨d ++ d', rest, by rw [hd, h1, List.append_assoc], ⟨w, by simpa [kindsOf] using h2⟩, h3⟩

theorem GoodE.bind {α β : Type} {all : List Token} {s : PState} {x : P α} {f : α → P β}
    {Q : α → List TokenKind → PState → Prop} {V1 : List TokenKind → Prop}
    {R : β → List TokenKind → PState → Prop} {V : List TokenKind → Prop}
    (h : GoodE all s x Q V1) (hV : ∀ ks, V1 ks → ∃ w, V (ks ++ w))
    (hf : ∀ a d s', Inv all s' → s.toks = d ++ s'.toks → Q a (kindsOf d) s' →
      GoodE all s' (f a) (fun b ks s'' => R b (kindsOf d ++ ks) s'') (fun ks => V (kindsOf d ++ ks))) :
    GoodE all s (x >>= f) R V := by
  unfold GoodE at h ⊢
  rw [bind_apply]
  cases hx : x s with
  | ok a s' =>
    rw [hx] at h
    obtain ⟨d, h1, h2, h3, hl⟩ := h
    have go : ∀ (d' : List Token) (y : Token) (r r' : List Token) (c : Option (Option Token)),
        s'.toks = d' ++ y :: r →
        ∃ c', (x >>= f) ⟨(d ++ d') ++ y :: r', .eof, c⟩ = f a ⟨d' ++ y :: r', .eof, c'⟩ := by
      intro d' y r r' c h
      obtain ⟨y1, r1, r2, e1, e2⟩ : ∃ y1 r1 r2, d' ++ y :: r = y1 :: r1 ∧ d' ++ y :: r' = y1 :: r2 := by
        cases d' with
        | nil => exact ⟨_, _, _, rfl, rfl⟩
        | cons y1 d' => exact ⟨_, _, _, rfl, rfl⟩
      obtain ⟨c', hc'⟩ := hl y1 r1 r2 c (by rw [h, e1])
      refine ⟨c', ?_⟩
      rw [bind_apply, List.append_assoc, e2, hc']
    have := hf a d s' h2 h1 h3
    unfold GoodE at this
    simp only
    cases hy : f a s' with
    | ok b s'' =>
      rw [hy] at this
      obtain ⟨d', h4, h5, h6, h7⟩ := this
      refine ⟨d ++ d', by rw [h1, h4, List.append_assoc], h5, by simpa [kindsOf] using h6, ?_⟩
      intro y r r' c h
      obtain ⟨c', hc'⟩ := go d' y r r' c (by rw [h4, h])
      rw [hc']
      exact h7 y r r' c' h
    | err es =>
      rw [hy] at this
      obtain ⟨k, pos, d', rest, h4, h5, h6, h7, h8⟩ := this
      refine ⟨k, pos, d ++ d', rest, h4, by rw [h1, h5, List.append_assoc], h6,
        by simpa [kindsOf] using h7, ?_⟩
      intro t r r' c h
      obtain ⟨c', hc'⟩ := go d' t r r' c (by rw [h5, h])
      rw [hc']
      exact h8 t r r' c' h
    | panic =>
      rw [hy] at this
      exact this.behind h1
    | diverge => trivial
  | err es =>
    rw [hx] at h
    obtain ⟨k, pos, d, rest, h4, h5, h6, h7, hl⟩ := h
    refine ⟨k, pos, d, rest, h4, h5, h6, ?_, ?_⟩
    · intro g hg
      obtain ⟨w, h7⟩ := h7 g hg
      obtain ⟨w', h8⟩ := hV _ h7
      exact ⟨w ++ w', by simpa using h8⟩
    intro t r r' c h
    obtain ⟨es', h⟩ := hl t r r' c h
    exact ⟨es', by rw [bind_apply, h]⟩
  | panic =>
    rw [hx] at h
    exact h.mono hV
  | diverge => trivial

theorem GoodE.pure {α : Type} {all : List Token} {s : PState} {a : α}
    {Q : α → List TokenKind → PState → Prop} {V : List TokenKind → Prop} (hi : Inv all s)
    (h : Q a [] s) : GoodE all s (pure a : P α) Q V :=
  ⟨[], rfl, hi, h, fun _ _ _ c _ => ⟨c, rfl⟩⟩

/-- Looking at the next token. -/
theorem GoodE.peek {β : Type} {all : List Token} {s : PState} {f : Option TokenKind → P β}
    {R : β → List TokenKind → PState → Prop} {V : List TokenKind → Prop}
    (hV : s.toks = [] → ∃ w, V w) (hnil : s.toks = [] → s.stop = .eof → GoodE all s (f none) R V)
    (hcons : ∀ t r o, s.toks = t :: r → o = some t.kind → GoodE all s (f o) R V) :
    GoodE all s (peekKind >>= f) R V := by
  have go : ∀ t r st c, (peekKind >>= f) ⟨t :: r, st, c⟩ = f (some t.kind) ⟨t :: r, st, c⟩ :=
    fun _ _ _ _ => rfl
  obtain ⟨toks, stop, cur⟩ := s
  cases toks with
  | nil =>
    cases stop with
    | eof =>
      have := hnil rfl rfl
      unfold GoodE at this ⊢
      have e : (peekKind >>= f) ⟨[], .eof, cur⟩ = f none ⟨[], .eof, cur⟩ := rfl
      rw [e]
      cases hy : f none ⟨[], .eof, cur⟩ with
      | ok b s' =>
        rw [hy] at this
        obtain ⟨d, h1, h2, h3, _⟩ := this
        refine ⟨d, h1, h2, h3, ?_⟩
        intro y r r' c h
        rw [h] at h1
        simp at h1
      | err es =>
        rw [hy] at this
        obtain ⟨k, pos, d, rest, h1, h2, h3, h4, _⟩ := this
        refine ⟨k, pos, d, rest, h1, h2, h3, h4, ?_⟩
        intro t r r' c h
        rw [h] at h2
        simp at h2
      | panic => exact .nil rfl (hV rfl)
      | diverge => trivial
    | panic => exact .nil rfl (hV rfl)
    | fuel => trivial
  | cons t r =>
    have := hcons t r _ rfl rfl
    unfold GoodE at this ⊢
    rw [go]
    have same : ∀ (d : List Token) (y : Token) (r1 r2 : List Token) (c : Option (Option Token)),
        t :: r = d ++ y :: r1 →
        (peekKind >>= f) ⟨d ++ y :: r2, .eof, c⟩ = f (some t.kind) ⟨d ++ y :: r2, .eof, c⟩ := by
      intro d y r1 r2 c h
      cases d with
      | nil => obtain ⟨rfl, _⟩ := List.cons.inj h; exact go _ _ _ _
      | cons y' d => obtain ⟨rfl, _⟩ := List.cons.inj h; exact go _ _ _ _
    cases hy : f (some t.kind) ⟨t :: r, stop, cur⟩ with
    | ok b s' =>
      rw [hy] at this
      obtain ⟨d, h1, h2, h3, h4⟩ := this
      refine ⟨d, h1, h2, h3, ?_⟩
      intro y r1 r2 c h
      rw [same d y r1 r2 c (by rw [← h]; exact h1)]
      exact h4 y r1 r2 c h
    | err es =>
      rw [hy] at this
      obtain ⟨k, pos, d, rest, h1, h2, h3, h4, h5⟩ := this
      refine ⟨k, pos, d, rest, h1, h2, h3, h4, ?_⟩
      intro y r1 r2 c h
      rw [same d y r1 r2 c (by rw [← h]; exact h2)]
      exact h5 y r1 r2 c h
    | panic =>
      rw [hy] at this
      exact this
    | diverge => trivial

theorem Inv.step {all : List Token} {s : PState} (hi : Inv all s) {t : Token} {r : List Token}
    (h : s.toks = t :: r) : Inv all { s with toks := r, cur := some (some t) } := by
  obtain ⟨c, h1, _⟩ := hi
  exact ⟨c ++ [t], by simp [h1, h], by simp⟩

/-- The token just read is wrong: there is an error, reported as if it had not been read, whatever the
tokens behind it are. -/
def Wrong {α : Type} (all toks : List Token) (t : Token) (s : PState) (x : P α)
    (V : List TokenKind → Prop) : Prop :=
  (∃ k pos, x s = .err [⟨k, pos⟩] ∧ Reported all toks k pos ∧ (∀ g, Goes k g → ∃ w, V (g ++ w)) ∧
    ∀ r', ∃ es', x ⟨r', .eof, some (some t)⟩ = .err es') ∨
  (x s = .panic ∧ toks = [t] ∧ (∃ w, V w) ∧
    ∃ done, all = done ++ [t] ∧ (kindsOf done).getLast? = some (.operator .minus)) ∨ x s = .diverge

/-- Taking the next token. -/
theorem GoodE.next {β : Type} {all : List Token} {s : PState} {f : Option Token → P β}
    {R : β → List TokenKind → PState → Prop} {V : List TokenKind → Prop} (hi : Inv all s)
    (hV : s.toks = [] → ∃ w, V w) (hnil : s.toks = [] → GoodE all s (fun _ => f none ⟨[], .eof, some none⟩) R V)
    (hcons : ∀ t s', s.toks = t :: s'.toks → s'.cur = some (some t) → Inv all s' →
      GoodE all s' (f (some t)) (fun b ks s'' => R b (t.kind :: ks) s'') (fun ks => V (t.kind :: ks)) ∨
        Wrong all s.toks t s' (f (some t)) V) :
    GoodE all s (nextTok >>= f) R V := by
  have go : ∀ t r st c, (nextTok >>= f) ⟨t :: r, st, c⟩ = f (some t) ⟨r, st, some (some t)⟩ :=
    fun _ _ _ _ => rfl
  obtain ⟨toks, stop, cur⟩ := s
  cases toks with
  | nil =>
    cases stop with
    | eof =>
      have := hnil rfl
      unfold GoodE at this ⊢
      have e : (nextTok >>= f) ⟨[], .eof, cur⟩ = f none ⟨[], .eof, some none⟩ := rfl
      rw [e]
      cases hy : f none ⟨[], .eof, some none⟩ with
      | ok b s' =>
        simp only [hy] at this
        obtain ⟨d, h1, h2, h3, _⟩ := this
        refine ⟨d, h1, h2, h3, ?_⟩
        intro y r r' c h
        rw [h] at h1
        simp at h1
      | err es =>
        simp only [hy] at this
        obtain ⟨k, pos, d, rest, h1, h2, h3, h4, _⟩ := this
        refine ⟨k, pos, d, rest, h1, h2, h3, h4, ?_⟩
        intro t r r' c h
        rw [h] at h2
        simp at h2
      | panic => exact .nil rfl (hV rfl)
      | diverge => trivial
    | panic => exact .nil rfl (hV rfl)
    | fuel => trivial
  | cons t r =>
    have := hcons t ⟨r, stop, some (some t)⟩ rfl rfl (hi.step rfl)
    unfold GoodE at this ⊢
    rw [go]
    rcases this with h | ⟨k, pos, h1, h2, h3, h4⟩ | ⟨h, h1, h2, done, h3, h4⟩ | h
    · cases hy : f (some t) ⟨r, stop, some (some t)⟩ with
      | ok b s'' =>
        rw [hy] at h
        obtain ⟨d', h4, h5, h6, h7⟩ := h
        refine ⟨t :: d', by rw [show r = _ from h4]; rfl, h5, by simpa [kindsOf] using h6, ?_⟩
        intro y r1 r2 c h
        rw [List.cons_append, go]
        exact h7 y r1 r2 _ h
      | err es =>
        rw [hy] at h
        obtain ⟨k, pos, d', rest, h4, h5, h6, h7, h8⟩ := h
        refine ⟨k, pos, t :: d', rest, h4, by rw [show r = _ from h5]; rfl, h6,
          by simpa [kindsOf] using h7, ?_⟩
        intro y r1 r2 c h
        rw [List.cons_append, go]
        exact h8 y r1 r2 _ h
      | panic =>
        rw [hy] at h
        exact MeetsEnd.behind (d := [t]) h rfl
      | diverge => trivial
    · rw [h1]
      refine ⟨k, pos, [], t :: r, rfl, rfl, h2, h3, ?_⟩
      intro y r1 r2 c h
      obtain ⟨rfl, _⟩ := List.cons.inj h
      rw [List.nil_append, go]
      exact h4 r2
    · rw [h]
      exact ⟨[], _, rfl, h2, .inr ⟨t, done, h1, h3, h4⟩⟩
    · rw [h]; trivial

/-- The position reported in a state. -/
def herePos (s : PState) : Nat × Nat :=
  match s.toks with
  | t :: _ => t.pos
  | [] => match s.cur.getD none with
    | some t => t.lastChar
    | none => (0, 1)

theorem failHere_cases {α : Type} (k : ParseErrorKind) (s : PState) :
    (failHere k s : PResult α) = .err [⟨k, herePos s⟩] ∨ ((failHere k s : PResult α) = .panic ∧ s.toks = []) ∨
      (failHere k s : PResult α) = .diverge := by
  unfold failHere P.bind currentPosition peekTok herePos
  cases ht : s.toks with
  | nil =>
    cases hs : s.stop with
    | eof =>
      left
      simp only
      cases hc : s.cur.getD none <;> simp [Token.lastChar]
    | panic => right; left; exact ⟨rfl, rfl⟩
    | fuel => right; right; rfl
  | cons t r => left; rfl

theorem failHere_eof {α : Type} (k : ParseErrorKind) (r : List Token) (c : Option (Option Token)) :
    ∃ es, (failHere k ⟨r, .eof, c⟩ : PResult α) = .err es := by
  cases r with
  | cons t r => exact ⟨_, rfl⟩
  | nil => rcases c with _ | _ | t <;> exact ⟨_, rfl⟩

theorem GoodE.fail {α : Type} {all : List Token} {s : PState} {k : ParseErrorKind}
    {Q : α → List TokenKind → PState → Prop} {V : List TokenKind → Prop}
    (hr : Reported all s.toks k (herePos s)) (hV : ∀ g, Goes k g → ∃ w, V (g ++ w)) :
    GoodE all s (failHere k : P α) Q V := by
  unfold GoodE
  rcases failHere_cases (α := α) k s with e | ⟨e, h0⟩ | e <;> rw [e]
  · exact ⟨k, _, [], s.toks, rfl, rfl, hr, hV, fun t r r' c _ => failHere_eof _ _ _⟩
  · exact .nil h0 (hV [] (.inl rfl))
  · trivial

/-- An error at the end, after `next` has returned nothing. -/
theorem GoodE.failEnd {α : Type} {all : List Token} {s : PState} {k : ParseErrorKind}
    {Q : α → List TokenKind → PState → Prop} {V : List TokenKind → Prop}
    (h : s.toks = []) (hr : Reported all [] k (0, 1)) (hV : ∀ g, Goes k g → ∃ w, V (g ++ w)) :
    GoodE all s (fun _ => (failHere k : P α) ⟨[], .eof, some none⟩) Q V :=
  ⟨k, _, [], [], rfl, h, hr, hV, fun _ _ _ _ h => by simp at h⟩

theorem Inv.lastChar {all : List Token} {s : PState} (hi : Inv all s) (hne : all ≠ [])
    (h : s.toks = []) : ∃ t, all.getLast? = some t ∧ herePos s = t.lastChar := by
  obtain ⟨c, h1, h2⟩ := hi
  rw [h, List.append_nil] at h1
  subst h1
  cases hl : all.getLast? with
  | none => exact absurd (List.getLast?_eq_none_iff.1 hl) hne
  | some t => exact ⟨t, rfl, by unfold herePos; rw [h]; simp [h2, hl]⟩

section

variable {all : List Token}

theorem head_of {s s' : PState} {t t' : Token} {r : List Token} (h : s.toks = t :: r)
    (h' : s.toks = t' :: s'.toks) : t' = t ∧ s'.toks = r := by
  rw [h] at h'
  simp only [List.cons.injEq] at h'
  exact ⟨h'.1.symm, h'.2.symm⟩

theorem goodE_optQuantifier (s : PState) (hi : Inv all s) :
    GoodE all s optQuantifier (fun q ks _ => OptQuantifier q ks)
      (fun ks => ∃ q, OptQuantifier q ks) := by
  refine GoodE.peek (fun _ => ⟨[], _, .none⟩) ?_ ?_
  · intro _ _
    exact GoodE.pure hi .none
  · intro t r o h ho
    split
    · rename_i q
      refine GoodE.next hi (fun _ => ⟨[], _, .none⟩) (fun h' => by rw [h] at h'; simp at h') ?_
      intro t' s' h' _ hi'
      obtain ⟨rfl, _⟩ := head_of h h'
      left
      refine GoodE.pure hi' ?_
      simp only [Option.some.injEq] at ho
      rw [← ho]
      exact .some q
    · exact GoodE.pure hi .none

theorem minus_before {s s' : PState} {t t' : Token} (hi : Inv all s) (hc : s.cur = some (some t))
    (ht : t.kind = .operator .minus) (h : s.toks = t' :: s'.toks) (h0 : s'.toks = []) :
    ∃ done, all = done ++ [t'] ∧ (kindsOf done).getLast? = some (.operator .minus) := by
  obtain ⟨c, h1, h2⟩ := hi
  refine ⟨c, by rw [h1, h, h0], ?_⟩
  rw [hc] at h2
  simp [kindsOf, ← h2, ht]

theorem goodE_characterGroupItem (s : PState) (hi : Inv all s) (hs : s.toks ≠ []) :
    GoodE all s characterGroupItem (fun i ks _ => GroupItem i ks)
      (fun ks => ∃ i, GroupItem i ks) := by
  refine GoodE.next hi (fun h => absurd h hs) (fun h => absurd h hs) ?_
  rintro ⟨kind, pos⟩ s1 h1 hc1 hi1
  simp only
  have bad : ∀ t, Wrong all s.toks t s1 (fun _ => .err [⟨.characterClassCharacter, pos⟩] : P GLit)
      (fun ks => ∃ i, GroupItem i ks) := fun _ => by
    refine .inl ⟨_, _, rfl, ⟨_, _, h1, rfl⟩, ?_, fun _ => ⟨_, rfl⟩⟩
    rintro g (rfl | ⟨k, rfl⟩ | ⟨c, rfl⟩)
    · exact ⟨[.mtch 'a'], _, .chr 'a'⟩
    · exact ⟨[], _, .cls k⟩
    · exact ⟨[], _, .chr c⟩
  cases kind with
  | cls k => exact .inl (GoodE.pure hi1 (.cls k))
  | mtch a =>
    left
    simp only
    refine GoodE.peek (fun _ => ⟨[], _, .chr a⟩) ?_ ?_
    · intro _ _
      exact GoodE.pure hi1 (.chr a)
    · intro t r o ht ho
      split
      · refine GoodE.next hi1 (fun _ => ⟨[], _, .chr a⟩) (fun h => by rw [ht] at h; simp at h) ?_
        intro t' s2 h2 hc2 hi2
        obtain ⟨rfl, _⟩ := head_of ht h2
        have ht' : t'.kind = .operator .minus := by simpa using ho.symm
        have hV : ∀ g, Goes .mtch g → ∃ w i, GroupItem i (.mtch a :: t'.kind :: (g ++ w)) := by
          rintro g (rfl | ⟨c, rfl⟩)
          · exact ⟨[.mtch 'a'], .range a 'a', by simpa [ht'] using GroupItem.range a 'a'⟩
          · exact ⟨[], .range a c, by simpa [ht'] using GroupItem.range a c⟩
        left
        refine GoodE.next hi2 (fun _ => hV [] (.inl rfl)) ?_ ?_
        · intro h
          exact GoodE.failEnd h (.inl ⟨rfl, rfl⟩) hV
        · intro t3 s3 h3 hc3 hi3
          simp only [Option.map_some]
          generalize hm : some t3.kind = m
          split
          · rename_i b
            left
            refine GoodE.pure hi3 ?_
            simp only [Option.some.injEq] at hm
            rw [ht', hm]
            exact .range a b
          · right
            rcases failHere_cases (α := GLit) .mtch s3 with e | ⟨e, h0⟩ | e
            rotate_left
            · refine .inr (.inl ⟨e, by rw [h3, h0], hV [] (.inl rfl), ?_⟩)
              exact minus_before hi2 hc2 ht' h3 h0
            · exact .inr (.inr e)
            refine .inl ⟨_, _, e, ?_, hV, fun _ => failHere_eof _ _ _⟩
            unfold herePos
            cases h4 : s3.toks with
            | nil =>
              right; left
              exact ⟨t3, by rw [h3, h4], by simp [hc3]⟩
            | cons t4 r4 =>
              right; right
              exact ⟨t3, t4, r4, by rw [h3, h4], rfl⟩
      · exact GoodE.pure hi1 (.chr a)
  | operator o => exact .inr (bad _)
  | quantifier q => exact .inr (bad _)
  | invalid => exact .inr (bad _)

theorem goodE_characterGroupLoop (n : Nat) : ∀ (s : PState), Inv all s →
    GoodE all s (characterGroupLoop n)
      (fun is ks s' => GroupItems lax is ks ∧
        (s'.kinds.head? = none ∨ s'.kinds.head? = some (.operator .rightBracket)))
      (fun ks => ∃ is, GroupItems lax is ks) := by
  induction n with
  | zero => intro s hi; trivial
  | succ n ih =>
    intro s hi
    refine GoodE.peek (fun _ => ⟨[], _, .none rfl⟩) ?_ ?_
    · intro h _
      exact GoodE.pure hi ⟨.none rfl, .inl (by simp [PState.kinds, h])⟩
    · intro t r o ht ho
      split
      · simp at ho
      · exact GoodE.pure hi ⟨.none rfl, .inr (by simp [PState.kinds, ht, ← ho])⟩
      · refine GoodE.bind (goodE_characterGroupItem s hi (by simp [ht])) ?_ ?_
        · rintro ks ⟨i, h⟩
          exact ⟨[], [i], by simpa using GroupItems.one h⟩
        · intro i d s1 hi1 _ h1
          refine GoodE.bind (ih s1 hi1) ?_ ?_
          · rintro ks ⟨is, h⟩
            exact ⟨[], i :: is, by simpa using GroupItems.more h1 h⟩
          · rintro is d' s2 hi2 _ ⟨h2, h3⟩
            exact GoodE.pure hi2 ⟨by simpa using GroupItems.more h1 h2, h3⟩

theorem goodE_characterGroup (hall : all ≠ []) (n : Nat) (s : PState) (hi : Inv all s) {t0 : Token}
    {r0 : List Token} (h0 : s.toks = t0 :: r0) (hk0 : t0.kind = .operator .leftBracket) :
    GoodE all s (characterGroup n) (fun l ks _ => MatchItem lax l ks)
      (fun ks => ∃ l, MatchItem lax l ks) := by
  refine GoodE.next hi (fun h => by rw [h0] at h; simp at h) (fun h => by rw [h0] at h; simp at h) ?_
  intro t s1 h1 _ hi1
  obtain ⟨rfl, _⟩ := head_of h0 h1
  rw [hk0]
  simp only [Option.map_some, hk0]
  left
  refine GoodE.bind (Q := fun neg ks _ => ks = if neg then [.operator .carret] else [])
    (V1 := fun ks => ks = []) ?_ ?_ ?_
  rotate_left
  · rintro ks rfl
    exact ⟨[.operator .rightBracket], _, .group (ks := []) (.none rfl)⟩
  rotate_left
  · refine GoodE.peek (fun _ => ⟨[], rfl⟩) ?_ ?_
    · intro _ _
      exact GoodE.pure hi1 rfl
    · intro t' r' o ht ho
      split
      · refine GoodE.next hi1 (fun _ => ⟨[], rfl⟩) (fun h => by rw [ht] at h; simp at h) ?_
        intro t'' s2 h2 _ hi2
        obtain ⟨rfl, _⟩ := head_of ht h2
        left
        refine GoodE.pure hi2 ?_
        simpa using ho.symm
      · exact GoodE.pure hi1 rfl
  · intro neg d s2 hi2 _ hd
    have hV : ∀ (is : List GLit) (ks : List TokenKind), GroupItems lax is ks →
        ∃ l, MatchItem lax l (.operator .leftBracket ::
          (kindsOf d ++ (ks ++ [.operator .rightBracket]))) := by
      intro is ks h
      rw [hd]
      cases neg with
      | false => exact ⟨.group false is, .group h⟩
      | true => exact ⟨.group true is, .negated h⟩
    refine GoodE.peek (fun _ => ⟨_, hV [] [] (.none rfl)⟩) ?_ ?_
    · intro h _
      refine GoodE.fail ⟨h, hi2.lastChar hall h⟩ ?_
      rintro g (rfl | ⟨i, hg⟩)
      · exact ⟨_, hV [] [] (.none rfl)⟩
      · exact ⟨_, hV [i] g (.one hg)⟩
    · intro t' r' o ht ho
      split
      · simp at ho
      · refine GoodE.bind (goodE_characterGroupLoop n s2 hi2) ?_ ?_
        · rintro ks ⟨is, h⟩
          obtain ⟨l, hl⟩ := hV is ks h
          exact ⟨[.operator .rightBracket], l, hl⟩
        · rintro is d' s3 hi3 _ ⟨his, hend⟩
          refine GoodE.next hi3 (fun _ => ⟨_, hV is _ his⟩) ?_ ?_
          · intro h
            obtain ⟨l, hl⟩ := hV is _ his
            refine GoodE.failEnd h ⟨rfl, rfl⟩ ?_
            rintro g (rfl | rfl)
            · exact ⟨[.operator .rightBracket], l, by simpa using hl⟩
            · exact ⟨[], l, by simpa using hl⟩
          · intro t4 s4 h4 _ hi4
            left
            have hk : t4.kind = .operator .rightBracket := by
              simpa [PState.kinds, h4] using hend
            simp only [Option.map_some, hk]
            refine GoodE.pure hi4 ?_
            rw [hd]
            cases neg with
            | false => exact .group his
            | true => exact .negated his

theorem goodE_matchItem (hall : all ≠ []) (n : Nat) (s : PState) (hi : Inv all s) (hs : s.toks ≠ []) :
    GoodE all s (matchItem n) (fun l ks _ => MatchItem lax l ks)
      (fun ks => ∃ l, MatchItem lax l ks) := by
  refine GoodE.peek (fun h => absurd h hs) (fun h => absurd h hs) ?_
  intro t r o ht ho
  split
  · rename_i c
    refine GoodE.next hi (fun h => absurd h hs) (fun h => absurd h hs) ?_
    intro t' s1 h1 _ hi1
    obtain ⟨rfl, _⟩ := head_of ht h1
    have : t'.kind = .mtch c := by simpa using ho.symm
    rw [this]
    exact .inl (GoodE.pure hi1 (.chr c))
  · exact goodE_characterGroup hall n s hi ht (by simpa using ho.symm)
  · rename_i c
    refine GoodE.next hi (fun h => absurd h hs) (fun h => absurd h hs) ?_
    intro t' s1 h1 _ hi1
    obtain ⟨rfl, _⟩ := head_of ht h1
    have : t'.kind = .cls c := by simpa using ho.symm
    rw [this]
    exact .inl (GoodE.pure hi1 (.cls c))
  · refine GoodE.fail ⟨t, r, ht, by simp [herePos, ht]⟩ ?_
    rintro g (rfl | ⟨c, rfl⟩ | ⟨k, rfl⟩ | rfl)
    · exact ⟨[.mtch 'a'], _, .chr 'a'⟩
    · exact ⟨[], _, .chr c⟩
    · exact ⟨[], _, .cls k⟩
    · exact ⟨[.operator .rightBracket], _, .group (ks := []) (.none rfl)⟩

theorem goodE_match (hall : all ≠ []) (n : Nat) (s : PState) (hi : Inv all s) (hs : s.toks ≠ []) :
    GoodE all s (match_ n) (fun e ks _ => SubExpressionItem lax e ks)
      (fun ks => ∃ e, SubExpressionItem lax e ks) := by
  refine GoodE.bind (goodE_matchItem hall n s hi hs) ?_ ?_
  · rintro ks ⟨l, h⟩
    exact ⟨[], _, .mtch h .none⟩
  · intro l d s1 hi1 _ hl
    refine GoodE.bind (goodE_optQuantifier s1 hi1) (fun _ ⟨q, h⟩ => ⟨[], _, by simpa using SubExpressionItem.mtch hl h⟩) ?_
    intro q d' s2 hi2 _ hq
    refine GoodE.pure hi2 ?_
    simpa using SubExpressionItem.mtch hl hq

theorem goodE_parser (hall : all ≠ []) (n : Nat) :
    (∀ s : PState, Inv all s → GoodE all s (expression n)
      (fun e ks s' => Expression lax e ks ∧ EndsExpr s'.kinds) (fun ks => ∃ e, Expression lax e ks)) ∧
    (∀ s : PState, Inv all s → GoodE all s (subExpression n)
      (fun es ks s' => SubExpression lax es ks ∧ EndsSeq s'.kinds)
      (fun ks => ∃ es, SubExpression lax es ks)) ∧
    (∀ s : PState, Inv all s → GoodE all s (subExpressionLoop n)
      (fun es ks s' => SubExpression lax es ks ∧ EndsSeq s'.kinds)
      (fun ks => ∃ es, SubExpression lax es ks)) ∧
    (∀ s : PState, Inv all s → s.toks ≠ [] → GoodE all s (subExpressionItem n)
      (fun e ks _ => SubExpressionItem lax e ks) (fun ks => ∃ e, SubExpressionItem lax e ks)) ∧
    (∀ s : PState, Inv all s → ∀ t0 r0, s.toks = t0 :: r0 → t0.kind = .operator .leftParen →
      GoodE all s (group n) (fun e ks _ => SubExpressionItem lax e ks)
        (fun ks => ∃ e, SubExpressionItem lax e ks)) := by
  induction n with
  | zero =>
    refine ⟨?_, ?_, ?_, ?_, ?_⟩ <;> (intros; trivial)
  | succ n ih =>
    obtain ⟨ih1, ih2, ih3, ih4, ih5⟩ := ih
    refine ⟨?_, ?_, ?_, ?_, ?_⟩
    · intro s hi
      simp only [expression]
      refine GoodE.bind (ih2 s hi) ?_ ?_
      · rintro ks ⟨es, h⟩
        exact ⟨[], _, by simpa using Expression.sub h⟩
      · rintro es d s1 hi1 _ ⟨h1, h3⟩
        have last : EndsExpr s1.kinds → GoodE all s1 (pure (concatOf es) : P Expr)
            (fun e ks s' => Expression lax e (kindsOf d ++ ks) ∧ EndsExpr s'.kinds)
            (fun ks => ∃ e, Expression lax e (kindsOf d ++ ks)) := by
          intro h
          refine GoodE.pure hi1 ⟨?_, h⟩
          rw [concatOf_eq]
          simpa using Expression.sub h1
        refine GoodE.peek (fun _ => ⟨[], _, by simpa using Expression.sub h1⟩) ?_ ?_
        · intro h _
          exact last (.inl (by simp [PState.kinds, h]))
        · intro t r o ht ho
          split
          · refine GoodE.next hi1 (fun _ => ⟨[], _, by simpa using Expression.sub h1⟩) (fun h => by rw [ht] at h; simp at h) ?_
            intro t' s2 h2 _ hi2
            obtain ⟨rfl, _⟩ := head_of ht h2
            have hk : t'.kind = .operator .vertical := by simpa using ho.symm
            left
            refine GoodE.bind (ih1 s2 hi2) ?_ ?_
            · rintro ks ⟨e, h⟩
              refine ⟨[], .alt (seqTree es) e, ?_⟩
              rw [List.append_nil, hk]
              exact .alt h1 h
            · rintro e d' s3 hi3 _ ⟨h5, h7⟩
              refine GoodE.pure hi3 ⟨?_, h7⟩
              rw [List.append_nil, hk, concatOf_eq]
              exact .alt h1 h5
          · rename_i hv
            refine last ?_
            rcases h3 with h3 | h3
            · exact h3
            · have : t.kind = .operator .vertical := by simpa [PState.kinds, ht] using h3
              exact absurd (by rw [ho, this]) hv
    · intro s hi
      simp only [subExpression]
      refine GoodE.peek (fun _ => ⟨[], [], .none rfl⟩) ?_ ?_
      · intro h _
        refine GoodE.fail ⟨h, hi.lastChar hall h⟩ ?_
        rintro g (rfl | ⟨es, hg⟩)
        · exact ⟨[], [], SubExpression.none rfl⟩
        · exact ⟨[], es, by simpa using hg⟩
      · intro t r o ht ho
        split
        · simp at ho
        · exact ih3 s hi
    · intro s hi
      simp only [subExpressionLoop]
      refine GoodE.peek (fun _ => ⟨[], [], .none rfl⟩) ?_ ?_
      · intro h _
        exact GoodE.pure hi ⟨.none rfl, .inl (.inl (by simp [PState.kinds, h]))⟩
      · intro t r o ht ho
        split
        · simp at ho
        · exact GoodE.pure hi ⟨.none rfl, .inr (by simp [PState.kinds, ht, ← ho])⟩
        · exact GoodE.pure hi ⟨.none rfl, .inl (.inr (by simp [PState.kinds, ht, ← ho]))⟩
        · refine GoodE.bind (ih4 s hi (by simp [ht])) ?_ ?_
          · rintro ks ⟨e, h⟩
            exact ⟨[], [e], by simpa using SubExpression.one h⟩
          · intro e d s1 hi1 _ h1
            refine GoodE.bind (ih3 s1 hi1) ?_ ?_
            · rintro ks ⟨es, h⟩
              exact ⟨[], e :: es, by simpa using SubExpression.more h1 h⟩
            · rintro es d' s2 hi2 _ ⟨h3, h5⟩
              exact GoodE.pure hi2 ⟨by simpa using SubExpression.more h1 h3, h5⟩
    · intro s hi hs
      simp only [subExpressionItem]
      refine GoodE.peek (fun h => absurd h hs) (fun h => absurd h hs) ?_
      intro t r o ht ho
      split
      · simp at ho
      · exact ih5 s hi t r ht (by simpa using ho.symm)
      · exact goodE_match hall n s hi hs
    · intro s hi t0 r0 h0 hk0
      simp only [group]
      refine GoodE.next hi (fun h => by rw [h0] at h; simp at h) (fun h => by rw [h0] at h; simp at h) ?_
      intro t s1 h1 _ hi1
      obtain ⟨rfl, _⟩ := head_of h0 h1
      left
      simp only [Option.map_some, hk0]
      refine GoodE.bind (ih1 s1 hi1) ?_ ?_
      · rintro ks ⟨e, h⟩
        exact ⟨[.operator .rightParen], _, .group h .none⟩
      · rintro e d s2 hi2 _ ⟨h2, hend⟩
        refine GoodE.next hi2 (fun _ => ⟨[.operator .rightParen], .group e none, .group h2 .none⟩) ?_ ?_
        · intro h
          refine GoodE.failEnd h ⟨rfl, rfl⟩ ?_
          rintro g (rfl | rfl)
          · exact ⟨[.operator .rightParen], .group e none, .group h2 .none⟩
          · exact ⟨[], .group e none, .group h2 .none⟩
        · intro t3 s3 h3 _ hi3
          left
          have hk : t3.kind = .operator .rightParen := by
            simpa [EndsExpr, PState.kinds, h3] using hend
          simp only [Option.map_some, hk]
          refine GoodE.bind (goodE_optQuantifier s3 hi3) (fun _ ⟨q, h⟩ => ⟨[], _, by rw [List.append_nil]; exact .group h2 h⟩) ?_
          intro q d' s4 hi4 _ hq
          refine GoodE.pure hi4 ?_
          rw [List.append_nil]
          exact .group h2 hq

end

/-! ### Fuel -/

/-- `y` does what `x` does, except that it may go on where `x` runs out of fuel. -/
def Below {α : Type} (x y : P α) : Prop := ∀ s, x s = .diverge ∨ x s = y s

theorem Below.refl {α : Type} (x : P α) : Below x x := fun _ => .inr rfl

theorem Below.bind {α β : Type} {x y : P α} {f g : α → P β} (h : Below x y) (hf : ∀ a, Below (f a) (g a)) :
    Below (x >>= f) (y >>= g) := by
  intro s
  rw [bind_apply, bind_apply]
  rcases h s with h | h
  · exact .inl (by rw [h])
  · rw [← h]
    cases x s with
    | ok a s' => exact hf a s'
    | err es => exact .inr rfl
    | panic => exact .inr rfl
    | diverge => exact .inl rfl

theorem below_characterGroupLoop (n : Nat) : Below (characterGroupLoop n) (characterGroupLoop (n + 1)) := by
  induction n with
  | zero => exact fun _ => .inl rfl
  | succ n ih =>
    refine (Below.refl _).bind fun o => ?_
    split
    · exact .refl _
    · exact .refl _
    · exact (Below.refl _).bind fun _ => ih.bind fun _ => .refl _

theorem below_match (n : Nat) : Below (match_ n) (match_ (n + 1)) := by
  refine Below.bind ?_ fun _ => .refl _
  refine (Below.refl _).bind fun o => ?_
  split
  · exact .refl _
  · refine (Below.refl _).bind fun o => ?_
    split
    · refine (Below.refl _).bind fun _ => (Below.refl _).bind fun o => ?_
      split
      · exact .refl _
      · exact (below_characterGroupLoop n).bind fun _ => .refl _
    · exact .refl _
  · exact .refl _
  · exact .refl _

theorem below_parser (n : Nat) :
    Below (expression n) (expression (n + 1)) ∧ Below (subExpression n) (subExpression (n + 1)) ∧
    Below (subExpressionLoop n) (subExpressionLoop (n + 1)) ∧
    Below (subExpressionItem n) (subExpressionItem (n + 1)) ∧ Below (group n) (group (n + 1)) := by
  induction n with
  | zero => refine ⟨?_, ?_, ?_, ?_, ?_⟩ <;> exact fun _ => .inl rfl
  | succ n ih =>
    obtain ⟨ih1, ih2, ih3, ih4, ih5⟩ := ih
    refine ⟨?_, ?_, ?_, ?_, ?_⟩
    · rw [expression, expression]
      refine ih2.bind fun _ => (Below.refl _).bind fun o => ?_
      split
      · exact (Below.refl _).bind fun _ => ih1.bind fun _ => .refl _
      · exact .refl _
    · rw [subExpression, subExpression]
      refine (Below.refl _).bind fun o => ?_
      split
      · exact .refl _
      · exact ih3
    · rw [subExpressionLoop, subExpressionLoop]
      refine (Below.refl _).bind fun o => ?_
      split
      · exact .refl _
      · exact .refl _
      · exact .refl _
      · exact ih4.bind fun _ => ih3.bind fun _ => .refl _
    · rw [subExpressionItem, subExpressionItem]
      refine (Below.refl _).bind fun o => ?_
      split
      · exact .refl _
      · exact ih5
      · exact below_match n
    · rw [group, group]
      refine (Below.refl _).bind fun o => ?_
      split
      · exact ih1.bind fun _ => .refl _
      · exact .refl _

theorem expression_err_fuel {n m : Nat} (h : n ≤ m) {s : PState} {es : List ParseError}
    (hr : expression n s = .err es) : expression m s = .err es := by
  induction h with
  | refl => exact hr
  | step _ ih =>
    rcases (below_parser _).1 s with e | e
    · rw [e] at ih; simp at ih
    · rw [← e]; exact ih

/-- If the parser is stuck at a token whatever the tokens behind it are, that token does not continue a
sentence. -/
theorem stuck_not_sentence {n : Nat} {d : List Token} {t : Token}
    (h : ∀ r', ∃ es', expression n ⟨d ++ t :: r', .eof, none⟩ = .err es') (e : Expr) (w : List TokenKind) :
    ¬ Expression lax e (kindsOf (d ++ [t]) ++ w) := by
  intro he
  obtain ⟨es', h⟩ := h ((w ++ [TokenKind.operator .rightParen]).map fun k => ⟨k, (0, 1)⟩)
  have := yields_expression he (rest := [.operator .rightParen])
    (s := ⟨d ++ t :: (w ++ [TokenKind.operator .rightParen]).map fun k => ⟨k, (0, 1)⟩, .eof, none⟩)
    (n := max n (5 * (d.length + w.length + 2) + 5))
    (by simp [PState.kinds, kindsOf, Function.comp_def]) rfl (.inr rfl) (fun _ => .inl (by simp))
    (by simp [PState.kinds]; omega)
  rw [expression_err_fuel (Nat.le_max_left _ _) h] at this
  obtain ⟨_, h, _⟩ := this
  simp at h

/-- An error of the parser: the tokens `d` before the place where it is stuck begin a sentence, also with
what is said to be expected, with the token there they do not, and the position depends on the kind of
error as `Reported` says. -/
theorem parseScan_error {sc : Scan} {es : List ParseError} (h : parseScan sc = .err es) :
    ∃ k pos d rest, es = [⟨k, pos⟩] ∧ sc.toks = d ++ rest ∧ Reported sc.toks rest k pos ∧
      (∀ g, Goes k g → ∃ w e, Expression lax e (kindsOf d ++ (g ++ w))) ∧
      ∀ t post, rest = t :: post → ∀ e' w', ¬ Expression lax e' (kindsOf (d ++ [t]) ++ w') := by
  unfold parseScan at h
  simp only at h
  unfold peekTok at h
  cases ht : sc.toks with
  | nil =>
    simp only [ht] at h
    cases hs : sc.stop <;> simp [hs] at h
  | cons t r =>
    have hi : Inv sc.toks ⟨sc.toks, sc.stop, none⟩ := ⟨[], rfl, rfl⟩
    have hg := (goodE_parser (all := sc.toks) (by simp [ht]) (parseFuel sc.toks.length)).1 _ hi
    simp only [ht] at h
    simp only [ht] at hg
    unfold GoodE at hg
    rw [h] at hg
    obtain ⟨k, pos, d, rest, h1, h2, h3, h4, h5⟩ := hg
    refine ⟨k, pos, d, rest, h1, h2, h3, h4, ?_⟩
    intro t post hr
    exact stuck_not_sentence fun r' => h5 t post r' none hr

end Pango.Regex
