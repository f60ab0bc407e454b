import Verif.Model.Depth
import Verif.Spec.Depth
import Verif.Proofs.RegexParser
import Verif.Proofs.Scan
import Verif.Proofs.StackSize

/-!
# How deep the code recurses
-/

namespace Pango.Regex

open Pango Pango.Spec

/-! ## What methods leave of the tokens -/

/-- A method takes tokens off the front. -/
def Shrinks {α : Type} (y : P α) : Prop := ∀ s a s', y s = .ok a s' → s'.kinds <:+ s.kinds

theorem Shrinks.bind {α β : Type} {x : P α} {f : α → P β} (hx : Shrinks x) (hf : ∀ a, Shrinks (f a)) :
    Shrinks (x >>= f) := by
  intro s b s' h
  rw [bind_apply] at h
  cases hr : x s with
  | ok a s1 =>
    rw [hr] at h
    exact (hf a s1 b s' h).trans (hx s a s1 hr)
  | err es => rw [hr] at h; simp at h
  | panic => rw [hr] at h; simp at h
  | diverge => rw [hr] at h; simp at h

theorem Shrinks.pure {α : Type} {a : α} : Shrinks (Pure.pure a : P α) := by
  intro s b s' h
  cases h
  exact List.suffix_refl _

theorem ok_good {α : Type} {s s' : PState} {r : PResult α} {Q : α → PState → Prop} {a : α} (h : Good s r Q)
    (hr : r = .ok a s') : Q a s' := by
  subst hr
  exact h.2

theorem shrinks_peekKind : Shrinks peekKind := by
  intro s a s' h
  obtain ⟨rfl, _⟩ := ok_good (good_peekKind s) h
  exact List.suffix_refl _

theorem shrinks_nextTok : Shrinks nextTok := by
  intro s a s' h
  rcases ok_good (good_nextTok s) h with ⟨t, _, h⟩ | ⟨_, h1, h2⟩
  · rw [h]
    exact List.suffix_cons _ _
  · rw [h1, h2]
    exact List.suffix_refl _

theorem shrinks_failHere {α : Type} {k : ParseErrorKind} : Shrinks (failHere k : P α) := by
  intro s a s' h
  exact (ok_good (good_failHere k s (fun _ _ => False)) h).elim

theorem shrinks_err {α : Type} {es : List ParseError} : Shrinks (fun _ => .err es : P α) := by
  intro s a s' h
  cases h

theorem shrinks_diverge {α : Type} : Shrinks (fun _ => .diverge : P α) := by
  intro s a s' h
  cases h

theorem shrinks_optQuantifier : Shrinks optQuantifier := by
  refine shrinks_peekKind.bind fun k => ?_
  split
  · exact shrinks_nextTok.bind fun _ => .pure
  · exact .pure

theorem shrinks_characterGroupItem : Shrinks characterGroupItem := by
  refine shrinks_nextTok.bind fun t => ?_
  split
  · rename_i kind pos
    cases kind with
    | cls k => exact .pure
    | mtch start =>
      refine shrinks_peekKind.bind fun k => ?_
      split
      · refine shrinks_nextTok.bind fun _ => shrinks_nextTok.bind fun t => ?_
        split
        · exact .pure
        · exact shrinks_failHere
      · exact .pure
    | operator o => exact shrinks_err
    | quantifier q => exact shrinks_err
    | invalid => exact shrinks_err
  · exact shrinks_failHere

theorem shrinks_characterGroupLoop (n : Nat) : Shrinks (characterGroupLoop n) := by
  induction n with
  | zero => exact shrinks_diverge
  | succ n ih =>
    unfold characterGroupLoop
    refine shrinks_peekKind.bind fun k => ?_
    split
    · exact .pure
    · exact .pure
    · exact shrinks_characterGroupItem.bind fun _ => ih.bind fun _ => .pure

theorem shrinks_characterGroup (n : Nat) : Shrinks (characterGroup n) := by
  refine shrinks_nextTok.bind fun t => ?_
  split
  · refine Shrinks.bind ?_ fun _ => ?_
    · refine shrinks_peekKind.bind fun k => ?_
      split
      · exact shrinks_nextTok.bind fun _ => .pure
      · exact .pure
    · refine shrinks_peekKind.bind fun k => ?_
      split
      · exact shrinks_failHere
      · refine (shrinks_characterGroupLoop n).bind fun _ => shrinks_nextTok.bind fun t => ?_
        split
        · exact .pure
        · exact shrinks_failHere
  · exact shrinks_failHere

theorem shrinks_matchItem (n : Nat) : Shrinks (matchItem n) := by
  refine shrinks_peekKind.bind fun k => ?_
  split
  · exact shrinks_nextTok.bind fun _ => .pure
  · exact shrinks_characterGroup n
  · exact shrinks_nextTok.bind fun _ => .pure
  · exact shrinks_failHere

theorem shrinks_match (n : Nat) : Shrinks (match_ n) :=
  (shrinks_matchItem n).bind fun _ => shrinks_optQuantifier.bind fun _ => .pure

theorem openings_suffix {ks ks' : List TokenKind} (h : ks' <:+ ks) : openings ks' ≤ openings ks := by
  obtain ⟨l, rfl⟩ := h
  simp [openings]

/-! ## The depth of the parser -/

/-- The run `r` has the result `r'`, is at most `k` deep, and if it returns a value, the depth is related to it. -/
def Deep {α : Type} (r : PResult α × Nat) (r' : PResult α) (k : Nat) (Q : α → PState → Nat → Prop) : Prop :=
  r.1 = r' ∧ r.2 ≤ k ∧ ∀ a s', r' = .ok a s' → Q a s' r.2

theorem Deep.bind {α β : Type} {x : PD α} {f : α → PD β} {y : P α} {g : α → P β} {s : PState} {k : Nat}
    {Q : α → PState → Nat → Prop} {R : β → PState → Nat → Prop} (h : Deep (x s) (y s) k Q)
    (hf : ∀ a s' d, Q a s' d → d ≤ k → Deep (f a s') (g a s') k fun b s'' d' => R b s'' (max d d')) :
    Deep ((x >>= f) s) ((y >>= g) s) k R := by
  obtain ⟨h1, h2, h3⟩ := h
  change Deep (PD.bind x f s) _ k R
  rw [bind_apply]
  unfold PD.bind
  revert h1 h2 h3
  cases x s with
  | mk r d =>
    intro h1 h2 h3
    simp only at h1
    rw [← h1] at h3 ⊢
    clear h1
    cases r with
    | ok a s' =>
      obtain ⟨h4, h5, h6⟩ := hf a s' d (h3 a s' rfl) h2
      exact ⟨h4, Nat.max_le.2 ⟨h2, h5⟩, h6⟩
    | err es => exact ⟨rfl, h2, fun _ _ h => nomatch h⟩
    | panic => exact ⟨rfl, h2, fun _ _ h => nomatch h⟩
    | diverge => exact ⟨rfl, h2, fun _ _ h => nomatch h⟩

theorem Deep.lift {α : Type} {y : P α} {s : PState} {k : Nat} {Q : α → PState → Nat → Prop}
    (h : ∀ a s', y s = .ok a s' → Q a s' 0) : Deep (PD.lift y s) (y s) k Q :=
  ⟨rfl, Nat.zero_le _, h⟩

theorem Deep.pure {α : Type} {a : α} {s : PState} {k : Nat} {Q : α → PState → Nat → Prop} (h : Q a s 0) :
    Deep ((Pure.pure a : PD α) s) ((Pure.pure a : P α) s) k Q :=
  ⟨rfl, Nat.zero_le _, fun _ _ h' => by cases h'; exact h⟩

theorem Deep.fail {α : Type} {s : PState} {e : ParseErrorKind} {k : Nat} {Q : α → PState → Nat → Prop} :
    Deep (PD.lift (failHere e) s) (failHere e s) k Q :=
  .lift fun _ _ h => (ok_good (good_failHere e s (fun _ _ => False)) h).elim

theorem Deep.peek {β : Type} {s : PState} {k : Nat} {f : Option TokenKind → PD β} {g : Option TokenKind → P β}
    {R : β → PState → Nat → Prop} (h : ∀ t, t = s.kinds.head? → Deep (f t s) (g t s) k R) :
    Deep ((PD.lift peekKind >>= f) s) ((peekKind >>= g) s) k R := by
  refine Deep.bind (Q := fun k s' d => d = 0 ∧ s' = s ∧ k = s.kinds.head?)
    (.lift fun a s' h => ⟨rfl, ok_good (good_peekKind s) h⟩) ?_
  rintro t s' _ ⟨rfl, rfl, ht⟩ _
  simpa using h t ht

theorem Deep.next {β : Type} {s : PState} {k : Nat} {f : Option Token → PD β} {g : Option Token → P β}
    {R : β → PState → Nat → Prop} (h : ∀ t s', Took s t s' → Deep (f t s') (g t s') k R) :
    Deep ((PD.lift nextTok >>= f) s) ((nextTok >>= g) s) k R := by
  refine Deep.bind (Q := fun t s' d => d = 0 ∧ Took s t s')
    (.lift fun a s' h => ⟨rfl, ok_good (good_nextTok s) h⟩) ?_
  rintro t s' _ ⟨rfl, ht⟩ _
  simpa using h t s' ht

theorem Deep.mono {α : Type} {r : PResult α × Nat} {r' : PResult α} {k k' : Nat} {Q R : α → PState → Nat → Prop}
    (h : Deep r r' k Q) (hk : k ≤ k') (hQ : ∀ a s d, Q a s d → R a s d) : Deep r r' k' R :=
  ⟨h.1, Nat.le_trans h.2.1 hk, fun a s' h' => hQ _ _ _ (h.2.2 a s' h')⟩

theorem Deep.call {α : Type} {x : PD α} {s : PState} {r' : PResult α} {k : Nat} {Q R : α → PState → Nat → Prop}
    (h : Deep (x s) r' k Q) (hQ : ∀ a s d, Q a s d → R a s (d + 1)) : Deep (PD.call x s) r' (k + 1) R :=
  ⟨h.1, Nat.succ_le_succ h.2.1, fun a s' h' => hQ _ _ _ (h.2.2 a s' h')⟩

theorem Took.suffix {s s' : PState} {t : Option Token} (h : Took s t s') : s'.kinds <:+ s.kinds := by
  rcases h with ⟨t, _, h⟩ | ⟨_, h1, h2⟩
  · rw [h]
    exact List.suffix_cons _ _
  · rw [h1, h2]
    exact List.suffix_refl _

theorem nesting_concatOf (es : List Expr) : nesting (concatOf es) = nestings es := by
  unfold concatOf
  split
  · simp [nestings]
  · rfl

theorem deep_parser (n : Nat) :
    (∀ s, Deep (expressionD n s) (expression n s) (openings s.kinds + 1)
      fun e s' d => s'.kinds <:+ s.kinds ∧ d = nesting e + 1) ∧
    (∀ s, Deep (subExpressionD n s) (subExpression n s) (openings s.kinds)
      fun es s' d => s'.kinds <:+ s.kinds ∧ d = nestings es) ∧
    (∀ s, Deep (subExpressionLoopD n s) (subExpressionLoop n s) (openings s.kinds)
      fun es s' d => s'.kinds <:+ s.kinds ∧ d = nestings es) ∧
    (∀ s, Deep (subExpressionItemD n s) (subExpressionItem n s) (openings s.kinds)
      fun e s' d => s'.kinds <:+ s.kinds ∧ d = nesting e) ∧
    ∀ s, Deep (groupD n s) (group n s) (openings s.kinds)
      fun e s' d => s'.kinds <:+ s.kinds ∧ d = nesting e := by
  induction n with
  | zero =>
    unfold expressionD expression subExpressionD subExpression subExpressionLoopD subExpressionLoop
      subExpressionItemD subExpressionItem groupD group
    refine ⟨fun s => ⟨rfl, by simp [PD.call, PD.lift], fun _ _ h => nomatch h⟩, fun s => ?_, fun s => ?_, fun s => ?_,
      fun s => ?_⟩ <;>
    exact ⟨rfl, Nat.zero_le _, fun _ _ h => nomatch h⟩
  | succ n ih =>
    obtain ⟨i1, i2, i3, i4, i5⟩ := ih
    refine ⟨fun s => ?_, fun s => ?_, fun s => ?_, fun s => ?_, fun s => ?_⟩
    · unfold expressionD expression
      refine Deep.call (Q := fun e s' d => s'.kinds <:+ s.kinds ∧ d = nesting e) ?_
        fun _ _ _ h => ⟨h.1, congrArg (· + 1) h.2⟩
      refine (i2 s).bind ?_
      rintro lhs s1 d1 ⟨h1, rfl⟩ hd1
      refine .peek fun t0 ht0 => ?_
      split
      · refine .next fun t s2 ht => ?_
        have hk2 := ht.of_head ht0
        have hs := h1
        rw [hk2] at hs
        have ho : openings s2.kinds + 1 ≤ openings s.kinds := by
          have := openings_suffix hs
          simpa [openings] using this
        refine Deep.bind ((i1 s2).mono ho fun _ _ _ h => h) ?_
        rintro rhs s3 d3 ⟨h3, rfl⟩ hd3
        refine .pure ⟨h3.trans (ht.suffix.trans h1), ?_⟩
        simp only [nesting, nesting_concatOf]
        omega
      · split
        all_goals try (exfalso; simp_all; done)
        exact .pure ⟨h1, by simp [nesting_concatOf]⟩
    · unfold subExpressionD subExpression
      refine .peek fun t0 ht0 => ?_
      split
      · exact .fail
      · exact i3 s
    · unfold subExpressionLoopD subExpressionLoop
      refine .peek fun t0 ht0 => ?_
      split
      · exact .pure ⟨List.suffix_refl _, rfl⟩
      · exact .pure ⟨List.suffix_refl _, rfl⟩
      · exact .pure ⟨List.suffix_refl _, rfl⟩
      · rename_i v hv1 hv2
        generalize ho : some v = o
        split
        · cases ho
        · cases ho; exact (hv1 rfl).elim
        · cases ho; exact (hv2 rfl).elim
        refine (i4 s).bind ?_
        rintro item s1 d1 ⟨h1, rfl⟩ hd1
        refine Deep.bind ((i3 s1).mono (openings_suffix h1) fun _ _ _ h => h) ?_
        rintro items s2 d2 ⟨h2, rfl⟩ hd2
        exact .pure ⟨h2.trans h1, by simp [nestings]⟩
    · unfold subExpressionItemD subExpressionItem
      refine .peek fun t0 ht0 => ?_
      split
      · exact .fail
      · exact i5 s
      · rename_i v hv
        generalize ho : some v = o
        split
        · cases ho
        · cases ho; exact (hv rfl).elim
        refine .lift fun e s' h => ⟨shrinks_match n s e s' h, ?_⟩
        unfold match_ at h
        rw [bind_apply] at h
        cases hl : matchItem n s with
        | ok l s1 =>
          rw [hl] at h
          simp only [bind_apply] at h
          cases hq : optQuantifier s1 with
          | ok q s2 =>
            rw [hq] at h
            cases h
            rfl
          | err es => rw [hq] at h; cases h
          | panic => rw [hq] at h; cases h
          | diverge => rw [hq] at h; cases h
        | err es => rw [hl] at h; cases h
        | panic => rw [hl] at h; cases h
        | diverge => rw [hl] at h; cases h
    · unfold groupD group
      refine .next fun t s1 ht => ?_
      generalize hk : t.map Token.kind = k
      split
      · have hk2 := ht.of_map hk
        have ho : openings s1.kinds + 1 ≤ openings s.kinds := by
          rw [hk2]
          simp [openings]
        refine Deep.bind ((i1 s1).mono ho fun _ _ _ h => h) ?_
        rintro e s2 d2 ⟨h2, rfl⟩ hd2
        refine .next fun t s3 ht3 => ?_
        generalize t.map Token.kind = k
        split
        · refine Deep.bind (Q := fun _ s' d => d = 0 ∧ s'.kinds <:+ s3.kinds)
            (.lift fun q s' h => ⟨rfl, shrinks_optQuantifier s3 q s' h⟩) ?_
          rintro q s4 d4 ⟨rfl, h4⟩ _
          exact .pure ⟨h4.trans (ht3.suffix.trans (h2.trans ht.suffix)), by simp [nesting]⟩
        · split
          all_goals try (exfalso; simp_all; done)
          exact .fail
      · split
        all_goals try (exfalso; simp_all; done)
        exact .fail

/-! ## The whole parser -/

theorem parse_deep (p : Profile) (input : List Char) :
    (parseD p input).1 = parse p input ∧ (parseD p input).2 ≤ openings (scan p input).kinds + 1 ∧
      ∀ e, parse p input = .ok (.ok e) →
        (parseD p input).2 ≤ nesting e + 1 ∧ (e ≠ .empty → (parseD p input).2 = nesting e + 1) := by
  unfold parseD parse parseScan
  simp only
  have hp := good_peekTok ⟨(scan p input).toks, (scan p input).stop, none⟩
  cases hr : peekTok ⟨(scan p input).toks, (scan p input).stop, none⟩ with
  | err es => simp
  | panic => simp
  | diverge => simp
  | ok t s =>
    have hk : s.kinds = (scan p input).kinds := by
      have := (ok_good hp hr).1
      rw [this]
      rfl
    cases t with
    | none =>
      simp
    | some t =>
      obtain ⟨h1, h2, h3⟩ := (deep_parser (parseFuel (scan p input).toks.length)).1 s
      simp only
      rw [hk] at h2
      generalize hx : expressionD (parseFuel (scan p input).toks.length) s = x at h1 h2 h3 ⊢
      obtain ⟨r, d⟩ := x
      simp only at h1 h2 h3
      rw [← h1] at h3 ⊢
      cases r with
      | ok e s' =>
        refine ⟨rfl, h2, ?_⟩
        intro e' he
        cases he
        have := (h3 e s' rfl).2
        exact ⟨Nat.le_of_eq this, fun _ => this⟩
      | err es => exact ⟨rfl, h2, fun e he => by simp at he⟩
      | panic => exact ⟨rfl, h2, fun e he => by simp at he⟩
      | diverge => exact ⟨rfl, h2, fun e he => by simp at he⟩

theorem rangeTailL_kind {p : Profile} {first : Option Nat} {comma : Bool} {ch : Char} {cs : List Char} {o : OperatorKind}
    {l : Left} : rangeTailL p first comma ch cs ≠ .ok (.operator o, l) := by
  unfold rangeTailL
  intro h
  split at h
  · split at h <;> simp at h
  · split at h
    · rw [Outcome.bind_eq_ok] at h
      obtain ⟨x, _, h⟩ := h
      simp only at h
      split at h
      · simp at h
      · split at h
        · simp at h
        · split at h <;> simp at h
    · simp at h

theorem handleRangeL_kind {p : Profile} {cs : List Char} {o : OperatorKind} {l : Left} :
    handleRangeL p cs ≠ .ok (.operator o, l) := by
  intro h
  unfold handleRangeL at h
  split at h
  · simp at h
  · split at h
    · simp at h
    · rw [Outcome.bind_eq_ok] at h
      obtain ⟨x, _, h⟩ := h
      simp only at h
      split at h
      · simp at h
      · split at h
        · split at h
          · simp at h
          · exact rangeTailL_kind h
        · exact rangeTailL_kind h

theorem matchOrInvalid_kind {r : Option Char} {o : OperatorKind} : matchOrInvalid r ≠ .operator o := by
  cases r <;> simp [matchOrInvalid]

theorem handleEscapeL_kind {cs : List Char} {o : OperatorKind} : (handleEscapeL cs).1 ≠ .operator o := by
  unfold handleEscapeL
  split
  · simp
  · split
    · simp
    · split
      · simp
      · split
        · exact matchOrInvalid_kind
        · split
          · exact matchOrInvalid_kind
          · split
            · exact matchOrInvalid_kind
            · simp

/-- Operators are written as they are. -/
theorem tokenKindL_operator {p : Profile} {ch : Char} {cs : List Char} {o : OperatorKind} {l : Left}
    (h : tokenKindL p ch cs = .ok (.operator o, l)) : operatorOf ch = some o := by
  unfold tokenKindL at h
  split at h
  · have := congrArg (fun x => match x with | Outcome.ok (k, _) => k | _ => TokenKind.invalid) h
    exact absurd this handleEscapeL_kind
  · split at h
    · simp at h
    · split at h
      · simp at h
        rename_i ho
        rw [ho, h.1]
      · split at h
        · simp at h
        · split at h
          · simp at h
          · split at h
            · simp at h
            · split at h
              · exact absurd h handleRangeL_kind
              · simp at h

theorem openings_scan (p : Profile) (cs : List Char) :
    openings (scan p cs).kinds ≤ (cs.filter fun c => c = '(' ∨ c = '|').length := by
  induction hn : cs.length using Nat.strongRecOn generalizing cs with
  | ind n ih =>
    cases cs with
    | nil => simp [scan_nil, Scan.kinds, openings]
    | cons c cs =>
      cases ht : tokenKindL p c cs with
      | panic =>
        rcases scanK_cons p (c :: cs).length c cs with ⟨_, e⟩ | ⟨_, _, h, _⟩
        · rw [scan_eq_scanK, e]; simp [Scan.kinds, openings]
        · rw [ht] at h; cases h
      | diverge => exact absurd ht (tokenKindL_ne_diverge p c cs)
      | ok x =>
        obtain ⟨k, l⟩ := x
        have hs := (tokenKindL_fine ht).suffix
        have hl := hs.length_le
        rw [(scan_token ht).1]
        simp only [List.length_cons] at hn
        have h1 := ih l.cs.length (by omega) l.cs rfl
        have h2 := (hs.filter fun c => decide (c = '(' ∨ c = '|')).length_le
        have h3 : k = .operator .leftParen ∨ k = .operator .vertical → c = '(' ∨ c = '|' := by
          rintro (rfl | rfl) <;> have := tokenKindL_operator ht <;> unfold operatorOf at this <;>
            (repeat' split at this) <;> simp_all
        simp only [openings] at h1 ⊢
        by_cases hk : k = .operator .leftParen ∨ k = .operator .vertical
        · rw [List.filter_cons_of_pos (by simpa using hk), List.filter_cons_of_pos (by simpa using h3 hk)]
          simp only [List.length_cons]
          omega
        · rw [List.filter_cons_of_neg (by simpa using hk)]
          have := ((List.suffix_cons c cs).filter fun c => decide (c = '(' ∨ c = '|')).length_le
          omega

/-! ## Groups that are opened at the beginning -/

theorem bind_depth {α β : Type} {x : PD α} {f : α → PD β} {s : PState} : (x s).2 ≤ ((x >>= f) s).2 := by
  show _ ≤ (PD.bind x f s).2
  unfold PD.bind
  split <;> rename_i h <;> rw [h]
  · exact Nat.le_max_left ..
  all_goals exact Nat.le_refl _

theorem bind_depth_ok {α β : Type} {x : PD α} {f : α → PD β} {s s' : PState} {a : α} {d : Nat}
    (h : x s = (.ok a s', d)) : (f a s').2 ≤ ((x >>= f) s).2 := by
  show _ ≤ (PD.bind x f s).2
  unfold PD.bind
  rw [h]
  exact Nat.le_max_right ..

theorem expression_opened (n : Nat) : ∀ (fuel : Nat) (s : PState),
    List.replicate n (.operator .leftParen) <+: s.toks.map Token.kind → 5 * n ≤ fuel → n + 1 ≤ (expressionD fuel s).2 := by
  induction n with
  | zero =>
    intro fuel s _ _
    cases fuel with
    | zero => exact Nat.le_add_left ..
    | succ m =>
      rw [expressionD]
      exact Nat.le_add_left ..
  | succ n ih =>
    intro fuel s hs hf
    obtain ⟨m, rfl⟩ : ∃ m, fuel = m + 1 + 1 + 1 + 1 + 1 := ⟨fuel - 5, by omega⟩
    obtain ⟨toks, stop, cur⟩ := s
    cases toks with
    | nil => simp [List.replicate_succ] at hs
    | cons t toks =>
      obtain ⟨kind, pos⟩ := t
      simp only [List.replicate_succ, List.map_cons, List.cons_prefix_cons] at hs
      obtain ⟨rfl, hs⟩ := hs
      have hpeek : PD.lift peekKind ⟨⟨.operator .leftParen, pos⟩ :: toks, stop, cur⟩ =
          (.ok (some (.operator .leftParen)) ⟨⟨.operator .leftParen, pos⟩ :: toks, stop, cur⟩, 0) := rfl
      have hnext : PD.lift nextTok ⟨⟨.operator .leftParen, pos⟩ :: toks, stop, cur⟩ =
          (.ok (some ⟨.operator .leftParen, pos⟩) ⟨toks, stop, some (some ⟨.operator .leftParen, pos⟩)⟩, 0) := rfl
      rw [expressionD]
      refine Nat.succ_le_succ (Nat.le_trans ?_ bind_depth)
      rw [subExpressionD]
      refine Nat.le_trans ?_ (bind_depth_ok hpeek)
      show n + 1 ≤ (subExpressionLoopD (m + 1 + 1 + 1) _).2
      rw [subExpressionLoopD]
      refine Nat.le_trans ?_ (bind_depth_ok hpeek)
      refine Nat.le_trans ?_ bind_depth
      rw [subExpressionItemD]
      refine Nat.le_trans ?_ (bind_depth_ok hpeek)
      show n + 1 ≤ (groupD (m + 1) _).2
      rw [groupD]
      refine Nat.le_trans ?_ (bind_depth_ok hnext)
      refine Nat.le_trans ?_ bind_depth
      exact ih _ _ hs (by omega)

theorem scan_opened (p : Profile) (n : Nat) (rest : List Char) :
    List.replicate n (.operator .leftParen) <+: (scan p (List.replicate n '(' ++ rest)).kinds := by
  induction n with
  | zero => exact List.nil_prefix
  | succ n ih =>
    have h : tokenKindL p '(' (List.replicate n '(' ++ rest) =
        .ok (.operator .leftParen, ⟨List.replicate n '(' ++ rest, false⟩) := rfl
    rw [List.replicate_succ, List.replicate_succ, List.cons_append, (scan_token h).1]
    exact List.cons_prefix_cons.2 ⟨rfl, ih⟩

/-! ## Trees -/

mutual

theorem nesting_free : ∀ e : Expr, nesting e < e.freeDepth
  | .concat es => by
    have := nestings_free es
    simp only [nesting, Expr.freeDepth]
    omega
  | .empty => by simp [nesting, Expr.freeDepth]
  | .alt l r => by
    have := nesting_free l
    have := nesting_free r
    simp only [nesting, Expr.freeDepth]
    omega
  | .lit _ _ => by simp [nesting, Expr.freeDepth]
  | .group e _ => by
    have := nesting_free e
    simp only [nesting, Expr.freeDepth]
    omega

theorem nestings_free : ∀ es : List Expr, nestings es ≤ freeDepths es
  | [] => by simp [nestings]
  | e :: es => by
    have := nesting_free e
    have := nestings_free es
    simp only [nestings, freeDepths]
    omega

end

theorem free_seqTree (es : List Expr) : (seqTree es).freeDepth ≤ freeDepths es + 1 := by
  match es with
  | [] => simp [seqTree, Expr.freeDepth]
  | [e] => simp [seqTree, freeDepths]
  | e :: f :: es => simp [seqTree, Expr.freeDepth]

theorem nesting_seqTree (es : List Expr) : nesting (seqTree es) = nestings es := by
  match es with
  | [] => simp [seqTree, nesting]
  | [e] => simp [seqTree, nestings]
  | e :: f :: es => simp [seqTree, nesting]

theorem free_expression {r : Relaxed} {e : Expr} {ks : List TokenKind} (h : Expression r e ks) :
    e.freeDepth ≤ 3 * nesting e + 2 := by
  refine @Expression.rec r
    (motive_1 := fun e _ _ => e.freeDepth ≤ 3 * nesting e + 2)
    (motive_2 := fun es _ _ => freeDepths es ≤ max 1 (3 * nestings es))
    (motive_3 := fun e _ _ => e.freeDepth ≤ max 1 (3 * nesting e))
    ?_ ?_ ?_ ?_ ?_ ?_ ?_ e ks h
  · intro es _ _ h1
    have h2 := free_seqTree es
    rw [nesting_seqTree]
    omega
  · intro es e _ _ _ _ h1 h3
    have h2 := free_seqTree es
    simp only [nesting, Expr.freeDepth]
    rw [nesting_seqTree]
    omega
  · intro _
    simp [freeDepths]
  · intro e _ _ h1
    simp only [nestings, freeDepths]
    omega
  · intro e es _ _ _ _ h1 h2
    simp only [nestings, freeDepths]
    omega
  · intro l q _ _ _ _
    simp only [Expr.freeDepth]
    omega
  · intro e q _ _ _ _ h1
    simp only [nesting, Expr.freeDepth]
    omega

mutual

theorem nesting_bars : ∀ e : Expr, nesting e ≤ groupNesting e + bars e
  | .concat es => by
    have := nestings_bars es
    simpa only [nesting, groupNesting, bars] using this
  | .empty => by simp [nesting]
  | .alt l r => by
    have := nesting_bars l
    have := nesting_bars r
    simp only [nesting, groupNesting, bars]
    omega
  | .lit _ _ => by simp [nesting]
  | .group e _ => by
    have := nesting_bars e
    simp only [nesting, groupNesting, bars]
    omega

theorem nestings_bars : ∀ es : List Expr, nestings es ≤ groupNestings es + barsOf es
  | [] => by simp [nestings]
  | e :: es => by
    have := nesting_bars e
    have := nestings_bars es
    simp only [nestings, groupNestings, barsOf]
    omega

end

end Pango.Regex

namespace Pango.Fsm

open Pango Pango.Regex

mutual

theorem compileExprD_deep : ∀ (e : Expr) (start dest : Nat) (nfa : Nfa),
    (compileExprD e start dest nfa).1 = compileExpr e start dest nfa ∧
      (compileExprD e start dest nfa).2 ≤ e.freeDepth ∧
      ∀ nfa', compileExpr e start dest nfa = .ok nfa' → (compileExprD e start dest nfa).2 = e.freeDepth
  | .concat es, start, dest, nfa => by
    obtain ⟨h1, h2, h3⟩ := compileConcatD_deep es start dest nfa
    simp only [compileExprD, compileExpr, Expr.freeDepth]
    exact ⟨h1, by omega, fun nfa' h => by rw [h3 nfa' h]⟩
  | .empty, start, dest, nfa => by
    simp [compileExprD, compileExpr, Expr.freeDepth]
  | .alt l r, start, dest, nfa => by
    obtain ⟨h1, h2, h3⟩ := compileExprD_deep l start dest nfa
    simp only [compileExprD, compileExpr, Expr.freeDepth]
    rw [← h1] at h3 ⊢
    generalize compileExprD l start dest nfa = x at h1 h2 h3
    obtain ⟨o, d⟩ := x
    simp only at h1 h2 h3
    cases o with
    | ok nfa1 =>
      obtain ⟨k1, k2, k3⟩ := compileExprD_deep r start dest nfa1
      have := h3 nfa1 rfl
      simp only [Outcome.bind_ok]
      exact ⟨k1, by omega, fun nfa' h => by rw [k3 nfa' h, this]⟩
    | panic => exact ⟨rfl, by simp only; omega, fun nfa' h => by simp at h⟩
    | diverge => exact ⟨rfl, by simp only; omega, fun nfa' h => by simp at h⟩
  | .lit l none, start, dest, nfa => by
    simp [compileExprD, compileExpr, Expr.freeDepth]
  | .lit l (some q), start, dest, nfa => by
    simp [compileExprD, compileExpr, Expr.freeDepth]
  | .group e none, start, dest, nfa => by
    obtain ⟨h1, h2, h3⟩ := compileExprD_deep e start dest nfa
    simp only [compileExprD, compileExpr, Expr.freeDepth]
    exact ⟨h1, by omega, fun nfa' h => by rw [h3 nfa' h]⟩
  | .group e (some q), start, dest, nfa => by
    simp only [compileExprD, compileExpr, Expr.freeDepth]
    cases insertQuantifierState nfa q start dest with
    | ok x =>
      obtain ⟨h1, h2, h3⟩ := compileExprD_deep e x.1 x.1 x.2
      simp only [Outcome.bind_ok]
      exact ⟨h1, by omega, fun nfa' h => by rw [h3 nfa' h]⟩
    | panic => exact ⟨rfl, by simp only; omega, fun nfa' h => by simp at h⟩
    | diverge => exact ⟨rfl, by simp only; omega, fun nfa' h => by simp at h⟩

theorem compileConcatD_deep : ∀ (es : List Expr) (start dest : Nat) (nfa : Nfa),
    (compileConcatD es start dest nfa).1 = compileConcat es start dest nfa ∧
      (compileConcatD es start dest nfa).2 ≤ freeDepths es ∧
      ∀ nfa', compileConcat es start dest nfa = .ok nfa' → (compileConcatD es start dest nfa).2 = freeDepths es
  | [], start, dest, nfa => by simp [compileConcatD, compileConcat]
  | [e], start, dest, nfa => by
    obtain ⟨h1, h2, h3⟩ := compileExprD_deep e start dest nfa
    simp only [compileConcatD, compileConcat, freeDepths, Nat.max_zero]
    exact ⟨h1, h2, h3⟩
  | e :: f :: es, start, dest, nfa => by
    obtain ⟨h1, h2, h3⟩ := compileExprD_deep e start (nfa.addState false).1 (nfa.addState false).2
    simp only [compileConcatD, compileConcat]
    rw [freeDepths]
    rw [← h1] at h3 ⊢
    generalize compileExprD e start (nfa.addState false).1 (nfa.addState false).2 = x at h1 h2 h3
    obtain ⟨o, d⟩ := x
    simp only at h1 h2 h3
    cases o with
    | ok nfa1 =>
      obtain ⟨k1, k2, k3⟩ := compileConcatD_deep (f :: es) (nfa.addState false).1 dest nfa1
      have := h3 nfa1 rfl
      simp only [Outcome.bind_ok]
      exact ⟨k1, by omega, fun nfa' h => by rw [k3 nfa' h, this]⟩
    | panic => exact ⟨rfl, by simp only; omega, fun nfa' h => by simp at h⟩
    | diverge => exact ⟨rfl, by simp only; omega, fun nfa' h => by simp at h⟩

end

end Pango.Fsm

namespace Pango.Parse

open Pango.Spec

variable {V T : Type}

mutual

theorem free_le_count : ∀ n : Node V T, n.freeDepth ≤ nodeCount n
  | .mk _ children => by
    have := frees_le_count children
    simp only [Node.freeDepth, nodeCount]
    omega

theorem frees_le_count : ∀ ns : List (Node V T), nodesFreeDepth ns ≤ nodesCount ns
  | [] => by simp [nodesFreeDepth]
  | n :: ns => by
    have := free_le_count n
    have := frees_le_count ns
    simp only [nodesFreeDepth, nodesCount]
    omega

end

variable [DecidableEq V] [TerminalEq T]

/-- The tree that is returned has the nodes of the stack and its root. -/
theorem accept_nodes {tbl : Table V T} {k : Option T} {st : List (ParseNode V T)} {cur : Nat} {h : Handled V T}
    (hh : handleToken tbl k st cur = .ok (some h)) (ha : h.accepted = true) : nodeCount h.node.node ≤ stackNodes st + 1 := by
  unfold handleToken at hh
  simp only [Outcome.bind_eq_ok] at hh
  obtain ⟨row, _, hh⟩ := hh
  split at hh
  · simp at hh
  · rw [Outcome.bind_eq_ok] at hh
    obtain ⟨t, _, hh⟩ := hh
    simp at hh
    rw [← hh] at ha
    simp at ha
  · simp only [Outcome.bind_eq_ok] at hh
    obtain ⟨x, _, top, _, row, _, hh⟩ := hh
    split at hh
    · simp at hh
    · simp at hh
      rw [← hh] at ha
      simp at ha
  · rename_i v a _
    rw [Outcome.bind_eq_ok] at hh
    obtain ⟨x, hd, hh⟩ := hh
    unfold drainStack at hd
    split at hd
    · cases hd
      simp at hh
      rw [← hh]
      simp only [stackNodes, nodeCount, ← List.map_take]
      conv => rhs; rw [← List.take_append_drop a st, List.map_append, nodesCount_append]
      omega
    · simp at hd

theorem parseEof_nodes {tbl : Table V T} {k : Nat} :
    ∀ {st : List (ParseNode V T)} {s : Nat} {n : Node V T}, parseEof tbl k st s = .ok (some n) →
      nodeCount n ≤ stackNodes st + k := by
  induction k with
  | zero => intro st s n h; simp [parseEof] at h
  | succ k ih =>
    intro st s n h
    rw [parseEof, Outcome.bind_eq_ok] at h
    obtain ⟨r, hh, h⟩ := h
    cases r with
    | none => simp at h
    | some r =>
      simp only at h
      split at h
      · rename_i ha
        have := accept_nodes hh ha
        simp at h
        rw [h] at this
        omega
      · rename_i ha
        have := ih h
        rw [handle_nodes hh ha] at this
        omega

theorem parseLoop_nodes {tbl : Table V T} {fin : InputEnd} {k : Nat} :
    ∀ {w : List T} {st : List (ParseNode V T)} {s : Nat} {n : Node V T}, parseLoop tbl fin k w st s = .ok (some n) →
      nodeCount n ≤ stackNodes st + k := by
  induction k with
  | zero => intro w st s n h; simp [parseLoop] at h
  | succ k ih =>
    intro w st s n h
    cases w with
    | nil =>
      cases fin with
      | ok _ => exact parseEof_nodes (by simpa [parseLoop] using h)
      | panic => simp [parseLoop] at h
      | diverge => simp [parseLoop] at h
    | cons t w =>
      rw [parseLoop, Outcome.bind_eq_ok] at h
      obtain ⟨r, hh, h⟩ := h
      cases r with
      | none => simp at h
      | some r =>
        simp only at h
        split at h
        · rename_i ha
          have := accept_nodes hh ha
          simp at h
          rw [h] at this
          omega
        · rename_i ha
          have := ih h
          rw [handle_nodes hh ha] at this
          omega

end Pango.Parse
