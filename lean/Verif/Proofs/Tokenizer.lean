import Verif.Props.Iter
import Verif.Model.Tokenizer

/-!
# The tokenizer on plain character lists

The functions `…L` do what the tokenizer does, on the list of the remaining characters instead of an
iterator with indices and a cached item.  `Rel` relates the two, and each tokenizer function is shown
to preserve it.
-/

namespace Pango.Regex

open Pango CachedPeekable

/-- Longest prefix on which `f` is defined. -/
def spanMap {α β : Type} (f : α → Option β) : List α → List β × List α
  | [] => ([], [])
  | a :: r => match f a with
    | some b => (b :: (spanMap f r).1, (spanMap f r).2)
    | none => ([], a :: r)

/-- What is left after reading a token: the remaining characters, and whether reading met the end. -/
structure Left where
  cs : List Char
  hitEnd : Bool

/-- `takeHex` on a character list. -/
def takeHexL (cs : List Char) (start : Option Nat) : (Nat × Nat) × List Char :=
  let init : Nat × Nat := match start with
    | some d => (1, d)
    | none => (0, 0)
  ((spanMap hexDigit? cs).1.foldl (fun (acc : Nat × Nat) d => (acc.1 + 1, (acc.2 * 16) % u32Size + d))
    init, (spanMap hexDigit? cs).2)

/-- `takeDec` on a character list. -/
def takeDecL (p : Profile) (cs : List Char) (start : Nat) : Outcome (Option Nat × List Char) := do
  let r ← decFold p (some start) (spanMap decDigit? cs).1
  pure (r, (spanMap decDigit? cs).2)

/-- The part of `handleRange` after the first numeral and the optional comma. -/
def rangeTailL (p : Profile) (first : Option Nat) (comma : Bool) (ch : Char) (cs : List Char) :
    Outcome (TokenKind × Left) :=
  if ch = '}' then
    match first with
    | none => pure (.invalid, ⟨cs, false⟩)
    | some n => pure (.quantifier (if comma then .min n else .max n), ⟨cs, false⟩)
  else match decDigit? ch with
    | some d => do
      let (second, cs) ← takeDecL p cs d
      match cs with
      | [] => pure (.invalid, ⟨[], true⟩)
      | ch :: cs =>
        if ch ≠ '}' then pure (.invalid, ⟨cs, false⟩)
        else match first, second with
          | some lo, some hi => pure (.quantifier (.range lo hi), ⟨cs, false⟩)
          | _, _ => pure (.invalid, ⟨cs, false⟩)
    | none => pure (.invalid, ⟨cs, false⟩)

/-- `handleRange` on a character list. -/
def handleRangeL (p : Profile) : List Char → Outcome (TokenKind × Left)
  | [] => .ok (.invalid, ⟨[], true⟩)
  | ch :: cs =>
    match decDigit? ch with
    | none => .ok (.invalid, ⟨cs, false⟩)
    | some d0 => do
      let (first, cs) ← takeDecL p cs d0
      match cs with
      | [] => pure (.invalid, ⟨[], true⟩)
      | ch :: cs =>
        if ch = ',' then
          match cs with
          | [] => pure (.invalid, ⟨[], true⟩)
          | ch :: cs => rangeTailL p first true ch cs
        else rangeTailL p first false ch cs

/-- `handleControl` on a character list. -/
def handleControlL : List Char → Option Char × Left
  | [] => (none, ⟨[], true⟩)
  | ch :: cs =>
    if ('a' ≤ ch ∧ ch ≤ 'z') ∨ ('A' ≤ ch ∧ ch ≤ 'Z') then (charFromU32 (ch.toNat % 32), ⟨cs, false⟩)
    else (none, ⟨cs, false⟩)

/-- `handleX` on a character list. -/
def handleXL (cs : List Char) : Option Char × Left :=
  let ((count, code), cs) := takeHexL cs none
  if count ≠ 2 then (none, ⟨cs, false⟩) else (charFromU32 code, ⟨cs, false⟩)

/-- `handleU` on a character list. -/
def handleUL : List Char → Option Char × Left
  | [] => (none, ⟨[], true⟩)
  | ch :: cs =>
    if ch = '{' then
      let ((count, code), cs) := takeHexL cs none
      if count < 4 then (none, ⟨cs, false⟩)
      else
        match cs with
        | [] => (none, ⟨[], true⟩)
        | lastBracket :: cs =>
          if lastBracket = '}' then (charFromU32 code, ⟨cs, false⟩) else (none, ⟨cs, false⟩)
    else
      match hexDigit? ch with
      | none => (none, ⟨cs, false⟩)
      | some hex1 =>
        let ((_, code), cs) := takeHexL cs (some hex1)
        (charFromU32 code, ⟨cs, false⟩)

/-- `handleEscape` on a character list. -/
def handleEscapeL : List Char → TokenKind × Left
  | [] => (.invalid, ⟨[], true⟩)
  | ch :: cs =>
    match classOf ch with
    | some k => (.cls k, ⟨cs, false⟩)
    | none =>
      match simpleEscape ch with
      | some c => (.mtch c, ⟨cs, false⟩)
      | none =>
        if ch = 'c' then (matchOrInvalid (handleControlL cs).1, (handleControlL cs).2)
        else if ch = 'x' then (matchOrInvalid (handleXL cs).1, (handleXL cs).2)
        else if ch = 'u' then (matchOrInvalid (handleUL cs).1, (handleUL cs).2)
        else (.invalid, ⟨cs, false⟩)

/-- `tokenKind` on a character list. -/
def tokenKindL (p : Profile) (ch : Char) (cs : List Char) : Outcome (TokenKind × Left) :=
  if ch = '\\' then .ok (handleEscapeL cs)
  else if ch = '.' then .ok (.cls .wildcard, ⟨cs, false⟩)
  else match operatorOf ch with
    | some o => .ok (.operator o, ⟨cs, false⟩)
    | none =>
      if ch = '*' then .ok (.quantifier .asterisk, ⟨cs, false⟩)
      else if ch = '+' then .ok (.quantifier .plus, ⟨cs, false⟩)
      else if ch = '?' then .ok (.quantifier .questionMark, ⟨cs, false⟩)
      else if ch = '{' then handleRangeL p cs
      else .ok (.mtch ch, ⟨cs, false⟩)

/-! ## The relation -/

/-- The iterator stands in front of the characters `l.cs` of an input of `n` characters; at least one
character was read. -/
structure Rel (n : Nat) (it : CharIter) (l : Left) : Prop where
  le : l.cs.length ≤ n
  rest : it.rest = enumFrom (n - l.cs.length) l.cs
  cur : if l.hitEnd then it.current = some none ∧ l.cs = []
    else ∃ c, it.current = some (some (n - l.cs.length - 1, c)) ∧ l.cs.length < n

theorem rel_next_nil {n : Nat} {it : CharIter} {e : Bool} (h : Rel n it ⟨[], e⟩) :
    ∃ it', it.next = (none, it') ∧ Rel n it' ⟨[], true⟩ := by
  have hr := h.rest
  simp only [enumFrom] at hr
  refine ⟨⟨it.rest.tail, some it.rest.head?⟩, by simp [CachedPeekable.next, hr], ?_⟩
  exact ⟨h.le, by simp [hr, enumFrom], by simp [hr]⟩

theorem rel_next_cons {n : Nat} {it : CharIter} {c : Char} {cs : List Char} {e : Bool}
    (h : Rel n it ⟨c :: cs, e⟩) :
    ∃ it', it.next = (some (n - cs.length - 1, c), it') ∧ Rel n it' ⟨cs, false⟩ := by
  have hr := h.rest
  have hle := h.le
  simp only [enumFrom, List.length_cons] at hr hle
  refine ⟨⟨it.rest.tail, some it.rest.head?⟩, ?_, ?_⟩
  · simp only [CachedPeekable.next, hr, List.head?_cons]
    rw [show n - (cs.length + 1) = n - cs.length - 1 by omega]
  · refine ⟨by simp; omega, ?_, ?_⟩
    · simp only [hr, List.tail_cons]
      rw [show n - (cs.length + 1) + 1 = n - cs.length by omega]
    · simp only [hr, List.head?_cons, Bool.false_eq_true, if_false]
      exact ⟨c, by rw [show n - (cs.length + 1) = n - cs.length - 1 by omega], by omega⟩

theorem enumFrom_length (i : Nat) (cs : List Char) : (enumFrom i cs).length = cs.length := by
  induction cs generalizing i with
  | nil => rfl
  | cons c cs ih => simp [enumFrom, ih]

theorem drain_rel {β : Type} (f : Char → Option β) {n : Nat} :
    ∀ (k : Nat) (it : CharIter) (cs : List Char), Rel n it ⟨cs, false⟩ → cs.length < k →
      (drain (cautiousMapNext (fun x : Nat × Char => f x.2)) k it).1 = (spanMap f cs).1 ∧
      Rel n (drain (cautiousMapNext (fun x : Nat × Char => f x.2)) k it).2 ⟨(spanMap f cs).2, false⟩ := by
  intro k
  induction k with
  | zero => intro it cs _ h; omega
  | succ k ih =>
    intro it cs hrel hlen
    have hr := hrel.rest
    cases cs with
    | nil =>
      have e : cautiousMapNext (fun x : Nat × Char => f x.2) it = (none, it) := by
        simp [cautiousMapNext, CachedPeekable.peek, hr, enumFrom]
      simpa [drain, e, spanMap] using hrel
    | cons c cs =>
      cases hf : f c with
      | none =>
        have e : cautiousMapNext (fun x : Nat × Char => f x.2) it = (none, it) := by
          simp [cautiousMapNext, CachedPeekable.peek, hr, enumFrom, hf]
        simpa [drain, e, spanMap, hf] using hrel
      | some b =>
        obtain ⟨it', e', hrel'⟩ := rel_next_cons hrel
        have e : cautiousMapNext (fun x : Nat × Char => f x.2) it = (some b, it') := by
          simp [cautiousMapNext, CachedPeekable.peek, hr, enumFrom, hf, e']
        have := ih it' cs hrel' (by simp at hlen; omega)
        simpa [drain, e, spanMap, hf] using this

theorem cautiousMapWhile_rel {β : Type} (f : Char → Option β) {n : Nat} {it : CharIter}
    {cs : List Char} (h : Rel n it ⟨cs, false⟩) :
    ∃ it', it.cautiousMapWhile (fun x => f x.2) = ((spanMap f cs).1, it') ∧
      Rel n it' ⟨(spanMap f cs).2, false⟩ := by
  have hl : it.rest.length = cs.length := by rw [h.rest, enumFrom_length]
  obtain ⟨h1, h2⟩ := drain_rel f (it.rest.length + 1) it cs h (by omega)
  exact ⟨_, by rw [cautiousMapWhile]; exact Prod.ext h1 rfl, h2⟩

theorem takeHex_rel {n : Nat} {it : CharIter} {cs : List Char} (start : Option Nat)
    (h : Rel n it ⟨cs, false⟩) :
    ∃ it', takeHex it start = ((takeHexL cs start).1, it') ∧
      Rel n it' ⟨(takeHexL cs start).2, false⟩ := by
  obtain ⟨it', e, h'⟩ := cautiousMapWhile_rel hexDigit? h
  exact ⟨it', by simp only [takeHex, e, takeHexL]; cases start <;> rfl, h'⟩

/-- Relation of the results of two computations that may panic. -/
def RelO {α : Type} (n : Nat) (x : Outcome (α × CharIter)) (y : Outcome (α × Left)) : Prop :=
  (∃ a it l, x = .ok (a, it) ∧ y = .ok (a, l) ∧ Rel n it l) ∨ (x = .panic ∧ y = .panic)

theorem decFold_cases (p : Profile) (ds : List Nat) (acc : Option Nat) :
    (∃ r, decFold p acc ds = .ok r) ∨ decFold p acc ds = .panic := by
  induction ds generalizing acc with
  | nil => exact .inl ⟨acc, rfl⟩
  | cons d ds ih =>
    cases acc with
    | none => simpa [decFold, decStep] using ih none
    | some a =>
      by_cases h1 : a * 10 < u32Size
      · by_cases h2 : a * 10 + d < u32Size
        · simpa [decFold, decStep, h1, addU32, h2] using ih (some (a * 10 + d))
        · cases p with
          | debug => right; simp [decFold, decStep, h1, addU32, h2]
          | release =>
            simpa [decFold, decStep, h1, addU32, h2] using ih (some ((a * 10 + d) % u32Size))
      · simpa [decFold, decStep, h1] using ih none

theorem takeDec_rel (p : Profile) {n : Nat} {it : CharIter} {cs : List Char} (start : Nat)
    (h : Rel n it ⟨cs, false⟩) :
    (∃ r it', takeDec p it start = .ok (r, it') ∧
      takeDecL p cs start = .ok (r, (spanMap decDigit? cs).2) ∧
      Rel n it' ⟨(spanMap decDigit? cs).2, false⟩) ∨
    (takeDec p it start = .panic ∧ takeDecL p cs start = .panic) := by
  obtain ⟨it', e, h'⟩ := cautiousMapWhile_rel decDigit? h
  rcases decFold_cases p (spanMap decDigit? cs).1 (some start) with ⟨r, hr⟩ | hr
  · exact .inl ⟨r, it', by simp [takeDec, e, hr], by simp [takeDecL, hr], h'⟩
  · exact .inr ⟨by simp [takeDec, e, hr], by simp [takeDecL, hr]⟩

theorem relO_ok {α : Type} {n : Nat} {a : α} {it : CharIter} {l : Left} (h : Rel n it l) :
    RelO n (.ok (a, it)) (.ok (a, l)) := .inl ⟨a, it, l, rfl, rfl, h⟩

/-- The part of `handleRange` after the first numeral and the optional comma. -/
def rangeTail (p : Profile) (first : Option Nat) (comma : Bool) (ch : Char) (it : CharIter) :
    Outcome (TokenKind × CharIter) :=
  if ch = '}' then
    match first with
    | none => pure (.invalid, it)
    | some n => pure (.quantifier (if comma then .min n else .max n), it)
  else match decDigit? ch with
    | some d => do
      let (secondValue, it) ← takeDec p it d
      match it.next with
      | (none, it) => pure (.invalid, it)
      | (some (_, ch), it) =>
        if ch ≠ '}' then pure (.invalid, it)
        else match first, secondValue with
          | some lo, some hi => pure (.quantifier (.range lo hi), it)
          | _, _ => pure (.invalid, it)
    | none => pure (.invalid, it)

theorem rangeTail_rel (p : Profile) (first : Option Nat) (comma : Bool) (ch : Char) {n : Nat}
    {it : CharIter} {cs : List Char} (h : Rel n it ⟨cs, false⟩) :
    RelO n (rangeTail p first comma ch it) (rangeTailL p first comma ch cs) := by
  unfold rangeTail rangeTailL
  by_cases hb : ch = '}'
  · rw [if_pos hb, if_pos hb]
    cases first with
    | none => exact relO_ok h
    | some m => exact relO_ok h
  · rw [if_neg hb, if_neg hb]
    cases hd : decDigit? ch with
    | none => exact relO_ok h
    | some d =>
      rcases takeDec_rel p d h with ⟨r, it', e1, e2, h'⟩ | ⟨e1, e2⟩
      · simp only [e1, e2, Outcome.bind_ok]
        cases hs : (spanMap decDigit? cs).2 with
        | nil =>
          rw [hs] at h'
          obtain ⟨it'', e3, h''⟩ := rel_next_nil h'
          simp only [e3]
          exact relO_ok h''
        | cons c cs' =>
          rw [hs] at h'
          obtain ⟨it'', e3, h''⟩ := rel_next_cons h'
          simp only [e3]
          by_cases hc : c = '}'
          · simp only [hc, ne_eq, not_true_eq_false, if_false]
            cases first <;> cases r <;> exact relO_ok h''
          · simp only [ne_eq, hc, not_false_eq_true, if_true]
            exact relO_ok h''
      · exact .inr ⟨by simp [e1], by simp [e2]⟩

/-- `handleRange` with its end split off. -/
def handleRange' (p : Profile) (it : CharIter) : Outcome (TokenKind × CharIter) :=
  match it.next with
  | (none, it) => .ok (.invalid, it)
  | (some (_, ch), it) =>
    match decDigit? ch with
    | none => .ok (.invalid, it)
    | some d0 => do
      let (firstValue, it) ← takeDec p it d0
      match it.next with
      | (none, it) => pure (.invalid, it)
      | (some (_, ch), it) =>
        if ch = ',' then
          match it.next with
          | (none, it) => pure (.invalid, it)
          | (some (_, c), it) => rangeTail p firstValue true c it
        else rangeTail p firstValue false ch it

theorem handleRange_eq (p : Profile) (it : CharIter) : handleRange p it = handleRange' p it := by
  unfold handleRange handleRange'
  rcases it.next with ⟨_ | ⟨i, ch⟩, it1⟩
  · rfl
  · simp only
    cases decDigit? ch with
    | none => rfl
    | some d0 =>
      simp only
      cases takeDec p it1 d0 with
      | panic => rfl
      | diverge => rfl
      | ok x =>
        obtain ⟨first, it2⟩ := x
        simp only [Outcome.bind_ok]
        rcases it2.next with ⟨_ | ⟨j, ch'⟩, it3⟩
        · rfl
        · by_cases hc : ch' = ','
          · simp only [hc, if_true]
            rcases it3.next with ⟨_ | ⟨k, c⟩, it4⟩
            · rfl
            · simp only [rangeTail, if_true]; rfl
          · simp only [hc, if_false]
            simp only [rangeTail, Bool.false_eq_true, if_false]; rfl

theorem handleRange_rel (p : Profile) {n : Nat} {it : CharIter} {cs : List Char}
    (h : Rel n it ⟨cs, false⟩) : RelO n (handleRange p it) (handleRangeL p cs) := by
  rw [handleRange_eq]
  unfold handleRange'
  cases cs with
  | nil =>
    obtain ⟨it', e, h'⟩ := rel_next_nil h
    simp only [e, handleRangeL]
    exact relO_ok h'
  | cons ch cs =>
    obtain ⟨it', e, h'⟩ := rel_next_cons h
    simp only [e, handleRangeL]
    cases decDigit? ch with
    | none => exact relO_ok h'
    | some d0 =>
      simp only
      rcases takeDec_rel p d0 h' with ⟨r, it2, e1, e2, h2⟩ | ⟨e1, e2⟩
      · simp only [e1, e2, Outcome.bind_ok]
        cases hs : (spanMap decDigit? cs).2 with
        | nil =>
          rw [hs] at h2
          obtain ⟨it3, e3, h3⟩ := rel_next_nil h2
          simp only [e3]
          exact relO_ok h3
        | cons c cs' =>
          rw [hs] at h2
          obtain ⟨it3, e3, h3⟩ := rel_next_cons h2
          simp only [e3]
          by_cases hc : c = ','
          · simp only [hc, if_true]
            cases cs' with
            | nil =>
              obtain ⟨it4, e4, h4⟩ := rel_next_nil h3
              simp only [e4]
              exact relO_ok h4
            | cons c' cs'' =>
              obtain ⟨it4, e4, h4⟩ := rel_next_cons h3
              simp only [e4]
              exact rangeTail_rel p r true c' h4
          · simp only [hc, if_false]
            exact rangeTail_rel p r false c h3
      · exact .inr ⟨by simp [e1], by simp [e2]⟩

theorem handleControl_rel {n : Nat} {it : CharIter} {cs : List Char} (h : Rel n it ⟨cs, false⟩) :
    (handleControl it).1 = (handleControlL cs).1 ∧ Rel n (handleControl it).2 (handleControlL cs).2 := by
  cases cs with
  | nil =>
    obtain ⟨it', e, h'⟩ := rel_next_nil h
    simpa [handleControl, handleControlL, e] using h'
  | cons ch cs =>
    obtain ⟨it', e, h'⟩ := rel_next_cons h
    simp only [handleControl, handleControlL, e]
    split <;> exact ⟨rfl, h'⟩

theorem handleX_rel {n : Nat} {it : CharIter} {cs : List Char} (h : Rel n it ⟨cs, false⟩) :
    (handleX it).1 = (handleXL cs).1 ∧ Rel n (handleX it).2 (handleXL cs).2 := by
  obtain ⟨it', e, h'⟩ := takeHex_rel none h
  simp only [handleX, handleXL, e]
  split <;> exact ⟨rfl, h'⟩

theorem handleU_rel {n : Nat} {it : CharIter} {cs : List Char} (h : Rel n it ⟨cs, false⟩) :
    (handleU it).1 = (handleUL cs).1 ∧ Rel n (handleU it).2 (handleUL cs).2 := by
  cases cs with
  | nil =>
    obtain ⟨it', e, h'⟩ := rel_next_nil h
    simpa [handleU, handleUL, e] using h'
  | cons ch cs =>
    obtain ⟨it', e, h'⟩ := rel_next_cons h
    simp only [handleU, handleUL, e]
    by_cases hb : ch = '{'
    · simp only [hb, if_true]
      obtain ⟨it2, e2, h2⟩ := takeHex_rel none h'
      simp only [e2]
      by_cases hc : (takeHexL cs none).1.1 < 4
      · simp only [hc, if_true]; exact ⟨trivial, h2⟩
      · simp only [hc, if_false]
        cases hs : (takeHexL cs none).2 with
        | nil =>
          rw [hs] at h2
          obtain ⟨it3, e3, h3⟩ := rel_next_nil h2
          simp only [e3]; exact ⟨trivial, h3⟩
        | cons c cs' =>
          rw [hs] at h2
          obtain ⟨it3, e3, h3⟩ := rel_next_cons h2
          simp only [e3]
          split <;> exact ⟨rfl, h3⟩
    · simp only [hb, if_false]
      cases hexDigit? ch with
      | none => exact ⟨rfl, h'⟩
      | some d =>
        obtain ⟨it2, e2, h2⟩ := takeHex_rel (some d) h'
        simp only [e2]
        exact ⟨trivial, h2⟩

theorem handleEscape_rel {n : Nat} {it : CharIter} {cs : List Char} (h : Rel n it ⟨cs, false⟩) :
    (handleEscape it).1 = (handleEscapeL cs).1 ∧ Rel n (handleEscape it).2 (handleEscapeL cs).2 := by
  cases cs with
  | nil =>
    obtain ⟨it', e, h'⟩ := rel_next_nil h
    simpa [handleEscape, handleEscapeL, e] using h'
  | cons ch cs =>
    obtain ⟨it', e, h'⟩ := rel_next_cons h
    simp only [handleEscape, handleEscapeL, e]
    cases classOf ch with
    | some k => exact ⟨rfl, h'⟩
    | none =>
      simp only
      cases simpleEscape ch with
      | some c => exact ⟨rfl, h'⟩
      | none =>
        simp only
        split
        · have := handleControl_rel h'
          exact ⟨by rw [← this.1], this.2⟩
        · split
          · have := handleX_rel h'
            exact ⟨by rw [← this.1], this.2⟩
          · split
            · have := handleU_rel h'
              exact ⟨by rw [← this.1], this.2⟩
            · exact ⟨rfl, h'⟩

theorem tokenKind_rel (p : Profile) (ch : Char) {n : Nat} {it : CharIter} {cs : List Char}
    (h : Rel n it ⟨cs, false⟩) : RelO n (tokenKind p ch it) (tokenKindL p ch cs) := by
  unfold tokenKind tokenKindL
  split
  · obtain ⟨h1, h2⟩ := handleEscape_rel h
    exact .inl ⟨(handleEscape it).1, (handleEscape it).2, (handleEscapeL cs).2, rfl, by rw [h1], h2⟩
  · split
    · exact relO_ok h
    · cases operatorOf ch with
      | some o => exact relO_ok h
      | none =>
        simp only
        split
        · exact relO_ok h
        · split
          · exact relO_ok h
          · split
            · exact relO_ok h
            · split
              · exact handleRange_rel p h
              · exact relO_ok h

end Pango.Regex
