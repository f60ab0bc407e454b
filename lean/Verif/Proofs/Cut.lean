import Verif.Proofs.Tokenizes

/-!
# A lexer that puts nothing back, without its memory

Nothing is ever put back but the one character that could not be read, so all that counts is the rest of the text.
-/

namespace Pango.Lex

open Pango Pango.Spec

variable {K : Type} {rules : List (List Char → Prop)} {Live Ends : List Char → Prop} {kind : Nat → List Char → Option K}

/-- The word can be read, and not with the next character. -/
def StopsBehind (Live : List Char → Prop) (w rest : List Char) : Prop :=
  Live w ∧ ∀ c r, rest = c :: r → ¬ Live (w ++ [c])

/-- Nothing that was read behind a match is ever put back: when the lexer stops reading, the longest match is all that
it has read. -/
def Keeps (rules : List (List Char → Prop)) (Live Ends : List Char → Prop) : Prop :=
  ∀ w back x, Live (w ++ back) → ¬ Live (w ++ back ++ [x]) → Ends (w ++ back ++ [x]) → Longest rules (w ++ back) w →
    back = []

theorem Ahead.keeps (ha : Ahead rules Live Ends) (mono : ∀ w v, Live (w ++ v) → Live w)
    (emono : ∀ w v, Ends (w ++ v) → Ends w) : Keeps rules Live Ends :=
  fun _ _ _ h1 _ h3 h4 => ha.all mono emono h1 (emono _ _ h3) h4

/-- There is no token at the front of the text: nothing matches there, or all of it can be read and does not match. -/
def NoToken (rules : List (List Char → Prop)) (Live : List Char → Prop) (s : List Char) : Prop :=
  NoMatch rules s ∨ Live s ∧ ¬ AnyMatch rules s

/-- The answers on the rest of a text that begins at position `a`: tokens, and nothing behind a `none`. -/
inductive Cut (rules : List (List Char → Prop)) (Live Ends : List Char → Prop) (kind : Nat → List Char → Option K) :
    Nat → List Char → List (Option (Tok K)) → Prop
  | done {a : Nat} {s : List Char} : Cut rules Live Ends kind a s []
  | stop {a : Nat} {s : List Char} : Ends s → NoToken rules Live s → Cut rules Live Ends kind a s [none]
  | token {a i : Nat} {w rest : List Char} {k : K} {as : List (Option (Tok K))} : Ends (w ++ rest) → w ≠ [] →
      StopsBehind Live w rest → FirstMatch rules w i → kind i w = some k →
      Cut rules Live Ends kind (a + w.length) rest as →
      Cut rules Live Ends kind a (w ++ rest) (some ⟨k, w, (a, a + w.length)⟩ :: as)

/-- Between two calls. -/
structure At (a : Nat) (s : List Char) (sc : Scanner) : Prop where
  skipped : sc.skipped = []
  again : sc.again.length ≤ 1
  start : sc.start = a
  left : sc.left = numbered a s

theorem At.new (s : List Char) : At 0 s (Scanner.new s) := ⟨rfl, by simp [Scanner.new], rfl, rfl⟩

/-- Calls that return tokens, and perhaps one more. -/
def Plain : List (Option (Tok K)) → Prop
  | [] => True
  | [none] => True
  | some _ :: as => Plain as
  | _ => False

theorem plain_some (ts : List (Tok K)) : Plain (ts.map some) := by
  induction ts with
  | nil => trivial
  | cons t ts ih => exact ih

theorem plain_none (ts : List (Tok K)) : Plain (ts.map some ++ [none]) := by
  induction ts with
  | nil => trivial
  | cons t ts ih => exact ih

section
variable (ha : Keeps rules Live Ends) (mono : ∀ w v, Live (w ++ v) → Live w)
  (emono : ∀ w v, Ends (w ++ v) → Ends w) (live : ∀ w, AnyMatch rules w → Live w)
include ha emono

/-- A call that returns a token. -/
theorem At.token {a : Nat} {s : List Char} {sc sc' : Scanner} {t : Tok K} (h : At a s sc) (he : Ends s)
    (hc : Call rules Live kind sc (some t) sc') : ∃ w rest i k, s = w ++ rest ∧ w ≠ [] ∧ StopsBehind Live w rest ∧
      FirstMatch rules w i ∧ kind i w = some k ∧ t = ⟨k, w, (a, a + w.length)⟩ ∧ At (a + w.length) rest sc' := by
  have hw : word sc.left = s := by rw [h.left, word_numbered]
  generalize hat : some t = at' at hc
  cases hc with
  | nothing => cases hat
  | over => cases hat
  | @token w back x i k h1 h2 h3 h4 h5 h6 =>
    cases hat
    obtain ⟨rest, hrest⟩ := h1
    have hback : back = [] := by
      have h7 : Ends (word w ++ word back ++ [x.2]) := by
        refine emono _ (word rest) ?_
        have : word w ++ word back ++ [x.2] ++ word rest = s := by rw [← hw, ← hrest]; simp
        rw [this]
        exact he
      rw [word_append] at h2 h4
      have := ha _ _ _ h2 (by simpa using h3) h7 h4
      simpa using this
    subst hback
    simp only [List.append_nil, List.nil_append] at h2 h3 h4 hrest ⊢
    have hne : w ≠ [] := fun h0 => h4.nonempty (by rw [h0]; rfl)
    have hsplit : numbered a s = w ++ ([x] ++ rest) := by rw [← h.left, ← hrest, List.append_assoc]
    obtain ⟨hw1, hw2⟩ := numbered_split hsplit
    have hs : s = word w ++ word ([x] ++ rest) := by rw [← word_append, ← hsplit, word_numbered]
    have hstop : stop w = a + (word w).length := by
      rw [← stop_numbered (by simpa using hne), ← hw1]
    refine ⟨word w, word ([x] ++ rest), i, k, hs, by simpa using hne, ⟨h2, fun c r hcr => ?_⟩, h5, ?_, ?_,
      ⟨rfl, by simp, hstop, ?_⟩⟩
    · simp only [List.singleton_append, word_cons, List.cons.injEq] at hcr
      rw [← hcr.1]
      simpa using h3
    · rw [h.skipped] at h6
      exact h6
    · rw [h.skipped, h.start, hstop]
      rfl
    · have hd : rest = sc.ahead.drop ((w ++ [x]).length - sc.again.length) := by
        have : rest = sc.left.drop (w ++ [x]).length := by rw [← hrest, List.drop_left]
        have hg := h.again
        rw [this, Scanner.left, List.drop_append, List.drop_eq_nil_of_le (by simp; omega), List.nil_append]
      rw [Scanner.left, ← hd, hw2]
      simp
  | @last i k h1 h2 h3 h4 =>
    cases hat
    have hne : s ≠ [] := by
      rintro rfl
      exact h1 (by rw [h.left]; rfl)
    rw [hw] at h2 h3
    have hstop : stop sc.left = a + s.length := by rw [h.left, stop_numbered hne]
    refine ⟨s, [], i, k, by simp, hne, ⟨h2, by simp⟩, h3, ?_, ?_, ⟨rfl, by simp, hstop, rfl⟩⟩
    · rw [h.skipped, List.nil_append, hw] at h4
      exact h4
    · rw [h.skipped, h.start, hstop, List.nil_append, hw]

omit ha emono in
/-- There is such a call. -/
theorem At.call_token {a i : Nat} {w rest : List Char} {k : K} {sc : Scanner} (h : At a (w ++ rest) sc) (hne : w ≠ [])
    (hs : StopsBehind Live w rest) (hf : FirstMatch rules w i) (hk : kind i w = some k) :
    ∃ sc', Call rules Live kind sc (some ⟨k, w, (a, a + w.length)⟩) sc' ∧ At (a + w.length) rest sc' := by
  have hg := h.again
  cases rest with
  | nil =>
    rw [List.append_nil] at h
    have hw : word sc.left = w := by rw [h.left, word_numbered]
    have hstop : stop sc.left = a + w.length := by rw [h.left, stop_numbered hne]
    have hc := Call.last (sc := sc) (rules := rules) (Live := Live) (kind := kind) (i := i) (k := k)
      (fun h0 => hne (by rw [← hw, h0]; rfl)) (by rw [hw]; exact hs.1) (by rw [hw]; exact hf)
      (by rw [h.skipped, List.nil_append, hw]; exact hk)
    rw [h.skipped, List.nil_append, hw, h.start, hstop] at hc
    exact ⟨_, hc, ⟨rfl, by simp, rfl, rfl⟩⟩
  | cons c r =>
    have hl : sc.left = numbered a w ++ [] ++ [(a + w.length, c)] ++ numbered (a + w.length + 1) r := by
      rw [h.left, numbered_append]
      simp [numbered]
    have hstop : stop (numbered a w) = a + w.length := stop_numbered hne
    have hlen : (numbered a w).length = w.length := by rw [← word_length, word_numbered]
    have hc := Call.token (sc := sc) (rules := rules) (Live := Live) (kind := kind) (i := i) (k := k)
      (w := numbered a w) (back := []) (x := (a + w.length, c)) ⟨_, hl.symm⟩ (by simpa using hs.1)
      (by simpa using hs.2 c r rfl) (by
        rw [List.append_nil, word_numbered]
        exact ⟨hne, List.prefix_refl _, hf.anyMatch, fun v hv _ => hv.length_le⟩) (by simpa using hf)
      (by rw [h.skipped]; simpa using hk)
    rw [h.skipped, List.nil_append, word_numbered, h.start, hstop] at hc
    refine ⟨_, hc, ⟨rfl, by simp, rfl, ?_⟩⟩
    have hd : sc.ahead.drop ((numbered a w ++ [] ++ [(a + w.length, c)]).length - sc.again.length) =
        numbered (a + w.length + 1) r := by
      have h1 : numbered (a + w.length + 1) r = sc.left.drop (numbered a w ++ [] ++ [(a + w.length, c)]).length := by
        rw [hl, List.drop_left]
      rw [h1, Scanner.left, List.drop_append, List.drop_eq_nil_of_le (as := sc.again) (by simp; omega), List.nil_append]
    rw [Scanner.left, hd]
    rfl

omit ha emono in
include mono live in
/-- A call that returns nothing. -/
theorem At.nothing {a : Nat} {s : List Char} {sc sc' : Scanner} (h : At a s sc)
    (hc : Call rules Live kind sc none sc') : NoToken rules Live s := by
  have hw : word sc.left = s := by rw [h.left, word_numbered]
  generalize hat : (Option.none : Option (Tok K)) = at' at hc
  cases hc with
  | token => cases hat
  | last => cases hat
  | @nothing u x h1 h2 h3 h4 =>
    refine .inl fun v hv hp hm => ?_
    obtain ⟨t, ht⟩ := h1
    have h5 : word u ++ [x.2] <+: s := ⟨word t, by rw [← hw, ← ht]; simp⟩
    rcases Nat.lt_or_ge u.length v.length with hlt | hge
    · have : word u ++ [x.2] <+: v := List.prefix_of_prefix_length_le h5 hp (by simp; omega)
      obtain ⟨y, rfl⟩ := this
      refine h3 ?_
      rw [word_append]
      exact mono _ _ (live _ hm)
    · have : v <+: word u := List.prefix_of_prefix_length_le hp ((List.prefix_append _ _).trans h5)
        (by simpa using hge)
      exact h4 v hv this hm
  | over h1 h2 =>
    rw [hw] at h1 h2
    rcases h2 with h2 | h2
    · rw [h2] at hw
      refine .inl fun v hv hp _ => hv ?_
      rw [← hw] at hp
      exact List.prefix_nil.1 hp
    · exact .inr ⟨h1, h2⟩

end

/-- How far a text can be read. -/
theorem live_split {Live : List Char → Prop} (h0 : Live []) (s : List Char) :
    Live s ∨ ∃ u c r, s = u ++ c :: r ∧ Live u ∧ ¬ Live (u ++ [c]) := by
  suffices ∀ u r, s = u ++ r → Live u → Live s ∨ ∃ u c r, s = u ++ c :: r ∧ Live u ∧ ¬ Live (u ++ [c]) from
    this [] s rfl h0
  intro u r
  induction r generalizing u with
  | nil =>
    intro h1 h2
    rw [List.append_nil] at h1
    exact .inl (h1 ▸ h2)
  | cons c r ih =>
    intro h1 h2
    by_cases hc : Live (u ++ [c])
    · exact ih (u ++ [c]) (by rw [h1]; simp) hc
    · exact .inr ⟨u, c, r, h1, h2, hc⟩

/-- There is such a call. -/
theorem At.call_none {a : Nat} {s : List Char} {sc : Scanner} (h : At a s sc) (h0 : Live []) (hn : NoToken rules Live s) :
    ∃ sc', Call rules Live kind sc none sc' := by
  have hw : word sc.left = s := by rw [h.left, word_numbered]
  rcases hn with hn | hn
  case inr => exact ⟨_, .over (by rw [hw]; exact hn.1) (.inr (by rw [hw]; exact hn.2))⟩
  rcases live_split h0 s with hl | ⟨u, c, r, rfl, h1, h2⟩
  · refine ⟨_, .over (by rw [hw]; exact hl) ?_⟩
    by_cases hs : sc.left = []
    · exact .inl hs
    · exact .inr (by rw [hw]; exact hn s (by rw [← hw]; simpa using hs) (List.prefix_refl _))
  · refine ⟨_, .nothing (u := numbered a u) (x := (a + u.length, c)) ?_ (by simpa using h1) (by simpa using h2) ?_⟩
    · refine ⟨numbered (a + u.length + 1) r, ?_⟩
      rw [h.left, numbered_append]
      simp [numbered]
    · rw [word_numbered]
      exact fun v hv hp => hn v hv (hp.trans (List.prefix_append _ _))

/-- There are such calls, whatever is put back elsewhere. -/
theorem Cut.calls (h0 : Live []) {as : List (Option (Tok K))} (hp : Plain as) : ∀ {a : Nat} {s : List Char} {sc : Scanner},
    At a s sc → Cut rules Live Ends kind a s as → Calls rules Live Ends kind sc as := by
  induction as with
  | nil => exact fun _ _ => .done
  | cons x as ih =>
    intro a s sc h hc
    have hw : word sc.left = s := by rw [h.left, word_numbered]
    cases hc with
    | stop he hn =>
      obtain ⟨sc', hc⟩ := h.call_none (kind := kind) h0 hn
      exact .next (by rw [hw]; exact he) hc .done
    | @token _ _ w rest _ _ he h1 h2 h3 h4 hcs =>
      obtain ⟨sc', h5, h6⟩ := h.call_token h1 h2 h3 h4
      exact .next (by rw [hw]; exact he) h5 (ih hp h6 hcs)

section
variable (ha : Keeps rules Live Ends) (mono : ∀ w v, Live (w ++ v) → Live w)
  (emono : ∀ w v, Ends (w ++ v) → Ends w) (live : ∀ w, AnyMatch rules w → Live w) (h0 : Live [])
include ha mono emono live h0

/-- The calls up to the first `none` are determined by the rest of the text. -/
theorem calls_cut {as : List (Option (Tok K))} (hp : Plain as) : ∀ {a : Nat} {s : List Char} {sc : Scanner}, At a s sc →
    (Calls rules Live Ends kind sc as ↔ Cut rules Live Ends kind a s as) := by
  induction as with
  | nil => exact fun _ => ⟨fun _ => .done, fun _ => .done⟩
  | cons x as ih =>
    intro a s sc h
    have hw : word sc.left = s := by rw [h.left, word_numbered]
    cases x with
    | none =>
      cases as with
      | cons _ _ => exact hp.elim
      | nil =>
        constructor
        · intro hc
          cases hc with
          | next he hc _ =>
            rw [hw] at he
            exact .stop he (h.nothing mono live hc)
        · exact Cut.calls h0 hp h
    | some t =>
      constructor
      · intro hc
        cases hc with
        | next he hc hcs =>
          rw [hw] at he
          obtain ⟨w, rest, i, k, rfl, h1, h2, h3, h4, rfl, h5⟩ := h.token ha emono he hc
          exact .token he h1 h2 h3 h4 ((ih hp h5).1 hcs)
      · exact Cut.calls h0 hp h

end

/-- With one character of lookahead there is no token only where nothing matches. -/
theorem NoToken.noMatch (ha : Ahead rules Live Ends) (mono : ∀ w v, Live (w ++ v) → Live w)
    (emono : ∀ w v, Ends (w ++ v) → Ends w) {s : List Char} (he : Ends s) (h : NoToken rules Live s) : NoMatch rules s := by
  rcases h with h | ⟨h1, h2⟩
  · exact h
  · intro v hv hp hm
    obtain ⟨v', hv'⟩ := exists_longest hv hp hm
    obtain ⟨back, hb⟩ := hv'.isPrefix
    rw [← hb] at h1 h2 he hv'
    have := ha.all mono emono h1 he hv'
    subst this
    rw [List.append_nil] at h2
    exact h2 hv'.isMatch

/-- The same tokens with other rules. -/
theorem Cut.replace {rules' : List (List Char → Prop)} {Live' Ends' : List Char → Prop}
    {kind' : Nat → List Char → Option K} (emono : ∀ w v, Ends (w ++ v) → Ends w) (ends : ∀ w, Ends w → Ends' w)
    (live : ∀ w, AnyMatch rules' w → Live' w)
    (dead : ∀ w c, w ≠ [] → AnyMatch rules' w → Ends (w ++ [c]) → Live' (w ++ [c]) → Live (w ++ [c]))
    (none_ : ∀ s, Ends s → NoToken rules Live s → NoToken rules' Live' s) {ts : List (Tok K)} :
    ∀ {a : Nat} {s : List Char}, (∀ t ∈ ts, ∀ i, Ends t.source → FirstMatch rules t.source i →
      ∃ i', FirstMatch rules' t.source i' ∧ kind' i' t.source = kind i t.source) →
    Cut rules Live Ends kind a s (ts.map some ++ [none]) → Cut rules' Live' Ends' kind' a s (ts.map some ++ [none]) := by
  induction ts with
  | nil =>
    intro a s _ h
    cases h with
    | stop he hn => exact .stop (ends _ he) (none_ _ he hn)
  | cons t ts ih =>
    intro a s hts h
    cases h with
    | @token _ i w rest k _ he hne hst hf hk hcs =>
      obtain ⟨i', h1, h2⟩ := hts _ (List.mem_cons_self ..) i (emono _ _ he) hf
      refine .token (ends _ he) hne ⟨live _ h1.anyMatch, fun c r hc hl => ?_⟩ h1 (h2.trans hk)
        (ih (fun t ht => hts t (List.mem_cons_of_mem _ ht)) hcs)
      subst hc
      exact hst.2 c r rfl (dead _ _ hne h1.anyMatch (emono _ r (by simpa using he)) hl)

/-! ## Elsewhere, and with another end -/

/-- The token at another place. -/
def moved (n m : Nat) (t : Tok K) : Tok K := ⟨t.kind, t.source, (t.pos.1 - n + m, t.pos.2 - n + m)⟩

/-- The same answers for the same rest of a text at another position. -/
theorem Cut.moved {a b c : Nat} {s : List Char} {as : List (Option (Tok K))} (h : Cut rules Live Ends kind a s as) {n : Nat}
    (hn : n ≤ a) (hb : a - n + b = c) :
    Cut rules Live Ends kind c s (as.map (Option.map (Lex.moved n b))) := by
  induction h generalizing c with
  | done => exact .done
  | stop he hm => exact .stop he hm
  | @token a i w rest k as he hne hs hf hk _ ih =>
    subst hb
    have h1 : Lex.moved n b ⟨k, w, (a, a + w.length)⟩ = ⟨k, w, (a - n + b, a - n + b + w.length)⟩ := by
      simp only [Lex.moved, Tok.mk.injEq, Prod.mk.injEq, true_and]
      omega
    rw [List.map_cons, Option.map_some, h1]
    exact .token he hne hs hf hk (ih (by omega) (by omega))

/-- What is decided by the first part of a text. -/
theorem Cut.local (mono : ∀ w v, Ends (w ++ v) → Ends w) (dead : ∀ w v, ¬ Live w → Ends w → Ends (w ++ v))
    {v v' : List Char} {ts : List (Tok K)} : ∀ {a : Nat} {u : List Char},
    Cut rules Live Ends kind a (u ++ v) (ts.map some) → (∀ t ∈ ts, t.pos.2 < a + u.length) →
    Cut rules Live Ends kind a (u ++ v') (ts.map some) := by
  induction ts with
  | nil => exact fun _ _ => .done
  | cons t ts ih =>
    intro a u h hts
    generalize hs : u ++ v = s at h
    cases h with
    | @token _ i w rest k _ he hne hst hf hk hcs =>
      have hlen := hts _ (List.mem_cons_self ..)
      simp only at hlen
      have hw : w <+: u := List.prefix_of_prefix_length_le (l₃ := u ++ v) ⟨rest, hs.symm⟩ (List.prefix_append _ _) (by omega)
      obtain ⟨u', rfl⟩ := hw
      cases u' with
      | nil => simp at hlen
      | cons c u' =>
        rw [List.append_assoc, List.append_cancel_left_eq] at hs
        subst hs
        rw [List.append_assoc]
        have hd := hst.2 c (u' ++ v) rfl
        refine .token ?_ hne ⟨hst.1, fun c' r hc => ?_⟩ hf hk (ih hcs fun t ht => ?_)
        · have h1 : w ++ (c :: u' ++ v') = (w ++ [c]) ++ (u' ++ v') := by simp
          rw [h1]
          exact dead _ _ hd (mono _ (u' ++ v) (by simpa using he))
        · cases hc
          exact hd
        · have := hts t (List.mem_cons_of_mem _ ht)
          simpa [Nat.add_assoc] using this

/-- Tokens, and then the rest of the calls. -/
theorem cut_append {ts : List (Tok K)} {as : List (Option (Tok K))} : ∀ {a : Nat} {s : List Char},
    Cut rules Live Ends kind a s (ts.map some ++ as) ↔
      Cut rules Live Ends kind a s (ts.map some) ∧ Cut rules Live Ends kind (endOf a ts) (s.drop (endOf a ts - a)) as := by
  induction ts with
  | nil =>
    intro a s
    simp only [List.map_nil, List.nil_append, endOf, Nat.sub_self, List.drop_zero]
    exact ⟨fun h => ⟨.done, h⟩, fun h => h.2⟩
  | cons t ts ih =>
    intro a s
    have hle : ∀ {ts : List (Tok K)} {a : Nat} {s : List Char}, Cut rules Live Ends kind a s (ts.map some) → a ≤ endOf a ts := by
      intro ts
      induction ts with
      | nil => exact fun _ => Nat.le_refl _
      | cons t ts ih =>
        intro a s h
        cases h with
        | token _ _ _ _ _ h => exact Nat.le_trans (Nat.le_add_right _ _) (ih h)
    constructor
    · intro h
      cases h with
      | @token _ i w rest k _ he hne hs hf hk hcs =>
        obtain ⟨h1, h2⟩ := ih.1 hcs
        refine ⟨.token he hne hs hf hk h1, ?_⟩
        have := hle h1
        have h3 : (w ++ rest).drop (endOf (a + w.length) ts - a) = rest.drop (endOf (a + w.length) ts - (a + w.length)) := by
          rw [List.drop_append, List.drop_eq_nil_of_le (as := w) (by omega), List.nil_append]
          congr 1
          omega
        rw [endOf, h3]
        exact h2
    · rintro ⟨h1, h2⟩
      cases h1 with
      | @token _ i w rest k _ he hne hs hf hk hcs =>
        refine .token he hne hs hf hk (ih.2 ⟨hcs, ?_⟩)
        have := hle hcs
        have h3 : (w ++ rest).drop (endOf (a + w.length) ts - a) = rest.drop (endOf (a + w.length) ts - (a + w.length)) := by
          rw [List.drop_append, List.drop_eq_nil_of_le (as := w) (by omega), List.nil_append]
          congr 1
          omega
        rw [endOf, h3] at h2
        exact h2

end Pango.Lex
