import Verif.Proofs.Uses
import Verif.Spec.Lossless

/-!
# A lexer that loses nothing, without its memory

Characters may be put back, but what was put back is always read again to its end.  So all that counts is the rest of
the text.
-/

namespace Pango.Lex

open Pango Pango.Spec

variable {K : Type} {rules : List (List Char → Prop)} {Live Ends : List Char → Prop} {kind : Nat → List Char → Option K}

theorem Keeps.lossless (ha : Keeps rules Live Ends) : Lossless rules Live Ends := by
  intro w back x w' back' x' r h _ hb
  have := ha w back x h.live h.dead h.ends h.longest
  rw [this] at hb
  simp at hb

/-- The token `w` is found in front of `rest`. -/
def FoundIn (rules : List (List Char → Prop)) (Live : List Char → Prop) (w rest : List Char) : Prop :=
  rest = [] ∧ Live w ∨ ∃ back x r, rest = back ++ x :: r ∧ Live (w ++ back) ∧ ¬ Live (w ++ back ++ [x]) ∧
    Longest rules (w ++ back) w

/-- The answers on the rest of a text that begins at position `a`: tokens, and nothing behind a `none`. -/
inductive Steady (rules : List (List Char → Prop)) (Live Ends : List Char → Prop) (kind : Nat → List Char → Option K) :
    Nat → List Char → List (Option (Tok K)) → Prop
  | done {a : Nat} {s : List Char} : Steady rules Live Ends kind a s []
  | stop {a : Nat} {s : List Char} : Ends s → NoToken rules Live s → Steady rules Live Ends kind a s [none]
  | token {a i : Nat} {w rest : List Char} {k : K} {as : List (Option (Tok K))} : Ends (w ++ rest) → w ≠ [] →
      FoundIn rules Live w rest → FirstMatch rules w i → kind i w = some k →
      Steady rules Live Ends kind (a + w.length) rest as →
      Steady rules Live Ends kind a (w ++ rest) (some ⟨k, w, (a, a + w.length)⟩ :: as)

/-- Between two calls. -/
structure Rests (rules : List (List Char → Prop)) (Live Ends : List Char → Prop) (a : Nat) (s : List Char)
    (sc : Scanner) : Prop where
  skipped : sc.skipped = []
  again : sc.again = [] ∨ ∃ w back x, word sc.again = back ++ [x] ∧ Turns rules Live Ends w back x
  start : sc.start = a
  left : sc.left = numbered a s

theorem Rests.new (s : List Char) : Rests rules Live Ends 0 s (Scanner.new s) := ⟨rfl, .inl rfl, rfl, rfl⟩

section
variable (ha : Lossless rules Live Ends) (mono : ∀ w v, Live (w ++ v) → Live w)
  (emono : ∀ w v, Ends (w ++ v) → Ends w) (live : ∀ w, AnyMatch rules w → Live w)
include ha

/-- What is put back is not lost. -/
theorem Rests.kept {a : Nat} {s : List Char} {sc : Scanner} (h : Rests rules Live Ends a s sc) {w back : List (Nat × Char)}
    {x : Nat × Char} {rest : List (Nat × Char)} (hr : w ++ back ++ [x] ++ rest = sc.left)
    (ht : Turns rules Live Ends (word w) (word back) x.2) :
    sc.ahead.drop ((w ++ back ++ [x]).length - sc.again.length) = rest := by
  have hle : sc.again.length ≤ (w ++ back ++ [x]).length := by
    rcases h.again with h0 | ⟨w0, back0, x0, h0, h1⟩
    · simp [h0]
    · apply Classical.byContradiction
      intro hlt
      have h2 : w ++ back ++ [x] <+: sc.again := List.prefix_of_prefix_length_le (l₃ := sc.left) ⟨rest, hr⟩
        (List.prefix_append _ _) (by omega)
      obtain ⟨r, h3⟩ := h2
      have h4 : word w ++ word back ++ x.2 :: word r = back0 ++ [x0] := by rw [← h0, ← h3]; simp
      have hne : word r ≠ [] := by
        intro h5
        have h6 : r = [] := by simpa using h5
        rw [← h3, h6] at hlt
        simp at hlt
      obtain ⟨r', y, h5⟩ : ∃ r' y, word r = r' ++ [y] := ⟨_, _, (List.dropLast_concat_getLast hne).symm⟩
      rw [h5] at h4
      have h6 : word w ++ word back ++ x.2 :: r' ++ [y] = back0 ++ [x0] := by simpa using h4
      have h7 := (List.append_inj' h6 rfl).1
      exact ha _ _ _ _ _ _ _ h1 ht h7.symm
  have h1 : rest = sc.left.drop (w ++ back ++ [x]).length := by rw [← hr, List.drop_left]
  rw [h1, Scanner.left, List.drop_append, List.drop_eq_nil_of_le (as := sc.again) hle, List.nil_append]

include emono in
/-- A call that returns a token. -/
theorem Rests.token {a : Nat} {s : List Char} {sc sc' : Scanner} {t : Tok K} (h : Rests rules Live Ends a s sc) (he : Ends s)
    (hc : Call rules Live kind sc (some t) sc') : ∃ w rest i k, s = w ++ rest ∧ w ≠ [] ∧ FoundIn rules Live w rest ∧
      FirstMatch rules w i ∧ kind i w = some k ∧ t = ⟨k, w, (a, a + w.length)⟩ ∧
      Rests rules Live Ends (a + w.length) rest sc' := by
  have hw : word sc.left = s := by rw [h.left, word_numbered]
  generalize hat : some t = at' at hc
  cases hc with
  | nothing => cases hat
  | over => cases hat
  | @token w back x i k h1 h2 h3 h4 h5 h6 =>
    cases hat
    obtain ⟨rest, hrest⟩ := h1
    have h7 : Ends (word w ++ word back ++ [x.2]) := by
      refine emono _ (word rest) ?_
      have : word w ++ word back ++ [x.2] ++ word rest = s := by rw [← hw, ← hrest]; simp
      rw [this]
      exact he
    have ht : Turns rules Live Ends (word w) (word back) x.2 :=
      ⟨by simpa using h2, by simpa using h3, h7, by simpa using h4⟩
    have hne : w ≠ [] := fun h0 => h4.nonempty (by rw [h0]; rfl)
    have hsplit : numbered a s = w ++ (back ++ [x] ++ rest) := by rw [← h.left, ← hrest]; simp
    obtain ⟨hw1, hw2⟩ := numbered_split hsplit
    have hs : s = word w ++ word (back ++ [x] ++ rest) := by rw [← word_append, ← hsplit, word_numbered]
    have hstop : stop w = a + (word w).length := by
      rw [← stop_numbered (by simpa using hne), ← hw1]
    refine ⟨word w, word (back ++ [x] ++ rest), i, k, hs, by simpa using hne,
      .inr ⟨word back, x.2, word rest, by simp, ht.live, ht.dead, ht.longest⟩, h5, ?_, ?_,
      ⟨rfl, .inr ⟨word w, word back, x.2, by simp, ht⟩, hstop, ?_⟩⟩
    · rw [h.skipped] at h6
      exact h6
    · rw [h.skipped, h.start, hstop]
      rfl
    · rw [Scanner.left, h.kept ha hrest ht, hw2]
      simp
  | @last i k h1 h2 h3 h4 =>
    cases hat
    have hne : s ≠ [] := by
      rintro rfl
      exact h1 (by rw [h.left]; rfl)
    rw [hw] at h2 h3
    have hstop : stop sc.left = a + s.length := by rw [h.left, stop_numbered hne]
    refine ⟨s, [], i, k, by simp, hne, .inl ⟨rfl, h2⟩, h3, ?_, ?_, ⟨rfl, .inl rfl, hstop, rfl⟩⟩
    · rw [h.skipped, List.nil_append, hw] at h4
      exact h4
    · rw [h.skipped, h.start, hstop, List.nil_append, hw]

include emono in
/-- There is such a call. -/
theorem Rests.call_token {a i : Nat} {w rest : List Char} {k : K} {sc : Scanner}
    (h : Rests rules Live Ends a (w ++ rest) sc) (he : Ends (w ++ rest)) (hne : w ≠ [])
    (hs : FoundIn rules Live w rest) (hf : FirstMatch rules w i) (hk : kind i w = some k) :
    ∃ sc', Call rules Live kind sc (some ⟨k, w, (a, a + w.length)⟩) sc' ∧
      Rests rules Live Ends (a + w.length) rest sc' := by
  rcases hs with ⟨rfl, hs⟩ | ⟨back, x, r, rfl, h1, h2, h3⟩
  · rw [List.append_nil] at h
    have hw : word sc.left = w := by rw [h.left, word_numbered]
    have hstop : stop sc.left = a + w.length := by rw [h.left, stop_numbered hne]
    have hc := Call.last (sc := sc) (rules := rules) (Live := Live) (kind := kind) (i := i) (k := k)
      (fun h0 => hne (by rw [← hw, h0]; rfl)) (by rw [hw]; exact hs) (by rw [hw]; exact hf)
      (by rw [h.skipped, List.nil_append, hw]; exact hk)
    rw [h.skipped, List.nil_append, hw, h.start, hstop] at hc
    exact ⟨_, hc, ⟨rfl, .inl rfl, rfl, rfl⟩⟩
  · have hl : sc.left = numbered a w ++ numbered (a + w.length) back ++ [(a + w.length + back.length, x)] ++
        numbered (a + w.length + back.length + 1) r := by
      rw [h.left, numbered_append, numbered_append]
      simp [numbered]
    have hstop : stop (numbered a w) = a + w.length := stop_numbered hne
    have ht : Turns rules Live Ends w back x :=
      ⟨h1, h2, emono _ r (by simpa using he), h3⟩
    have hc := Call.token (sc := sc) (rules := rules) (Live := Live) (kind := kind) (i := i) (k := k)
      (w := numbered a w) (back := numbered (a + w.length) back) (x := (a + w.length + back.length, x)) ⟨_, hl.symm⟩
      (by simpa using h1) (by simpa using h2) (by simpa using h3) (by simpa using hf)
      (by rw [h.skipped]; simpa using hk)
    have hd := h.kept ha hl.symm (by simpa using ht)
    rw [h.skipped, List.nil_append, word_numbered, h.start, hstop, hd] at hc
    refine ⟨_, hc, ⟨rfl, .inr ⟨w, back, x, by simp, ht⟩, rfl, ?_⟩⟩
    rw [Scanner.left, numbered_append]
    simp [numbered]

omit ha in
include mono live in
/-- A call that returns nothing. -/
theorem Rests.nothing {a : Nat} {s : List Char} {sc sc' : Scanner} (h : Rests rules Live Ends a s sc)
    (hc : Call rules Live kind sc none sc') : NoToken rules Live s := by
  have hw : word sc.left = s := by rw [h.left, word_numbered]
  generalize hat : (Option.none : Option (Tok K)) = at' at hc
  cases hc with
  | token => cases hat
  | last => cases hat
  | @nothing u x h1 h2 h3 h4 =>
    refine .inl fun v hv hp hm => ?_
    obtain ⟨t, ht⟩ := h1
    have h5 : word u ++ [x.2] <+: s := ⟨word t, by rw [← hw, ← ht]; simp⟩
    rcases Nat.lt_or_ge u.length v.length with hlt | hge
    · have : word u ++ [x.2] <+: v := List.prefix_of_prefix_length_le h5 hp (by simp; omega)
      obtain ⟨y, rfl⟩ := this
      refine h3 ?_
      rw [word_append]
      exact mono _ _ (live _ hm)
    · have : v <+: word u := List.prefix_of_prefix_length_le hp ((List.prefix_append _ _).trans h5)
        (by simpa using hge)
      exact h4 v hv this hm
  | over h1 h2 =>
    rw [hw] at h1 h2
    rcases h2 with h2 | h2
    · rw [h2] at hw
      refine .inl fun v hv hp _ => hv ?_
      rw [← hw] at hp
      exact List.prefix_nil.1 hp
    · exact .inr ⟨h1, h2⟩

omit ha in
/-- There is such a call. -/
theorem Rests.call_none {a : Nat} {s : List Char} {sc : Scanner} (h : Rests rules Live Ends a s sc) (h0 : Live [])
    (hn : NoToken rules Live s) : ∃ sc', Call rules Live kind sc none sc' := by
  have hw : word sc.left = s := by rw [h.left, word_numbered]
  rcases hn with hn | hn
  case inr => exact ⟨_, .over (by rw [hw]; exact hn.1) (.inr (by rw [hw]; exact hn.2))⟩
  rcases live_split h0 s with hl | ⟨u, c, r, rfl, h1, h2⟩
  · refine ⟨_, .over (by rw [hw]; exact hl) ?_⟩
    by_cases hs : sc.left = []
    · exact .inl hs
    · exact .inr (by rw [hw]; exact hn s (by rw [← hw]; simpa using hs) (List.prefix_refl _))
  · refine ⟨_, .nothing (u := numbered a u) (x := (a + u.length, c)) ?_ (by simpa using h1) (by simpa using h2) ?_⟩
    · refine ⟨numbered (a + u.length + 1) r, ?_⟩
      rw [h.left, numbered_append]
      simp [numbered]
    · rw [word_numbered]
      exact fun v hv hp => hn v hv (hp.trans (List.prefix_append _ _))

include mono emono live in
/-- The calls up to the first `none` are determined by the rest of the text. -/
theorem calls_steady (h0 : Live []) {as : List (Option (Tok K))} (hp : Plain as) : ∀ {a : Nat} {s : List Char}
    {sc : Scanner}, Rests rules Live Ends a s sc →
    (Calls rules Live Ends kind sc as ↔ Steady rules Live Ends kind a s as) := by
  induction as with
  | nil => exact fun _ => ⟨fun _ => .done, fun _ => .done⟩
  | cons x as ih =>
    intro a s sc h
    have hw : word sc.left = s := by rw [h.left, word_numbered]
    cases x with
    | none =>
      cases as with
      | cons _ _ => exact hp.elim
      | nil =>
        constructor
        · intro hc
          cases hc with
          | next he hc _ =>
            rw [hw] at he
            exact .stop he (h.nothing mono live hc)
        · intro hc
          cases hc with
          | stop he hn =>
            obtain ⟨sc', hc⟩ := h.call_none (kind := kind) h0 hn
            exact .next (by rw [hw]; exact he) hc .done
    | some t =>
      constructor
      · intro hc
        cases hc with
        | next he hc hcs =>
          rw [hw] at he
          obtain ⟨w, rest, i, k, rfl, h1, h2, h3, h4, rfl, h5⟩ := h.token ha emono he hc
          exact .token he h1 h2 h3 h4 ((ih hp h5).1 hcs)
      · intro hc
        cases hc with
        | @token _ _ w rest _ _ he h1 h2 h3 h4 hcs =>
          obtain ⟨sc', h5, h6⟩ := h.call_token ha emono he h1 h2 h3 h4
          exact .next (by rw [hw]; exact he) h5 ((ih hp h6).2 hcs)

end

/-- The token that is found is the longest match. -/
theorem FoundIn.longest (mono : ∀ w v, Live (w ++ v) → Live w) (live : ∀ w, AnyMatch rules w → Live w) {w rest : List Char}
    (h : FoundIn rules Live w rest) (hne : w ≠ []) (hm : AnyMatch rules w) : Longest rules (w ++ rest) w := by
  refine ⟨hne, List.prefix_append _ _, hm, fun v hv hmv => ?_⟩
  rcases h with ⟨rfl, _⟩ | ⟨back, x, r, rfl, _, h2, h3⟩
  · simpa using hv.length_le
  · rcases Nat.lt_or_ge (w ++ back).length v.length with hlt | hge
    · have h4 : w ++ back ++ [x] <+: v := List.prefix_of_prefix_length_le (l₃ := w ++ (back ++ x :: r)) ⟨r, by simp⟩ hv
        (by simp at hlt ⊢; omega)
      obtain ⟨y, rfl⟩ := h4
      exact absurd (mono _ _ (live _ hmv)) h2
    · exact h3.longest v (List.prefix_of_prefix_length_le hv ⟨x :: r, by simp⟩ hge) hmv

/-- The same answers for the same rest of a text at another position. -/
theorem Steady.moved {a b c : Nat} {s : List Char} {as : List (Option (Tok K))} (h : Steady rules Live Ends kind a s as)
    {n : Nat} (hn : n ≤ a) (hb : a - n + b = c) :
    Steady rules Live Ends kind c s (as.map (Option.map (Lex.moved n b))) := by
  induction h generalizing c with
  | done => exact .done
  | stop he hm => exact .stop he hm
  | @token a i w rest k as he hne hs hf hk _ ih =>
    subst hb
    have h1 : Lex.moved n b ⟨k, w, (a, a + w.length)⟩ = ⟨k, w, (a - n + b, a - n + b + w.length)⟩ := by
      simp only [Lex.moved, Tok.mk.injEq, Prod.mk.injEq, true_and]
      omega
    rw [List.map_cons, Option.map_some, h1]
    exact .token he hne hs hf hk (ih (by omega) (by omega))

/-- Tokens, and then the rest of the calls. -/
theorem steady_append {ts : List (Tok K)} {as : List (Option (Tok K))} : ∀ {a : Nat} {s : List Char},
    Steady rules Live Ends kind a s (ts.map some ++ as) ↔ Steady rules Live Ends kind a s (ts.map some) ∧
      Steady rules Live Ends kind (endOf a ts) (s.drop (endOf a ts - a)) as := by
  induction ts with
  | nil =>
    intro a s
    simp only [List.map_nil, List.nil_append, endOf, Nat.sub_self, List.drop_zero]
    exact ⟨fun h => ⟨.done, h⟩, fun h => h.2⟩
  | cons t ts ih =>
    intro a s
    have hle : ∀ {ts : List (Tok K)} {a : Nat} {s : List Char}, Steady rules Live Ends kind a s (ts.map some) →
        a ≤ endOf a ts := by
      intro ts
      induction ts with
      | nil => exact fun _ => Nat.le_refl _
      | cons t ts ih =>
        intro a s h
        cases h with
        | token _ _ _ _ _ h => exact Nat.le_trans (Nat.le_add_right _ _) (ih h)
    have hdrop : ∀ {w rest : List Char} {n : Nat}, a + w.length ≤ n →
        (w ++ rest).drop (n - a) = rest.drop (n - (a + w.length)) := by
      intro w rest n hn
      rw [List.drop_append, List.drop_eq_nil_of_le (as := w) (by omega), List.nil_append]
      congr 1
      omega
    constructor
    · intro h
      cases h with
      | token he hne hs hf hk hcs =>
        obtain ⟨h1, h2⟩ := ih.1 hcs
        refine ⟨.token he hne hs hf hk h1, ?_⟩
        rw [endOf, hdrop (hle h1)]
        exact h2
    · rintro ⟨h1, h2⟩
      cases h1 with
      | token he hne hs hf hk hcs =>
        refine .token he hne hs hf hk (ih.2 ⟨hcs, ?_⟩)
        rw [endOf, hdrop (hle hcs)] at h2
        exact h2

/-- A character that is never read is where the tokens end. -/
theorem Steady.separated (mono : ∀ w v, Ends (w ++ v) → Ends w) (dead : ∀ w v, ¬ Live w → Ends w → Ends (w ++ v))
    (lmono : ∀ w v, Live (w ++ v) → Live w)
    (live : ∀ w, AnyMatch rules w → Live w) {c : Char} (sep : ∀ w, Live w → c ∉ w) {v v' : List Char}
    {as : List (Option (Tok K))} : ∀ {a : Nat} {u : List Char},
    Steady rules Live Ends kind a (u ++ c :: v) as → Steady rules Live Ends kind a (u ++ c :: v') as := by
  have ends : ∀ u, Ends (u ++ c :: v) → Ends (u ++ c :: v') := by
    intro u h
    have h1 : Ends (u ++ [c]) := mono _ v (by simpa using h)
    have h2 : ¬ Live (u ++ [c]) := fun h => sep _ h (by simp)
    simpa using dead _ v' h2 h1
  have short : ∀ {w u s : List Char}, c ∉ w → w <+: u ++ c :: s → w <+: u := by
    intro w u s hl hw
    rcases Nat.lt_or_ge u.length w.length with h | h
    · have h1 : u ++ [c] <+: w := List.prefix_of_prefix_length_le (l₃ := u ++ c :: s) ⟨s, by simp⟩ hw (by simp; omega)
      exact absurd (h1.subset (by simp)) hl
    · exact List.prefix_of_prefix_length_le hw (List.prefix_append _ _) h
  induction as with
  | nil => exact fun _ => .done
  | cons x as ih =>
    intro a u h
    generalize hs : u ++ c :: v = s at h
    cases h with
    | stop he hm =>
      subst hs
      refine .stop (ends _ he) (.inl fun w hne hw ha => ?_)
      rcases hm with hm | hm
      case inr => exact absurd (show c ∈ u ++ c :: v by simp) (sep _ hm.1)
      exact hm w hne ((short (sep _ (live _ ha)) hw).trans (List.prefix_append _ _)) ha
    | @token _ i w rest k _ he hne hst hf hk hcs =>
      have hlw : Live w := live _ hf.anyMatch
      obtain ⟨u', rfl⟩ := short (sep _ hlw) ⟨rest, hs.symm⟩
      rw [List.append_assoc, List.append_cancel_left_eq] at hs
      subst hs
      have h1 := ends (w ++ u') (by simpa using he)
      rw [List.append_assoc] at h1 ⊢
      refine .token h1 hne ?_ hf hk (ih hcs)
      rcases hst with ⟨h2, _⟩ | ⟨back, y, r, h2, h3, h4, h5⟩
      · simp at h2
      · have h6 : back <+: u' := short (fun hm => sep _ h3 (List.mem_append_right _ hm)) ⟨y :: r, h2.symm⟩
        obtain ⟨u'', rfl⟩ := h6
        rw [List.append_assoc, List.append_cancel_left_eq] at h2
        cases u'' with
        | nil =>
          simp only [List.nil_append, List.cons.injEq] at h2
          exact .inr ⟨back, c, v', by simp, h3, by rw [h2.1]; exact h4, h5⟩
        | cons d u'' =>
          simp only [List.cons_append, List.cons.injEq] at h2
          exact .inr ⟨back, d, u'' ++ c :: v', by simp, h3, by rw [h2.1]; exact h4, h5⟩

/-- What the tokens up to the first `none` are. -/
theorem Steady.sources (mono : ∀ w v, Live (w ++ v) → Live w) (live : ∀ w, AnyMatch rules w → Live w)
    {ts : List (Tok K)} : ∀ {a : Nat} {s : List Char}, Steady rules Live Ends kind a s (ts.map some ++ [none]) →
    (∀ t ∈ ts, a ≤ t.pos.1 ∧ t.source = (s.drop (t.pos.1 - a)).take (t.pos.2 - t.pos.1) ∧
      Longest rules (s.drop (t.pos.1 - a)) t.source) ∧
    (ts.map Tok.source).flatten ++ s.drop (endOf a ts - a) = s ∧ a ≤ endOf a ts := by
  induction ts with
  | nil => exact fun _ => ⟨by simp, by simp [endOf], Nat.le_refl _⟩
  | cons t ts ih =>
    intro a s h
    cases h with
    | @token _ i w rest k _ he hne hst hf hk hcs =>
      obtain ⟨h1, h2, h3⟩ := ih hcs
      have hdrop : ∀ {n : Nat}, a + w.length ≤ n → (w ++ rest).drop (n - a) = rest.drop (n - (a + w.length)) := by
        intro n hn
        rw [List.drop_append, List.drop_eq_nil_of_le (as := w) (by omega), List.nil_append]
        congr 1
        omega
      refine ⟨fun t ht => ?_, ?_, ?_⟩
      · rcases List.mem_cons.1 ht with rfl | ht
        · simp only [Nat.sub_self, List.drop_zero, Nat.add_sub_cancel_left, List.take_left, Nat.le_refl, true_and]
          exact hst.longest mono live hne hf.anyMatch
        · obtain ⟨h4, h5⟩ := h1 t ht
          rw [hdrop h4]
          exact ⟨by omega, h5⟩
      · rw [endOf, List.map_cons, List.flatten_cons, List.append_assoc]
        simp only
        rw [hdrop h3, h2]
      · rw [endOf]
        exact Nat.le_trans (Nat.le_add_right _ _) h3

end Pango.Lex
