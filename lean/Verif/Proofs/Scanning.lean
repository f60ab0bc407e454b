import Verif.Proofs.Stream
import Verif.Spec.Scanning

/-!
# One call of a lexer
-/

namespace Pango.Lex

open Pango Pango.Fsm Pango.Regex Pango.Spec Pango.Props

variable {σ K : Type} {m : Machine σ} {gs : Generators K} {rules : List (List Char → Prop)}
  {Live : List Char → Prop} {Sim : σ → List Char → Prop} {kindOf : Nat → List Char → Option K}

@[simp] theorem word_append (a b : List (Nat × Char)) : word (a ++ b) = word a ++ word b := by
  simp [word]

@[simp] theorem word_nil : word [] = [] := rfl

@[simp] theorem word_cons (x : Nat × Char) (a : List (Nat × Char)) : word (x :: a) = x.2 :: word a := rfl

@[simp] theorem word_length (a : List (Nat × Char)) : (word a).length = a.length := by simp [word]

@[simp] theorem word_eq_nil {a : List (Nat × Char)} : word a = [] ↔ a = [] := by simp [word]

theorem stop_snoc (a : List (Nat × Char)) (x : Nat × Char) : stop (a ++ [x]) = x.1 + 1 := by
  simp [stop]

/-! ## There is only one answer -/

/-- Where reading stops. -/
theorem dead_unique (mono : ∀ w v, Live (w ++ v) → Live w) {left u u' : List (Nat × Char)} {x x' : Nat × Char}
    (h : u ++ [x] <+: left) (hl : Live (word u)) (hd : ¬ Live (word (u ++ [x])))
    (h' : u' ++ [x'] <+: left) (hl' : Live (word u')) (hd' : ¬ Live (word (u' ++ [x']))) : u = u' ∧ x = x' := by
  have key : ∀ {u u' : List (Nat × Char)} {x x' : Nat × Char}, u ++ [x] <+: left → ¬ Live (word (u ++ [x])) →
      u' ++ [x'] <+: left → Live (word u') → ¬ u.length < u'.length := by
    intro u u' x x' h hd h' hl' hlt
    have : u ++ [x] <+: u' := List.prefix_of_prefix_length_le h ((List.prefix_append _ _).trans h') (by simp; omega)
    obtain ⟨t, rfl⟩ := this
    rw [word_append] at hl'
    exact hd (mono _ _ hl')
  have hlen : u.length = u'.length := by
    have h1 := key h hd h' hl'
    have h2 := key h' hd' h hl
    omega
  obtain ⟨t, ht⟩ := h
  obtain ⟨t', ht'⟩ := h'
  rw [List.append_assoc] at ht ht'
  obtain ⟨h1, h2⟩ := List.append_inj (ht.trans ht'.symm) hlen
  simp only [List.singleton_append, List.cons.injEq] at h2
  exact ⟨h1, h2.1⟩

theorem dead_left (mono : ∀ w v, Live (w ++ v) → Live w) {left u : List (Nat × Char)} {x : Nat × Char}
    (h : u ++ [x] <+: left) (hd : ¬ Live (word (u ++ [x]))) : ¬ Live (word left) := by
  obtain ⟨t, rfl⟩ := h
  rw [word_append]
  exact fun h => hd (mono _ _ h)

theorem _root_.Pango.Spec.Longest.not_noMatch {input w : List Char} (h : Longest rules input w) : ¬ NoMatch rules input :=
  fun hn => hn w h.nonempty h.isPrefix h.isMatch

theorem _root_.Pango.Spec.FirstMatch.anyMatch {w : List Char} {i : Nat} (h : FirstMatch rules w i) : AnyMatch rules w := by
  obtain ⟨M, h1, h2⟩ := h.isMatch
  exact ⟨M, List.mem_of_getElem? h1, h2⟩

theorem _root_.Pango.Spec.Call.unique (mono : ∀ w v, Live (w ++ v) → Live w) {sc sc1 sc2 : Scanner} {a1 a2 : Option (Tok K)}
    (h1 : Call rules Live kindOf sc a1 sc1) (h2 : Call rules Live kindOf sc a2 sc2) : a1 = a2 ∧ sc1 = sc2 := by
  cases h1 with
  | @token w back x i k p1 l1 d1 g1 f1 k1 =>
    cases h2 with
    | @token w' back' x' i' k' p2 l2 d2 g2 f2 k2 =>
      obtain ⟨e1, rfl⟩ := dead_unique mono p1 l1 d1 p2 l2 d2
      rw [e1] at g1
      have hw := g1.unique g2
      have hlen : w.length = w'.length := by
        have := congrArg List.length hw
        simpa using this
      obtain ⟨rfl, rfl⟩ := List.append_inj e1 hlen
      have := f1.unique f2
      subst this
      rw [k1] at k2
      cases k2
      exact ⟨rfl, rfl⟩
    | last _ l2 => exact absurd l2 (dead_left mono p1 d1)
    | nothing p2 l2 d2 n2 =>
      obtain ⟨rfl, rfl⟩ := dead_unique mono p1 l1 d1 p2 l2 d2
      exact absurd n2 g1.not_noMatch
    | over l2 => exact absurd l2 (dead_left mono p1 d1)
  | last e1 l1 f1 k1 =>
    cases h2 with
    | token p2 l2 d2 => exact absurd l1 (dead_left mono p2 d2)
    | last e2 l2 f2 k2 =>
      have := f1.unique f2
      subst this
      rw [k1] at k2
      cases k2
      exact ⟨rfl, rfl⟩
    | nothing p2 l2 d2 => exact absurd l1 (dead_left mono p2 d2)
    | over l2 h =>
      rcases h with h | h
      · exact absurd h e1
      · exact absurd f1.anyMatch h
  | nothing p1 l1 d1 n1 =>
    cases h2 with
    | token p2 l2 d2 g2 =>
      obtain ⟨rfl, rfl⟩ := dead_unique mono p1 l1 d1 p2 l2 d2
      exact absurd n1 g2.not_noMatch
    | last _ l2 => exact absurd l2 (dead_left mono p1 d1)
    | nothing p2 l2 d2 =>
      obtain ⟨rfl, rfl⟩ := dead_unique mono p1 l1 d1 p2 l2 d2
      exact ⟨rfl, rfl⟩
    | over l2 => exact absurd l2 (dead_left mono p1 d1)
  | over l1 h =>
    cases h2 with
    | token p2 l2 d2 => exact absurd l1 (dead_left mono p2 d2)
    | last e2 l2 f2 =>
      rcases h with h | h
      · exact absurd h e2
      · exact absurd f2.anyMatch h
    | nothing p2 l2 d2 => exact absurd l1 (dead_left mono p2 d2)
    | over => exact ⟨rfl, rfl⟩

/-! ## What a call does -/

/-- The iterator between two calls. -/
def Rep (sc : Scanner) (it : InputIter) : Prop :=
  (sc.left = [] ∧ it.pending = 0) ∨
  (it.source ++ word it.suffix = word sc.skipped ∧ it.prev = sc.again ∧ it.iter = sc.ahead ∧ it.pos.1 = sc.start)

/-- The iterator after reading `read` in a call. -/
structure Mid (sc : Scanner) (read : List (Nat × Char)) (it : InputIter) : Prop where
  prev : it.prev = sc.again.drop read.length
  iter : it.iter = sc.ahead.drop (read.length - sc.again.length)
  left : sc.left = read ++ it.rest
  start : it.pos.1 = sc.start

theorem Mid.next {sc : Scanner} {read : List (Nat × Char)} {it it' : InputIter} {ch : Char} (h : Mid sc read it)
    (hn : it.next = (some ch, it')) : ∃ p, Mid sc (read ++ [(p, ch)]) it' ∧ it'.suffix = it.suffix ++ [(p, ch)] ∧
      it'.source = it.source ∧ it'.pos = it.pos := by
  obtain ⟨p, h1, h2, h3, h4, _, _⟩ := next_some hn
  refine ⟨p, ⟨?_, ?_, ?_, by rw [h4, h.start]⟩, h2, h3, h4⟩
  · unfold InputIter.next at hn
    have hp := h.prev
    rw [List.length_append, List.length_singleton, ← List.drop_drop, ← hp]
    split at hn
    · rename_i r hr
      cases hn
      simp [hr]
    · rename_i hr
      split at hn
      · cases hn; simp [hr]
      · cases hn
  · unfold InputIter.next at hn
    have hp := h.prev
    have hi := h.iter
    rw [List.length_append, List.length_singleton]
    split at hn
    · rename_i r hr
      cases hn
      have hlt : read.length < sc.again.length := by
        rw [hr] at hp
        have := congrArg List.length hp
        simp at this
        omega
      simp only [hi]
      congr 1
      omega
    · rename_i hr
      have hge : sc.again.length ≤ read.length := by
        rw [hr] at hp
        have := congrArg List.length hp
        simp at this
        omega
      split at hn
      · rename_i r hr'
        cases hn
        have : read.length + 1 - sc.again.length = read.length - sc.again.length + 1 := by omega
        rw [this, ← List.drop_drop, ← hi, hr']
        simp
      · cases hn
  · rw [h.left, InputIter.rest, h1]
    simp [InputIter.rest]

/-- What a call knows of the token it has found so far, after reading `w ++ back`. -/
def Sofar (gs : Generators K) (rules : List (List Char → Prop)) (sc : Scanner) (w back : List (Nat × Char))
    (it : InputIter) : Option K → Prop
  | none => w = [] ∧ it.source ++ word it.suffix = word (sc.skipped ++ back) ∧ NoMatch rules (word back)
  | some k => it.source = word (sc.skipped ++ w) ∧ it.suffix = back ∧ it.pos.2 = stop w ∧
      Longest rules (word (w ++ back)) (word w) ∧
      ∃ i, FirstMatch rules (word w) i ∧ KindOf gs i (word (sc.skipped ++ w)) k

theorem noMatch_snoc {w : List Char} {c : Char} (h : NoMatch rules w) (h' : ¬ AnyMatch rules (w ++ [c])) :
    NoMatch rules (w ++ [c]) := by
  intro v hv hp
  rcases prefix_snoc hp with hp | rfl
  · exact h v hv hp
  · exact h'

theorem _root_.Pango.Spec.Longest.snoc {w v : List Char} {c : Char} (h : Longest rules w v) (h' : ¬ AnyMatch rules (w ++ [c])) :
    Longest rules (w ++ [c]) v := by
  refine ⟨h.nonempty, h.isPrefix.trans (List.prefix_append _ _), h.isMatch, ?_⟩
  intro u hp hm
  rcases prefix_snoc hp with hp | rfl
  · exact h.longest u hp hm
  · exact absurd hm h'

theorem Lexes.call (R : Reads m gs rules Live Sim) (hk : ∀ i src k, KindOf gs i src k → kindOf i src = some k)
    {sc : Scanner} {sim : σ} {kind : Option K} {it it' : InputIter} {r : Option (Tok K)}
    (h : Lexes m gs sim kind it r it') : ∀ {w back : List (Nat × Char)}, Mid sc (w ++ back) it →
    Sim sim (word (w ++ back)) → Live (word (w ++ back)) → Sofar gs rules sc w back it kind →
    ∃ sc', Call rules Live kindOf sc r sc' ∧ Rep sc' it' := by
  induction h with
  | @stopNone sim it it1 ch hn hcf =>
    rintro w back hmid hs hl ⟨rfl, h1, h3⟩
    obtain ⟨p, hmid', k1, k2, k3⟩ := hmid.next hn
    have hd : ¬ Live (word ([] ++ back ++ [(p, ch)])) := by
      intro hlive
      have := (R.canFeed hs hcf).2 (by simpa using hlive)
      cases this
    simp only [List.nil_append] at hmid' hd hl
    refine ⟨_, .nothing (u := back) (x := (p, ch)) ⟨_, hmid'.left.symm⟩ hl hd h3, .inr ⟨?_, ?_, ?_, ?_⟩⟩
    · rw [k2, k1, word_append, ← List.append_assoc, h1]
      simp
    · exact hmid'.prev
    · exact hmid'.iter
    · exact hmid'.start
  | @stopSome sim k it it1 ch hn hcf =>
    rintro w back hmid hs hl ⟨h1, h2, h3, h4, i, h5, h6⟩
    obtain ⟨p, hmid', k1, k2, k3⟩ := hmid.next hn
    have hd : ¬ Live (word (w ++ back ++ [(p, ch)])) := by
      intro hlive
      have := (R.canFeed hs hcf).2 (by simpa using hlive)
      cases this
    have e : (some ⟨k, it1.source, it1.pos⟩ : Option (Tok K)) =
        some ⟨k, word (sc.skipped ++ w), (sc.start, stop w)⟩ := by
      rw [k2, h1, k3, ← h3, ← hmid.start]
    rw [e]
    refine ⟨_, .token ⟨_, hmid'.left.symm⟩ hl hd h4 h5 (hk _ _ _ h6), .inr ⟨rfl, ?_, ?_, ?_⟩⟩
    · simp [InputIter.consumeToken, k1, h2]
    · exact hmid'.iter
    · simp [InputIter.consumeToken, k3, h3]
  | @accept sim sim' kind it it1 it2 ch f fs gen r hn hcf hfeed hfin hget _ ih =>
    intro w back hmid hs hl hso
    obtain ⟨p, hmid', k1, k2, k3⟩ := hmid.next hn
    obtain ⟨hs', hb⟩ := R.feed hs hfeed
    have hw : word (w ++ back ++ [(p, ch)]) = word (w ++ back) ++ [ch] := by simp
    obtain ⟨i, hfirst, hkind⟩ := R.first hs' hfin hget
    have hsrc : it1.acceptSuffix.source = word (sc.skipped ++ (w ++ back ++ [(p, ch)])) := by
      have : it1.acceptSuffix.source = it1.source ++ word it1.suffix := rfl
      rw [this, k2, k1]
      cases kind with
      | none =>
        obtain ⟨rfl, h1, _⟩ := hso
        rw [word_append, ← List.append_assoc, h1]
        simp
      | some k =>
        obtain ⟨h1, h2, _⟩ := hso
        simp [h1, h2]
    refine ih (w := w ++ back ++ [(p, ch)]) (back := []) ?_ ?_ ?_ ⟨hsrc, rfl, ?_, ?_, i, ?_, ?_⟩
    · rw [List.append_nil]
      exact ⟨hmid'.prev, hmid'.iter, hmid'.left, hmid'.start⟩
    · rw [List.append_nil, hw]; exact hs'
    · rw [List.append_nil, hw]; exact (R.canFeed hs hcf).1 rfl
    · rw [stop_snoc]
      simp [InputIter.acceptSuffix, k1]
    · rw [List.append_nil, hw]
      exact ⟨by simp, List.prefix_refl _, hb.1 rfl, fun v hv _ => hv.length_le⟩
    · rw [hw]; exact hfirst
    · rw [hsrc]; exact hkind _
  | @step sim sim' kind it it1 it2 ch r hn hcf hfeed _ ih =>
    intro w back hmid hs hl hso
    obtain ⟨p, hmid', k1, k2, k3⟩ := hmid.next hn
    obtain ⟨hs', hb⟩ := R.feed hs hfeed
    have hw : word (w ++ (back ++ [(p, ch)])) = word (w ++ back) ++ [ch] := by simp
    have hno : ¬ AnyMatch rules (word (w ++ back) ++ [ch]) := fun h => by have := hb.2 h; cases this
    refine ih (w := w) (back := back ++ [(p, ch)]) (by rw [← List.append_assoc]; exact hmid') ?_ ?_ ?_
    · rw [hw]; exact hs'
    · rw [hw]; exact (R.canFeed hs hcf).1 rfl
    · cases kind with
      | none =>
        obtain ⟨rfl, h1, h3⟩ := hso
        refine ⟨rfl, by rw [k2, k1, word_append, ← List.append_assoc, h1]; simp, ?_⟩
        rw [word_append]
        exact noMatch_snoc h3 hno
      | some k =>
        obtain ⟨h1, h2, h3, h4, h5⟩ := hso
        refine ⟨by rw [k2, h1], by rw [k1, h2], by rw [k3, h3], ?_, h5⟩
        rw [hw]
        exact Longest.snoc h4 hno
  | @eofSome sim k it it1 hn hacc =>
    rintro w back hmid hs hl ⟨h1, h2, h3, h4, i, h5, h6⟩
    obtain ⟨rfl, h7, h8⟩ := next_none hn
    have hm := (R.isAccepting hs hacc).1 rfl
    have hback : back = [] := by
      have := h4.longest _ (List.prefix_refl _) hm
      simp only [word_append, List.length_append, word_length] at this
      exact List.length_eq_zero_iff.1 (by omega)
    subst hback
    have hleft : sc.left = w := by
      rw [hmid.left]
      simp [InputIter.rest, h7, h8]
    rw [List.append_nil] at hl
    have e : (some ⟨k, it1.source, it1.pos⟩ : Option (Tok K)) =
        some ⟨k, word (sc.skipped ++ sc.left), (sc.start, stop sc.left)⟩ := by
      rw [h1, hleft, ← h3, ← hmid.start]
    rw [e]
    refine ⟨_, .last (i := i) ?_ ?_ ?_ ?_, .inl ⟨rfl, ?_⟩⟩
    · rw [hleft]
      intro h
      exact h4.nonempty (by rw [h]; rfl)
    · rw [hleft]; exact hl
    · rw [hleft]; exact h5
    · rw [hleft]; exact hk _ _ _ h6
    · simp [InputIter.consumeToken, InputIter.pending, h2, h8]
  | @eofNone sim kind it it1 b hn hacc hb =>
    intro w back hmid hs hl hso
    obtain ⟨rfl, h7, h8⟩ := next_none hn
    have hleft : sc.left = w ++ back := by
      rw [hmid.left]
      simp [InputIter.rest, h7, h8]
    refine ⟨_, .over (by rw [hleft]; exact hl) ?_, .inl ⟨rfl, by simp [InputIter.pending, h7, h8]⟩⟩
    rw [hleft]
    cases kind with
    | none =>
      obtain ⟨rfl, _, h3⟩ := hso
      by_cases hb' : back = []
      · exact .inl (by simp [hb'])
      · right
        rw [List.nil_append]
        exact h3 _ (by simpa using hb') (List.prefix_refl _)
    | some k =>
      right
      intro h
      have := (R.isAccepting hs hacc).2 h
      rcases hb with hb | hb
      · rw [hb] at this; cases this
      · cases hb

/-- What a call returns. -/
theorem lexNext_call (R : Reads m gs rules Live Sim)
    (hk : ∀ i src k, KindOf gs i src k → kindOf i src = some k) {sc : Scanner} {it it' : InputIter}
    {r : Option (Tok K)} (hr : Rep sc it) (h : lexNext m gs it = .ok (r, it')) :
    ∃ sc', Call rules Live kindOf sc r sc' ∧ Rep sc' it' := by
  obtain ⟨sim, h1, h2⟩ := lexNext_ok h
  rcases hr with ⟨hl, hp⟩ | ⟨h3, h5, h6, h7⟩
  · have hnone : r = none ∧ it'.pending = 0 := by
      have hnx : it.next = (none, it) := by
        simp only [InputIter.pending] at hp
        have a1 : it.prev = [] := List.length_eq_zero_iff.1 (by omega)
        have a2 : it.iter = [] := List.length_eq_zero_iff.1 (by omega)
        simp [InputIter.next, a1, a2]
      cases h2 with
      | stopNone hn => rw [hnx] at hn; cases hn
      | accept hn => rw [hnx] at hn; cases hn
      | step hn => rw [hnx] at hn; cases hn
      | eofNone hn => rw [hnx] at hn; cases hn; exact ⟨rfl, hp⟩
    obtain ⟨rfl, hp'⟩ := hnone
    exact ⟨_, .over (by rw [hl]; exact R.live0) (.inl hl), .inl ⟨rfl, hp'⟩⟩
  · refine h2.call R hk (w := []) (back := []) ⟨by simpa using h5, by simpa using h6, ?_, h7⟩
      (R.start h1) R.live0 ⟨rfl, by simpa using h3, ?_⟩
    · simp [Scanner.left, InputIter.rest, h5, h6]
    · intro v hv hp
      exact absurd (List.prefix_nil.1 hp) hv

theorem numbered_eq (input : List Char) : ∀ n, numbered n input = enumFrom n input := by
  induction input with
  | nil => intro n; rfl
  | cons c input ih => intro n; rw [numbered, enumFrom, ih]

theorem rep_new (input : List Char) : Rep (Scanner.new input) (InputIter.new input) :=
  .inr ⟨rfl, rfl, (numbered_eq input 0).symm, rfl⟩

end Pango.Lex
