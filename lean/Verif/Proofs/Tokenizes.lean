import Verif.Proofs.Scanned

/-!
# When one character of lookahead is enough, and when not
-/

namespace Pango.Lex

open Pango Pango.Fsm Pango.Regex Pango.Spec Pango.Props

variable {K : Type} {rules : List (List Char → Prop)} {Live Ends : List Char → Prop}
  {kind : Nat → List Char → Option K}

/-! ## Positions -/

@[simp] theorem word_numbered (s : List Char) : ∀ n, word (numbered n s) = s := by
  induction s with
  | nil => intro n; rfl
  | cons c s ih => intro n; simp [numbered, ih]

theorem numbered_append (a b : List Char) : ∀ n, numbered n (a ++ b) = numbered n a ++ numbered (n + a.length) b := by
  induction a with
  | nil => intro n; rfl
  | cons c a ih =>
    intro n
    simp only [List.cons_append, numbered, ih, List.length_cons]
    congr 3
    omega

theorem numbered_split {n : Nat} {s : List Char} {a b : List (Nat × Char)} (h : numbered n s = a ++ b) :
    a = numbered n (word a) ∧ b = numbered (n + a.length) (word b) := by
  have e : s = word a ++ word b := by
    have := congrArg word h
    simpa using this
  rw [e, numbered_append] at h
  have hlen : (numbered n (word a)).length = a.length := by
    rw [← word_length, word_numbered, word_length]
  obtain ⟨h1, h2⟩ := List.append_inj h hlen
  exact ⟨h1.symm, by rw [word_length] at h2; exact h2.symm⟩

theorem stop_numbered {n : Nat} {s : List Char} (hs : s ≠ []) : stop (numbered n s) = n + s.length := by
  obtain ⟨s', c, rfl⟩ : ∃ s' c, s = s' ++ [c] :=
    ⟨s.dropLast, s.getLast hs, (List.dropLast_concat_getLast hs).symm⟩
  rw [numbered_append, numbered, numbered, stop_snoc]
  simp
  omega

/-! ## The longest match -/

theorem exists_longest {input v : List Char} (hv : v ≠ []) (hp : v <+: input) (hm : AnyMatch rules v) :
    ∃ w, Longest rules input w := by
  obtain ⟨n, hn⟩ : ∃ n, n = input.length - v.length := ⟨_, rfl⟩
  induction n using Nat.strongRecOn generalizing v with
  | ind n ih =>
    by_cases h : ∃ u, u <+: input ∧ AnyMatch rules u ∧ v.length < u.length
    · obtain ⟨u, h1, h2, h3⟩ := h
      have h4 := h1.length_le
      have h5 := hp.length_le
      exact ih _ (by omega) (v := u) (by rintro rfl; simp at h3) h1 h2 rfl
    · exact ⟨v, hv, hp, hm, fun u h1 h2 => Nat.le_of_not_lt fun h3 => h ⟨u, h1, h2, h3⟩⟩

/-- The condition: if a rule matches a word, and some rule can be read on to the next character, then some rule
matches with this character. -/
def Ahead (rules : List (List Char → Prop)) (Live Ends : List Char → Prop) : Prop :=
  ∀ w c, w ≠ [] → AnyMatch rules w → Live (w ++ [c]) → Ends (w ++ [c]) → AnyMatch rules (w ++ [c])

/-- There is no reading on behind the longest match of what can be read. -/
theorem Ahead.all (ha : Ahead rules Live Ends) (mono : ∀ w v, Live (w ++ v) → Live w)
    (emono : ∀ w v, Ends (w ++ v) → Ends w) {w back : List Char} (hl : Live (w ++ back)) (he : Ends (w ++ back))
    (h : Longest rules (w ++ back) w) : back = [] := by
  cases back with
  | nil => rfl
  | cons c back =>
    rw [List.append_cons] at hl he
    have hm := ha w c h.nonempty h.isMatch (mono _ _ hl) (emono _ _ he)
    have := h.longest (w ++ [c]) ⟨back, by simp⟩ hm
    simp at this
    omega

/-- What calls that return tokens, and a last one that does not, give. -/
theorem Calls.tokenizes (ha : Ahead rules Live Ends) (mono : ∀ w v, Live (w ++ v) → Live w)
    (emono : ∀ w v, Ends (w ++ v) → Ends w) (live : ∀ w, AnyMatch rules w → Live w) {input : List Char} :
    ∀ {ts : List (Tok K)} {sc : Scanner}, Calls rules Live Ends kind sc (ts.map some ++ [none]) →
    sc.skipped = [] → sc.again.length ≤ 1 → sc.left = numbered sc.start (input.drop sc.start) →
    ∃ ws, Munch rules (input.drop sc.start) ws (input.drop (endOf sc.start ts)) ∧
      ts.map (fun t => (t.source, some t.kind)) = ws.map (fun w => (w.1, kind w.2 w.1)) ∧
      ∀ t ∈ ts, t.source = (input.drop t.pos.1).take (t.pos.2 - t.pos.1) ∧
        Longest rules (input.drop t.pos.1) t.source := by
  intro ts
  induction ts with
  | nil =>
    intro sc h hs hg hl
    have hw : word sc.left = input.drop sc.start := by rw [hl, word_numbered]
    refine ⟨[], .stop ?_, rfl, by simp⟩
    generalize hx : ([] : List (Tok K)).map some ++ [none] = xs at h
    cases h with
    | done => simp at hx
    | next he hc _ =>
      cases hx
      rw [← hw]
      intro v hv hp hm
      obtain ⟨v', hv'⟩ := exists_longest hv hp hm
      cases hc with
      | @nothing u x h1 h2 h3 h4 =>
        obtain ⟨t, ht⟩ := h1
        have h5 : word u ++ [x.2] <+: word sc.left := ⟨word t, by rw [← ht]; simp⟩
        rcases Nat.lt_or_ge u.length v.length with hlt | hge
        · have : word u ++ [x.2] <+: v := List.prefix_of_prefix_length_le h5 hp (by simp; omega)
          obtain ⟨y, rfl⟩ := this
          refine h3 ?_
          rw [word_append]
          exact mono _ _ (live _ hm)
        · have : v <+: word u := List.prefix_of_prefix_length_le hp ((List.prefix_append _ _).trans h5)
            (by simpa using hge)
          exact h4 v hv this hm
      | over h1 h2 =>
        obtain ⟨back, hb⟩ := hv'.isPrefix
        rw [← hb] at h1 h2 he hv'
        have := ha.all mono emono h1 he hv'
        subst this
        rw [List.append_nil] at hb h2
        rcases h2 with h2 | h2
        · rw [h2] at hb
          exact hv'.nonempty hb
        · exact h2 hv'.isMatch
  | cons t ts ih =>
    intro sc h hs hg hl
    have hw : word sc.left = input.drop sc.start := by rw [hl, word_numbered]
    generalize hx : (t :: ts).map some ++ [none] = xs at h
    cases h with
    | done => simp at hx
    | @next _ sc' a as he hc hcs =>
      simp only [List.map_cons, List.cons_append, List.cons.injEq] at hx
      obtain ⟨rfl, rfl⟩ := hx
      -- what the call has found
      have key : ∃ w i, w ≠ [] ∧ w <+: sc.left ∧ Longest rules (word sc.left) (word w) ∧
          FirstMatch rules (word w) i ∧ kind i (word w) = some t.kind ∧ t.source = word w ∧
          t.pos = (sc.start, stop w) ∧ sc'.start = stop w ∧ sc'.skipped = [] ∧ sc'.again.length ≤ 1 ∧
          sc.left = w ++ sc'.left := by
        generalize hat : some t = at' at hc
        cases hc with
        | nothing => cases hat
        | over => cases hat
        | @token w back x i k h1 h2 h3 h4 h5 h6 =>
          cases hat
          obtain ⟨rest, hrest⟩ := h1
          have hback : back = [] := by
            have h7 : Ends (word w ++ word back) := by
              refine emono _ (word ([x] ++ rest)) ?_
              rw [← word_append, ← word_append]
              rwa [← List.append_assoc, hrest]
            rw [word_append] at h2 h4
            have := ha.all mono emono h2 h7 h4
            simpa using this
          subst hback
          simp only [List.append_nil, List.nil_append] at h2 h3 h4 hrest ⊢
          have hne : w ≠ [] := by
            intro h0
            exact h4.nonempty (by rw [h0]; rfl)
          refine ⟨w, i, hne, ⟨[x] ++ rest, by rw [← List.append_assoc]; exact hrest⟩, ?_, h5, ?_, ?_, rfl, rfl,
            trivial, by simp, ?_⟩
          · refine ⟨h4.nonempty, ⟨word ([x] ++ rest), by rw [← hrest]; simp⟩, h4.isMatch, ?_⟩
            intro v hv hm
            apply Nat.le_of_not_lt
            intro hlt
            have : word w ++ [x.2] <+: v := List.prefix_of_prefix_length_le
              ⟨word rest, by rw [← hrest]; simp⟩ hv (by simp at hlt ⊢; omega)
            obtain ⟨y, rfl⟩ := this
            refine h3 ?_
            rw [word_append]
            exact mono _ _ (live _ hm)
          · rw [hs] at h6
            exact h6
          · rw [hs]
            rfl
          · have hd : rest = sc.ahead.drop ((w ++ [x]).length - sc.again.length) := by
              have : rest = sc.left.drop (w ++ [x]).length := by rw [← hrest, List.drop_left]
              rw [this, Scanner.left, List.drop_append, List.drop_eq_nil_of_le (by simp; omega), List.nil_append]
            rw [← hd, ← hrest]
            simp [Scanner.left]
        | @last i k h1 h2 h3 h4 =>
          cases hat
          refine ⟨sc.left, i, h1, List.prefix_refl _, ⟨by simpa using h1, List.prefix_refl _, h3.anyMatch,
            fun v hv _ => hv.length_le⟩, h3, ?_, ?_, rfl, rfl, rfl, by simp, by simp [Scanner.left]⟩
          · rw [hs] at h4
            exact h4
          · rw [hs]
            rfl
      obtain ⟨w, i, k1, k2, k3, k4, k5, k6, k7, k8, k9, k10, k11⟩ := key
      rw [hl] at k11
      obtain ⟨hw1, hw2⟩ := numbered_split k11
      have hstop : stop w = sc.start + w.length := by
        rw [← word_length w, ← stop_numbered (by simpa using k1), ← hw1]
      have hdrop : input.drop sc.start = word w ++ word sc'.left := by
        have := congrArg word k11
        simpa using this
      have hrest : input.drop sc'.start = word sc'.left := by
        rw [k8, hstop, ← List.drop_drop, hdrop]
        have : w.length = (word w).length := by simp
        rw [this, List.drop_left]
      obtain ⟨ws, c1, c2, c3⟩ := ih hcs k9 k10 (by rw [hrest, k8, hstop]; exact hw2)
      refine ⟨(word w, i) :: ws, ?_, ?_, ?_⟩
      · have he1 : endOf sc.start (t :: ts) = endOf sc'.start ts := by rw [endOf, k7, k8]
        rw [he1, hdrop]
        refine .token ?_ k4 ?_
        · rw [← hdrop, ← hw]
          exact k3
        · rw [← hrest]
          exact c1
      · simp [c2, k5, k6]
      · intro t' ht'
        rcases List.mem_cons.1 ht' with rfl | ht'
        · rw [k6, k7]
          refine ⟨?_, by rw [← hw]; exact k3⟩
          show word w = (input.drop sc.start).take (stop w - sc.start)
          rw [hstop, Nat.add_sub_cancel_left, hdrop]
          have : w.length = (word w).length := by simp
          rw [this, List.take_left]
        · exact c3 t' ht'

/-! ## Tokens up to the first `None` -/

theorem lexAll_iff_calls {σ : Type} {m : Machine σ} {gs : Generators K} : ∀ {ts : List (Tok K)} {it it' : InputIter},
    (∃ n, lexAll m gs n it = .ok (ts, it')) ↔
      lexCalls m gs (ts.length + 1) it = .ok (ts.map some ++ [none], it') := by
  intro ts
  induction ts with
  | nil =>
    intro it it'
    constructor
    · rintro ⟨n, h⟩
      cases n with
      | zero => simp [lexAll] at h
      | succ n =>
        simp only [lexAll, Outcome.bind_eq_ok] at h
        obtain ⟨⟨r, it1⟩, h1, h2⟩ := h
        cases r with
        | none =>
          simp only [Outcome.pure_eq, Outcome.ok.injEq, Prod.mk.injEq] at h2
          obtain ⟨_, rfl⟩ := h2
          simp [lexCalls, h1]
        | some t =>
          simp only [Outcome.bind_eq_ok] at h2
          obtain ⟨⟨ts1, it2⟩, _, h4⟩ := h2
          simp at h4
    · intro h
      simp only [List.length_nil, lexCalls, Outcome.bind_eq_ok] at h
      obtain ⟨⟨r, it1⟩, h1, ⟨as, it2⟩, h2, h3⟩ := h
      simp only [Outcome.ok.injEq, Prod.mk.injEq] at h2
      obtain ⟨rfl, rfl⟩ := h2
      simp only [Outcome.pure_eq, Outcome.ok.injEq, Prod.mk.injEq, List.map_nil, List.nil_append,
        List.cons.injEq, and_true] at h3
      obtain ⟨rfl, rfl⟩ := h3
      exact ⟨1, by simp [lexAll, h1]⟩
  | cons t ts ih =>
    intro it it'
    constructor
    · rintro ⟨n, h⟩
      cases n with
      | zero => simp [lexAll] at h
      | succ n =>
        simp only [lexAll, Outcome.bind_eq_ok] at h
        obtain ⟨⟨r, it1⟩, h1, h2⟩ := h
        cases r with
        | none => simp at h2
        | some t' =>
          simp only [Outcome.bind_eq_ok] at h2
          obtain ⟨⟨ts1, it2⟩, h3, h4⟩ := h2
          simp only [Outcome.pure_eq, Outcome.ok.injEq, Prod.mk.injEq, List.cons.injEq] at h4
          obtain ⟨⟨rfl, rfl⟩, rfl⟩ := h4
          have := ih.1 ⟨n, h3⟩
          rw [List.length_cons, lexCalls, h1, Outcome.bind_ok]
          simp only
          rw [this]
          rfl
    · intro h
      rw [List.length_cons, lexCalls, Outcome.bind_eq_ok] at h
      obtain ⟨⟨r, it1⟩, h1, h2⟩ := h
      simp only [Outcome.bind_eq_ok] at h2
      obtain ⟨⟨as, it2⟩, h2, h3⟩ := h2
      simp only [Outcome.pure_eq, Outcome.ok.injEq, Prod.mk.injEq, List.map_cons, List.cons_append,
        List.cons.injEq] at h3
      obtain ⟨⟨rfl, rfl⟩, rfl⟩ := h3
      obtain ⟨n, hn⟩ := ih.2 h2
      exact ⟨n + 1, by simp [lexAll, h1, hn]⟩

end Pango.Lex
