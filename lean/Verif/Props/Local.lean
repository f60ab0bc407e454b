import Verif.Proofs.Cut
import Verif.Proofs.Uses
import Verif.Props.Scanning
import Verif.Props.StaysEnded
import Verif.Props.ParseText

/-!
# C65, C66, C67: what a token depends on
-/

namespace Pango.Props

open Pango Pango.Lex Pango.Fsm Pango.Regex Pango.Spec

variable [Unicode] {K : Type}

/-- The first calls of `next` return these tokens. -/
def FirstTokens (l : Lexer K) (input : List Char) (ts : List (Tok K)) : Prop :=
  ∃ fuel it, lexCalls (nfaMachine l.nfa fuel) l.tokens ts.length (InputIter.new input) = .ok (ts.map some, it)

/-- C65, the full claim: tokens that end before the end of `u` do not depend on what comes behind `u`. -/
def C65 : Prop :=
  ∀ (K : Type) (p : Profile) (rules : List (List Char × (List Char → K))) (es : List Expr) (l : Lexer K),
    LexerFor p rules es l → ∀ (u v v' : List Char) (ts : List (Tok K)), FirstTokens l (u ++ v) ts →
    (∀ t ∈ ts, t.pos.2 < u.length) → FirstTokens l (u ++ v') ts

/-- The token for the text that is `n` characters shorter at the front. -/
def earlier (n : Nat) (t : Tok K) : Tok K := ⟨t.kind, t.source, (t.pos.1 - n, t.pos.2 - n)⟩

/-- C66, the full claim: the tokens behind a token are those of the text behind it. -/
def C66 : Prop :=
  ∀ (K : Type) (p : Profile) (rules : List (List Char × (List Char → K))) (es : List Expr) (l : Lexer K),
    LexerFor p rules es l → ∀ (input : List Char) (ts ts' : List (Tok K)), Tokens l input (ts ++ ts') →
    Tokens l (input.drop (endOf 0 ts)) (ts'.map (earlier (endOf 0 ts)))

/-- C67, the full claim: a character that is in no pattern is where the tokens end, and what comes behind it does not
matter. -/
def C67 : Prop :=
  ∀ (K : Type) (p : Profile) (rules : List (List Char × (List Char → K))) (es : List Expr) (l : Lexer K),
    LexerFor p rules es l → ∀ c, (∀ e ∈ es, ¬ Uses e c) → ∀ (u v v' : List Char) (ts : List (Tok K)),
    Tokens l (u ++ c :: v) ts → Tokens l (u ++ c :: v') ts

/-- C65 is false: with the rules `a` and `abc` the first token of `abd` is `a`, that of `abc` is `abc`. -/
theorem c65_false : ¬ C65 := by
  intro h
  have h1 : FirstTokens early ("ab".toList ++ "d".toList) [⟨0, ['a'], (0, 1)⟩] := ⟨10, _, by with_unfolding_all rfl⟩
  have h2 : FirstTokens early ("ab".toList ++ "c".toList) [⟨1, "abc".toList, (0, 3)⟩] :=
    ⟨10, _, by with_unfolding_all rfl⟩
  have h3 := h Nat _ _ _ _ early_for "ab".toList "d".toList "c".toList _ h1 (by decide)
  have k2 := (c23_calls_partial _ _ _ _ early_for _ _ _).1 h2
  have k3 := (c23_calls_partial _ _ _ _ early_for _ _ _).1 h3
  exact absurd (c23_unique _ _ _ _ early_for _ _ _ k2.2 k3.2 rfl) (by simp)

/-- C66 is false: with the rules `a`, `abcd`, `b` and `c` the tokens of `abcxa` are `a`, `b`, `c`, `a`, those of `bcxa`
are `b` and `c`. -/
theorem c66_false : ¬ C66 := by
  intro h
  have h1 := h Nat _ _ _ _ lossy_for "abcxa".toList [⟨0, ['a'], (0, 1)⟩] _ lossy_tokens
  have h2 : Tokens lossy "bcxa".toList [⟨2, ['b'], (0, 1)⟩, ⟨3, ['c'], (1, 2)⟩] :=
    ⟨10, 5, _, by with_unfolding_all rfl⟩
  have h3 := congrArg List.length (tokens_unique h1 h2)
  simp at h3

/-- The character `x` is in none of the patterns. -/
theorem lossy_x : ∀ e ∈ lossyTrees, ¬ Uses e 'x' := by
  have lit : ∀ d : Char, d ≠ 'x' → ¬ Uses (.lit (.mtch d) none) 'x' := by
    intro d hd h
    cases h with
    | lit h => exact hd h.symm
  intro e he h
  simp only [lossyTrees, List.mem_cons, List.not_mem_nil, or_false] at he
  rcases he with rfl | rfl | rfl | rfl
  · exact lit _ (by decide) h
  · cases h with
    | part hm h =>
      simp only [List.mem_cons, List.not_mem_nil, or_false] at hm
      rcases hm with rfl | rfl | rfl | rfl <;> exact lit _ (by decide) h
  · exact lit _ (by decide) h
  · exact lit _ (by decide) h

/-- C67 is false: with the same rules the tokens of `abcx` are `a`, `b` and `c`. -/
theorem c67_false : ¬ C67 := by
  intro h
  have h1 := h Nat _ _ _ _ lossy_for 'x' lossy_x "abc".toList ['a'] [] _ lossy_tokens
  have h2 : Tokens lossy "abcx".toList [⟨0, ['a'], (0, 1)⟩, ⟨2, ['b'], (1, 2)⟩, ⟨3, ['c'], (2, 3)⟩] :=
    ⟨10, 5, _, by with_unfolding_all rfl⟩
  have h3 := congrArg List.length (tokens_unique h1 h2)
  simp at h3

variable {p : Profile} {rules : List (List Char × (List Char → K))} {es : List Expr} {l : Lexer K}

theorem firstTokens_scans (hl : LexerFor p rules es l) {input : List Char} {ts : List (Tok K)} :
    FirstTokens l input ts ↔ Scans es rules input (ts.map some) := by
  have := c23_calls_partial p rules es l hl input ts.length (ts.map some)
  simpa [FirstTokens] using this

/-- A text on which a pattern gets stuck can be read. -/
theorem readable_of_spins (hl : LexerFor p rules es l) {e : Expr} (he : e ∈ es) {w : List Char} (h : SpinsFirst e w) :
    Readable es w := by
  obtain ⟨_, r, hr, _⟩ := (hl.toBuilt.spinning w).2 ⟨e, he, h⟩
  exact (hl.toBuilt.live w).1 ⟨r, hr⟩

/-- Behind what cannot be read nothing matters. -/
theorem passes_dead (hl : LexerFor p rules es l) (w v : List Char) (hd : ¬ Readable es w) (hw : Passes es w) :
    Passes es (w ++ v) := by
  intro e he x hx hs
  rcases Nat.le_total x.length w.length with h | h
  · exact hw e he x (List.prefix_of_prefix_length_le hx (List.prefix_append _ _) h) hs
  · obtain ⟨y, rfl⟩ := List.prefix_of_prefix_length_le (List.prefix_append _ _) hx h
    exact hd (hl.toBuilt.readable_mono (readable_of_spins hl he hs))

theorem passes_mono (es : List Expr) (w v : List Char) (h : Passes es (w ++ v)) : Passes es w :=
  fun e he u hu => h e he u (hu.trans (List.prefix_append _ _))

/-- If one character of lookahead is enough, then nothing is put back. -/
theorem _root_.Pango.Spec.LooksOneAhead.putsNothingBack (hl : LexerFor p rules es l) (ha : LooksOneAhead es) :
    PutsNothingBack es :=
  Lex.Ahead.keeps (Live := Readable es) (Ends := Passes es) ha (fun _ _ h => hl.toBuilt.readable_mono h) (passes_mono es)

/-- The calls up to the first `None`, if nothing is put back. -/
theorem scans_cut (hl : LexerFor p rules es l) (ha : PutsNothingBack es) {input : List Char} {as : List (Option (Tok K))}
    (hp : Plain as) :
    Scans es rules input as ↔ Cut (taken es) (Readable es) (Passes es) (kindAt rules) 0 input as :=
  calls_cut (Live := Readable es) (Ends := Passes es) ha (fun _ _ h => hl.toBuilt.readable_mono h) (passes_mono es)
    (fun _ h => hl.toBuilt.readable_taken h) (.inl rfl) hp (.new input)

/-- What cannot be read to its end decides about the first call. -/
theorem call_local (hl : LexerFor p rules es l) {u v v' : List Char} (hu : ¬ Readable es u) {a : Option (Tok K)}
    (h : Scans es rules (u ++ v) [a]) : Scans es rules (u ++ v') [a] := by
  have left : ∀ s, (Scanner.new s).left = numbered 0 s := fun _ => rfl
  have all : ∀ v, ¬ Readable es (u ++ v) := fun v h => hu (hl.toBuilt.readable_mono h)
  have short : ∀ {x : List (Nat × Char)} {y : Nat × Char} {s s' : List Char}, x ++ [y] <+: numbered 0 (u ++ s) →
      Readable es (word x) → x ++ [y] <+: numbered 0 (u ++ s') := by
    intro x y s s' hx hr
    rw [numbered_append] at hx ⊢
    have h1 : (x ++ [y]).length ≤ (numbered 0 u).length := by
      rcases Nat.lt_or_ge (numbered 0 u).length (x ++ [y]).length with h | h
      · have h2 : numbered 0 u <+: x := List.prefix_of_prefix_length_le (List.prefix_append _ _)
          ((List.prefix_append x [y]).trans hx) (by simpa using Nat.le_of_lt_succ (by simpa using h))
        obtain ⟨z, rfl⟩ := h2
        rw [word_append, word_numbered] at hr
        exact absurd hr (all _)
      · exact h
    exact (List.prefix_of_prefix_length_le hx (List.prefix_append _ _) h1).trans (List.prefix_append _ _)
  cases h with
  | next he hc hcs =>
    rw [left, word_numbered] at he
    have he' : Passes es (word (Scanner.new (u ++ v')).left) := by
      rw [left, word_numbered]
      exact passes_dead hl u v' hu (passes_mono es u v he)
    cases hc with
    | token h1 h2 h3 h4 h5 h6 =>
      exact .next he' (.token (short h1 h2) h2 h3 h4 h5 h6) .done
    | last h1 h2 => rw [left, word_numbered] at h2; exact absurd h2 (all v)
    | nothing h1 h2 h3 h4 => exact .next he' (.nothing (short h1 h2) h2 h3 h4) .done
    | over h => rw [left, word_numbered] at h; exact absurd h (all v)

/-- C65 for all lexers, and the first call: if no pattern can be read up to the end of `u`, then what comes behind `u`
does not matter.  Missing: the later calls, and the tokens that end before the end of `u` when `u` can be read. -/
theorem c65_first_partial (hl : LexerFor p rules es l) (u v v' : List Char) (hu : ¬ Readable es u)
    (a : Option (Tok K)) (h : ∃ fuel it, lexNext (nfaMachine l.nfa fuel) l.tokens (InputIter.new (u ++ v)) = .ok (a, it)) :
    ∃ fuel it, lexNext (nfaMachine l.nfa fuel) l.tokens (InputIter.new (u ++ v')) = .ok (a, it) := by
  have one : ∀ input, (∃ fuel it, lexNext (nfaMachine l.nfa fuel) l.tokens (InputIter.new input) = .ok (a, it)) ↔
      ∃ fuel it, lexCalls (nfaMachine l.nfa fuel) l.tokens 1 (InputIter.new input) = .ok ([a], it) := by
    intro input
    refine exists_congr fun fuel => ?_
    simp only [lexCalls]
    cases lexNext (nfaMachine l.nfa fuel) l.tokens (InputIter.new input) with
    | ok x => obtain ⟨b, it⟩ := x; simp [pure, bind, Outcome.bind]
    | panic => simp [bind, Outcome.bind]
    | diverge => simp [bind, Outcome.bind]
  rw [one, c23_calls_partial p rules es l hl] at h ⊢
  exact ⟨rfl, call_local hl hu h.2⟩

/-- C65, exactly: the tokens of a lexer that end before the end of `u` do not depend on what comes behind `u`, for all
`u`, if and only if the lexer never puts back what it has read behind a match.  Missing: that this is so for all
lexers, which is false in general. -/
theorem c65_exact_partial (hl : LexerFor p rules es l) :
    (∀ (u v v' : List Char) (ts : List (Tok K)), FirstTokens l (u ++ v) ts → (∀ t ∈ ts, t.pos.2 < u.length) →
      FirstTokens l (u ++ v') ts) ↔ PutsNothingBack es := by
  constructor
  · intro h w back x h1 h2 h3 h4
    apply Classical.byContradiction
    intro hb
    obtain ⟨i, hi⟩ := h4.isMatch.first
    obtain ⟨k, hk⟩ : ∃ k, kindAt rules i w = some k := by
      refine kindAt_some hl ?_ _
      obtain ⟨M, hM, _⟩ := hi.isMatch
      have := (List.getElem?_eq_some_iff.1 hM).1
      simpa [taken] using this
    have hne : w ≠ [] := h4.nonempty
    have left : ∀ s, (Scanner.new s).left = numbered 0 s := fun _ => rfl
    have hn : numbered 0 (w ++ back ++ [x]) =
        numbered 0 w ++ numbered w.length back ++ [(w.length + back.length, x)] := by
      rw [numbered_append, numbered_append]
      simp [numbered]
    have hs : Scans es rules (w ++ back ++ [x]) [some ⟨k, w, (0, w.length)⟩] := by
      have hc := Call.token (rules := taken es) (Live := Readable es) (kind := kindAt rules)
        (sc := Scanner.new (w ++ back ++ [x])) (w := numbered 0 w) (back := numbered w.length back)
        (x := (w.length + back.length, x)) (i := i) (k := k)
        (by rw [left, hn]; exact List.prefix_refl _) (by simpa using h1) (by simpa using h2) (by simpa using h4)
        (by simpa using hi) (by simpa [Scanner.new] using hk)
      have hstop : stop (numbered 0 w) = w.length := by
        have := stop_numbered (n := 0) hne
        omega
      simp only [Scanner.new, List.nil_append, word_numbered, hstop] at hc
      exact .next (by rw [left, word_numbered]; exact h3) hc .done
    have hs' : Scans es rules (w ++ back) [none] := by
      refine .next ?_ (.over ?_ (.inr ?_)) .done
      · rw [left, word_numbered]; exact passes_mono es _ _ h3
      · rw [left, word_numbered]; exact h1
      · rw [left, word_numbered]
        intro hm
        have := h4.longest _ (List.prefix_refl _) hm
        have h5 : 0 < back.length := List.length_pos_iff.2 hb
        simp at this
        omega
    have h6 := h (w ++ back) [x] [] [⟨k, w, (0, w.length)⟩] ((firstTokens_scans hl).2 hs) (by
      have h5 : 0 < back.length := List.length_pos_iff.2 hb
      simp
      omega)
    rw [firstTokens_scans hl, List.append_nil] at h6
    exact absurd (c23_unique _ _ _ _ hl _ _ _ hs' h6 rfl) (by simp)
  · intro ha u v v' ts h hu
    rw [firstTokens_scans hl, scans_cut hl ha (plain_some ts)] at h ⊢
    exact h.local (passes_mono es) (passes_dead hl) (by simpa using hu)

/-- The token for the text that is `n` characters longer at the front. -/
def later (n : Nat) (t : Tok K) : Tok K := ⟨t.kind, t.source, (t.pos.1 + n, t.pos.2 + n)⟩

/-- C66 for all lexers that never put back what they have read behind a match.  Missing: the other lexers, for which the
claim is false in general. -/
theorem c66_kept_partial (hl : LexerFor p rules es l) (ha : PutsNothingBack es) (input : List Char)
    (ts ts' : List (Tok K)) (h : Tokens l input (ts ++ ts')) :
    Tokens l (input.drop (endOf 0 ts)) (ts'.map (earlier (endOf 0 ts))) := by
  rw [c23_tokens_partial p rules es l hl, scans_cut hl ha (plain_none _)] at h ⊢
  rw [List.map_append, List.append_assoc, cut_append] at h
  have := h.2.moved (n := endOf 0 ts) (b := 0) (c := 0) (Nat.le_refl _) (by omega)
  simpa [Function.comp_def, Lex.moved, earlier] using this

/-- The other direction of C66 for the same lexers: first tokens of a text and the tokens of the text behind them are
the tokens of the whole. -/
theorem c66_join_partial (hl : LexerFor p rules es l) (ha : PutsNothingBack es) (input : List Char)
    (ts us : List (Tok K)) (h : FirstTokens l input ts) (hu : Tokens l (input.drop (endOf 0 ts)) us) :
    Tokens l input (ts ++ us.map (later (endOf 0 ts))) := by
  rw [firstTokens_scans hl, scans_cut hl ha (plain_some ts)] at h
  rw [c23_tokens_partial p rules es l hl, scans_cut hl ha (plain_none _)] at hu ⊢
  rw [List.map_append, List.append_assoc, cut_append]
  refine ⟨h, ?_⟩
  have := hu.moved (n := 0) (b := endOf 0 ts) (c := endOf 0 ts) (Nat.le_refl _) (by omega)
  simpa [Function.comp_def, Lex.moved, later] using this

/-- C67 for all lexers that never put back what they have read behind a match.  Missing: the other lexers, for which the
claim is false in general. -/
theorem c67_kept_partial (hl : LexerFor p rules es l) (ha : PutsNothingBack es) (c : Char) (hc : ∀ e ∈ es, ¬ Uses e c)
    (u v v' : List Char) (ts : List (Tok K)) (h : Tokens l (u ++ c :: v) ts) : Tokens l (u ++ c :: v') ts := by
  rw [c23_tokens_partial p rules es l hl, scans_cut hl ha (plain_none _)] at h ⊢
  refine h.separated (passes_mono es) (passes_dead hl) (fun _ h => hl.toBuilt.readable_taken h) ?_
  intro w hw hm
  obtain ⟨e, he, hu⟩ := Readable.uses hw c hm
  exact hc e he hu

/-- What the tokens up to the first `None` are, if nothing is put back. -/
theorem _root_.Pango.Lex.Cut.sources {Live Ends : List Char → Prop} {M : List (List Char → Prop)}
    {kind : Nat → List Char → Option K} (live : ∀ w, AnyMatch M w → Live w) (mono : ∀ w v, Live (w ++ v) → Live w)
    {ts : List (Tok K)} : ∀ {a : Nat} {s : List Char}, Cut M Live Ends kind a s (ts.map some ++ [none]) →
    (∀ t ∈ ts, a ≤ t.pos.1 ∧ t.source = (s.drop (t.pos.1 - a)).take (t.pos.2 - t.pos.1) ∧
      Longest M (s.drop (t.pos.1 - a)) t.source) ∧
    (ts.map Tok.source).flatten ++ s.drop (endOf a ts - a) = s ∧ a ≤ endOf a ts := by
  induction ts with
  | nil => intro a s _; simp [endOf]
  | cons t ts ih =>
    intro a s h
    cases h with
    | @token _ i w rest k _ he hne hst hf hk hcs =>
      obtain ⟨h1, h2, h3⟩ := ih hcs
      have hd : ∀ m, a + w.length ≤ m → (w ++ rest).drop (m - a) = rest.drop (m - (a + w.length)) := by
        intro m hm
        rw [List.drop_append, List.drop_eq_nil_of_le (as := w) (by omega), List.nil_append]
        congr 1
        omega
      refine ⟨fun t ht => ?_, ?_, ?_⟩
      · rcases List.mem_cons.1 ht with rfl | ht
        · refine ⟨Nat.le_refl _, by simp, hne, by simp, hf.anyMatch, fun v hv hm => ?_⟩
          simp only [Nat.sub_self, List.drop_zero] at hv
          rcases Nat.lt_or_ge w.length v.length with hlt | hge
          · obtain ⟨y, rfl⟩ := List.prefix_of_prefix_length_le (List.prefix_append w rest) hv (by omega)
            cases y with
            | nil => simp at hlt
            | cons c y =>
              obtain ⟨z, hz⟩ := hv
              rw [List.append_assoc, List.append_cancel_left_eq] at hz
              refine absurd (mono (w ++ [c]) y ?_) (hst.2 c (y ++ z) hz.symm)
              simpa using live _ hm
          · exact hge
        · obtain ⟨h4, h5, h6⟩ := h1 t ht
          rw [hd _ h4]
          exact ⟨by omega, h5, h6⟩
      · rw [List.map_cons, List.flatten_cons, endOf, hd _ h3, List.append_assoc, h2]
      · exact Nat.le_trans (Nat.le_add_right _ _) h3

/-- C13 for all lexers that never put back what they have read behind a match.  Missing: the other lexers, for which
the claim is false in general, and the calls after the first `None`. -/
theorem c13_kept_partial (hl : LexerFor p rules es l) (ha : PutsNothingBack es) (input : List Char) (ts : List (Tok K))
    (ht : Tokens l input ts) : ∀ t ∈ ts, Longest (taken es) (input.drop t.pos.1) t.source := by
  rw [c23_tokens_partial p rules es l hl, scans_cut hl ha (plain_none _)] at ht
  intro t h
  exact ((ht.sources (fun _ h => hl.toBuilt.readable_taken h) (fun _ _ h => hl.toBuilt.readable_mono h)).1 t h).2.2

/-- C18 for the same lexers.  Missing: the other lexers, for which the claim is false in general, and the calls after
the first `None`. -/
theorem c18_kept_partial (hl : LexerFor p rules es l) (ha : PutsNothingBack es) (input : List Char) (ts : List (Tok K))
    (ht : Tokens l input ts) :
    (∀ t ∈ ts, t.source = (input.drop t.pos.1).take (t.pos.2 - t.pos.1)) ∧
    (ts.map Tok.source).flatten ++ input.drop (endOf 0 ts) = input := by
  rw [c23_tokens_partial p rules es l hl, scans_cut hl ha (plain_none _)] at ht
  obtain ⟨h1, h2, _⟩ := ht.sources (fun _ h => hl.toBuilt.readable_taken h) (fun _ _ h => hl.toBuilt.readable_mono h)
  exact ⟨fun t h => (h1 t h).2.1, h2⟩

/-! ## Examples -/

/-- The rules `;` and `".*"`: behind a quotation mark everything can be read, up to the last one. -/
def quotesTrees : List Expr :=
  [.lit (.mtch ';') none, .concat [.lit (.mtch '"') none, .lit (.cls .wildcard) (some .asterisk), .lit (.mtch '"') none]]

theorem quotes_reads (s : List Char) : Readable quotesTrees ('"' :: s) := by
  refine .inr ⟨_, List.mem_cons_of_mem _ (List.mem_cons_self ..), ?_⟩
  cases s with
  | nil => exact .here (.char rfl)
  | cons c s => exact .after (u := ['"']) (.lit rfl) (.here (.chars fun _ _ => trivial))

/-- The second rule begins with a quotation mark. -/
theorem quotes_begins {es : List Expr} {s : List Char} (h : MayBegin (.concat (.lit (.mtch '"') none :: es)) s) :
    ∃ r, s = '"' :: r := by
  cases h with
  | here h =>
    cases h with
    | char h => exact ⟨[], by rw [show _ = '"' from h]⟩
  | @after _ _ _ u v h _ =>
    cases h with
    | lit h => exact ⟨v, by rw [show _ = '"' from h]; rfl⟩
  | later h => cases h

/-- Nothing is put back, although one character of lookahead is not enough. -/
theorem quotes_kept : PutsNothingBack quotesTrees := by
  intro w back x h1 h2 h3 h4
  have hne := h4.nonempty
  have quote : ∀ r, w ++ back ≠ '"' :: r := by
    intro r hr
    rw [hr] at h2
    exact h2 (quotes_reads _)
  rcases h1 with h1 | ⟨e, he, h1⟩
  · exact absurd (List.append_eq_nil_iff.1 h1).1 hne
  · simp only [quotesTrees, List.mem_cons, List.not_mem_nil, or_false] at he
    rcases he with rfl | rfl
    · generalize hs : w ++ back = s at h1
      cases h1 with
      | char h =>
        cases w with
        | nil => exact absurd rfl hne
        | cons d w =>
          simp only [List.cons_append, List.cons.injEq, List.append_eq_nil_iff] at hs
          exact hs.2.2
    · obtain ⟨r, hr⟩ := quotes_begins h1
      exact absurd hr (quote r)

/-- The lexer with these rules. -/
def quotes : Lexer Nat :=
  ⟨⟨0, [⟨0, false, [(.literal (.mtch ';'), [2]), (.literal (.mtch '"'), [4])]⟩, ⟨1, true, []⟩, ⟨2, true, []⟩,
    ⟨3, true, []⟩, ⟨4, false, [(.eps, [6])]⟩, ⟨5, false, [(.literal (.mtch '"'), [3])]⟩,
    ⟨6, false, [(.quantified .asterisk, [5]), (.literal (.cls .wildcard), [6])]⟩]⟩, [(2, fun _ => 0), (3, fun _ => 1)]⟩

omit [Unicode] in
theorem quotes_for : LexerFor .debug [(";".toList, fun _ => 0), ("\".*\"".toList, fun _ => 1)] quotesTrees quotes :=
  ⟨rfl, rfl⟩

theorem quotes_tokens : Tokens quotes ";;\"a;\"".toList
    [⟨0, [';'], (0, 1)⟩, ⟨0, [';'], (1, 2)⟩, ⟨1, "\"a;\"".toList, (2, 6)⟩] := ⟨10, 4, _, by with_unfolding_all rfl⟩

theorem quotes_quote : AnyMatch (taken quotesTrees) ['"', '"'] :=
  ⟨_, List.mem_map_of_mem (List.mem_cons_of_mem _ (List.mem_cons_self ..)), .inr ⟨true, .here (u := ['"']) (v := ['"'])
    (.lit rfl) (.cons (u := []) (v := ['"']) (.lit (w := []) trivial (by simp))
      (.cons (u := ['"']) (v := []) (.lit rfl (by simp [LitSet])) .nil))⟩⟩

/-- One character of lookahead is not enough. -/
example : ¬ LooksOneAhead quotesTrees := by
  intro h
  have ht : Tokens quotes "\"\"a".toList [] := ⟨10, 1, _, by with_unfolding_all rfl⟩
  exact (c15_exact_partial _ _ _ _ quotes_for).2 h _ _ ht ['"', '"'] (by simp) ⟨['a'], rfl⟩ quotes_quote

/-- The first two tokens do not depend on what is behind the quotation mark. -/
example (v : List Char) : FirstTokens quotes (";;\"".toList ++ v) [⟨0, [';'], (0, 1)⟩, ⟨0, [';'], (1, 2)⟩] :=
  (c65_exact_partial quotes_for).2 quotes_kept ";;\"".toList "a;\"".toList v _ ⟨10, _, by with_unfolding_all rfl⟩
    (by decide)

/-- The third token is the longest match, and all that is at its position. -/
example : Longest (taken quotesTrees) "\"a;\"".toList "\"a;\"".toList ∧
    "\"a;\"".toList = (";;\"a;\"".toList.drop 2).take 4 :=
  ⟨c13_kept_partial quotes_for quotes_kept _ _ quotes_tokens ⟨1, "\"a;\"".toList, (2, 6)⟩ (by simp),
    (c18_kept_partial quotes_for quotes_kept _ _ quotes_tokens).1 ⟨1, "\"a;\"".toList, (2, 6)⟩ (by simp)⟩

/-- The tokens behind the first two. -/
example : Tokens quotes "\"a;\"".toList [⟨1, "\"a;\"".toList, (0, 4)⟩] :=
  c66_kept_partial quotes_for quotes_kept ";;\"a;\"".toList [⟨0, [';'], (0, 1)⟩, ⟨0, [';'], (1, 2)⟩]
    [⟨1, "\"a;\"".toList, (2, 6)⟩] quotes_tokens

theorem words_ahead : LooksOneAhead wordsTrees := looksOneAhead_of words_for words_regular words_oneLookahead

theorem words_x : ∀ e ∈ wordsTrees, ¬ Uses e 'x' := by
  have lit : ∀ (d : Char) (q : Option Quant), d ≠ 'x' → ¬ Uses (.lit (.mtch d) q) 'x' := by
    intro d q hd h
    cases h with
    | lit h => exact hd h.symm
  intro e he h
  simp only [wordsTrees, List.mem_cons, List.not_mem_nil, or_false] at he
  rcases he with rfl | rfl | rfl
  · exact lit _ _ (by decide) h
  · exact lit _ _ (by decide) h
  · cases h with
    | part hm h =>
      simp only [List.mem_cons, List.not_mem_nil, or_false] at hm
      rcases hm with rfl | rfl <;> exact lit _ _ (by decide) h

theorem words_kept : PutsNothingBack wordsTrees := words_ahead.putsNothingBack words_for

/-- The first two tokens of `aa===axa`, for all texts that begin with `aa===`. -/
example (v : List Char) : FirstTokens words ("aa===".toList ++ v) [⟨2, "aa".toList, (0, 2)⟩, ⟨200, "==".toList, (2, 4)⟩] :=
  (c65_exact_partial words_for).2 words_kept "aa===".toList "axa".toList v _
    ⟨10, _, by with_unfolding_all rfl⟩ (by decide)

/-- The tokens behind the second one. -/
example : Tokens words "=axa".toList [⟨100, "=".toList, (0, 1)⟩, ⟨1, "a".toList, (1, 2)⟩] :=
  c66_kept_partial words_for words_kept "aa===axa".toList [⟨2, "aa".toList, (0, 2)⟩, ⟨200, "==".toList, (2, 4)⟩]
    [⟨100, "=".toList, (4, 5)⟩, ⟨1, "a".toList, (5, 6)⟩] words_tokens

/-- And together with the first two again. -/
example : FirstTokens words "aa===axa".toList [⟨2, "aa".toList, (0, 2)⟩, ⟨200, "==".toList, (2, 4)⟩] ∧
    Tokens words "=axa".toList [⟨100, "=".toList, (0, 1)⟩, ⟨1, "a".toList, (1, 2)⟩] :=
  ⟨⟨10, _, by with_unfolding_all rfl⟩, 10, 9, _, by with_unfolding_all rfl⟩

/-- What comes behind the `x` does not matter. -/
example (v : List Char) : Tokens words ("aa===a".toList ++ 'x' :: v) [⟨2, "aa".toList, (0, 2)⟩,
    ⟨200, "==".toList, (2, 4)⟩, ⟨100, "=".toList, (4, 5)⟩, ⟨1, "a".toList, (5, 6)⟩] :=
  c67_kept_partial words_for words_kept 'x' words_x "aa===a".toList ['a'] v _ words_tokens

/-- A lexer that looks further ahead, and a text that cannot be read. -/
example (v : List Char) : ∃ fuel it, lexNext (nfaMachine lossy.nfa fuel) lossy.tokens
    (InputIter.new ("abcx".toList ++ v)) = .ok (some ⟨0, ['a'], (0, 1)⟩, it) :=
  c65_first_partial lossy_for "abcx".toList ['a'] v
    (fun h => by obtain ⟨e, he, hu⟩ := Readable.uses h 'x' (by decide); exact lossy_x e he hu) _
    ⟨10, _, by with_unfolding_all rfl⟩

end Pango.Props
