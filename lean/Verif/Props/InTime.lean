import Verif.Spec.InTime
import Verif.Proofs.InTime
import Verif.Proofs.Rewrite
import Verif.Proofs.ClassDec
import Verif.Props.Scanning
import Verif.Props.Local

/-!
# C117: a lexer stops reading where nothing can match any more
-/

namespace Pango.Props

open Pango Pango.Lex Pango.Fsm Pango.Regex Pango.Spec

variable [Unicode] {K : Type} {p : Profile} {rules : List (List Char × (List Char → K))} {es : List Expr} {l : Lexer K}

/-- What is left to be read, first what was put back, then what was never read. -/
def unread (it : InputIter) : List Char := (it.prev ++ it.iter).map Prod.snd

/-- After calls of `next` with the answers `as` one more call reads the characters `r`. -/
def NextReads (l : Lexer K) (input : List Char) (as : List (Option (Tok K))) (r : List Char) : Prop :=
  ∃ fuel it a it', lexCalls (nfaMachine l.nfa fuel) l.tokens as.length (InputIter.new input) = .ok (as, it) ∧
    lexNextN (nfaMachine l.nfa fuel) l.tokens it 0 = .ok ((a, it'), r.length) ∧ r <+: unread it

/-- C117 as stated: a character is read only if what the call has read before it is the beginning of a match. -/
def StopsInTime : Prop :=
  ∀ (K : Type) (p : Profile) (rules : List (List Char × (List Char → K))) (es : List Expr) (l : Lexer K)
    (input : List Char) (as : List (Option (Tok K))) (r u : List Char) (x : Char), LexerFor p rules es l →
    NextReads l input as r → u ++ [x] <+: r → CanComplete (languages es) u

/-- For all lexers: a character is read exactly if the patterns can be read up to it. -/
theorem c117_reads_partial (hl : LexerFor p rules es l) {input : List Char} {as : List (Option (Tok K))} {r : List Char}
    (h : NextReads l input as r) (u : List Char) (x : Char) (hu : u ++ [x] <+: r) : Readable es u := by
  obtain ⟨fuel, it, a, it', _, h2, h3⟩ := h
  simp only [lexNextN, Outcome.bind_eq_ok] at h2
  obtain ⟨sim, h4, h5⟩ := h2
  have R := hl.toBuilt.readsTaken fuel
  obtain ⟨k, h6, h7⟩ := lexLoopN_live R (R.start h4) R.live0 h5
  have := (h7 u x (hu.trans h3)).1 (by
    have := hu.length_le
    simp at this
    omega)
  simpa using this

/-- Words that can be read are read, if the call returns. -/
private theorem reads_all (hl : LexerFor p rules es l) {u : List Char} {x : Char} (hr : Readable es u)
    (hp : Passes es (u ++ [x])) : NextReads l (u ++ [x]) [] (u ++ [x]) := by
  have b := hl.toBuilt
  have hw : word (Scanner.new (u ++ [x])).left = u ++ [x] := word_numbered _ 0
  obtain ⟨⟨a, it'⟩, h⟩ := (b.next_iff (Nat.le_refl _) (rep_new (u ++ [x]))).2 (by rw [hw]; exact hp)
  obtain ⟨k, hk⟩ := lexNextN_of h 0
  have hrest : chars (InputIter.new (u ++ [x])).rest = u ++ [x] := by rw [(rep_new (u ++ [x])).chars, hw]
  refine ⟨simFuel l.nfa (fragTrees 2 es), _, a, it', rfl, ?_, by
    rw [show unread (InputIter.new (u ++ [x])) = u ++ [x] from hrest]; exact List.prefix_refl _⟩
  rw [hk]
  have h2 := hk
  simp only [lexNextN, Outcome.bind_eq_ok] at h2
  obtain ⟨sim, h4, h5⟩ := h2
  have R := b.readsTaken (simFuel l.nfa (fragTrees 2 es))
  obtain ⟨k', h6, h7⟩ := lexLoopN_live R (R.start h4) R.live0 h5
  have h8 := (h7 u x (by rw [hrest]; exact List.prefix_refl _)).2 (by simpa using hr)
  have h9 := (lexNextN_ok hk).2
  obtain ⟨k'', h10, h11⟩ := h9
  have h12 : k ≤ (u ++ [x]).length := by
    have hpend : (InputIter.new (u ++ [x])).pending = (u ++ [x]).length := by
      have := congrArg List.length hrest
      simpa [chars, InputIter.rest, InputIter.pending] using this
    have hkk : k = k'' := by omega
    cases a with
    | none =>
      have := h11.none rfl
      omega
    | some t =>
      have := h11.some rfl
      have h13 : it'.prev.length ≤ it'.pending := by simp [InputIter.pending]
      omega
  have : 0 + k = (u ++ [x]).length := by
    simp at h12 ⊢
    omega
  rw [this]

private theorem calls_rep (hl : LexerFor p rules es l) {fuel n : Nat} : ∀ {it it' : InputIter}
    {as : List (Option (Tok K))} {sc : Scanner}, lexCalls (nfaMachine l.nfa fuel) l.tokens n it = .ok (as, it') →
    Rep sc it → ∃ sc', Rep sc' it' := by
  induction n with
  | zero =>
    intro it it' as sc h hr
    simp only [lexCalls, Outcome.ok.injEq, Prod.mk.injEq] at h
    exact ⟨sc, h.2 ▸ hr⟩
  | succ n ih =>
    intro it it' as sc h hr
    simp only [lexCalls, Outcome.bind_eq_ok] at h
    obtain ⟨⟨a, it1⟩, h1, ⟨as1, it2⟩, h2, h3⟩ := h
    simp only [Outcome.pure_eq, Outcome.ok.injEq, Prod.mk.injEq] at h3
    obtain ⟨sc', _, hr'⟩ := lexNext_call (kindOf := Lex.kindAt rules) (hl.toBuilt.readsTaken fuel)
      (fun i src k => hl.toBuilt.kindAt) hr h1
    obtain ⟨sc'', h4⟩ := ih h2 hr'
    exact ⟨sc'', h3.2 ▸ h4⟩

/-- C117, exactly: for every lexer the claim holds for all texts, with the words that the matcher takes, if and only if
every word that can be read is the beginning of such a word. -/
theorem c117_exact_partial (hl : LexerFor p rules es l) :
    (∀ input as r u x, NextReads l input as r → u ++ [x] <+: r → CanComplete (taken es) u) ↔
      ∀ u x, Readable es u → Passes es (u ++ [x]) → CanComplete (taken es) u := by
  constructor
  · intro h u x hr hp
    exact h _ _ _ u x (reads_all hl hr hp) (List.prefix_refl _)
  · intro h input as r u x hn hu
    refine h u x (c117_reads_partial hl hn u x hu) ?_
    obtain ⟨fuel, it, a, it', h1, h2, h3⟩ := hn
    obtain ⟨sc, hr⟩ := calls_rep hl h1 (rep_new input)
    have h4 := (lexNextN_ok h2).1
    have h5 : lexNext (nfaMachine l.nfa (fuel + simFuel l.nfa (fragTrees 2 es))) l.tokens it = .ok (a, it') :=
      (lexNext_le (nfaMachine_le (Nat.le_add_right _ _))).ok h4
    have h6 := (hl.toBuilt.next_iff (Nat.le_add_left _ _) hr).1 ⟨_, h5⟩
    rw [← hr.chars] at h6
    obtain ⟨v, hv⟩ := hu.trans h3
    refine passes_mono es _ v ?_
    rw [hv]
    exact h6

/-! ## Patterns without upper bounds -/

mutual

private theorem OpenEnded.some_word : ∀ (e : Expr), OpenEnded e → ∃ w, Matches e w
  | .empty, _ => ⟨[], .empty⟩
  | .alt l _, h => by
    obtain ⟨w, hw⟩ := OpenEnded.some_word l h.1
    exact ⟨w, .altL hw⟩
  | .concat es, h => OpenEndedAll.some_word es h
  | .lit t q, h => by
    obtain ⟨⟨c, hc⟩, hq⟩ := h
    have all : ∀ n, ∀ d ∈ List.replicate n c, LitSet t d := fun n d hd => (List.mem_replicate.1 hd).2 ▸ hc
    cases q with
    | none => exact ⟨List.replicate 1 c, mat_lit.2 ⟨by simp [QuantSet], all 1⟩⟩
    | some k =>
      cases k with
      | asterisk => exact ⟨List.replicate 1 c, mat_lit.2 ⟨trivial, all 1⟩⟩
      | plus => exact ⟨List.replicate 1 c, mat_lit.2 ⟨by simp [QuantSet], all 1⟩⟩
      | min n => exact ⟨List.replicate n c, mat_lit.2 ⟨by simp [QuantSet], all n⟩⟩
      | questionMark => exact (hq _ rfl).elim
      | max n => exact (hq _ rfl).elim
      | range n k => exact (hq _ rfl).elim
  | .group e q, h => by
    obtain ⟨he, hq⟩ := h
    obtain ⟨w, hw⟩ := OpenEnded.some_word e he
    have all : ∀ n, ∀ v ∈ List.replicate n w, Matches e v := fun n v hv => (List.mem_replicate.1 hv).2 ▸ hw
    cases q with
    | none => exact ⟨_, .group (ws := List.replicate 1 w) (by simp [QuantSet]) (all 1)⟩
    | some k =>
      cases k with
      | asterisk => exact ⟨_, .group (ws := List.replicate 1 w) trivial (all 1)⟩
      | plus => exact ⟨_, .group (ws := List.replicate 1 w) (by simp [QuantSet]) (all 1)⟩
      | min n => exact ⟨_, .group (ws := List.replicate n w) (by simp [QuantSet]) (all n)⟩
      | questionMark => exact (hq _ rfl).elim
      | max n => exact (hq _ rfl).elim
      | range n k => exact (hq _ rfl).elim

private theorem OpenEndedAll.some_word : ∀ (es : List Expr), OpenEndedAll es → ∃ w, Matches (.concat es) w
  | [], _ => ⟨[], .nil⟩
  | e :: es, h => by
    obtain ⟨u, hu⟩ := OpenEnded.some_word e h.1
    obtain ⟨v, hv⟩ := OpenEndedAll.some_word es h.2
    exact ⟨_, .cons hu hv⟩

end

/-- If the quantifiers have no upper bounds, whatever can be read can be completed. -/
theorem _root_.Pango.Spec.MayRead.completed {e : Expr} {w : List Char} (h : MayRead e w) :
    OpenEnded e → ∃ v, Matches e (w ++ v) := by
  induction h with
  | @nothing e => exact fun ho => OpenEnded.some_word e ho
  | altL _ ih =>
    intro ho
    obtain ⟨v, hv⟩ := ih ho.1
    exact ⟨v, .altL hv⟩
  | altR _ ih =>
    intro ho
    obtain ⟨v, hv⟩ := ih ho.2
    exact ⟨v, .altR hv⟩
  | @here e es w _ ih =>
    intro ho
    obtain ⟨v, hv⟩ := ih ho.1
    obtain ⟨u, hu⟩ := OpenEndedAll.some_word es ho.2
    exact ⟨v ++ u, by rw [← List.append_assoc]; exact .cons hv hu⟩
  | later h1 _ ih =>
    intro ho
    obtain ⟨v, hv⟩ := ih ho.2
    exact ⟨v, by rw [List.append_assoc]; exact .cons h1 hv⟩
  | char h => exact fun _ => ⟨[], mat_lit.2 ⟨by simp [QuantSet], by simpa using h⟩⟩
  | @chars t q w h =>
    intro ho
    obtain ⟨⟨c, hc⟩, hq⟩ := ho
    have all : ∀ n, ∀ d ∈ w ++ List.replicate n c, LitSet t d := by
      intro n d hd
      rcases List.mem_append.1 hd with hd | hd
      · exact h d hd
      · exact (List.mem_replicate.1 hd).2 ▸ hc
    cases q with
    | asterisk => exact ⟨[], mat_lit.2 ⟨trivial, all 0⟩⟩
    | plus => exact ⟨List.replicate 1 c, mat_lit.2 ⟨by simp [QuantSet], all 1⟩⟩
    | min n => exact ⟨List.replicate n c, mat_lit.2 ⟨by simp [QuantSet], all n⟩⟩
    | questionMark => exact (hq _ rfl).elim
    | max n => exact (hq _ rfl).elim
    | range n k => exact (hq _ rfl).elim
  | @once e w _ ih =>
    intro ho
    obtain ⟨v, hv⟩ := ih ho.1
    exact ⟨v, mat_group.2 ⟨[w ++ v], by simp, by simp [QuantSet], by simpa using hv⟩⟩
  | @times e q ws v h1 _ ih =>
    intro ho
    obtain ⟨he, hq⟩ := ho
    obtain ⟨u, hu⟩ := ih he
    obtain ⟨w, hw⟩ := OpenEnded.some_word e he
    have all : ∀ n, ∀ x ∈ ws ++ (v ++ u) :: List.replicate n w, Matches e x := by
      intro n x hx
      rcases List.mem_append.1 hx with hx | hx
      · exact h1 x hx
      · rcases List.mem_cons.1 hx with hx | hx
        · exact hx ▸ hu
        · exact (List.mem_replicate.1 hx).2 ▸ hw
    have fin : ∀ n, QuantSet (some q) (ws ++ (v ++ u) :: List.replicate n w).length →
        ∃ x, Matches (.group e (some q)) (ws.flatten ++ v ++ x) := by
      intro n hn
      refine ⟨u ++ (List.replicate n w).flatten, ?_⟩
      have := Matches.group hn (all n)
      simpa using this
    cases q with
    | asterisk => exact fin 0 trivial
    | plus => exact fin 0 (by simp [QuantSet])
    | min n => exact fin n (by simp [QuantSet]; omega)
    | questionMark => exact (hq _ rfl).elim
    | max n => exact (hq _ rfl).elim
    | range n k => exact (hq _ rfl).elim

/-- C117 for patterns without upper bounds in their quantifiers.  Missing: other patterns, for which it is false in
general. -/
theorem c117_open_partial (hl : LexerFor p rules es l) (hr : Regular es) (ho : ∀ e ∈ es, OpenEnded e) (hne : es ≠ [])
    {input : List Char} {as : List (Option (Tok K))} {r : List Char} (h : NextReads l input as r) (u : List Char)
    (x : Char) (hu : u ++ [x] <+: r) : CanComplete (languages es) u := by
  have h1 := c117_reads_partial hl h u x hu
  obtain ⟨e, he, h2⟩ : ∃ e ∈ es, MayRead e u := by
    cases u with
    | nil =>
      obtain ⟨e, he⟩ := List.exists_mem_of_ne_nil _ hne
      exact ⟨e, he, .nothing⟩
    | cons c u => exact hl.toBuilt.mayRead hr (by simp) ((hl.toBuilt.live _).2 h1)
  obtain ⟨v, hv⟩ := h2.completed (ho e he)
  exact ⟨v, _, List.mem_map.2 ⟨e, he, rfl⟩, hv⟩

/-! ## Examples -/

/-- The tree of `ab?`. -/
def mayB : Expr := .concat [.lit (.mtch 'a') none, .lit (.mtch 'b') (some .questionMark)]

/-- The lexer with the rule `ab?`. -/
def mayBLexer : Lexer Nat :=
  ⟨⟨0, [⟨0, false, [(.literal (.mtch 'a'), [3])]⟩, ⟨1, true, []⟩, ⟨2, true, []⟩, ⟨3, false, [(.eps, [4])]⟩,
    ⟨4, false, [(.quantified .questionMark, [2]), (.literal (.mtch 'b'), [4])]⟩]⟩, [(2, fun _ => 0)]⟩

omit [Unicode] in
theorem mayB_for : LexerFor .debug [("ab?".toList, fun _ => 0)] [mayB] mayBLexer := ⟨rfl, rfl⟩

/-- The first call on `abbbb` reads all of it. -/
theorem mayB_reads : NextReads mayBLexer "abbbb".toList [] "abbbb".toList :=
  ⟨10, _, none, ⟨[], "ab".toList, (0, 2), [(2, 'b'), (3, 'b'), (4, 'b')], []⟩, rfl, by with_unfolding_all rfl,
    List.prefix_refl _⟩

/-- C117 is false: with the rule `ab?` all of `abbbb` is read, although no match begins with `abb`. -/
theorem c117_false : ¬ StopsInTime := by
  intro h
  obtain ⟨v, M, hM, hm⟩ := h Nat .debug _ _ _ _ [] _ ['a', 'b', 'b'] 'b' mayB_for mayB_reads ⟨['b'], rfl⟩
  simp only [languages, List.map_cons, List.map_nil, List.mem_singleton] at hM
  subst hM
  obtain ⟨u, v', h1, h2, h3⟩ := mat_cons.1 hm
  obtain ⟨u', v'', h4, h5, h6⟩ := mat_cons.1 h3
  have h7 := congrArg List.length h1
  rw [h4, mat_nil.1 h6] at h7
  have h8 := (mat_lit.1 h2).1
  have h9 := (mat_lit.1 h5).1
  simp only [QuantSet] at h8 h9
  simp at h7
  omega

/-- The hypotheses are met by the rules `a+`, `=` and `==`. -/
example {input : List Char} {as : List (Option (Tok Nat))} {r : List Char} (h : NextReads words input as r)
    (u : List Char) (x : Char) (hu : u ++ [x] <+: r) : CanComplete (languages wordsTrees) u := by
  refine c117_open_partial words_for words_regular ?_ (by simp [wordsTrees]) h u x hu
  intro e he
  simp only [wordsTrees, List.mem_cons, List.not_mem_nil, or_false] at he
  rcases he with rfl | rfl | rfl
  · exact ⟨⟨'a', rfl⟩, fun k hk => by cases hk; trivial⟩
  · exact ⟨⟨'=', rfl⟩, nofun⟩
  · exact ⟨⟨⟨'=', rfl⟩, nofun⟩, ⟨⟨'=', rfl⟩, nofun⟩, trivial⟩

/-- The first call on `aa==` reads `aa=`. -/
example : NextReads words "aa==".toList [] "aa=".toList :=
  ⟨10, _, some ⟨2, "aa".toList, (0, 2)⟩, ⟨[(3, '=')], [], (2, 0), [], [(2, '=')]⟩, rfl, by with_unfolding_all rfl,
    ⟨['='], rfl⟩⟩

end Pango.Props
