import Verif.Props.Lexemes
import Verif.Props.Builder
import Verif.Props.Scanning
import Verif.Props.Matching
import Verif.Proofs.Words

/-!
# C70–C72: patterns that are words
-/

namespace Pango.Props

open Pango Pango.Regex Pango.Fsm Pango.Lex Pango.Spec

/-! ## C70: any text can be quoted -/

theorem quoted_token (p : Profile) {c : Char} (hc : c ∈ specials) (rest : List Char) :
    tokenKindL p '\\' (c :: rest) = .ok (.mtch c, ⟨rest, false⟩) := by
  simp only [specials, List.mem_cons, List.not_mem_nil, or_false] at hc
  rcases hc with rfl | rfl | rfl | rfl | rfl | rfl | rfl | rfl | rfl | rfl | rfl | rfl | rfl <;> rfl

theorem plain_token (p : Profile) {c : Char} (hc : c ∉ specials) (rest : List Char) :
    tokenKindL p c rest = .ok (.mtch c, ⟨rest, false⟩) := by
  simp only [specials, List.mem_cons, List.not_mem_nil, or_false, not_or] at hc
  simp [tokenKindL, operatorOf, hc]

theorem scan_quoted (p : Profile) (w : List Char) :
    (scan p (quoted w)).kinds = w.map .mtch ∧ (scan p (quoted w)).stop = .eof := by
  induction w with
  | nil => exact ⟨rfl, rfl⟩
  | cons c w ih =>
    simp only [quoted]
    split
    · rename_i hc
      obtain ⟨h1, h2⟩ := scan_token (quoted_token p hc (quoted w))
      rw [h1, h2]
      exact ⟨by rw [ih.1]; rfl, ih.2⟩
    · rename_i hc
      obtain ⟨h1, h2⟩ := scan_token (plain_token p hc (quoted w))
      rw [h1, h2]
      exact ⟨by rw [ih.1]; rfl, ih.2⟩

theorem quoted_plain {w : List Char} (h : ∀ c ∈ w, c ∉ specials) : quoted w = w := by
  induction w with
  | nil => rfl
  | cons c w ih =>
    rw [quoted, if_neg (h c (by simp)), ih fun d hd => h d (by simp [hd])]

/-- A character of a word as a pattern. -/
def letter (c : Char) : Expr := .lit (.mtch c) none

theorem seqTree_letters (w : List Char) : seqTree (w.map letter) = wordTree w := by
  match w with
  | [] => rfl
  | [c] => rfl
  | _ :: _ :: _ => rfl

theorem letters_syntax (r : Relaxed) : ∀ {w : List Char}, w ≠ [] →
    SubExpression r (w.map letter) (w.map .mtch)
  | [c], _ => .one (.mtch (kq := []) (.chr c) .none)
  | c :: d :: w, _ =>
    .more (ks := [.mtch c]) (.mtch (kq := []) (.chr c) .none) (letters_syntax r (w := d :: w) (by simp))

theorem parse_quoted (p : Profile) {w : List Char} (hw : w ≠ []) :
    parse p (quoted w) = .ok (.ok (wordTree w)) := by
  obtain ⟨h1, h2⟩ := scan_quoted p w
  refine parse_of_kinds (b := false) ?_ h1 h2
  rw [← seqTree_letters]
  exact .sub (letters_syntax _ hw)

theorem word_noEmptySeq {w : List Char} (hw : w ≠ []) : ¬ HasEmptySeq (wordTree w) := by
  have key : ∀ w : List Char, ¬ AnyEmptySeq (w.map letter) := by
    intro w
    induction w with
    | nil => simp [AnyEmptySeq]
    | cons c w ih => simp [AnyEmptySeq, HasEmptySeq, letter, ih]
  match w with
  | [] => exact absurd rfl hw
  | [c] => simp [wordTree, HasEmptySeq]
  | c :: d :: w =>
    intro h
    simp only [wordTree, HasEmptySeq] at h
    rcases h with h | h
    · simp at h
    · exact key _ h

variable [Unicode]

theorem word_regular (w : List Char) : RepeatsNonEmpty (wordTree w) ∧ CountsAtStart (wordTree w) := by
  have k1 : ∀ w : List Char, RepeatsNonEmptyAll (w.map letter) := by
    intro w
    induction w with
    | nil => simp [RepeatsNonEmptyAll]
    | cons c w ih => simp [RepeatsNonEmptyAll, RepeatsNonEmpty, letter, ih]
  have k2 : ∀ w : List Char, CountsAtStartSeq (w.map letter) := by
    intro w
    induction w with
    | nil => simp [CountsAtStartSeq]
    | cons c w ih => simp [CountsAtStartSeq, CountsAtStart, letter, ih]
  match w with
  | [] => exact ⟨k1 [], k2 []⟩
  | [c] => exact ⟨trivial, trivial⟩
  | c :: d :: w => exact ⟨k1 (c :: d :: w), k2 (c :: d :: w)⟩

/-- C70.  Any text can be written as a pattern: with a backslash in front of the special characters it is accepted
and compiled, and the matcher always answers, and with yes for this text only. -/
theorem c70_quoted (p : Profile) (w : List Char) :
    ∃ e nfa, parse p (quoted w) = .ok (.ok e) ∧ nfaOfAst e = .ok nfa ∧
      ∃ fuel, ∀ m, fuel ≤ m → ∀ v : List Char, ∃ b, nfa.simulate m v = .ok b ∧ (b = true ↔ v = w) := by
  by_cases hw : w = []
  · subst hw
    obtain ⟨nfa, h1, fuel, h2⟩ := c10_matches_partial .empty (by simp [HasEmptySeq]) trivial trivial
    refine ⟨.empty, nfa, rfl, h1, fuel, fun m hm v => ?_⟩
    obtain ⟨b, h3, h4⟩ := h2 m hm v
    refine ⟨b, h3, h4.trans ?_⟩
    constructor
    · intro h
      cases h
      rfl
    · rintro rfl
      exact .empty
  · obtain ⟨nfa, h1, fuel, h2⟩ := c10_matches_partial (wordTree w) (word_noEmptySeq hw) (word_regular w).1
      (word_regular w).2
    refine ⟨_, nfa, parse_quoted p hw, h1, fuel, fun m hm v => ?_⟩
    obtain ⟨b, h3, h4⟩ := h2 m hm v
    exact ⟨b, h3, h4.trans matches_word⟩

/-- The text `a.b{2}\` and its pattern. -/
example : quoted "a.b{2}\\".toList = "a\\.b\\{2}\\\\".toList := by decide

omit [Unicode] in
/-- The tokens of the pattern are at most as many as its characters. -/
theorem scan_count (p : Profile) (cs : List Char) : (scan p cs).kinds.length ≤ cs.length := by
  induction hn : cs.length using Nat.strongRecOn generalizing cs with
  | ind n ih =>
    cases cs with
    | nil => simp [scan_nil, Scan.kinds]
    | cons c cs =>
      cases ht : tokenKindL p c cs with
      | panic =>
        rcases scanK_cons p (c :: cs).length c cs with ⟨_, e⟩ | ⟨_, _, h, _⟩
        · rw [scan_eq_scanK, e]; simp [Scan.kinds]
        · rw [ht] at h; cases h
      | diverge => exact absurd ht (tokenKindL_ne_diverge p c cs)
      | ok x =>
        obtain ⟨k, l⟩ := x
        have hl := (tokenKindL_fine ht).suffix.length_le
        rw [(scan_token ht).1]
        simp only [List.length_cons] at hn ⊢
        have := ih l.cs.length (by omega) l.cs rfl
        omega

omit [Unicode] in
theorem plain_of_kinds (p : Profile) : ∀ (cs : List Char) (rest : List TokenKind),
    (scan p cs).kinds = cs.map .mtch ++ rest → ∀ c ∈ cs, c ∉ specials := by
  intro cs
  induction cs with
  | nil => intro _ _ c hc; simp at hc
  | cons c cs ih =>
    intro rest h
    cases ht : tokenKindL p c cs with
    | panic =>
      rcases scanK_cons p (c :: cs).length c cs with ⟨_, e⟩ | ⟨_, _, h, _⟩
      · rw [scan_eq_scanK, e] at h; simp [Scan.kinds] at h
      · rw [ht] at h; cases h
    | diverge => exact absurd ht (tokenKindL_ne_diverge p c cs)
    | ok x =>
      obtain ⟨k, l⟩ := x
      have hs := (tokenKindL_fine ht).suffix
      rw [(scan_token ht).1] at h
      simp only [List.map_cons, List.cons_append, List.cons.injEq] at h
      obtain ⟨rfl, h⟩ := h
      have hlen := congrArg List.length h
      simp only [List.length_append, List.length_map] at hlen
      have h1 := scan_count p l.cs
      have h2 := hs.length_le
      have e : l.cs = cs := hs.eq_of_length (by omega)
      rw [e] at h
      intro d hd
      rcases List.mem_cons.1 hd with rfl | hd
      · obtain ⟨txt, h3, h4⟩ := tokenKindL_lexeme ht (by simp)
        rw [e] at h3
        have h5 : txt = [d] := by
          have : [d] ++ cs = txt ++ cs := h3
          exact (List.append_cancel_right this).symm
        subst h5
        generalize hk : TokenKind.mtch d = k at h4
        generalize htx : [d] = txt at h4
        rcases h4 with h4 | h4
        · cases h4 with
          | @sign c k h =>
            subst hk
            simp [signTable] at h
          | @plain c h6 h7 h8 =>
            simp only [List.cons.injEq, and_true] at htx
            subst htx
            intro hm
            simp only [specials, List.mem_cons, List.not_mem_nil, or_false] at hm
            simp only [signTable, List.mem_cons, Prod.mk.injEq, List.not_mem_nil, or_false] at h6
            rcases hm with rfl | rfl | rfl | rfl | rfl | rfl | rfl | rfl | rfl | rfl | rfl | rfl | rfl <;>
              first
              | exact h7 rfl
              | exact h8 rfl
              | exact h6 _ (by simp; rfl)
          | escape _ => simp at htx
          | control _ => simp at htx
          | hex2 _ => simp at htx
          | hex4 _ => simp at htx
          | braced _ _ => simp at htx
          | bounds _ => simp at hk
        · cases h4 with
          | digits _ _ _ _ => simp at htx
          | braced _ _ _ => simp at htx
          | bounds _ => simp at hk
      · exact ih _ h d hd

omit [Unicode] in
theorem letter_kinds {r : Relaxed} {c : Char} {ks : List TokenKind} (h : SubExpressionItem r (letter c) ks) :
    ks = [.mtch c] := by
  generalize he : letter c = e at h
  cases h with
  | @mtch l q ks kq h1 h2 =>
    simp only [letter, Expr.lit.injEq] at he
    obtain ⟨rfl, rfl⟩ := he
    cases h1
    cases h2
    rfl
  | group _ _ => simp [letter] at he

omit [Unicode] in
theorem letters_kinds {r : Relaxed} : ∀ {w : List Char} {ks : List TokenKind},
    SubExpression r (w.map letter) ks → ks = w.map .mtch
  | [], _, h => by
    generalize he : ([] : List Char).map letter = es at h
    cases h with
    | none _ => rfl
    | one _ => simp at he
    | more _ _ => simp at he
  | c :: w, _, h => by
    generalize he : (c :: w).map letter = es at h
    cases h with
    | none _ => simp at he
    | one h1 =>
      simp only [List.map_cons, List.cons.injEq, List.map_eq_nil_iff] at he
      obtain ⟨rfl, rfl⟩ := he
      exact letter_kinds h1
    | more h1 h2 =>
      simp only [List.map_cons, List.cons.injEq] at he
      obtain ⟨rfl, rfl⟩ := he
      rw [letter_kinds h1, letters_kinds h2]
      rfl

omit [Unicode] in
theorem subItem_ne_concat {r : Relaxed} {e : Expr} {ks : List TokenKind} (h : SubExpression r [e] ks)
    {es : List Expr} : e ≠ .concat es := by
  have item : ∀ {ks}, SubExpressionItem r e ks → e ≠ .concat es := by
    intro ks h
    cases h <;> simp
  generalize he : [e] = xs at h
  cases h with
  | none _ => simp at he
  | one h =>
    simp only [List.cons.injEq, and_true] at he
    subst he
    exact item h
  | more h _ =>
    simp only [List.cons.injEq] at he
    obtain ⟨rfl, _⟩ := he
    exact item h

omit [Unicode] in
theorem word_kinds {r : Relaxed} {w : List Char} {ks : List TokenKind} (h : Pattern r (wordTree w) ks) :
    ks = w.map .mtch := by
  rcases h with ⟨h, _⟩ | h
  · rcases wordTree_cases w with ⟨c, rfl, h1⟩ | h1 <;> rw [h1] at h <;> simp at h
  · generalize he : wordTree w = e at h
    cases h with
    | @sub es ks h =>
      have : es = w.map letter := by
        match es, he, h with
        | [], he, _ =>
          rcases wordTree_cases w with ⟨c, rfl, h1⟩ | h1
          · rw [h1] at he; simp [seqTree] at he
          · rw [h1] at he
            simp only [seqTree, Expr.concat.injEq] at he
            exact he.symm
        | [e], he, h =>
          rcases wordTree_cases w with ⟨c, rfl, h1⟩ | h1
          · rw [h1] at he; rw [show e = letter c from he.symm]; rfl
          · rw [h1] at he
            exact absurd he.symm (subItem_ne_concat h)
        | _ :: _ :: _, he, _ =>
          rcases wordTree_cases w with ⟨c, rfl, h1⟩ | h1
          · rw [h1] at he; simp [seqTree] at he
          · rw [h1] at he
            simp only [seqTree, Expr.concat.injEq] at he
            exact he.symm
      rw [this] at h
      exact letters_kinds h
    | alt _ _ =>
      rcases wordTree_cases w with ⟨c, rfl, h1⟩ | h1 <;> rw [h1] at he <;> simp at he

omit [Unicode] in
/-- C70, which texts need no quotes: a text and its quoted form are the same pattern if and only if none of the
special characters occurs in it. -/
theorem c70_plain (p : Profile) (w : List Char) :
    parse p w = parse p (quoted w) ↔ ∀ c ∈ w, c ∉ specials := by
  constructor
  · intro h
    by_cases hw : w = []
    · simp [hw]
    rw [parse_quoted p hw] at h
    obtain ⟨used, rest, h1, _, h2, _⟩ := c06_accepts_partial p w _ h
    rw [word_kinds h2] at h1
    exact plain_of_kinds p w rest h1
  · intro h
    rw [quoted_plain h]

/-- The text `say "hi"` needs no quotes, and `1-1` does. -/
example : (parse .debug "say \"hi\"".toList = parse .debug (quoted "say \"hi\"".toList)) ∧
    parse .debug "1-1".toList ≠ parse .debug (quoted "1-1".toList) := by
  rw [Ne, c70_plain, c70_plain]
  decide

omit [Unicode] in
/-- C70 for lexers: rules with any texts, quoted, make a lexer. -/
theorem c70_builds {K : Type} (p : Profile) (kinds : List (List Char × (List Char → K))) :
    ∃ l, buildLexer p (wordRules kinds) = .ok (.ok l) := by
  refine (c55_partial p (wordRules kinds)).2.1 fun r hr => ?_
  obtain ⟨k, _, rfl⟩ := List.mem_map.1 hr
  by_cases hw : k.1 = []
  · exact ⟨.empty, by simp only [hw]; rfl, by simp [HasEmptySeq]⟩
  · exact ⟨_, parse_quoted p hw, word_noEmptySeq hw⟩

/-! ## C71: lexers of words -/

variable {K : Type}

/-- The words of the rules. -/
def ruleWords (kinds : List (List Char × (List Char → K))) : List (List Char) := kinds.map Prod.fst

/-- C71 as stated: if all rules are words then the tokens are those of maximal munch, and the kind of each is given
by the first rule with this word. -/
def WordsAreMunched : Prop :=
  ∀ (K : Type) (p : Profile) (kinds : List (List Char × (List Char → K))) (l : Lexer K) (input : List Char)
    (ts : List (Tok K)), [] ∉ ruleWords kinds → buildLexer p (wordRules kinds) = .ok (.ok l) → Tokens l input ts →
    IsTokenization (only (ruleWords kinds)) kinds input ts

omit [Unicode] in
theorem lexerFor_words {p : Profile} {kinds : List (List Char × (List Char → K))} {l : Lexer K}
    (hne : [] ∉ ruleWords kinds) (hl : buildLexer p (wordRules kinds) = .ok (.ok l)) :
    LexerFor p (wordRules kinds) ((ruleWords kinds).map wordTree) l := by
  refine ⟨hl, ?_⟩
  simp only [wordRules, ruleWords, List.map_map]
  refine List.map_congr_left fun k hk => ?_
  exact parse_quoted p fun h => hne (h ▸ List.mem_map_of_mem hk)

theorem taken_only {ws : List (List Char)} (hne : [] ∉ ws) : taken (ws.map wordTree) = only ws := by
  simp only [taken, only, List.map_map]
  refine List.map_congr_left fun w hw => ?_
  funext v
  exact propext (taken_word fun h => hne (h ▸ hw))

omit [Unicode] in
theorem kindAt_words (kinds : List (List Char × (List Char → K))) : kindAt (wordRules kinds) = kindAt kinds := by
  funext i src
  simp only [kindAt, wordRules, List.getElem?_map, Option.map_map]
  rfl

omit [Unicode] in
theorem isTokenization_words {ms : List (List Char → Prop)} {kinds : List (List Char × (List Char → K))}
    {input : List Char} {ts : List (Tok K)} :
    IsTokenization ms (wordRules kinds) input ts ↔ IsTokenization ms kinds input ts := by
  simp only [IsTokenization, kindAt_words]

/-- C71, exactly.  A lexer whose rules are words always returns, and its tokens are those of maximal munch on all
inputs if and only if between a word and a longer one that begins with it there is a word at each length.  Missing:
the other lists of words, for which the claim is false. -/
theorem c71_exact_partial (p : Profile) (kinds : List (List Char × (List Char → K))) (l : Lexer K)
    (hne : [] ∉ ruleWords kinds) (hl : buildLexer p (wordRules kinds) = .ok (.ok l)) :
    (∀ input, ∃ ts, Tokens l input ts) ∧
    ((∀ input ts, Tokens l input ts → IsTokenization (only (ruleWords kinds)) kinds input ts) ↔
      FillsUp (ruleWords kinds)) := by
  have hf := lexerFor_words hne hl
  constructor
  · intro input
    have b := hf.toBuilt
    obtain ⟨⟨as, it⟩, h⟩ := ((b.safe _).lexCalls (input.length + 1) (InputIter.new input)).2
      (b.total (fun e he => by
        obtain ⟨w, _, rfl⟩ := List.mem_map.1 he
        exact (word_regular w).1) (Nat.le_refl _))
    obtain ⟨⟨ts, it'⟩, h'⟩ := lexAll_of_calls h ((c16_finite _ _ _ _ _ _ h).2.2 (Nat.lt_succ_self _))
    exact ⟨ts, _, _, it', h'⟩
  · rw [← looksOneAhead_words hne, ← c23_exact_partial p _ _ l hf, taken_only hne]
    simp only [isTokenization_words]

/-- The rules `=`, `==`, `.`, `if` and `*`. -/
def wordKinds : List (List Char × (List Char → Nat)) :=
  [("=".toList, fun _ => 0), ("==".toList, fun _ => 1), (".".toList, fun _ => 2), ("if".toList, fun _ => 3),
   ("*".toList, fun _ => 4)]

omit [Unicode] in
theorem fillsUp_of {ws : List (List Char)}
    (h : ∀ u ∈ ws, ∀ v ∈ ws, ∀ n, n < v.length + 1 → u <+: v.take n → v.take n ∈ ws) : FillsUp ws := by
  intro u hu v hv x h1 h2
  have e := List.prefix_iff_eq_take.1 h2
  have := h u hu v hv x.length (by have := h2.length_le; omega)
  rw [← e] at this
  exact this h1

omit [Unicode] in
theorem wordKinds_fill : FillsUp (ruleWords wordKinds) := fillsUp_of (by decide)

/-- The lexer of these rules takes `if==.===*` apart as it should. -/
example : [] ∉ ruleWords wordKinds ∧ FillsUp (ruleWords wordKinds) ∧
    ∃ l ts, buildLexer .debug (wordRules wordKinds) = .ok (.ok l) ∧ Tokens l "if==.===*".toList ts ∧
      ts.map Tok.kind = [3, 1, 2, 1, 0, 4] :=
  ⟨by decide, wordKinds_fill, _, _, by with_unfolding_all rfl, ⟨20, 10, _, by with_unfolding_all rfl⟩, rfl⟩

omit [Unicode] in
theorem not_fillsUp : ¬ FillsUp ["a".toList, "abc".toList] := fun h =>
  absurd (h "a".toList (by decide) "abc".toList (by decide) "ab".toList (by decide) (by decide)) (by decide)

/-- C71 is false: with the words `a` and `abc` the lexer does not find all tokens. -/
theorem c71_false : ¬ WordsAreMunched := by
  intro h
  obtain ⟨l, hl⟩ := c70_builds .debug [("a".toList, fun _ => 0), ("abc".toList, fun _ => 1)]
  have hne : [] ∉ ruleWords [("a".toList, fun _ : List Char => 0), ("abc".toList, fun _ => 1)] := by decide
  exact not_fillsUp ((c71_exact_partial .debug _ l hne hl).2.1 fun input ts ht => h _ _ _ _ _ _ hne hl ht)

/-! ## C72: words are read back -/

/-- C72 as stated: a text put together from words of the rules is taken apart into these words. -/
def WordsReadBack : Prop :=
  ∀ (K : Type) (p : Profile) (kinds : List (List Char × (List Char → K))) (l : Lexer K) (us : List (List Char)),
    [] ∉ ruleWords kinds → buildLexer p (wordRules kinds) = .ok (.ok l) → (∀ u ∈ us, u ∈ ruleWords kinds) →
    ∃ ts, Tokens l us.flatten ts ∧ ts.map Tok.source = us

omit [Unicode] in
theorem anyMatch_only {ws : List (List Char)} {v : List Char} : AnyMatch (only ws) v ↔ v ∈ ws := by
  constructor
  · rintro ⟨M, hM, h⟩
    obtain ⟨w, hw, rfl⟩ := List.mem_map.1 hM
    exact (show v = w from h) ▸ hw
  · intro h
    exact ⟨_, List.mem_map_of_mem h, rfl⟩

omit [Unicode] in
theorem firstMatch_only {ws : List (List Char)} {v : List Char} (h : v ∈ ws) : FirstMatch (only ws) v (ws.idxOf v) := by
  have hlt := List.idxOf_lt_length_of_mem h
  constructor
  · exact ⟨fun x => x = ws[ws.idxOf v], by simp [only, hlt], by simp⟩
  · intro j M hj hM hv
    simp only [only, List.getElem?_map, Option.map_eq_some_iff] at hM
    obtain ⟨w, hw, rfl⟩ := hM
    subst hv
    have := List.not_of_lt_findIdx (p := (· == v)) (xs := ws) (i := j) hj
    rw [List.getElem?_eq_some_iff] at hw
    obtain ⟨hj', rfl⟩ := hw
    simp at this

/-- If a word with one more character is a word, then no word begins with this character. -/
def NoneGoesOn (ws : List (List Char)) : Prop := ∀ u ∈ ws, ∀ w ∈ ws, ∀ c, u ++ [c] ∈ ws → w.head? ≠ some c

omit [Unicode] in
theorem munch_back {ws : List (List Char)} (hne : [] ∉ ws) (hf : FillsUp ws) (hg : NoneGoesOn ws) :
    ∀ {us : List (List Char)}, (∀ u ∈ us, u ∈ ws) →
      Munch (only ws) us.flatten (us.map fun u => (u, ws.idxOf u)) [] := by
  intro us
  induction us with
  | nil =>
    intro _
    refine .stop fun w hw hp _ => hw ?_
    simpa using hp
  | cons u us ih =>
    intro h
    have hu := h u (by simp)
    refine .token ⟨fun h => hne (h ▸ hu), List.prefix_append _ _, anyMatch_only.2 hu, ?_⟩ (firstMatch_only hu)
      (ih fun v hv => h v (by simp [hv]))
    intro v hv hm
    rw [anyMatch_only] at hm
    apply Classical.byContradiction
    intro hlt
    obtain ⟨x, rfl⟩ : u <+: v := List.prefix_of_prefix_length_le (List.prefix_append _ _) hv (by omega)
    obtain ⟨y, hy⟩ := hv
    rw [List.append_assoc] at hy
    have hy := List.append_cancel_left hy
    cases x with
    | nil => simp at hlt
    | cons c x =>
      have h1 : u ++ [c] ∈ ws := hf u hu _ hm _ (List.prefix_append _ _) ⟨x, by simp⟩
      cases us with
      | nil => simp at hy
      | cons w us =>
        have hw := h w (by simp)
        cases w with
        | nil => exact hne hw
        | cons d w =>
          simp only [List.cons_append, List.flatten_cons, List.cons.injEq] at hy
          exact hg u hu _ hw c h1 (by simp [hy.1])

/-- C72, exactly for lists of words that fill up: all texts made of words are taken apart into these words if and
only if no word goes on with the first character of a word.  Missing: the other lists of words. -/
theorem c72_exact_partial (p : Profile) (kinds : List (List Char × (List Char → K))) (l : Lexer K)
    (hne : [] ∉ ruleWords kinds) (hl : buildLexer p (wordRules kinds) = .ok (.ok l)) (hf : FillsUp (ruleWords kinds)) :
    (∀ us, (∀ u ∈ us, u ∈ ruleWords kinds) → ∃ ts, Tokens l us.flatten ts ∧ ts.map Tok.source = us) ↔
      NoneGoesOn (ruleWords kinds) := by
  obtain ⟨h1, h2⟩ := c71_exact_partial p kinds l hne hl
  have h2 := h2.2 hf
  have src : ∀ {ts : List (Tok K)} {ws : List (List Char × Nat)},
      ts.map (fun t => (t.source, some t.kind)) = ws.map (fun w => (w.1, kindAt kinds w.2 w.1)) →
      ts.map Tok.source = ws.map Prod.fst := by
    intro ts ws h
    have := congrArg (List.map Prod.fst) h
    simpa [Function.comp_def] using this
  constructor
  · intro h u hu w hw c hc hh
    obtain ⟨ts, h3, h4⟩ := h [u, w] (by simp [hu, hw])
    obtain ⟨ws, tail, h5, h6⟩ := h2 _ _ h3
    have h7 := src h6
    rw [h4] at h7
    cases w with
    | nil => simp at hh
    | cons d w =>
      simp only [List.head?_cons, Option.some.injEq] at hh
      subst hh
      generalize hin : [u, d :: w].flatten = input at h5
      cases h5 with
      | stop _ => simp at h7
      | @token v rest i ws _ h8 h9 h10 =>
        simp only [List.map_cons, List.cons.injEq] at h7
        obtain ⟨rfl, _⟩ := h7
        have := h8.longest (u ++ [d]) (by rw [← hin]; exact ⟨w, by simp⟩) (anyMatch_only.2 hc)
        simp at this
        omega
  · intro hg us hus
    obtain ⟨ts, h3⟩ := h1 us.flatten
    obtain ⟨ws, tail, h5, h6⟩ := h2 _ _ h3
    obtain ⟨rfl, _⟩ := h5.unique (munch_back hne hf hg hus)
    exact ⟨ts, h3, by rw [src h6]; simp [Function.comp_def]⟩

omit [Unicode] in
theorem noneGoesOn_of {ws : List (List Char)}
    (h : ∀ v ∈ ws, v.dropLast ∈ ws → ∀ w ∈ ws, w.head? ≠ v.getLast?) : NoneGoesOn ws := by
  intro u hu w hw c hc
  have := h _ hc (by simpa using hu) w hw
  simpa using this

/-- C72 is false: with the words `=` and `==`, the text made of `=` and `=` is one token. -/
theorem c72_false : ¬ WordsReadBack := by
  intro h
  let kinds : List (List Char × (List Char → Nat)) := [("=".toList, fun _ => 0), ("==".toList, fun _ => 1)]
  obtain ⟨l, hl⟩ := c70_builds .debug kinds
  have hne : [] ∉ ruleWords kinds := by decide
  have hf : FillsUp (ruleWords kinds) := fillsUp_of (by decide)
  have hg := (c72_exact_partial .debug kinds l hne hl hf).1 fun us hus => h _ _ _ _ _ hne hl hus
  exact hg "=".toList (by decide) "=".toList (by decide) '=' (by decide) rfl

omit [Unicode] in
/-- The condition holds for `<`, `<=` and `:=`. -/
example : FillsUp ["<".toList, "<=".toList, ":=".toList] ∧ NoneGoesOn ["<".toList, "<=".toList, ":=".toList] :=
  ⟨fillsUp_of (by decide), noneGoesOn_of (by decide)⟩

/-- C72 for words of which none begins with another one: any text made of words is taken apart into these words, and
the kind of each token is the one of the first rule with its word.  Missing: the other lists of words. -/
theorem c72_prefix_partial (p : Profile) (kinds : List (List Char × (List Char → K))) (l : Lexer K)
    (hne : [] ∉ ruleWords kinds) (hl : buildLexer p (wordRules kinds) = .ok (.ok l)) (hp : PrefixFree (ruleWords kinds))
    (us : List (List Char)) (hus : ∀ u ∈ us, u ∈ ruleWords kinds) :
    ∃ ts, Tokens l us.flatten ts ∧ ts.map (fun t => (t.source, some t.kind)) =
      us.map fun u => (u, (kinds.find? fun k => k.1 = u).map fun k => k.2 u) := by
  have hf : FillsUp (ruleWords kinds) := by
    intro u hu v hv x h1 h2
    have e := hp u hu v hv (h1.trans h2)
    subst e
    rw [h2.eq_of_length (Nat.le_antisymm h2.length_le h1.length_le)]
    exact hu
  have hg : NoneGoesOn (ruleWords kinds) := by
    intro u hu w hw c hc
    have := congrArg List.length (hp u hu _ hc (List.prefix_append _ _))
    simp at this
  obtain ⟨h1, h2⟩ := c71_exact_partial p kinds l hne hl
  obtain ⟨ts, h3⟩ := h1 us.flatten
  obtain ⟨ws, tail, h5, h6⟩ := h2.2 hf _ _ h3
  obtain ⟨rfl, _⟩ := h5.unique (munch_back hne hf hg hus)
  refine ⟨ts, h3, h6.trans ?_⟩
  rw [List.map_map]
  refine List.map_congr_left fun u hu => ?_
  simp only [Function.comp_apply, Prod.mk.injEq, true_and]
  have := hus u hu
  clear h1 h2 h3 h5 h6 hf hg hp hus hu hne hl
  induction kinds with
  | nil => simp [ruleWords] at this
  | cons k kinds ih =>
    by_cases hk : k.1 = u
    · simp [ruleWords, kindAt, List.idxOf_cons, hk]
    · have hm : u ∈ ruleWords kinds := by
        rcases List.mem_cons.1 this with h | h
        · exact absurd h.symm hk
        · exact h
      have e := ih hm
      simp only [kindAt, ruleWords] at e
      have hb : (k.1 == u) = false := by simp [hk]
      simp only [ruleWords, kindAt, List.map_cons, List.idxOf_cons, hb, cond_false, Bool.false_eq_true, if_false,
        List.getElem?_cons_succ, e]
      rw [List.find?_cons_of_neg (by simp [hk])]

/-- The words `if`, `(`, `)` and `:=` meet the hypotheses, and `if(:=)` is taken apart into `if`, `(`, `:=`, `)`. -/
example : ∃ (kinds : List (List Char × (List Char → Nat))) (l : Lexer Nat) (ts : List (Tok Nat)),
    [] ∉ ruleWords kinds ∧ PrefixFree (ruleWords kinds) ∧ buildLexer .debug (wordRules kinds) = .ok (.ok l) ∧
    Tokens l "if(:=)".toList ts ∧ ts.map Tok.source = ["if".toList, "(".toList, ":=".toList, ")".toList] :=
  ⟨[("if".toList, fun _ => 0), ("(".toList, fun _ => 1), (")".toList, fun _ => 2), (":=".toList, fun _ => 3)], _, _,
    by decide, by unfold PrefixFree; decide, by with_unfolding_all rfl, ⟨20, 10, _, by with_unfolding_all rfl⟩, rfl⟩

end Pango.Props
