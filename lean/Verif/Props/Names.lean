import Verif.Spec.Names
import Verif.Props.ReadBack
import Verif.Proofs.Rewrite
import Verif.Props.RuleOrder

/-!
# C112: names and keywords
-/

namespace Pango.Props

open Pango Pango.Regex Pango.Fsm Pango.Lex Pango.Spec

variable [Unicode] {K : Type} {p : Profile} {A B : Lit} {e : Expr}

private theorem matches_name (h : NameTree A B e) {w : List Char} : Matches e w ↔ IsName A B w := by
  cases h with
  | first =>
    constructor
    · intro h
      cases h with
      | @cons _ _ u v h1 h2 =>
        obtain ⟨c, rfl, hc⟩ := matches_lit h1
        cases h2 with
        | @cons _ _ u' v' h3 h4 =>
          cases h3 with
          | lit h5 h6 =>
            cases h4
            exact ⟨c, u', by simp, hc, h6⟩
    · rintro ⟨c, u, rfl, hc, hu⟩
      have h1 : Matches (.lit A none) [c] := .lit rfl (by simpa using hc)
      have h2 : Matches (.lit B (some .asterisk)) u := .lit trivial hu
      simpa using Matches.cons h1 (Matches.cons h2 .nil)
  | same =>
    constructor
    · intro h
      cases h with
      | lit h1 h2 =>
        cases w with
        | nil => simp [QuantSet] at h1
        | cons c u => exact ⟨c, u, rfl, h2 c (by simp), fun d hd => h2 d (by simp [hd])⟩
    · rintro ⟨c, u, rfl, hc, hu⟩
      exact .lit (by simp [QuantSet]) (by simpa using ⟨hc, hu⟩)

private theorem read_name (h : NameTree A B e) {w : List Char} (hw : w ≠ []) : MayRead e w ↔ IsName A B w := by
  constructor
  · intro hr
    cases h with
    | first =>
      cases hr with
      | nothing => exact absurd rfl hw
      | here h =>
        rcases mayRead_lit h with rfl | ⟨c, rfl, hc⟩
        · exact absurd rfl hw
        · exact ⟨c, [], rfl, hc, by simp⟩
      | later h1 h2 =>
        obtain ⟨c, rfl, hc⟩ := matches_lit h1
        cases h2 with
        | nothing => exact ⟨c, [], rfl, hc, by simp⟩
        | here h =>
          cases h with
          | nothing => exact ⟨c, [], rfl, hc, by simp⟩
          | chars h => exact ⟨c, _, rfl, hc, h⟩
        | later h3 h4 =>
          cases h3 with
          | lit h5 h6 =>
            cases h4
            exact ⟨c, _, by simp, hc, h6⟩
    | same =>
      cases hr with
      | nothing => exact absurd rfl hw
      | chars h =>
        cases w with
        | nil => exact absurd rfl hw
        | cons c u => exact ⟨c, u, rfl, h c (by simp), fun d hd => h d (by simp [hd])⟩
  · intro hn
    exact ((matches_name h).2 hn).mayRead

private theorem name_regular (h : NameTree A B e) : RepeatsNonEmpty e ∧ CountsAtStart e := by
  cases h <;> simp [RepeatsNonEmpty, RepeatsNonEmptyAll, CountsAtStart, CountsAtStartSeq]

private theorem name_prefix {w v : List Char} (h : IsName A B w) (hv : v <+: w) (hne : v ≠ []) : IsName A B v := by
  obtain ⟨c, u, rfl, hc, hu⟩ := h
  cases v with
  | nil => exact absurd rfl hne
  | cons d v =>
    obtain ⟨rfl, h⟩ := List.cons_prefix_cons.1 hv
    exact ⟨d, v, rfl, hc, fun x hx => hu x (h.subset hx)⟩

private theorem read_word {w v : List Char} (h : MayRead (wordTree w) v) : v <+: w := by
  rcases wordTree_cases w with ⟨c, rfl, h1⟩ | h1
  · rw [h1] at h
    rcases mayRead_lit h with rfl | ⟨d, rfl, hd⟩
    · exact List.nil_prefix
    · have hd : d = c := hd
      rw [hd]
  · rw [h1] at h
    exact mayRead_lits.1 h

/-- What the other patterns of a lexer for names have to be like: known, with one character of lookahead, and not
readable where a name begins. -/
structure OtherThanNames (A : Lit) (es : List Expr) : Prop where
  regular : Regular es
  lookahead : OneLookahead es
  apart : ∀ e ∈ es, ∀ c w, LitSet A c → ¬ MayRead e (c :: w)

variable {keywords others : List (List Char × (List Char → K))} {pattern : List Char} {other : List Char → K}
  {es all : List Expr} {l : Lexer K}

/-- The patterns of the lexer, in any order. -/
private def Consists (keywords : List (List Char × (List Char → K))) (e : Expr) (es all : List Expr) : Prop :=
  ∀ x, x ∈ all ↔ x = e ∨ x ∈ (ruleWords keywords).map wordTree ∨ x ∈ es

private theorem any_languages {w : List Char} : AnyMatch (languages all) w ↔ ∃ x ∈ all, Matches x w := by
  simp [AnyMatch, languages]

private theorem all_regular (ha : Consists keywords e es all) (he : NameTree A B e) (ho : OtherThanNames A es) :
    Regular all := by
  intro x hx
  rcases (ha x).1 hx with rfl | h | h
  · exact name_regular he
  · obtain ⟨w, _, rfl⟩ := List.mem_map.1 h
    exact word_regular w
  · exact ho.regular x h

private theorem word_name (hk : ∀ k ∈ keywords, IsName A B k.1) {w : List Char} (hw : w ∈ ruleWords keywords) :
    IsName A B w := by
  obtain ⟨k, h, rfl⟩ := List.mem_map.1 hw
  exact hk k h

private theorem begins_name {c : Char} {w : List Char} (h : IsName A B (c :: w)) : LitSet A c := by
  obtain ⟨_, _, h1, h2, _⟩ := h
  cases h1
  exact h2

/-- Where a name begins, exactly the names can be read. -/
private theorem read_all (ha : Consists keywords e es all) (he : NameTree A B e)
    (hk : ∀ k ∈ keywords, IsName A B k.1) (ho : OtherThanNames A es) {c : Char} {w : List Char} (hc : LitSet A c)
    {x : Expr} (hx : x ∈ all) (hr : MayRead x (c :: w)) : IsName A B (c :: w) := by
  rcases (ha x).1 hx with rfl | h | h
  · exact (read_name he (by simp)).1 hr
  · obtain ⟨v, hv, rfl⟩ := List.mem_map.1 h
    exact name_prefix (word_name hk hv) (read_word hr) (by simp)
  · exact absurd hr (ho.apart x h c w hc)

private theorem all_lookahead (ha : Consists keywords e es all) (he : NameTree A B e)
    (hk : ∀ k ∈ keywords, IsName A B k.1) (ho : OtherThanNames A es) : OneLookahead all := by
  rintro w c hw hm ⟨x, hx, hr⟩
  cases w with
  | nil => exact absurd rfl hw
  | cons a w =>
    by_cases hA : LitSet A a
    · exact any_languages.2 ⟨e, (ha e).2 (.inl rfl), (matches_name he).2 (read_all ha he hk ho hA hx hr)⟩
    · have key : ∀ x ∈ all, ∀ v, MayRead x (a :: v) → x ∈ es := by
        intro x hx v hv
        rcases (ha x).1 hx with rfl | h | h
        · exact absurd (begins_name ((read_name he (by simp)).1 hv)) hA
        · obtain ⟨u, hu, rfl⟩ := List.mem_map.1 h
          exact absurd (begins_name (name_prefix (word_name hk hu) (read_word hv) (by simp))) hA
        · exact h
      obtain ⟨y, hy, hm⟩ := any_languages.1 hm
      obtain ⟨z, hz, h⟩ := any_languages.1 (ho.lookahead (a :: w) c hw
        (any_languages.2 ⟨y, key y hy w hm.mayRead, hm⟩) ⟨x, key x hx _ hr, hr⟩)
      exact any_languages.2 ⟨z, (ha z).2 (.inr (.inr hz)), h⟩

omit [Unicode] in
private theorem munch_at {rules : List (List Char → Prop)} {input : List Char} {ws : List (List Char × Nat)}
    {tail : List Char} (h : Munch rules input ws tail) :
    ∀ before w i after, ws = before ++ (w, i) :: after →
      Longest rules (w ++ ((after.map Prod.fst).flatten ++ tail)) w ∧ FirstMatch rules w i := by
  induction h with
  | stop _ => intro before w i after h; simp at h
  | @token w rest i ts tail h1 h2 h3 ih =>
    intro before v j after h
    cases before with
    | nil =>
      simp only [List.nil_append, List.cons.injEq, Prod.mk.injEq] at h
      obtain ⟨⟨rfl, rfl⟩, rfl⟩ := h
      have := h3.flatten
      exact ⟨by rw [this]; exact h1, h2⟩
    | cons b before =>
      simp only [List.cons_append, List.cons.injEq] at h
      exact ih _ _ _ _ h.2

private theorem name_at (ha : Consists keywords e es all) (he : NameTree A B e) (hk : ∀ k ∈ keywords, IsName A B k.1)
    (ho : OtherThanNames A es) {w next : List Char} (h : Longest (languages all) (w ++ next) w) {c : Char}
    (hw : w.head? = some c) (hc : LitSet A c) : IsName A B w ∧ ∀ d, next.head? = some d → ¬ LitSet B d := by
  cases w with
  | nil => cases hw
  | cons a w =>
    cases hw
    obtain ⟨x, hx, hm⟩ := any_languages.1 h.isMatch
    have hn := read_all ha he hk ho hc hx hm.mayRead
    refine ⟨hn, fun d hd hB => ?_⟩
    cases next with
    | nil => cases hd
    | cons d' next =>
      cases hd
      have := h.longest (c :: w ++ [d]) ⟨next, by simp⟩ (any_languages.2 ⟨e, (ha e).2 (.inl rfl), (matches_name he).2 (by
        obtain ⟨_, _, h1, h2, h3⟩ := hn
        cases h1
        refine ⟨c, w ++ [d], rfl, h2, fun y hy => ?_⟩
        rcases List.mem_append.1 hy with hy | hy
        · exact h3 y hy
        · rw [List.mem_singleton.1 hy]; exact hB)⟩)
      simp at this

private theorem kind_at (he : NameTree A B e) {w : List Char} (hn : IsName A B w) : ∀ {keywords} {i : Nat} {k : K},
    FirstMatch (languages ((ruleWords keywords).map wordTree ++ e :: es)) w i →
    kindAt (wordRules keywords ++ (pattern, other) :: others) i w = some k → k = nameKind keywords other w := by
  intro keywords
  induction keywords with
  | nil =>
    intro i k h hk
    cases i with
    | zero => simpa [kindAt, wordRules, nameKind] using hk.symm
    | succ i => exact absurd ((matches_name he).2 hn) (h.first 0 _ (by omega) rfl)
  | cons a keywords ih =>
    intro i k h hk
    cases i with
    | zero =>
      obtain ⟨M, h1, h2⟩ := h.isMatch
      cases h1
      have : a.1 = w := (matches_word.1 h2).symm
      simpa [kindAt, wordRules, nameKind, this] using hk.symm
    | succ i =>
      have hne : a.1 ≠ w := fun h' => h.first 0 _ (by omega) rfl (matches_word.2 h'.symm)
      have := ih (i := i) (k := k) ⟨h.isMatch, fun j M hj hM => h.first (j + 1) M (by omega) hM⟩ hk
      rw [this, nameKind, nameKind, List.find?_cons_of_neg (by simpa using hne)]

private theorem names_in {rules : List (List Char × (List Char → K))} {given : List (List Char × (List Char → K))}
    (hl : LexerFor p rules all l) (ha : Consists keywords e es all) (he : NameTree A B e)
    (hk : ∀ k ∈ keywords, IsName A B k.1) (ho : OtherThanNames A es)
    (hkind : ∀ w i k, IsName A B w → FirstMatch (languages all) w i → kindAt rules i w = some k →
      k = nameKind given other w) (input : List Char) :
    (∃ ts, Tokens l input ts) ∧ ∀ ts, Tokens l input ts → ∃ tail, input = (ts.map Tok.source).flatten ++ tail ∧
      (∀ c, tail.head? = some c → ¬ LitSet A c) ∧
      NamesOf A B given other (ts.map fun t => (t.source, t.kind)) tail := by
  obtain ⟨h1, h2, _⟩ := c23_tokenizes_partial p _ _ l hl (all_regular ha he ho) (all_lookahead ha he hk ho)
  refine ⟨h1 input, fun ts hts => ?_⟩
  obtain ⟨ws, tail, h3, h4⟩ := h2 input ts hts
  have h5 : ts.map Tok.source = ws.map Prod.fst := by
    have := congrArg (List.map Prod.fst) h4
    simpa [Function.comp_def] using this
  refine ⟨tail, by rw [h5, h3.flatten], ?_, ?_⟩
  · intro c hc hA
    cases tail with
    | nil => cases hc
    | cons a tail =>
      cases hc
      exact h3.noMatch [c] (by simp) ⟨tail, rfl⟩ (any_languages.2 ⟨e, (ha e).2 (.inl rfl),
        (matches_name he).2 ⟨c, [], rfl, hA, by simp⟩⟩)
  · rintro before w k after hts ⟨c, hc, hA⟩
    obtain ⟨b, r, rfl, e1, e2⟩ := List.map_eq_append_iff.1 hts
    obtain ⟨t, a, rfl, e3, rfl⟩ := List.map_eq_cons_iff.1 e2
    cases e3
    rw [List.map_append, List.map_cons] at h4
    obtain ⟨wb, wr, rfl, e4, e5⟩ := List.map_eq_append_iff.1 h4.symm
    obtain ⟨⟨v, i⟩, wa, rfl, e6, e7⟩ := List.map_eq_cons_iff.1 e5
    simp only [Prod.mk.injEq] at e6
    obtain ⟨rfl, e6⟩ := e6
    obtain ⟨h6, h7⟩ := munch_at h3 _ _ _ _ rfl
    have h8 : wa.map Prod.fst = a.map Tok.source := by
      have := congrArg (List.map Prod.fst) e7
      simpa [Function.comp_def] using this
    obtain ⟨h9, h10⟩ := name_at ha he hk ho h6 hc hA
    refine ⟨h9, ?_, hkind _ _ _ h9 h7 e6⟩
    rw [h8] at h10
    simpa [List.map_map, Function.comp_def] using h10

/-- C112.  A lexer with keywords, a pattern for names behind them, and other patterns that no name begins with: on every
text the tokens are a beginning of the text, what is left does not begin like a name, and the tokens that begin like a
name are the names in the text, as long as possible each, with the kind of the keyword if it is one. -/
theorem c112_names (hl : LexerFor p (wordRules keywords ++ (pattern, other) :: others)
      ((ruleWords keywords).map wordTree ++ e :: es) l) (he : NameTree A B e) (hk : ∀ k ∈ keywords, IsName A B k.1)
    (ho : OtherThanNames A es) (input : List Char) :
    (∃ ts, Tokens l input ts) ∧ ∀ ts, Tokens l input ts → ∃ tail, input = (ts.map Tok.source).flatten ++ tail ∧
      (∀ c, tail.head? = some c → ¬ LitSet A c) ∧
      NamesOf A B keywords other (ts.map fun t => (t.source, t.kind)) tail :=
  names_in hl (fun x => by simp only [List.mem_append, List.mem_cons]; tauto) he hk ho
    (fun _ _ _ h1 h2 h3 => kind_at he h1 h2 h3) input

/-- C112, the order of the rules matters: if the keywords come behind the names then no token is a keyword. -/
theorem c112_hidden (hl : LexerFor p ((pattern, other) :: (wordRules keywords ++ others))
      (e :: ((ruleWords keywords).map wordTree ++ es)) l) (he : NameTree A B e) (hk : ∀ k ∈ keywords, IsName A B k.1)
    (ho : OtherThanNames A es) (input : List Char) :
    (∃ ts, Tokens l input ts) ∧ ∀ ts, Tokens l input ts → ∃ tail, input = (ts.map Tok.source).flatten ++ tail ∧
      (∀ c, tail.head? = some c → ¬ LitSet A c) ∧
      NamesOf A B [] other (ts.map fun t => (t.source, t.kind)) tail := by
  refine names_in (keywords := keywords) hl (fun x => by simp only [List.mem_append, List.mem_cons]) he hk ho ?_ input
  intro w i k h1 h2 h3
  cases i with
  | zero => simpa [kindAt, nameKind] using h3.symm
  | succ i => exact absurd ((matches_name he).2 h1) (h2.first 0 _ (by omega) rfl)

omit [Unicode] in
/-- C112, the lexer can be built: if it can be built without keywords. -/
theorem c112_builds [Unicode] (hl : LexerFor p ((pattern, other) :: others) (e :: es) l)
    (hk : ∀ k ∈ keywords, IsName A B k.1) :
    ∃ l', LexerFor p (wordRules keywords ++ (pattern, other) :: others) ((ruleWords keywords).map wordTree ++ e :: es)
      l' := by
  have hne : ∀ k ∈ keywords, k.1 ≠ [] := by
    rintro k h h'
    obtain ⟨_, _, h1, _⟩ := hk k h
    rw [h'] at h1
    cases h1
  have ht : (wordRules keywords ++ (pattern, other) :: others).map (fun r => parse p r.1) =
      ((ruleWords keywords).map wordTree ++ e :: es).map (fun e => .ok (.ok e)) := by
    rw [List.map_append, List.map_append, hl.trees]
    congr 1
    simp only [wordRules, ruleWords, List.map_map]
    exact List.map_congr_left fun k h => parse_quoted p (hne k h)
  obtain ⟨l', hl'⟩ := (c55_partial p (wordRules keywords ++ (pattern, other) :: others)).2.1 fun r hr => by
    rcases List.mem_append.1 hr with hr | hr
    · obtain ⟨k, h, rfl⟩ := List.mem_map.1 hr
      exact ⟨_, parse_quoted p (hne k h), word_noEmptySeq (hne k h)⟩
    · exact hl.toBuilt.usable r hr
  exact ⟨l', hl', ht⟩

/-! ### An example -/

/-- The small letters. -/
def smallLetters : Lit := .group false [.range 'a' 'z']

/-- The small letters and the digits. -/
def lettersDigits : Lit := .group false [.range 'a' 'z', .range '0' '9']

/-- The keywords `if` and `else`. -/
def ifElse : List (List Char × (List Char → Nat)) := [("if".toList, fun _ => 1), ("else".toList, fun _ => 2)]

/-- The tree of `[a-z][a-z0-9]*`. -/
def smallName : Expr := .concat [.lit smallLetters none, .lit lettersDigits (some .asterisk)]

omit [Unicode] in
theorem smallName_parse : parse .debug "[a-z][a-z0-9]*".toList = .ok (.ok smallName) := by
  unfold parse
  rw [show scan .debug "[a-z][a-z0-9]*".toList = ⟨[⟨.operator .leftBracket, (0, 1)⟩, ⟨.mtch 'a', (1, 2)⟩,
    ⟨.operator .minus, (2, 3)⟩, ⟨.mtch 'z', (3, 4)⟩, ⟨.operator .rightBracket, (4, 5)⟩,
    ⟨.operator .leftBracket, (5, 6)⟩, ⟨.mtch 'a', (6, 7)⟩, ⟨.operator .minus, (7, 8)⟩, ⟨.mtch 'z', (8, 9)⟩,
    ⟨.mtch '0', (9, 10)⟩, ⟨.operator .minus, (10, 11)⟩, ⟨.mtch '9', (11, 12)⟩, ⟨.operator .rightBracket, (12, 13)⟩,
    ⟨.quantifier .asterisk, (13, 14)⟩], .eof⟩ by decide +kernel]
  rfl

/-- A lexer of names and blanks. -/
theorem smallNames_for : ∃ l, LexerFor .debug [("[a-z][a-z0-9]*".toList, fun _ => 0), (" +".toList, fun _ => 3)]
    [smallName, .lit (.mtch ' ') (some .plus)] l := by
  have h2 : parse .debug " +".toList = .ok (.ok (.lit (.mtch ' ') (some .plus))) := by with_unfolding_all rfl
  obtain ⟨l, hl⟩ := (c55_partial (K := Nat) .debug
      [("[a-z][a-z0-9]*".toList, fun _ => 0), (" +".toList, fun _ => 3)]).2.1 (by
    intro r hr
    simp only [List.mem_cons, List.not_mem_nil, or_false] at hr
    rcases hr with rfl | rfl
    · exact ⟨_, smallName_parse, by rw [← hasEmptySeqB_iff]; decide⟩
    · exact ⟨_, h2, by rw [← hasEmptySeqB_iff]; decide⟩)
  exact ⟨l, hl, by simp only [List.map_cons, List.map_nil, smallName_parse, h2]⟩

theorem ifElse_names : ∀ k ∈ ifElse, IsName smallLetters lettersDigits k.1 := by
  intro k hk
  simp only [ifElse, List.mem_cons, List.not_mem_nil, or_false] at hk
  rcases hk with rfl | rfl
  · exact ⟨'i', ['f'], rfl, ⟨.range 'a' 'z', by simp, by simp [ItemSet]⟩, by
      intro d hd
      rw [List.mem_singleton.1 hd]
      exact ⟨.range 'a' 'z', by simp, by simp [ItemSet]⟩⟩
  · exact ⟨'e', ['l', 's', 'e'], rfl, ⟨.range 'a' 'z', by simp, by simp [ItemSet]⟩, by
      intro d hd
      simp only [List.mem_cons, List.not_mem_nil, or_false] at hd
      rcases hd with rfl | rfl | rfl <;> exact ⟨.range 'a' 'z', by simp, by simp [ItemSet]⟩⟩

theorem blanks_other : OtherThanNames smallLetters [.lit (.mtch ' ') (some .plus)] := by
  refine ⟨?_, ?_, ?_⟩
  · intro e he
    rw [List.mem_singleton.1 he]
    simp [RepeatsNonEmpty, CountsAtStart]
  · rintro w c hw _ ⟨e, he, hr⟩
    rw [List.mem_singleton.1 he] at hr
    refine ⟨_, List.mem_cons_self .., Matches.lit (by simp [QuantSet]) ?_⟩
    generalize hv : w ++ [c] = v at hr ⊢
    cases hr with
    | nothing => simp at hv
    | chars h => exact h
  · rintro e he c w ⟨i, hi, hc⟩ hr
    rw [List.mem_singleton.1 he] at hr
    rw [List.mem_singleton.1 hi] at hc
    cases hr with
    | chars h =>
      have : c = ' ' := h c (by simp)
      subst this
      exact absurd hc (by simp [ItemSet])

/-- The rules `if`, `else`, `[a-z][a-z0-9]*` and ` +`, on all texts. -/
theorem c112_example : ∃ l, LexerFor .debug
    (wordRules ifElse ++ ("[a-z][a-z0-9]*".toList, fun _ => 0) :: [(" +".toList, fun _ => 3)])
    ((ruleWords ifElse).map wordTree ++ smallName :: [.lit (.mtch ' ') (some .plus)]) l ∧
    ∀ input, (∃ ts, Tokens l input ts) ∧ ∀ ts, Tokens l input ts →
      ∃ tail, input = (ts.map Tok.source).flatten ++ tail ∧ (∀ c, tail.head? = some c → ¬ LitSet smallLetters c) ∧
        NamesOf smallLetters lettersDigits ifElse (fun _ => 0) (ts.map fun t => (t.source, t.kind)) tail := by
  obtain ⟨l, hl⟩ := smallNames_for
  obtain ⟨l', hl'⟩ := c112_builds hl ifElse_names
  exact ⟨l', hl', c112_names hl' .first ifElse_names blanks_other⟩

/-- What this says about `if iff2`: these tokens would do, and `if`, ` `, `if` and what follows would not. -/
example : nameKind ifElse (fun _ => 0) "if".toList = 1 ∧ nameKind ifElse (fun _ => 0) "iff2".toList = 0 ∧
    ¬ NamesOf smallLetters lettersDigits ifElse (fun _ => 0) [("if".toList, 1), (" ".toList, 3), ("if".toList, 1)]
      "f2".toList := by
  refine ⟨by decide, by decide, fun h => ?_⟩
  have := (h [("if".toList, 1), (" ".toList, 3)] "if".toList 1 [] rfl ⟨'i', rfl, .range 'a' 'z', by simp, by simp [ItemSet]⟩).2.1
  exact this 'f' rfl ⟨.range 'a' 'z', by simp, by simp [ItemSet]⟩

/-- The same rules in another order hide the keywords. -/
example : ∃ l, ∀ input ts, Tokens l input ts → ∃ tail, input = (ts.map Tok.source).flatten ++ tail ∧
    (∀ c, tail.head? = some c → ¬ LitSet smallLetters c) ∧
    NamesOf smallLetters lettersDigits [] (fun _ => 0) (ts.map fun t => (t.source, t.kind)) tail := by
  obtain ⟨l, hl⟩ := smallNames_for
  exact ⟨l, fun input => (c112_hidden (keywords := []) hl .first (by simp) blanks_other input).2⟩

end Pango.Props
