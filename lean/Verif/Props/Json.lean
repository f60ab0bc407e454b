import Verif.Proofs.Json
import Verif.Props.Blanks
import Verif.Props.EndMarker
import Verif.Props.ReadBack
import Verif.Props.Strings

/-!
# C120: a reader for data in the style of JSON
-/

namespace Pango.Props

open Pango Pango.Parse Pango.Spec Pango.Lex Pango.Regex

/-! ## The lexer -/

/-- What is behind a text is ignored: the number that the text begins with. -/
def intOf : List Char → Int
  | '-' :: w => -(Nat.ofDigitChars 10 (w.takeWhile Char.isDigit) 0 : Nat)
  | w => (Nat.ofDigitChars 10 (w.takeWhile Char.isDigit) 0 : Nat)

/-- The tree of `\-?\d+`. -/
def numTree : Regex.Expr := .concat [.lit (.mtch '-') (some .questionMark), .lit (.cls .digit) (some .plus)]

/-- The characters that can be behind a word: `[ \t\r\n]`. -/
def jsonBlank : Lit := .group false [.mtch ' ', .mtch '\t', .mtch '\r', .mtch '\n']

/-- The patterns without blanks, with their trees, and the functions of the rules. -/
def jsonCores : List (List Char × Regex.Expr × (List Char → JsonTok)) := [
  ("\"([^\"\\\\]|\\\\.)*\"".toList, stringTree, fun w => .str (unquote w)),
  ("\\-?\\d+".toList, numTree, fun w => .num (intOf w)),
  ("null".toList, wordTree "null".toList, fun _ => .null),
  ("true".toList, wordTree "true".toList, fun _ => .bool true),
  ("false".toList, wordTree "false".toList, fun _ => .bool false),
  ("\\[".toList, wordTree "[".toList, fun _ => .leftBracket),
  ("\\]".toList, wordTree "]".toList, fun _ => .rightBracket),
  ("\\{".toList, wordTree "{".toList, fun _ => .leftBrace),
  ("\\}".toList, wordTree "}".toList, fun _ => .rightBrace),
  (",".toList, wordTree ",".toList, fun _ => .comma),
  (":".toList, wordTree ":".toList, fun _ => .colon),
  (";".toList, wordTree ";".toList, fun _ => .stop)]

/-- The rules of the lexer: `(...)([ \t\r\n]*)` for each pattern. -/
def jsonRules : List (List Char × (List Char → JsonTok)) :=
  jsonCores.map fun c => (blankPattern "[ \t\r\n]*".toList c.1, c.2.2)

def jsonTrees : List Regex.Expr := jsonCores.map fun c => blankTree jsonBlank c.2.1

private theorem blank_whole : Whole .debug "[ \t\r\n]*".toList (.lit jsonBlank (some .asterisk)) :=
  ⟨Expression.sub (.one (.mtch (.group (.more (.chr ' ') (.more (.chr '\t') (.more (.chr '\r') (.one (.chr '\n'))))))
    (.some .asterisk))), rfl⟩

private theorem string_whole : Whole .debug "\"([^\"\\\\]|\\\\.)*\"".toList stringTree := by
  refine ⟨?_, by decide +kernel⟩
  rw [show (scan .debug "\"([^\"\\\\]|\\\\.)*\"".toList).kinds = [.mtch '"', .operator .leftParen, .operator .leftBracket,
    .operator .carret, .mtch '"', .mtch '\\', .operator .rightBracket, .operator .vertical, .mtch '\\', .cls .wildcard,
    .operator .rightParen, .quantifier .asterisk, .mtch '"'] by decide +kernel]
  exact Expression.sub (.more (.mtch (.chr '"') .none) (.more (.group (Expression.alt
    (.one (.mtch (.negated (.more (.chr '"') (.one (.chr '\\')))) .none))
    (Expression.sub (.more (.mtch (.chr '\\') .none) (.one (.mtch (.cls .wildcard) .none))))) (.some .asterisk))
    (.one (.mtch (.chr '"') .none))))

private theorem core_whole : ∀ c ∈ jsonCores, Whole .debug c.1 c.2.1 := by
  intro c hc
  simp only [jsonCores, List.mem_cons, List.not_mem_nil, or_false] at hc
  rcases hc with rfl | rfl | rfl | rfl | rfl | rfl | rfl | rfl | rfl | rfl | rfl | rfl
  · exact string_whole
  · exact ⟨Expression.sub (.more (.mtch (.chr '-') (.some .questionMark)) (.one (.mtch (.cls .digit) (.some .plus)))), rfl⟩
  · exact ⟨Expression.sub (.more (.mtch (.chr 'n') .none) (.more (.mtch (.chr 'u') .none) (.more (.mtch (.chr 'l') .none)
      (.one (.mtch (.chr 'l') .none))))), rfl⟩
  · exact ⟨Expression.sub (.more (.mtch (.chr 't') .none) (.more (.mtch (.chr 'r') .none) (.more (.mtch (.chr 'u') .none)
      (.one (.mtch (.chr 'e') .none))))), rfl⟩
  · exact ⟨Expression.sub (.more (.mtch (.chr 'f') .none) (.more (.mtch (.chr 'a') .none) (.more (.mtch (.chr 'l') .none)
      (.more (.mtch (.chr 's') .none) (.one (.mtch (.chr 'e') .none)))))), rfl⟩
  · exact ⟨Expression.sub (.one (.mtch (.chr '[') .none)), rfl⟩
  · exact ⟨Expression.sub (.one (.mtch (.chr ']') .none)), rfl⟩
  · exact ⟨Expression.sub (.one (.mtch (.chr '{') .none)), rfl⟩
  · exact ⟨Expression.sub (.one (.mtch (.chr '}') .none)), rfl⟩
  · exact ⟨Expression.sub (.one (.mtch (.chr ',') .none)), rfl⟩
  · exact ⟨Expression.sub (.one (.mtch (.chr ':') .none)), rfl⟩
  · exact ⟨Expression.sub (.one (.mtch (.chr ';') .none)), rfl⟩

theorem json_for : ∃ l, LexerFor .debug jsonRules jsonTrees l := by
  obtain ⟨l, h⟩ := (c55_partial .debug jsonRules).2.1 fun r hr => by
    obtain ⟨c, hc, rfl⟩ := List.mem_map.1 hr
    have := (core_whole c hc).sequence blank_whole
    exact ⟨_, this.parses, this.noEmpty⟩
  refine ⟨l, h, ?_⟩
  rw [jsonRules, jsonTrees, List.map_map, List.map_map]
  exact List.map_congr_left fun c hc => ((core_whole c hc).sequence blank_whole).parses

/-! ## The words of the patterns -/

variable [Unicode]

/-- The number of the pattern that can begin with this character. -/
private def placeOf (c : Char) : Nat :=
  if c = '"' then 0 else if c = '-' ∨ c.isDigit = true then 1 else 2 + ['n', 't', 'f', '[', ']', '{', '}', ',', ':', ';'].idxOf c

/-- What is needed of the patterns. -/
private structure CoreOk (i : Nat) (e : Regex.Expr) (f : List Char → JsonTok) : Prop where
  regular : RepeatsNonEmpty e ∧ CountsAtStart e
  sound : ∀ u b, Matches e u → (∀ c ∈ b, IsBlank c) → JsonWord (f (u ++ b)) u
  begins : ∀ c w, MayRead e (c :: w) → placeOf c = i
  stays : ∀ u c x, Matches e u → MayRead e (u ++ c :: x) → c.isDigit = true ∧ Matches e (u ++ c :: x) ∧ i = 1

omit [Unicode] in
private theorem blank_iff [Unicode] {c : Char} : LitSet jsonBlank c ↔ IsBlank c := by
  simp [jsonBlank, LitSet, Spec.ItemSet, IsBlank]

omit [Unicode] in
private theorem blank_digit {c : Char} (h : IsBlank c) : c.isDigit = false := by
  rcases h with rfl | rfl | rfl | rfl <;> decide

private theorem digit_iff {c : Char} : LitSet (.cls .digit) c ↔ c.isDigit = true := by
  simp only [LitSet, ClassSet]
  constructor
  · intro h
    exact (by decide : ∀ c ∈ ['0', '1', '2', '3', '4', '5', '6', '7', '8', '9'], c.isDigit = true) c h
  · intro h
    have h1 : 48 ≤ c.toNat ∧ c.toNat ≤ 57 := by
      simp only [Char.isDigit, Bool.and_eq_true, decide_eq_true_eq] at h
      exact ⟨h.1, h.2⟩
    have h2 : ∀ n < 58, 48 ≤ n → Char.ofNat n ∈ ['0', '1', '2', '3', '4', '5', '6', '7', '8', '9'] := by decide
    have := h2 c.toNat (by omega) h1.1
    rwa [Char.ofNat_toNat] at this

private theorem mayRead_word {w v : List Char} (h : MayRead (wordTree w) v) : v <+: w := by
  rcases wordTree_cases w with ⟨c, rfl, h1⟩ | h1
  · rw [h1, read_lit] at h
    rcases h with rfl | ⟨d, rfl, rfl⟩
    · exact List.nil_prefix
    · exact List.prefix_refl _
  · rw [h1] at h
    exact mayRead_lits.1 h

private theorem word_ok {i : Nat} {a : Char} {w : List Char} {t : JsonTok} (h : placeOf a = i) (hw : JsonWord t (a :: w))
    (hr : RepeatsNonEmpty (wordTree (a :: w)) ∧ CountsAtStart (wordTree (a :: w))) :
    CoreOk i (wordTree (a :: w)) fun _ => t := by
  refine ⟨hr, ?_, ?_, ?_⟩
  · intro u b hm _
    rw [matches_word.1 hm]
    exact hw
  · intro c v hm
    rw [(List.cons_prefix_cons.1 (mayRead_word hm)).1]
    exact h
  · intro u c x hm hr
    rw [matches_word.1 hm] at hr
    have := (mayRead_word hr).length_le
    simp at this

omit [Unicode] in
private theorem escaped_of [Unicode] {v : List Char} (h : InQuotes plainChars '\\' (.cls .wildcard) v) (b : List Char) :
    Escaped (unquote.inside (v ++ '"' :: b)) v := by
  induction h with
  | nil => simpa [unquote.inside] using Escaped.nil
  | @plain c u hc _ ih =>
    obtain ⟨h1, h2⟩ : c ≠ '"' ∧ c ≠ '\\' := by simpa [plainChars, LitSet, Spec.ItemSet] using hc
    have : unquote.inside (c :: (u ++ '"' :: b)) = c :: unquote.inside (u ++ '"' :: b) := by
      rw [unquote.inside.eq_def]
      split
      · rename_i heq; simp at heq; exact absurd heq.1 h2
      · rename_i heq; simp at heq; exact absurd heq.1 h1
      · rename_i heq; simp at heq; obtain ⟨rfl, rfl⟩ := heq; rfl
      · rename_i heq; simp at heq
    rw [List.cons_append, this]
    exact .plain h1 h2 ih
  | escape _ _ ih =>
    simp only [List.cons_append, unquote.inside]
    exact .escape ih

omit [Unicode] in
private theorem escaped_iff [Unicode] {s v : List Char} (h : Escaped s v) :
    InQuotes plainChars '\\' (.cls .wildcard) v ∧ ∀ b, unquote.inside (v ++ '"' :: b) = s := by
  induction h with
  | nil => exact ⟨.nil, fun b => by simp [unquote.inside]⟩
  | @plain c s w h1 h2 _ ih =>
    refine ⟨.plain (by simp [plainChars, LitSet, Spec.ItemSet, h1, h2]) ih.1, fun b => ?_⟩
    rw [List.cons_append, unquote.inside.eq_def]
    split
    · rename_i heq; simp at heq; exact absurd heq.1 h2
    · rename_i heq; simp at heq; exact absurd heq.1 h1
    · rename_i heq; simp at heq; obtain ⟨rfl, rfl⟩ := heq; rw [ih.2]
    · rename_i heq; simp at heq
  | escape _ ih =>
    refine ⟨.escape trivial ih.1, fun b => ?_⟩
    simp only [List.cons_append, unquote.inside, ih.2]

private theorem string_ok : CoreOk 0 stringTree fun w => .str (unquote w) := by
  refine ⟨escapes_regular, ?_, ?_, ?_⟩
  · intro u b hm _
    obtain ⟨v, rfl, hv⟩ := escapes_matches.1 hm
    have := escaped_of hv b
    simp only [List.cons_append, List.append_assoc, List.nil_append, unquote]
    exact .string this
  · intro c w hm
    rw [escapes_begin hm]
    decide
  · intro u c x hm hr
    have := escapes_delimits (o := '"') (S := plainChars) (b := '\\') (X := .cls .wildcard) (q := '"')
      (by simp [plainChars, LitSet, Spec.ItemSet]) (by simp [plainChars, LitSet, Spec.ItemSet]) (by decide) _ _ hm hr
    cases this

private theorem num_matches {u : List Char} : Matches numTree u ↔
    ∃ ds, ds ≠ [] ∧ (∀ c ∈ ds, c.isDigit = true) ∧ (u = ds ∨ u = '-' :: ds) := by
  simp only [numTree, mat_cons, mat_nil, mat_lit, QuantSet, digit_iff]
  constructor
  · rintro ⟨m, _, rfl, ⟨h1, h2⟩, ds, _, rfl, ⟨h3, h4⟩, rfl⟩
    refine ⟨ds, by rintro rfl; simp at h3, h4, ?_⟩
    rcases h1 with h1 | h1
    · rw [List.length_eq_zero_iff.1 h1]
      simp
    · obtain ⟨c, rfl⟩ := List.length_eq_one_iff.1 h1
      have : c = '-' := h2 c (by simp)
      simp [this]
  · rintro ⟨ds, h1, h2, rfl | rfl⟩
    · exact ⟨[], u, rfl, by simp, u, [], by simp, ⟨List.length_pos_iff.2 h1, h2⟩, rfl⟩
    · exact ⟨['-'], ds, rfl, by simp [LitSet], ds, [], by simp, ⟨List.length_pos_iff.2 h1, h2⟩, rfl⟩

private theorem num_read {w : List Char} (h : MayRead numTree w) : (∀ c ∈ w, c = '-') ∨
    ∃ m ds, w = m ++ ds ∧ (m = [] ∨ m = ['-']) ∧ ∀ c ∈ ds, c.isDigit = true := by
  rw [numTree, read_cons, read_rep] at h
  rcases h with h | ⟨m, v, rfl, h1, h2⟩
  · exact .inl h
  · refine .inr ⟨m, v, rfl, ?_, ?_⟩
    · rw [mat_lit] at h1
      rcases h1.1 with h | h
      · exact .inl (List.length_eq_zero_iff.1 h)
      · obtain ⟨c, rfl⟩ := List.length_eq_one_iff.1 h
        rw [show c = '-' from h1.2 c (by simp)]
        exact .inr rfl
    · rw [read_cons, read_rep] at h2
      rcases h2 with h2 | ⟨u, x, rfl, h2, h3⟩
      · exact fun c hc => digit_iff.1 (h2 c hc)
      · rw [read_nil] at h3
        subst h3
        intro c hc
        exact digit_iff.1 ((mat_lit.1 h2).2 c (by simpa using hc))

omit [Unicode] in
private theorem digits_take {ds b : List Char} (h : ∀ c ∈ ds, c.isDigit = true) (hb : ∀ c ∈ b, IsBlank c) :
    (ds ++ b).takeWhile Char.isDigit = ds := by
  rw [List.takeWhile_append_of_pos h]
  cases b with
  | nil => simp
  | cons c b => simp [blank_digit (hb c (by simp))]

omit [Unicode] in
private theorem intOf_digits {ds b : List Char} (hne : ds ≠ []) (h : ∀ c ∈ ds, c.isDigit = true)
    (hb : ∀ c ∈ b, IsBlank c) : intOf (ds ++ b) = (Nat.ofDigitChars 10 ds 0 : Nat) := by
  have h1 : intOf (ds ++ b) = (Nat.ofDigitChars 10 ((ds ++ b).takeWhile Char.isDigit) 0 : Nat) := by
    rw [intOf.eq_def]
    split
    · rename_i w heq
      cases ds with
      | nil => exact absurd rfl hne
      | cons c ds =>
        simp only [List.cons_append, List.cons.injEq] at heq
        have := h c (by simp)
        rw [heq.1] at this
        exact absurd this (by decide)
    · rfl
  rw [h1, digits_take h hb]

private theorem num_ok : CoreOk 1 numTree fun w => .num (intOf w) := by
  refine ⟨⟨(repeatsNonEmptyB_iff _).1 (by decide), (countsAtStartB_iff _).1 (by decide)⟩, ?_, ?_, ?_⟩
  · intro u b hm hb
    obtain ⟨ds, h1, h2, rfl | rfl⟩ := num_matches.1 hm
    · rw [intOf_digits h1 h2 hb]
      exact .number h1 h2
    · rw [List.cons_append, intOf, digits_take h2 hb]
      exact .minus h1 h2
  · intro c w hm
    have : c = '-' ∨ c.isDigit = true := by
      rcases num_read hm with h | ⟨m, ds, h, rfl | rfl, h2⟩
      · exact .inl (h c (by simp))
      · exact .inr (h2 c (by rw [← List.nil_append ds, ← h]; simp))
      · cases h
        exact .inl rfl
    have hq : c ≠ '"' := by
      rintro rfl
      rcases this with h | h <;> exact absurd h (by decide)
    rw [placeOf, if_neg hq, if_pos this]
  · intro u c x hm hr
    obtain ⟨es, h1, h2, hu⟩ := num_matches.1 hm
    obtain ⟨d, es, rfl⟩ := List.exists_cons_of_ne_nil h1
    have hd := h2 d (by simp)
    have hmem : d ∈ u := by rcases hu with rfl | rfl <;> simp
    rcases num_read hr with h | ⟨m, ds, h, hm', h3⟩
    · rw [h d (by simp [hmem])] at hd
      exact absurd hd (by decide)
    · have hne : u ≠ [] := List.ne_nil_of_mem hmem
      obtain ⟨y, rfl, hy⟩ : ∃ y, u = m ++ y ∧ ds = y ++ c :: x := by
        rcases List.append_eq_append_iff.1 h with ⟨a, h4, h5⟩ | ⟨a, h4, h5⟩
        · have ha : a = [] := by
            rcases hm' with rfl | rfl
            · exact (List.append_eq_nil_iff.1 h4.symm).2
            · cases u with
              | nil => exact absurd rfl hne
              | cons z u =>
                simp only [List.cons_append, List.cons.injEq] at h4
                exact (List.append_eq_nil_iff.1 h4.2.symm).2
          subst ha
          exact ⟨[], by simpa using h4.symm, by simpa using h5.symm⟩
        · exact ⟨a, h4, h5⟩
      refine ⟨h3 c (by simp [hy]), ?_, rfl⟩
      rw [h]
      exact num_matches.2 ⟨ds, by simp [hy], h3, by rcases hm' with rfl | rfl <;> simp⟩

private theorem core_ok : ∀ i c, jsonCores[i]? = some c → CoreOk i c.2.1 c.2.2 := by
  intro i c h
  have word : ∀ {i : Nat} {a : Char} {w : List Char} {t : JsonTok}, placeOf a = i → JsonWord t (a :: w) →
      repeatsNonEmptyB (wordTree (a :: w)) = true → countsAtStartB (wordTree (a :: w)) = true →
      CoreOk i (wordTree (a :: w)) fun _ => t :=
    fun h1 h2 h3 h4 => word_ok h1 h2 ⟨(repeatsNonEmptyB_iff _).1 h3, (countsAtStartB_iff _).1 h4⟩
  match i, h with
  | 0, rfl => exact string_ok
  | 1, rfl => exact num_ok
  | 2, rfl => exact word (by decide) .null (by decide) (by decide)
  | 3, rfl => exact word (by decide) .true (by decide) (by decide)
  | 4, rfl => exact word (by decide) .false (by decide) (by decide)
  | 5, rfl => exact word (by decide) .leftBracket (by decide) (by decide)
  | 6, rfl => exact word (by decide) .rightBracket (by decide) (by decide)
  | 7, rfl => exact word (by decide) .leftBrace (by decide) (by decide)
  | 8, rfl => exact word (by decide) .rightBrace (by decide) (by decide)
  | 9, rfl => exact word (by decide) .comma (by decide) (by decide)
  | 10, rfl => exact word (by decide) .colon (by decide) (by decide)
  | 11, rfl => exact word (by decide) .stop (by decide) (by decide)
  | _ + 12, h => cases h

/-- Each word is matched by a pattern, whose function makes the token of it. -/
private theorem core_of {t : JsonTok} {u : List Char} (h : JsonWord t u) : ∃ (i : Nat) (c : List Char × Regex.Expr × (List Char → JsonTok)),
    jsonCores[i]? = some c ∧ Matches c.2.1 u ∧ ∀ b : List Char, (∀ c ∈ b, IsBlank c) → c.2.2 (u ++ b) = t := by
  have word : ∀ w : List Char, Matches (wordTree w) w := fun w => matches_word.2 rfl
  cases h with
  | null => exact ⟨2, _, rfl, word "null".toList, fun _ _ => rfl⟩
  | true => exact ⟨3, _, rfl, word "true".toList, fun _ _ => rfl⟩
  | false => exact ⟨4, _, rfl, word "false".toList, fun _ _ => rfl⟩
  | number h1 h2 =>
    exact ⟨1, _, rfl, num_matches.2 ⟨_, h1, h2, .inl rfl⟩, fun b hb => by rw [← intOf_digits h1 h2 hb]⟩
  | minus h1 h2 =>
    exact ⟨1, _, rfl, num_matches.2 ⟨_, h1, h2, .inr rfl⟩, fun b hb => by
      show JsonTok.num (intOf _) = _
      rw [List.cons_append, intOf, digits_take h2 hb]⟩
  | @string s w h =>
    obtain ⟨h1, h2⟩ := escaped_iff h
    exact ⟨0, _, rfl, escapes_matches.2 ⟨w, rfl, h1⟩, fun b _ => by
      show JsonTok.str (unquote _) = _
      simp only [List.cons_append, List.append_assoc, List.nil_append, unquote, h2]⟩
  | leftBracket => exact ⟨5, _, rfl, word "[".toList, fun _ _ => rfl⟩
  | rightBracket => exact ⟨6, _, rfl, word "]".toList, fun _ _ => rfl⟩
  | leftBrace => exact ⟨7, _, rfl, word "{".toList, fun _ _ => rfl⟩
  | rightBrace => exact ⟨8, _, rfl, word "}".toList, fun _ _ => rfl⟩
  | comma => exact ⟨9, _, rfl, word ",".toList, fun _ _ => rfl⟩
  | colon => exact ⟨10, _, rfl, word ":".toList, fun _ _ => rfl⟩
  | stop => exact ⟨11, _, rfl, word ";".toList, fun _ _ => rfl⟩

omit [Unicode] in
/-- How words begin. -/
private theorem word_front {t : JsonTok} {u : List Char} (h : JsonWord t u) :
    ∃ a x, u = a :: x ∧ ¬ IsBlank a ∧ (a.isDigit = true → ∃ z, t = .num z) := by
  have simple : ∀ {a : Char} {x : List Char}, a ∉ [' ', '\t', '\r', '\n'] → a.isDigit = false →
      ∃ a' x', a :: x = a' :: x' ∧ ¬ IsBlank a' ∧ (a'.isDigit = true → ∃ z, t = .num z) := by
    intro a x h1 h2
    refine ⟨a, x, rfl, fun h => h1 ?_, fun h => ?_⟩
    · rcases h with rfl | rfl | rfl | rfl <;> simp
    · rw [h2] at h
      cases h
  cases h with
  | number h1 h2 =>
    obtain ⟨c, ds, rfl⟩ := List.exists_cons_of_ne_nil h1
    refine ⟨c, ds, rfl, fun h => ?_, fun _ => ⟨_, rfl⟩⟩
    have := h2 c (by simp)
    rw [blank_digit h] at this
    cases this
  | _ => exact simple (by decide) (by decide)

omit [Unicode] in
private theorem tree_at {i : Nat} {e : Regex.Expr} (h : jsonTrees[i]? = some e) :
    ∃ c, jsonCores[i]? = some c ∧ e = blankTree jsonBlank c.2.1 := by
  rw [jsonTrees, List.getElem?_map, Option.map_eq_some_iff] at h
  obtain ⟨c, h1, h2⟩ := h
  exact ⟨c, h1, h2.symm⟩

private theorem language_at {i : Nat} {M : List Char → Prop} (h : (languages jsonTrees)[i]? = some M) :
    ∃ c, jsonCores[i]? = some c ∧ ∀ w, M w ↔ ∃ u b, w = u ++ b ∧ Matches c.2.1 u ∧ ∀ x ∈ b, IsBlank x := by
  rw [languages, List.getElem?_map, Option.map_eq_some_iff] at h
  obtain ⟨e, h1, rfl⟩ := h
  obtain ⟨c, h2, rfl⟩ := tree_at h1
  refine ⟨c, h2, fun w => ?_⟩
  show Matches (blankTree jsonBlank c.2.1) w ↔ _
  rw [matches_blank]
  simp only [blank_iff]

private theorem any_json {w : List Char} : AnyMatch (languages jsonTrees) w ↔
    ∃ (i : Nat) (c : List Char × Regex.Expr × (List Char → JsonTok)) (u b : List Char), jsonCores[i]? = some c ∧ w = u ++ b ∧ Matches c.2.1 u ∧ ∀ x ∈ b, IsBlank x := by
  constructor
  · rintro ⟨M, hM, h⟩
    obtain ⟨i, hi⟩ := List.mem_iff_getElem?.1 hM
    obtain ⟨c, h1, h2⟩ := language_at hi
    obtain ⟨u, b, h3⟩ := (h2 w).1 h
    exact ⟨i, c, u, b, h1, h3⟩
  · rintro ⟨i, c, u, b, h1, h2, h3, h4⟩
    refine ⟨_, List.mem_map.2 ⟨blankTree jsonBlank c.2.1, List.mem_map.2 ⟨c, List.mem_of_getElem? h1, rfl⟩, rfl⟩, ?_⟩
    exact matches_blank.2 ⟨u, b, h2, h3, fun x hx => blank_iff.2 (h4 x hx)⟩

private theorem core_front {i : Nat} {c : List Char × Regex.Expr × (List Char → JsonTok)} (hc : jsonCores[i]? = some c)
    {u : List Char} (h : Matches c.2.1 u) : ∃ a x, u = a :: x ∧ ¬ IsBlank a := by
  obtain ⟨a, x, h1, h2, _⟩ := word_front ((core_ok i c hc).sound u [] h (by simp))
  exact ⟨a, x, h1, h2⟩

/-- What can be read beyond a word: more digits of a number. -/
private theorem read_on {i j : Nat} {c d : List Char × Regex.Expr × (List Char → JsonTok)} (hc : jsonCores[i]? = some c)
    (hd : jsonCores[j]? = some d) {u b x : List Char} {a : Char} (hu : Matches c.2.1 u) (hb : ∀ x ∈ b, IsBlank x)
    (hr : MayRead d.2.1 (u ++ (b ++ a :: x))) :
    b = [] ∧ a.isDigit = true ∧ i = 1 ∧ c = d ∧ Matches c.2.1 (u ++ a :: x) := by
  obtain ⟨a', x', rfl, _⟩ := core_front hc hu
  obtain rfl : i = j := by
    rw [← (core_ok i c hc).begins a' _ hu.mayRead, ← (core_ok j d hd).begins a' _ hr]
  rw [hc] at hd
  cases hd
  cases b with
  | nil =>
    obtain ⟨h1, h2, h3⟩ := (core_ok i c hc).stays _ _ _ hu hr
    exact ⟨rfl, h1, h3, rfl, h2⟩
  | cons y b =>
    obtain ⟨h1, _⟩ := (core_ok i c hc).stays _ _ _ hu hr
    rw [blank_digit (hb y (by simp))] at h1
    cases h1

theorem json_regular : Regular jsonTrees := by
  intro e he
  obtain ⟨i, hi⟩ := List.mem_iff_getElem?.1 he
  obtain ⟨c, hc, rfl⟩ := tree_at hi
  obtain ⟨h1, h2⟩ := (core_ok i c hc).regular
  exact ⟨by simp [blankTree, RepeatsNonEmpty, RepeatsNonEmptyAll, h1],
    by simp [blankTree, CountsAtStart, CountsAtStartSeq, h2]⟩

theorem json_lookahead : OneLookahead jsonTrees := by
  rintro w a _ hm ⟨e, he, hr⟩
  obtain ⟨j, hj⟩ := List.mem_iff_getElem?.1 he
  obtain ⟨d, hd, rfl⟩ := tree_at hj
  obtain ⟨i, c, u, b, hc, rfl, hu, hb⟩ := any_json.1 hm
  rcases read_blank hr with h | ⟨u', v, h, h1, h2⟩
  · rw [List.append_assoc] at h
    obtain ⟨rfl, _, _, _, h4⟩ := read_on hc hd hu hb h
    exact any_json.2 ⟨i, c, u ++ [a], [], hc, by simp, h4, by simp⟩
  · rw [h]
    exact any_json.2 ⟨j, d, u', v, hd, rfl, h1, fun x hx => blank_iff.1 (h2 x hx)⟩

private theorem first_json {i : Nat} {c : List Char × Regex.Expr × (List Char → JsonTok)} (hc : jsonCores[i]? = some c)
    {u b : List Char} (hu : Matches c.2.1 u) (hb : ∀ x ∈ b, IsBlank x) :
    FirstMatch (languages jsonTrees) (u ++ b) i := by
  refine ⟨⟨fun w => Matches (blankTree jsonBlank c.2.1) w, by simp [languages, jsonTrees, hc],
    matches_blank.2 ⟨u, b, rfl, hu, fun x hx => blank_iff.2 (hb x hx)⟩⟩, ?_⟩
  intro j M hj hM hm
  obtain ⟨d, hd, h⟩ := language_at hM
  obtain ⟨u', b', h1, h2, _⟩ := (h _).1 hm
  obtain ⟨a, x, rfl, _⟩ := core_front hc hu
  obtain ⟨a', x', rfl, _⟩ := core_front hd h2
  simp only [List.cons_append, List.cons.injEq] at h1
  obtain ⟨rfl, -⟩ := h1
  have h3 := (core_ok i c hc).begins a _ hu.mayRead
  have h4 := (core_ok j d hd).begins a _ h2.mayRead
  omega

/-- A word with blanks behind it is the longest match, if neither a blank nor another digit follows. -/
private theorem longest_json {i : Nat} {c : List Char × Regex.Expr × (List Char → JsonTok)} (hc : jsonCores[i]? = some c)
    {u b rest : List Char} (hu : Matches c.2.1 u) (hb : ∀ x ∈ b, IsBlank x)
    (hr : ∀ a, rest.head? = some a → ¬ IsBlank a ∧ (i = 1 → a.isDigit = false)) :
    Longest (languages jsonTrees) ((u ++ b) ++ rest) (u ++ b) := by
  obtain ⟨a, x, hax, _⟩ := core_front hc hu
  refine ⟨by simp [hax], List.prefix_append _ _, any_json.2 ⟨i, c, u, b, hc, rfl, hu, hb⟩, ?_⟩
  intro v hv hm
  rcases List.prefix_or_prefix_of_prefix hv (List.prefix_append (u ++ b) rest) with h | ⟨y, rfl⟩
  · exact h.length_le
  · cases y with
    | nil => simp
    | cons a' y =>
      exfalso
      have hv' := (List.prefix_append_right_inj _).1 hv
      obtain ⟨z, hz⟩ := hv'
      obtain ⟨h1, h2⟩ := hr a' (by rw [← hz]; rfl)
      obtain ⟨j, d, u', b', hd, h3, h4, h5⟩ := any_json.1 hm
      have : ∃ y', u' = u ++ (b ++ a' :: y') := by
        rcases List.append_eq_append_iff.1 h3 with ⟨k, h6, h7⟩ | ⟨k, h6, h7⟩
        · cases k with
          | nil =>
            rw [List.nil_append] at h7
            exact absurd (h5 a' (by rw [← h7]; simp)) h1
          | cons k0 k =>
            simp only [List.cons_append, List.cons.injEq] at h7
            refine ⟨k, ?_⟩
            rw [h6, h7.1, List.append_assoc]
        · exact absurd (h5 a' (by rw [h7]; simp)) h1
      obtain ⟨y', rfl⟩ := this
      obtain ⟨_, h6, h7, _⟩ := read_on hc hd hu hb h4.mayRead
      rw [h2 h7] at h6
      cases h6

/-! ## The tokens of a text -/

/-- The tokens are not both numbers. -/
private def Apart (t u : JsonTok) : Prop := ¬ ((∃ z, t = .num z) ∧ ∃ z, u = .num z)

private theorem kind_json {i : Nat} {c : List Char × Regex.Expr × (List Char → JsonTok)} (hc : jsonCores[i]? = some c)
    (w : List Char) : kindAt jsonRules i w = some (c.2.2 w) := by
  simp [kindAt, jsonRules, hc]

private theorem munch_of {ts : List JsonTok} {w : List Char} (h : JsonText ts w) (hc : ts.IsChain Apart)
    {tail : List Char} (ht : BeginsWithNone tail) : ∃ ws, Munch (languages jsonTrees) (w ++ tail) ws tail ∧
      ws.map (fun w => kindAt jsonRules w.2 w.1) = ts.map some := by
  induction h with
  | nil =>
    refine ⟨[], .stop fun w hw hp hm => ?_, rfl⟩
    obtain ⟨i, c, u, b, hc, rfl, hu, _⟩ := any_json.1 hm
    exact ht.1 _ u ((List.prefix_append u b).trans hp) ((core_ok i c hc).sound u [] hu (by simp))
  | @cons t ts u b text hu hb hrest ih =>
    obtain ⟨i, c, h1, h2, h3⟩ := core_of hu
    obtain ⟨ws, h4, h5⟩ := ih hc.of_cons
    refine ⟨(u ++ b, i) :: ws, ?_, ?_⟩
    · have : u ++ (b ++ text) ++ tail = (u ++ b) ++ (text ++ tail) := by simp
      rw [this]
      refine .token (longest_json h1 h2 hb ?_) (first_json h1 h2 hb) h4
      intro a ha
      cases hrest with
      | nil =>
        rw [List.nil_append] at ha
        refine ⟨ht.2 a ha, fun _ => ?_⟩
        cases tail with
        | nil => cases ha
        | cons a' tail =>
          cases ha
          cases hd : a.isDigit with
          | false => rfl
          | true => exact absurd (JsonWord.number (ds := [a]) (by simp) (by simpa using hd)) (ht.1 _ _ ⟨tail, rfl⟩)
      | @cons t' _ u' _ _ hu' _ _ =>
        obtain ⟨a', x, rfl, h6, h7⟩ := word_front hu'
        cases ha
        refine ⟨h6, fun hi => ?_⟩
        cases hd : a.isDigit with
        | false => rfl
        | true =>
          subst hi
          cases h1
          exact absurd ⟨⟨_, (h3 [] (by simp)).symm⟩, h7 hd⟩ (List.isChain_cons_cons.1 hc).1
    · rw [List.map_cons, List.map_cons, h5, kind_json h1, h3 b hb]

private theorem text_of {input : List Char} {ws : List (List Char × Nat)} {tail : List Char}
    (h : Munch (languages jsonTrees) input ws tail) : ∃ ts w, input = w ++ tail ∧ JsonText ts w ∧
      ws.map (fun w => kindAt jsonRules w.2 w.1) = ts.map some ∧
      (ws ≠ [] → ∀ a, tail.head? = some a → ¬ IsBlank a) := by
  induction h with
  | stop _ => exact ⟨[], [], rfl, .nil, rfl, fun h => absurd rfl h⟩
  | @token w rest i ws tail h1 h2 h3 ih =>
    obtain ⟨ts, text, h4, h5, h6, h7⟩ := ih
    obtain ⟨M, h8, h9⟩ := h2.isMatch
    obtain ⟨c, hc, hM⟩ := language_at h8
    obtain ⟨u, b, rfl, hu, hb⟩ := (hM w).1 h9
    refine ⟨c.2.2 (u ++ b) :: ts, u ++ (b ++ text), by rw [h4]; simp, .cons ((core_ok i c hc).sound u b hu hb) hb h5,
      by rw [List.map_cons, List.map_cons, h6, kind_json hc], fun _ a ha hbl => ?_⟩
    cases h3 with
    | stop _ =>
      cases rest with
      | nil => cases ha
      | cons a' rest =>
        cases ha
        have := h1.longest (u ++ (b ++ [a])) ⟨rest, by simp⟩ (any_json.2 ⟨i, c, u, b ++ [a], hc, rfl, hu, by
          intro x hx
          rcases List.mem_append.1 hx with hx | hx
          · exact hb x hx
          · rw [List.mem_singleton.1 hx]
            exact hbl⟩)
        simp at this
    | token _ _ _ => exact h7 (by simp) a ha hbl

omit [Unicode] in
private theorem text_never {ts : List JsonTok} {w : List Char} (h : JsonText ts w) : ∀ t ∈ ts, t ≠ .never := by
  induction h with
  | nil => simp
  | cons hu _ _ ih =>
    intro t ht
    rcases List.mem_cons.1 ht with rfl | ht
    · rintro rfl
      cases hu
    · exact ih t ht

/-! ## The tokens of data -/

omit [Unicode] in
private theorem chain_cons {t : JsonTok} {l : List JsonTok} (ht : ∀ z, t ≠ .num z) (h : l.IsChain Apart) :
    (t :: l).IsChain Apart := by
  cases l with
  | nil => simp
  | cons u l => exact List.isChain_cons_cons.2 ⟨fun ⟨⟨z, hz⟩, _⟩ => ht z hz, h⟩

omit [Unicode] in
private theorem chain_mid {l l' : List JsonTok} {t : JsonTok} (ht : ∀ z, t ≠ .num z) (h : l.IsChain Apart)
    (h' : l'.IsChain Apart) : (l ++ t :: l').IsChain Apart := by
  refine List.isChain_append.2 ⟨h, chain_cons ht h', fun x _ y hy => ?_⟩
  cases hy
  exact fun ⟨_, z, hz⟩ => ht z hz

omit [Unicode] in
private theorem chain_commas {ws : List (List JsonTok)} (h : ∀ w ∈ ws, w.IsChain Apart) :
    (withCommas ws).IsChain Apart := by
  induction ws with
  | nil => simp [withCommas]
  | cons w ws ih =>
    cases ws with
    | nil => simpa [withCommas] using h w (by simp)
    | cons v ws => exact chain_mid nofun (h w (by simp)) (ih fun w hw => h w (List.mem_cons_of_mem _ hw))

omit [Unicode] in
mutual
private theorem chain_tokens : ∀ j : Json, j.tokens.IsChain Apart
  | .null => by simp [Json.tokens]
  | .bool _ => by simp [Json.tokens]
  | .num _ => by simp [Json.tokens]
  | .str _ => by simp [Json.tokens]
  | .arr js => by
    rw [Json.tokens, List.cons_append]
    exact chain_cons nofun (chain_mid nofun (chain_commas (chain_items js)) (by simp))
  | .obj fs => by
    rw [Json.tokens, List.cons_append]
    exact chain_cons nofun (chain_mid nofun (chain_commas (chain_fields fs)) (by simp))

private theorem chain_items : ∀ js : List Json, ∀ w ∈ itemTokens js, w.IsChain Apart
  | [], _, h => by simp [itemTokens] at h
  | j :: js, w, h => by
    rw [itemTokens] at h
    rcases List.mem_cons.1 h with rfl | h
    · exact chain_tokens j
    · exact chain_items js w h

private theorem chain_fields : ∀ fs : List (List Char × Json), ∀ w ∈ fieldTokens fs, w.IsChain Apart
  | [], _, h => by simp [fieldTokens] at h
  | (s, j) :: fs, w, h => by
    rw [fieldTokens] at h
    rcases List.mem_cons.1 h with rfl | h
    · exact chain_cons nofun (chain_cons nofun (chain_tokens j))
    · exact chain_fields fs w h
end

/-! ## The parser -/

instance : LawfulTerminalEq JsonTok where
  refl t := by cases t <;> simp [teq, JsonTok.same]
  symm s t h := by
    simp only [teq, JsonTok.same] at h ⊢
    cases s <;> cases t <;> simp at h ⊢ <;> exact h.symm
  trans s t u h h' := by
    simp only [teq, JsonTok.same] at h h' ⊢
    cases s <;> cases t <;> simp at h <;> cases u <;> simp at h' ⊢ <;> exact h.trans h'

omit [Unicode] in
theorem json_built : Built jsonGrammar :=
  ⟨[.setStart .value,
    .addRules .value [[.term .null], [.term (.bool true)], [.term (.bool false)], [.term (.num 0)], [.term (.str [])],
      [.term .leftBracket, .var .rest], [.term .leftBrace, .var .fields]],
    .addRules .rest [[.term .rightBracket], [.var .items, .term .rightBracket]],
    .addRules .items [[.var .value], [.var .items, .term .comma, .var .value]],
    .addRules .fields [[.term .rightBrace], [.var .members, .term .rightBrace]],
    .addRules .members [[.var .member], [.var .members, .term .comma, .var .member]],
    .addRules .member [[.term (.str []), .term .colon, .var .value]]], by decide +kernel⟩

private def jsonTable : Table JsonVar JsonTok :=
  match slrNew (withEnd jsonGrammar .document .stop .never) .insertion 200 with
  | .ok t => t
  | _ => ⟨.document, [], []⟩

omit [Unicode] in
private theorem json_rules {P : JsonVar → Body JsonVar JsonTok → Prop} [∀ v β, Decidable (P v β)]
    (h : ∀ r ∈ jsonGrammar.rules, P r.1 r.2) : ∀ v β, (v, β) ∈ jsonGrammar.rules → P v β := fun v β hr => h (v, β) hr

omit [Unicode] in
private theorem json_epsFree : EpsFree jsonGrammar :=
  json_rules (P := fun _ β => Sym.eps ∉ β) (by decide)

omit [Unicode] in
private theorem json_terms : ∀ v β t, (v, β) ∈ jsonGrammar.rules → Sym.term t ∈ β →
    teq t JsonTok.stop = false ∧ teq t JsonTok.never = false := by
  have h : ∀ r ∈ jsonGrammar.rules, ∀ x ∈ r.2, match x with
      | .term t => teq t JsonTok.stop = false ∧ teq t JsonTok.never = false
      | _ => True := by
    intro r hr
    simp only [jsonGrammar, List.mem_cons, List.not_mem_nil, or_false] at hr
    rcases hr with rfl | rfl | rfl | rfl | rfl | rfl | rfl | rfl | rfl | rfl | rfl | rfl | rfl | rfl | rfl | rfl <;> simp <;>
      decide
  exact fun v β t hr ht => h (v, β) hr (.term t) ht

omit [Unicode] in
private theorem json_notIn : NotIn jsonGrammar .document .stop .never where
  head := by
    intro β h
    have : ∀ r ∈ jsonGrammar.rules, r.1 ≠ .document := by decide
    exact this _ h rfl
  marker v β t h ht := (json_terms v β t h ht).1
  never v β t h ht := (json_terms v β t h ht).2
  differ := by decide

omit [Unicode] in
private theorem json_reachable : ∀ v β, (v, β) ∈ jsonGrammar.rules → Reachable jsonGrammar v := by
  have h1 : Reachable jsonGrammar .value := .start
  have h2 : Reachable jsonGrammar .rest := .step (β := [.term .leftBracket, .var .rest]) h1 (by simp [jsonGrammar]) (by simp)
  have h3 : Reachable jsonGrammar .fields := .step (β := [.term .leftBrace, .var .fields]) h1 (by simp [jsonGrammar]) (by simp)
  have h4 : Reachable jsonGrammar .items :=
    .step (β := [.var .items, .term .rightBracket]) h2 (by simp [jsonGrammar]) (by simp)
  have h5 : Reachable jsonGrammar .members :=
    .step (β := [.var .members, .term .rightBrace]) h3 (by simp [jsonGrammar]) (by simp)
  have h6 : Reachable jsonGrammar .member := .step (β := [.var .member]) h5 (by simp [jsonGrammar]) (by simp)
  intro v β h
  cases v with
  | document => exact absurd h (json_notIn.head β)
  | _ => assumption

omit [Unicode] in
private theorem json_first : ∀ v β, (v, β) ∈ jsonGrammar.rules → ∃ t, InFirst jsonGrammar [.var v] (.term t) := by
  have one : ∀ {v : JsonVar} (t : JsonTok), Starts jsonGrammar t [.var v] →
      ∃ t, InFirst jsonGrammar [.var v] (.term t) := fun t h => ⟨t, derives_starts.2 h⟩
  intro v β h
  cases v with
  | value => exact one .null (.inVar (β := [.term .null]) (by simp [jsonGrammar]) .term)
  | rest => exact one .rightBracket (.inVar (β := [.term .rightBracket]) (by simp [jsonGrammar]) .term)
  | items => exact one .null (.inVar (β := [.var .value]) (by simp [jsonGrammar])
      (.inVar (β := [.term .null]) (by simp [jsonGrammar]) .term))
  | fields => exact one .rightBrace (.inVar (β := [.term .rightBrace]) (by simp [jsonGrammar]) .term)
  | members => exact one (.str []) (.inVar (β := [.var .member]) (by simp [jsonGrammar])
      (.inVar (β := [.term (.str []), .term .colon, .var .value]) (by simp [jsonGrammar]) .term))
  | member => exact one (.str []) (.inVar (β := [.term (.str []), .term .colon, .var .value]) (by simp [jsonGrammar]) .term)
  | document => exact absurd h (json_notIn.head β)

omit [Unicode] in
/-- C120.  The lexer and the parser can be built. -/
theorem c120_builds : (∃ l, LexerFor .debug jsonRules jsonTrees l) ∧ Built jsonGrammar ∧
    ∃ tbl, IsParser (withEnd jsonGrammar .document .stop .never) tbl :=
  ⟨json_for, json_built, jsonTable, 200, .insertion, by decide +kernel⟩

variable {l : Lexer JsonTok} {tbl : Table JsonVar JsonTok}

/-- C120.  The reader returns on every text.  It returns a tree exactly for the texts of data with a semicolon, and
possibly something behind it that begins with no word and no blank; the tree is that of the data. -/
theorem c120_reads (hl : LexerFor .debug jsonRules jsonTrees l)
    (hp : IsParser (withEnd jsonGrammar .document .stop .never) tbl) (text : List Char) :
    ∃ r, Parses l tbl text r ∧ ∀ n, r = some n ↔ ∃ (j : Json) (w tail : List Char), text = w ++ tail ∧
      JsonText (j.tokens ++ [.stop]) w ∧ BeginsWithNone tail ∧ n = .mk (.var .document) [leaf .stop, j.tree] := by
  obtain ⟨k1, k2, _⟩ := c23_tokenizes_partial .debug _ _ l hl json_regular json_lookahead
  obtain ⟨ts, hts⟩ := k1 text
  obtain ⟨ws, tail, h1, h2⟩ := k2 _ _ hts
  have h3 : (ts.map Tok.kind).map some = ws.map fun w => kindAt jsonRules w.2 w.1 := by
    have := congrArg (List.map Prod.snd) h2
    simpa [Function.comp_def] using this
  obtain ⟨us, w, rfl, h4, h5, h6⟩ := text_of h1
  have h7 : ts.map Tok.kind = us :=
    (List.map_inj_right (f := some) fun a b h => by simpa using h).1 (h3.trans h5)
  obtain ⟨r, h8, h9⟩ := c86_reads json_built json_epsFree json_reachable json_first json_notIn hp (input := ts.map Tok.kind)
    (by
      intro t ht
      rw [h7] at ht
      have := text_never h4 t ht
      cases t <;> first | rfl | exact absurd rfl this) (Nat.lt_succ_self _)
  refine ⟨r, parses_of_tokens hts h8, fun n => ?_⟩
  rw [h9]
  constructor
  · rintro ⟨v, e, m, h10, h11, h12, rfl⟩
    obtain ⟨j, rfl, rfl⟩ := json_tree.1 h12
    obtain rfl : e = .stop := by
      cases e <;> first | rfl | cases h11
    rw [h7] at h10
    subst h10
    refine ⟨j, w, tail, rfl, h4, ⟨fun t u hu hw => ?_, h6 ?_⟩, rfl⟩
    · obtain ⟨i, c, hc, hm, _⟩ := core_of hw
      obtain ⟨a, x, rfl, _⟩ := word_front hw
      exact h1.noMatch _ (by simp) hu (any_json.2 ⟨i, c, _, [], hc, by simp, hm, by simp⟩)
    · rintro rfl
      simp at h5
  · rintro ⟨j, w', tail', h10, h11, h12, rfl⟩
    have hch : (j.tokens ++ [JsonTok.stop]).IsChain Apart := chain_mid nofun (chain_tokens j) (by simp)
    obtain ⟨ws', h13, h14⟩ := munch_of h11 hch h12
    rw [← h10] at h13
    obtain ⟨rfl, rfl⟩ := h1.unique h13
    rw [h14] at h3
    have h15 := (List.map_inj_right (f := some) fun a b h => by simpa using h).1 h3
    exact ⟨j.tokens, .stop, j.tree, h15, by decide, json_tree.2 ⟨j, rfl, rfl⟩, rfl⟩

/-! ## What the trees say -/

omit [Unicode] in
private theorem fold_inj {v : JsonVar} (ns : List (Node JsonVar JsonTok)) : ∀ (ms : List (Node JsonVar JsonTok))
    (a b : Node JsonVar JsonTok),
    ns.foldl (fun before n => Node.mk (.var v) [n, leaf .comma, before]) (.mk (.var v) [a]) =
      ms.foldl (fun before n => Node.mk (.var v) [n, leaf .comma, before]) (.mk (.var v) [b]) → a = b ∧ ns = ms := by
  induction ns using List.reverseRecOn with
  | nil =>
    intro ms a b h
    rcases List.eq_nil_or_concat ms with rfl | ⟨ms, m, rfl⟩
    · exact ⟨by simpa using h, rfl⟩
    · simp at h
  | append_singleton ns n ih =>
    intro ms a b h
    rcases List.eq_nil_or_concat ms with rfl | ⟨ms, m, rfl⟩
    · simp at h
    · simp only [List.concat_eq_append, List.foldl_append, List.foldl_cons, List.foldl_nil, Node.mk.injEq, List.cons.injEq,
        true_and, and_true] at h
      obtain ⟨rfl, rfl⟩ := ih ms a b h.2
      exact ⟨rfl, by rw [h.1]; simp⟩

omit [Unicode] in
private theorem commaTree_inj {v : JsonVar} {ns ms : List (Node JsonVar JsonTok)} (h : commaTree v ns = commaTree v ms) :
    ns = ms := by
  cases ns with
  | nil => cases ms with
    | nil => rfl
    | cons _ _ => cases h
  | cons a ns => cases ms with
    | nil => cases h
    | cons b ms =>
      obtain ⟨rfl, rfl⟩ := fold_inj ns ms a b (List.cons.inj h).1
      rfl

omit [Unicode] in
mutual
private theorem tree_inj : ∀ j k : Json, j.tree = k.tree → j = k
  | .null, k, h => by cases k <;> simp_all [Json.tree, leaf]
  | .bool _, k, h => by cases k <;> simp_all [Json.tree, leaf]
  | .num _, k, h => by cases k <;> simp_all [Json.tree, leaf]
  | .str _, k, h => by cases k <;> simp_all [Json.tree, leaf]
  | .arr js, k, h => by
    cases k with
    | arr ks =>
      simp only [Json.tree, Node.mk.injEq, List.cons.injEq, true_and, and_true] at h
      rw [items_inj js ks (commaTree_inj h)]
    | _ => simp [Json.tree, leaf] at h
  | .obj fs, k, h => by
    cases k with
    | obj ks =>
      simp only [Json.tree, Node.mk.injEq, List.cons.injEq, true_and, and_true] at h
      rw [fields_inj fs ks (commaTree_inj h)]
    | _ => simp [Json.tree, leaf] at h

private theorem items_inj : ∀ js ks : List Json, itemTrees js = itemTrees ks → js = ks
  | [], [], _ => rfl
  | [], _ :: _, h => by simp [itemTrees] at h
  | _ :: _, [], h => by simp [itemTrees] at h
  | j :: js, k :: ks, h => by
    simp only [itemTrees, List.cons.injEq] at h
    rw [tree_inj j k h.1, items_inj js ks h.2]

private theorem fields_inj : ∀ fs gs : List (List Char × Json), fieldTrees fs = fieldTrees gs → fs = gs
  | [], [], _ => rfl
  | [], _ :: _, h => by simp [fieldTrees] at h
  | _ :: _, [], h => by simp [fieldTrees] at h
  | (s, j) :: fs, (t, k) :: gs, h => by
    simp only [fieldTrees, List.cons.injEq, Node.mk.injEq, leaf, true_and, and_true, Sym.term.injEq, JsonTok.str.injEq] at h
    rw [tree_inj j k h.1.1, h.1.2, fields_inj fs gs h.2]
end

omit [Unicode] in
/-- C120.  The tree says what the data is. -/
theorem c120_tree {j k : Json} (h : j.tree = k.tree) : j = k := tree_inj j k h

/-- C120.  A text is written for one document only, wherever it is said to end. -/
theorem c120_unique {j k : Json} {w w' tail tail' : List Char} (hj : JsonText (j.tokens ++ [.stop]) w)
    (ht : BeginsWithNone tail) (hk : JsonText (k.tokens ++ [.stop]) w') (ht' : BeginsWithNone tail')
    (h : w ++ tail = w' ++ tail') : j = k ∧ w = w' := by
  constructor
  · obtain ⟨⟨l, hl⟩, _, tbl, hp⟩ := c120_builds
    obtain ⟨r, _, h2⟩ := c120_reads hl hp (w ++ tail)
    have h3 := (h2 _).2 ⟨j, w, tail, rfl, hj, ht, rfl⟩
    have h4 := (h2 _).2 ⟨k, w', tail', h, hk, ht', rfl⟩
    have h5 := Option.some.inj (h3.symm.trans h4)
    simp only [Node.mk.injEq, List.cons.injEq, true_and, and_true] at h5
    exact c120_tree h5
  · obtain ⟨_, h1, _⟩ := munch_of hj (chain_mid nofun (chain_tokens j) (by simp)) ht
    obtain ⟨_, h2, _⟩ := munch_of hk (chain_mid nofun (chain_tokens k) (by simp)) ht'
    rw [← h] at h2
    obtain ⟨_, rfl⟩ := h1.unique h2
    exact List.append_cancel_right h

/-! ## Printing -/

omit [Unicode] in
private theorem escaped_print (s : List Char) :
    Escaped s (s.flatMap fun c => if c = '"' ∨ c = '\\' then ['\\', c] else [c]) := by
  induction s with
  | nil => exact .nil
  | cons c s ih =>
    rw [List.flatMap_cons]
    split
    · exact .escape ih
    · rename_i h
      exact .plain (fun e => h (.inl e)) (fun e => h (.inr e)) ih

omit [Unicode] in
private theorem word_print {t : JsonTok} (h : t ≠ .never) : JsonWord t t.print := by
  have digits : ∀ n, ∀ c ∈ Nat.toDigits 10 n, c.isDigit := fun n c hc =>
    Nat.isDigit_of_mem_toDigits (by decide) (by decide) hc
  have value : ∀ n, Nat.ofDigitChars 10 (Nat.toDigits 10 n) 0 = n := fun n =>
    Nat.ofDigitChars_toDigits (by decide) (by decide)
  cases t with
  | null => exact .null
  | bool b => cases b <;> constructor
  | num z =>
    rw [JsonTok.print]
    split
    · have := JsonWord.minus (ds := Nat.toDigits 10 z.natAbs) Nat.toDigits_ne_nil (digits _)
      rw [value] at this
      rwa [show z = -(z.natAbs : Int) by omega, Int.natAbs_neg, Int.natAbs_natCast]
    · have := JsonWord.number (ds := Nat.toDigits 10 z.natAbs) Nat.toDigits_ne_nil (digits _)
      rw [value] at this
      rwa [show z = (z.natAbs : Int) by omega, Int.natAbs_natCast]
  | str s => exact .string (escaped_print s)
  | never => exact absurd rfl h
  | _ => constructor

omit [Unicode] in
private theorem text_print {ts : List JsonTok} (h : ∀ t ∈ ts, t ≠ .never) : JsonText ts (ts.flatMap JsonTok.print) := by
  induction ts with
  | nil => exact .nil
  | cons t ts ih =>
    exact .cons (blanks := []) (word_print (h t (by simp))) (by simp) (ih fun t ht => h t (List.mem_cons_of_mem _ ht))

omit [Unicode] in
private theorem commas_never {ws : List (List JsonTok)} (h : ∀ w ∈ ws, ∀ t ∈ w, t ≠ .never) :
    ∀ t ∈ withCommas ws, t ≠ .never := by
  induction ws with
  | nil => simp [withCommas]
  | cons w ws ih =>
    cases ws with
    | nil => simpa [withCommas] using h w (by simp)
    | cons v ws =>
      intro t ht
      rw [withCommas, List.mem_append, List.mem_cons] at ht
      rcases ht with ht | rfl | ht
      · exact h w (by simp) t ht
      · exact nofun
      · exact ih (fun w hw => h w (List.mem_cons_of_mem _ hw)) t ht
      · simp

omit [Unicode] in
mutual
private theorem tokens_never : ∀ j : Json, ∀ t ∈ j.tokens, t ≠ .never
  | .null => by simp [Json.tokens]
  | .bool _ => by simp [Json.tokens]
  | .num _ => by simp [Json.tokens]
  | .str _ => by simp [Json.tokens]
  | .arr js => by
    intro t ht
    rw [Json.tokens, List.cons_append, List.mem_cons, List.mem_append, List.mem_singleton] at ht
    rcases ht with rfl | ht | rfl
    · exact nofun
    · exact commas_never (items_never js) t ht
    · exact nofun
  | .obj fs => by
    intro t ht
    rw [Json.tokens, List.cons_append, List.mem_cons, List.mem_append, List.mem_singleton] at ht
    rcases ht with rfl | ht | rfl
    · exact nofun
    · exact commas_never (fields_never fs) t ht
    · exact nofun

private theorem items_never : ∀ js : List Json, ∀ w ∈ itemTokens js, ∀ t ∈ w, t ≠ .never
  | [], _, h => by simp [itemTokens] at h
  | j :: js, w, h => by
    rw [itemTokens] at h
    rcases List.mem_cons.1 h with rfl | h
    · exact tokens_never j
    · exact items_never js w h

private theorem fields_never : ∀ fs : List (List Char × Json), ∀ w ∈ fieldTokens fs, ∀ t ∈ w, t ≠ .never
  | [], _, h => by simp [fieldTokens] at h
  | (s, j) :: fs, w, h => by
    rw [fieldTokens] at h
    rcases List.mem_cons.1 h with rfl | h
    · intro t ht
      rw [List.mem_cons, List.mem_cons] at ht
      rcases ht with rfl | rfl | ht
      · exact nofun
      · exact nofun
      · exact tokens_never j t ht
    · exact fields_never fs w h
end

omit [Unicode] in
/-- C120.  A printed document is a text of it. -/
theorem c120_print (j : Json) : JsonText (j.tokens ++ [.stop]) j.print :=
  text_print fun t ht => by
    rcases List.mem_append.1 ht with ht | ht
    · exact tokens_never j t ht
    · rw [List.mem_singleton.1 ht]
      exact nofun

/-- C120.  What is printed is read back, with anything behind it that begins with no word and no blank. -/
theorem c120_printed (hl : LexerFor .debug jsonRules jsonTrees l)
    (hp : IsParser (withEnd jsonGrammar .document .stop .never) tbl) (j : Json) {tail : List Char}
    (ht : BeginsWithNone tail) :
    Parses l tbl (j.print ++ tail) (some (.mk (.var .document) [leaf .stop, j.tree])) := by
  obtain ⟨r, h1, h2⟩ := c120_reads hl hp (j.print ++ tail)
  rwa [(h2 _).2 ⟨j, j.print, tail, rfl, c120_print j, ht, rfl⟩] at h1

omit [Unicode] in
/-- Nothing is behind the document, or something that cannot be read. -/
example : BeginsWithNone [] := ⟨fun t w hw h => by
  rw [List.prefix_nil] at hw
  subst hw
  cases h
  contradiction, nofun⟩

/-- A document with every kind of data. -/
private def aDocument : Json :=
  .obj [("a".toList, .arr [.num 1, .num (-2)]), ("b\"".toList, .null), ([], .obj []), ("c".toList, .arr [.bool true])]

example : aDocument.print = "{\"a\":[1,-2],\"b\\\"\":null,\"\":{},\"c\":[true]};".toList := by decide +kernel

/-- Blanks may be put behind the words, and numbers may have more digits. -/
example : JsonText ((Json.arr [.num 7, .str ['x']]).tokens ++ [.stop]) "[ 007,\n\"\\x\" ] ; ".toList :=
  .cons .leftBracket (blanks := [' ']) (by simp [IsBlank])
    (.cons (.number (ds := ['0', '0', '7']) (by simp) (by decide)) (blanks := []) (by simp)
      (.cons .comma (blanks := ['\n']) (by simp [IsBlank])
        (.cons (.string (.escape .nil)) (blanks := [' ']) (by simp [IsBlank])
          (.cons .rightBracket (blanks := [' ']) (by simp [IsBlank])
            (.cons .stop (blanks := [' ']) (by simp [IsBlank]) .nil)))))

end Pango.Props
