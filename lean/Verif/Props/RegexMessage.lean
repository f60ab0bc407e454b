import Verif.Props.RegexError

/-!
# C57: what errors in patterns say
-/

namespace Pango.Props

open Pango Pango.Regex Pango.Spec

/-- Specification: the words of a text, which spaces, commas and newlines end. -/
def wordsOf (text : List Char) : List (List Char) :=
  (text.foldr (fun c ws => if c ∈ [' ', ',', '\n'] then [] :: ws else
    match ws with
    | [] => [[c]]
    | w :: ws => (c :: w) :: ws) [[]]).filter (· ≠ [])

/-- Specification: what a word of a message stands for.  The names are those of the documented syntax, with
the one for `)` misspelt as in the code, and CHARACTER and MATCH are the same. -/
def Names (word : String) (ks : List TokenKind) : Prop :=
  (word = "LEFT_PAREN" ∧ ks = [.operator .leftParen]) ∨
  (word = "RIGTH_PAREN" ∧ ks = [.operator .rightParen]) ∨
  (word = "LEFT_BRACKET" ∧ ks = [.operator .leftBracket]) ∨
  (word = "RIGHT_BRACKET" ∧ ks = [.operator .rightBracket]) ∨
  (word = "CHARACTER_CLASS" ∧ ∃ k, ks = [.cls k]) ∨
  (word = "CHARACTER" ∧ ∃ c, ks = [.mtch c]) ∨
  (word = "MATCH" ∧ ∃ c, ks = [.mtch c]) ∨
  (word = "expression" ∧ ∃ es, SubExpression ⟨true, true⟩ es ks) ∨
  (word = "item" ∧ ∃ i, GroupItem i ks)

/-- Specification: these kinds of tokens begin a sentence. -/
def BeginsWith (ks : List TokenKind) : Prop := ∃ e w, Expression ⟨true, true⟩ e (ks ++ w)

/-- Specification: a message names the token or phrase `ks`. -/
def Says (msg : List Char) (ks : List TokenKind) : Prop :=
  ∃ word ∈ wordsOf msg, Names (String.ofList word) ks

/-- Specification: the pattern goes wrong behind the tokens `pre`: they begin a sentence, and with the next
token, if there is one, they do not. -/
def StuckBehind (all pre : List Token) : Prop :=
  ∃ rest, all = pre ++ rest ∧ Begins pre ∧ ∀ t post, rest = t :: post → ¬ Begins (pre ++ [t])

/-- C57 as stated: a rejected pattern has one error; its text is one line and an empty one, with the span and
a message that names exactly what could stand at the place where the pattern goes wrong. -/
def MessagesHelp : Prop :=
  ∀ p input errs, parse p input = .ok (.error errs) →
    ∃ err msg, errs = [err] ∧ errorsText errs = "[ERROR] (".toList ++ natText err.pos.1 ++ ", ".toList ++
        natText err.pos.2 ++ "): ".toList ++ msg ++ "\n\n".toList ∧
      ∀ pre, StuckBehind (scan p input).toks pre →
        ∀ t, BeginsWith (pre.map Token.kind ++ [t]) ↔ ∃ ks, Says msg (t :: ks)

theorem StuckBehind.unique {all pre pre' : List Token} (h : StuckBehind all pre) (h' : StuckBehind all pre') :
    pre = pre' := by
  have one : ∀ {pre pre' : List Token}, StuckBehind all pre → StuckBehind all pre' →
      pre'.length ≤ pre.length := by
    rintro pre pre' ⟨rest, h1, _, h2⟩ ⟨rest', h1', ⟨e, w, h3⟩, _⟩
    rw [h1] at h1'
    rcases List.append_eq_append_iff.1 h1' with ⟨x, rfl, h⟩ | ⟨x, rfl, h⟩
    · cases x with
      | nil => simp
      | cons t x =>
        exact absurd ⟨e, x.map Token.kind ++ w, by simpa using h3⟩ (h2 t _ h)
    · simp
  obtain ⟨rest, h1, _⟩ := id h
  obtain ⟨rest', h1', _⟩ := id h'
  exact (List.append_inj (h1.symm.trans h1') (Nat.le_antisymm (one h' h) (one h h'))).1

theorem natText_eq (n : Nat) : Nat.toDigits 10 n = natText n := by
  induction n using Nat.strongRecOn with
  | _ n ih =>
    rw [natText]
    split
    · rename_i h
      rw [Nat.toDigits_of_lt_base h]
      have : ∀ n < 10, [Nat.digitChar n] = [Spec.digitChar n] := by decide
      exact this n h
    · rename_i h
      rw [Nat.toDigits_eq_if (by omega), if_neg h, ih (n / 10) (by omega)]
      have : ∀ n < 10, Nat.digitChar n = Spec.digitChar n := by decide
      rw [this _ (Nat.mod_lt _ (by omega))]

theorem errorsText_one (err : ParseError) :
    errorsText [err] = "[ERROR] (".toList ++ natText err.pos.1 ++ ", ".toList ++ natText err.pos.2 ++
      "): ".toList ++ err.kind.text ++ "\n\n".toList := by
  have e : "\n\n".toList = ['\n'] ++ ['\n'] := by decide
  rw [e]
  unfold errorsText ParseError.text
  simp only [List.flatMap_cons, List.flatMap_nil, List.append_nil, List.append_assoc, natText_eq]

theorem message_unique {err : ParseError} {msg : List Char}
    (h : errorsText [err] = "[ERROR] (".toList ++ natText err.pos.1 ++ ", ".toList ++ natText err.pos.2 ++
      "): ".toList ++ msg ++ "\n\n".toList) : msg = err.kind.text := by
  rw [errorsText_one] at h
  exact (List.append_cancel_left (List.append_cancel_right h)).symm

/-- The words of the messages. -/
def messageWords : ParseErrorKind → List String
  | .subExpression => ["expected", "at", "least", "one", "sub", "expression"]
  | .tokenForSubExpression => ["expected", "at", "least", "one", "token", "for", "a", "subexpression"]
  | .leftParan => ["expected", "LEFT_PAREN"]
  | .rightParan => ["expected", "RIGTH_PAREN"]
  | .matchCharacterClassLeftBracket => ["expected", "MATCH", "CHARACTER_CLASS", "or", "LEFT_BRACKET"]
  | .leftBracket => ["expected", "LEFT_BRACKET"]
  | .rightBracket => ["expected", "RIGHT_BRACKET"]
  | .characterGroupItem => ["expected", "at", "least", "one", "character", "group", "item"]
  | .mtch => ["expected", "MATCH"]
  | .characterClassCharacter => ["expected", "CHARACTER_CLASS", "or", "CHARACTER"]
  | .tokenForCharacterGroupItem =>
      ["expected", "at", "least", "one", "token", "for", "the", "character", "group", "item"]

theorem wordsOf_text (k : ParseErrorKind) : (wordsOf k.text).map String.ofList = messageWords k := by
  cases k <;> decide +kernel

theorem says_iff (k : ParseErrorKind) (ks : List TokenKind) :
    Says k.text ks ↔ ∃ word ∈ messageWords k, Names word ks := by
  rw [← wordsOf_text]
  constructor
  · rintro ⟨w, h1, h2⟩
    exact ⟨_, List.mem_map_of_mem h1, h2⟩
  · rintro ⟨w, h1, h2⟩
    obtain ⟨w', h3, rfl⟩ := List.mem_map.1 h1
    exact ⟨w', h3, h2⟩

theorem says_expect {k : ParseErrorKind} {ks : List TokenKind} (h : Says k.text ks)
    (hk : k ∉ [.leftParan, .leftBracket, .tokenForCharacterGroupItem]) : Expect k ks := by
  rw [says_iff] at h
  cases k <;> simp_all [messageWords, Names, Expect, lax]

/-- C57 is false: the pattern `*` is rejected with "expected MATCH, CHARACTER_CLASS or LEFT_BRACKET", but a
parenthesis could stand there as well. -/
theorem c57_false : ¬ MessagesHelp := by
  intro h
  have hp : parse .release "*".toList = .ok (.error [⟨.matchCharacterClassLeftBracket, (0, 1)⟩]) := rfl
  obtain ⟨err, msg, h1, h2, h3⟩ := h _ _ _ hp
  obtain rfl := (List.cons.inj h1).1
  obtain rfl := message_unique h2
  have ht : (scan .release "*".toList).toks = [⟨.quantifier .asterisk, (0, 1)⟩] := by decide
  have hs : StuckBehind (scan .release "*".toList).toks [] := by
    obtain ⟨pre, rest, h1, h2, h3, h4⟩ := c52_place_partial _ _ _ hp
    have : rest ≠ [] := by
      rcases h4 with ⟨h, _⟩ | ⟨h, _⟩ | ⟨_, t, post, h, _⟩ | ⟨h, _⟩
      · simp at h
      · simp at h
      · simp [h]
      · simp at h
    have : pre = [] := by
      rw [ht] at h1
      cases pre with
      | nil => rfl
      | cons t pre => simp_all
    subst this
    exact ⟨rest, h1, h2, h3⟩
  obtain ⟨ks, word, hw, hn⟩ := (h3 [] hs (.operator .leftParen)).1
    ⟨.group (.lit (.mtch 'a') none) none, [.mtch 'a', .operator .rightParen],
      .sub (.one (.group (ks := [.mtch 'a']) (kq := []) (.sub (.one (.mtch (.chr 'a') .none))) .none))⟩
  have := says_expect ⟨word, hw, hn⟩ (by decide)
  rcases this with ⟨c, h⟩ | ⟨k, h⟩ | h <;> simp at h

/-- C57 as far as it holds.  Missing: that the message names everything that could stand there; a
parenthesis is never named where a character could stand, and an unclosed parenthesis or bracket could
be continued in other ways than by closing it.

A rejected pattern has one error; its text is one line and an empty one, with the span and a message that
names something, and whatever it names could stand at the place where the pattern goes wrong. -/
theorem c57_partial (p : Profile) (input : List Char) (errs : List ParseError)
    (h : parse p input = .ok (.error errs)) :
    ∃ err msg, errs = [err] ∧ errorsText errs = "[ERROR] (".toList ++ natText err.pos.1 ++ ", ".toList ++
        natText err.pos.2 ++ "): ".toList ++ msg ++ "\n\n".toList ∧
      (∃ ks, Says msg ks) ∧
      (∃ pre, StuckBehind (scan p input).toks pre) ∧
      ∀ pre, StuckBehind (scan p input).toks pre →
        ∀ ks, Says msg ks → BeginsWith (pre.map Token.kind ++ ks) := by
  unfold parse at h
  cases hr : parseScan (scan p input) with
  | ok e s' => rw [hr] at h; simp at h
  | panic => rw [hr] at h; simp at h
  | diverge => rw [hr] at h; simp at h
  | err es =>
    rw [hr] at h
    simp only [Outcome.ok.injEq, Except.error.injEq] at h
    obtain ⟨k, pos, d, rest, h1, h2, h3, h4, h5⟩ := parseScan_error hr
    rw [h] at h1
    subst h1
    have hd : StuckBehind (scan p input).toks d :=
      ⟨rest, h2, let ⟨w, e, h⟩ := h4 [] (.inl rfl); ⟨e, w, h⟩, fun t post h => fun ⟨e', w', h'⟩ => h5 t post h e' w' h'⟩
    refine ⟨_, _, rfl, errorsText_one _, ?_, ⟨d, hd⟩, ?_⟩
    · have one : ∀ word ks, word ∈ messageWords k → Names word ks → ∃ ks, Says k.text ks := fun word ks h h' =>
        ⟨ks, (says_iff _ _).2 ⟨word, h, h'⟩⟩
      cases k with
      | rightParan => exact one "RIGTH_PAREN" [.operator .rightParen] (by decide) (by simp [Names])
      | rightBracket => exact one "RIGHT_BRACKET" [.operator .rightBracket] (by decide) (by simp [Names])
      | subExpression => exact one "expression" [] (by decide) (by simp [Names]; exact ⟨[], .none rfl⟩)
      | characterGroupItem => exact one "item" [.mtch 'a'] (by decide) (by simp [Names]; exact ⟨_, .chr 'a'⟩)
      | matchCharacterClassLeftBracket => exact one "MATCH" [.mtch 'a'] (by decide) (by simp [Names])
      | characterClassCharacter => exact one "CHARACTER" [.mtch 'a'] (by decide) (by simp [Names])
      | mtch => exact one "MATCH" [.mtch 'a'] (by decide) (by simp [Names])
      | leftParan => exact h3.elim
      | leftBracket => exact h3.elim
      | tokenForSubExpression => exact h3.elim
      | tokenForCharacterGroupItem => exact h3.elim
    · intro pre hpre ks hks
      obtain rfl := hpre.unique hd
      have : Expect k ks := says_expect hks (by rintro h; simp at h; rcases h with rfl | rfl | rfl <;> exact h3)
      obtain ⟨w, e, h⟩ := h4 ks (.inr this)
      exact ⟨e, w, by simpa [lax] using h⟩

/-- The text for an unclosed parenthesis, and one for a wrong character in brackets. -/
example :
    (∃ errs, parse .debug "a(b".toList = .ok (.error errs) ∧
      errorsText errs = "[ERROR] (0, 1): expected RIGTH_PAREN\n\n".toList) ∧
    (∃ errs, parse .debug "[a)]".toList = .ok (.error errs) ∧
      errorsText errs = "[ERROR] (2, 3): expected CHARACTER_CLASS or CHARACTER\n\n".toList) :=
  ⟨⟨[⟨.rightParan, (0, 1)⟩], rfl, by decide +kernel⟩, ⟨[⟨.characterClassCharacter, (2, 3)⟩], rfl, by decide +kernel⟩⟩

end Pango.Props
