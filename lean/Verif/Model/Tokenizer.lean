import Verif.Model.Iter
import Verif.Model.Ast

/-!
# Regex tokenizer (`pango-lexer/src/regex/tokenizer.rs`)
-/

namespace Pango.Regex

/-- The `iter` field of `Tokenizer` (tokenizer.rs:17): characters with their index. -/
abbrev CharIter := CachedPeekable (Nat × Char)

/-- `input.chars().enumerate()`, starting to count at `i`.  regex/tokenizer.rs:122. -/
def enumFrom (i : Nat) : List Char → List (Nat × Char)
  | [] => []
  | c :: cs => (i, c) :: enumFrom (i + 1) cs

/-- `char::to_digit(16)` of the standard library.  Called at regex/tokenizer.rs:338 and 376. -/
def hexDigit? (c : Char) : Option Nat :=
  if '0' ≤ c ∧ c ≤ '9' then some (c.toNat - '0'.toNat)
  else if 'a' ≤ c ∧ c ≤ 'f' then some (c.toNat - 'a'.toNat + 10)
  else if 'A' ≤ c ∧ c ≤ 'F' then some (c.toNat - 'A'.toNat + 10)
  else none

/-- `char::to_digit(10)` of the standard library.  Called at regex/tokenizer.rs:159, 191 and 386. -/
def decDigit? (c : Char) : Option Nat :=
  if '0' ≤ c ∧ c ≤ '9' then some (c.toNat - '0'.toNat) else none

/-- `char::from_u32` of the standard library.  Called at regex/tokenizer.rs:261, 265, 279, 304, 323 and 344. -/
def charFromU32 (n : Nat) : Option Char :=
  if h : n.isValidChar then some (Char.ofNatAux n h) else none

/-- `take_next_hexadecimals_and_convert_to_u32` (tokenizer.rs:356-380): count of digits and their
value.  `max_digits` is only used in an assertion that holds at all three call sites (2, 5, 4), so it
is left out, as is the assertion `d < 16` (the digit comes from `to_digit(16)`).  `n << 4` drops the
upper bits of the `u32`; the addition cannot overflow because the lower four bits are then 0.  The
digit counter is unbounded here (`u32` in the code). -/
def takeHex (it : CharIter) (start : Option Nat) : (Nat × Nat) × CharIter :=
  let init : Nat × Nat := match start with
    | some d => (1, d)
    | none => (0, 0)
  let (ds, it) := it.cautiousMapWhile (fun x => hexDigit? x.2)
  (ds.foldl (fun (acc : Nat × Nat) d => (acc.1 + 1, (acc.2 * 16) % u32Size + d)) init, it)

/-- One step of the fold in `take_next_decimals_and_convert_to_u32` (tokenizer.rs:387). -/
def decStep (p : Profile) (acc : Option Nat) (d : Nat) : Outcome (Option Nat) :=
  match acc with
  | none => .ok none
  | some n => if n * 10 < u32Size then do let r ← addU32 p (n * 10) d; pure (some r) else .ok none

/-- The fold itself.  regex/tokenizer.rs:387. -/
def decFold (p : Profile) : Option Nat → List Nat → Outcome (Option Nat)
  | acc, [] => .ok acc
  | acc, d :: ds => do let acc ← decStep p acc d; decFold p acc ds

/-- `take_next_decimals_and_convert_to_u32(Some(start))` (tokenizer.rs:384-388); both call sites pass
`Some`. -/
def takeDec (p : Profile) (it : CharIter) (start : Nat) : Outcome (Option Nat × CharIter) :=
  let (ds, it) := it.cautiousMapWhile (fun x => decDigit? x.2)
  do let r ← decFold p (some start) ds
     pure (r, it)

/-- `handle_operators` (tokenizer.rs:126-140); the `unreachable!` branch is not reachable from `next`
and maps to `none` here. -/
def operatorOf (c : Char) : Option OperatorKind :=
  if c = '[' then some .leftBracket
  else if c = ']' then some .rightBracket
  else if c = '(' then some .leftParen
  else if c = ')' then some .rightParen
  else if c = '^' then some .carret
  else if c = '|' then some .vertical
  else if c = '-' then some .minus
  else none

/-- `handle_quantifier('{')` (tokenizer.rs:147-215), after the brace. -/
def handleRange (p : Profile) (it : CharIter) : Outcome (TokenKind × CharIter) :=
  match it.next with
  | (none, it) => .ok (.invalid, it)
  | (some (_, ch), it) =>
    match decDigit? ch with
    | none => .ok (.invalid, it)
    | some d0 => do
      let (firstValue, it) ← takeDec p it d0
      match it.next with
      | (none, it) => pure (.invalid, it)
      | (some (_, ch), it) =>
        -- tokenizer.rs:167-176
        let comma := ch = ','
        let afterComma : Option Char × CharIter :=
          if comma then
            match it.next with
            | (none, it) => (none, it)
            | (some (_, c), it) => (some c, it)
          else (some ch, it)
        match afterComma with
        | (none, it) => pure (.invalid, it)
        | (some ch, it) =>
          if ch = '}' then
            match firstValue with
            | none => pure (.invalid, it)
            | some n => pure (.quantifier (if comma then .min n else .max n), it)
          else match decDigit? ch with
            | some d => do
              let (secondValue, it) ← takeDec p it d
              match it.next with
              | (none, it) => pure (.invalid, it)
              | (some (_, ch), it) =>
                if ch ≠ '}' then pure (.invalid, it)
                else match firstValue, secondValue with
                  | some lo, some hi => pure (.quantifier (.range lo hi), it)
                  | _, _ => pure (.invalid, it)
            | none => pure (.invalid, it)

/-- `handle_class` (tokenizer.rs:246-257). -/
def classOf (c : Char) : Option ClassKind :=
  if c = 'w' then some .word
  else if c = 'W' then some .nonWord
  else if c = 'd' then some .digit
  else if c = 'D' then some .nonDigit
  else if c = 's' then some .whitespace
  else if c = 'S' then some .nonWhitespace
  else none

/-- The single-character escapes of `handle_escape_sequence` (tokenizer.rs:259-268). -/
def simpleEscape (c : Char) : Option Char :=
  if c = 'f' then some (Char.ofNat 0xc)
  else if c = 'n' then some '\n'
  else if c = 'r' then some '\r'
  else if c = 't' then some '\t'
  else if c = 'v' then some (Char.ofNat 0xb)
  else if c = '0' then some (Char.ofNat 0)
  else if c = '^' ∨ c = '$' ∨ c = '\\' ∨ c = '.' ∨ c = '*' ∨ c = '+' ∨ c = '?' ∨ c = '(' ∨ c = ')' ∨
      c = '[' ∨ c = ']' ∨ c = '|' ∨ c = '/' ∨ c = '{' ∨ c = '-' ∨ c = '}' then some c
  else none

/-- `map_or(TokenKind::Invalid, TokenKind::Match)` (tokenizer.rs:237, 240). -/
def matchOrInvalid : Option Char → TokenKind
  | some c => .mtch c
  | none => .invalid

/-- The `'c'` branch of `handle_escape_sequence` (tokenizer.rs:269-283). -/
def handleControl (it : CharIter) : Option Char × CharIter :=
  match it.next with
  | (none, it) => (none, it)
  | (some (_, ch), it) =>
    if ('a' ≤ ch ∧ ch ≤ 'z') ∨ ('A' ≤ ch ∧ ch ≤ 'Z') then (charFromU32 (ch.toNat % 32), it)
    else (none, it)

/-- `handle_unicode_escape_sequence('x')` (tokenizer.rs:291-305). -/
def handleX (it : CharIter) : Option Char × CharIter :=
  let ((count, code), it) := takeHex it none
  if count ≠ 2 then (none, it) else (charFromU32 code, it)

/-- `handle_unicode_escape_sequence('u')` (tokenizer.rs:306-347). -/
def handleU (it : CharIter) : Option Char × CharIter :=
  match it.next with
  | (none, it) => (none, it)
  | (some (_, ch), it) =>
    if ch = '{' then
      let ((count, code), it) := takeHex it none
      if count < 4 then (none, it)
      else
        let result := charFromU32 code
        match it.next with
        | (none, it) => (none, it)
        | (some (_, lastBracket), it) => if lastBracket = '}' then (result, it) else (none, it)
    else
      match hexDigit? ch with
      | none => (none, it)
      | some hex1 =>
        let ((_, code), it) := takeHex it (some hex1)
        (charFromU32 code, it)

/-- `handle_class_or_escape_sequence` (tokenizer.rs:223-244). -/
def handleEscape (it : CharIter) : TokenKind × CharIter :=
  match it.next with
  | (none, it) => (.invalid, it)
  | (some (_, ch), it) =>
    match classOf ch with
    | some k => (.cls k, it)
    | none =>
      match simpleEscape ch with
      | some c => (.mtch c, it)
      | none =>
        if ch = 'c' then let (r, it) := handleControl it; (matchOrInvalid r, it)
        else if ch = 'x' then let (r, it) := handleX it; (matchOrInvalid r, it)
        else if ch = 'u' then let (r, it) := handleU it; (matchOrInvalid r, it)
        else (.invalid, it)

/-- `get_token_end_cursor_pos` (tokenizer.rs:394-399). -/
def tokenEnd (it : CharIter) : Nat :=
  match it.currentItem with
  | some (pos, _) => pos + 1
  | none => 1

/-- The `match ch` in `Tokenizer::next` (tokenizer.rs:98-105) with `handle_quantifier` (142-221). -/
def tokenKind (p : Profile) (ch : Char) (it : CharIter) : Outcome (TokenKind × CharIter) :=
  if ch = '\\' then .ok (handleEscape it)
  else if ch = '.' then .ok (.cls .wildcard, it)
  else match operatorOf ch with
    | some o => .ok (.operator o, it)
    | none =>
      if ch = '*' then .ok (.quantifier .asterisk, it)
      else if ch = '+' then .ok (.quantifier .plus, it)
      else if ch = '?' then .ok (.quantifier .questionMark, it)
      else if ch = '{' then handleRange p it
      else .ok (.mtch ch, it)

/-- `Tokenizer::next` (tokenizer.rs:95-114). -/
def tokenizerNext (p : Profile) (it : CharIter) : Outcome (Option Token × CharIter) :=
  match it.next with
  | (none, it) => .ok (none, it)
  | (some (startPos, ch), it) => do
    let (kind, it) ← tokenKind p ch it
    pure (some ⟨kind, (startPos, tokenEnd it)⟩, it)

/-- Why a sequence of `next` calls on the tokenizer stops: the end (`None`), a panic inside `next`, or the bound on
the number of calls.  The `next` is that of regex/tokenizer.rs:95-114. -/
inductive Stop where
  | eof
  | panic
  | fuel
  deriving Repr, DecidableEq

/-- Everything a tokenizer yields under repeated `next` calls.  The `next` is that of regex/tokenizer.rs:95-114. -/
structure Scan where
  toks : List Token
  stop : Stop
  deriving Repr, DecidableEq

/-- Repeated calls of `Tokenizer::next`, at most `n` of them.  The `next` is that of regex/tokenizer.rs:95-114; the
calls come from regex/parser.rs:88-395. -/
def scanLoop (p : Profile) : Nat → CharIter → Scan
  | 0, _ => ⟨[], .fuel⟩
  | n + 1, it =>
    match tokenizerNext p it with
    | .ok (none, _) => ⟨[], .eof⟩
    | .ok (some t, it) => let s := scanLoop p n it; ⟨t :: s.toks, s.stop⟩
    | .panic => ⟨[], .panic⟩
    | .diverge => ⟨[], .fuel⟩

/-- `Tokenizer::new` (tokenizer.rs:119-124). -/
def tokenizerNew (input : List Char) : CharIter := CachedPeekable.ofList (enumFrom 0 input)

/-- The token stream of a pattern.  The number of calls is bounded by the number of characters plus one; that this is
enough is a theorem (C01).  regex/tokenizer.rs:119-124 and 95-115. -/
def scan (p : Profile) (input : List Char) : Scan :=
  scanLoop p (input.length + 1) (tokenizerNew input)

end Pango.Regex
