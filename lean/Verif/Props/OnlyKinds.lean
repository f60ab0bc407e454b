import Verif.Proofs.Kinds
import Verif.Props.Kinds
import Verif.Props.TextMachine
import Verif.Spec.OnlyKinds

/-!
# C97: what a parser sees of a text
-/

namespace Pango.Props

open Pango Pango.Lex Pango.Fsm Pango.Parse Pango.Spec

variable [Unicode] {V T : Type} [DecidableEq V] [TerminalEq T]

/-! ## Calls and results -/

omit [Unicode] in
/-- A parser that has come to a result without the end of the tokens does so whatever follows. -/
theorem parseLoop_more {tbl : Table V T} {n : Nat} {w v : List T} {fin : InputEnd} {st : List (ParseNode V T)} {s : Nat}
    (h : parseLoop tbl .diverge n w st s ≠ .diverge) :
    parseLoop tbl fin n (w ++ v) st s = parseLoop tbl .diverge n w st s := by
  induction n generalizing w st s with
  | zero => exact absurd (by rw [parseLoop]) h
  | succ n ih =>
    cases w with
    | nil => exact absurd (by rw [parseLoop]) h
    | cons t w =>
      rw [List.cons_append, parseLoop, parseLoop]
      rw [parseLoop] at h
      cases hh : handleToken tbl (some t) st s with
      | panic => rfl
      | diverge => rfl
      | ok r =>
        rw [hh] at h
        cases r with
        | none => rfl
        | some r =>
          simp only [Outcome.bind_ok] at h ⊢
          by_cases ha : r.accepted = true
          · simp only [ha, if_true]
          · simp only [ha] at h ⊢
            cases ht : r.taken with
            | true =>
              simp only [ht, if_true] at h ⊢
              exact ih h
            | false =>
              simp only [ht] at h ⊢
              exact ih (w := t :: w) h

/-- The calls of the lexer from which the parser has the result: these tokens, and the end, if it was seen. -/
def Seen (l : Lexer T) (tbl : Table V T) (fuel : Nat) (input : List Char) (o : Outcome (Option (Node V T)))
    (ts : List (Tok T)) (fin : InputEnd) : Prop :=
  parseTokens tbl fuel (ts.map Tok.kind) fin = o ∧
    (fin = .ok () ∧ CallsReturn l input (ts.map some ++ [none]) ∨ fin = .diverge ∧ CallsReturn l input (ts.map some))

theorem parseText_seen {p : Profile} {rules : List (List Char × (List Char → T))} {es : List Regex.Expr} {l : Lexer T}
    (hl : LexerFor p rules es l) {tbl : Table V T} {sim fuel : Nat} {input : List Char} {o : Outcome (Option (Node V T))}
    (h : parseText l tbl sim fuel input = o) : ∃ ts fin, Seen l tbl fuel input o ts fin := by
  rw [parseText_eq (Nat.le_refl fuel)] at h
  have hno : (streamOf (nfaMachine l.nfa sim) l.tokens fuel (InputIter.new input)).2 ≠ .panic :=
    streamOf_no_panic fun n it => ((hl.toBuilt.safe sim).lexCalls n it).1
  generalize hs : streamOf (nfaMachine l.nfa sim) l.tokens fuel (InputIter.new input) = st at h hno
  obtain ⟨ts, fin⟩ := st
  simp only at h hno
  obtain ⟨⟨it1, h1⟩, h2⟩ := streamOf_calls hs
  refine ⟨ts, fin, h, ?_⟩
  cases fin with
  | panic => exact absurd rfl hno
  | diverge => exact .inr ⟨rfl, sim, it1, by simpa using h1⟩
  | ok u =>
    obtain ⟨it2, h3⟩ := h2 rfl
    exact .inl ⟨rfl, sim, it2, by simpa using h3⟩

theorem seen_parseText {l : Lexer T} {tbl : Table V T} {fuel : Nat} {input : List Char}
    {o : Outcome (Option (Node V T))} {ts : List (Tok T)} {fin : InputEnd} (h : Seen l tbl fuel input o ts fin)
    (ho : o ≠ .diverge) : ∃ sim, parseText l tbl sim fuel input = o := by
  obtain ⟨h1, ⟨rfl, sim, it, h2⟩ | ⟨rfl, sim, it, h2⟩⟩ := h
  · refine ⟨sim, ?_⟩
    rw [parseText_eq (k := fuel + ts.length + 1) (by omega), calls_streamOf_end (by simpa using h2) (by omega)]
    exact h1
  · refine ⟨sim, ?_⟩
    obtain ⟨more, h3⟩ := calls_streamOf (n := fuel + ts.length) (by simpa using h2) (by omega)
    rw [parseText_eq (k := fuel + ts.length) (by omega), h3, List.map_append]
    subst h1
    exact parseLoop_more ho

/-! ## The theorems -/

variable {p p' : Profile} {rules rules' : List (List Char × (List Char → T))} {es es' : List Regex.Expr} {l l' : Lexer T}

omit [Unicode] [DecidableEq V] in
/-- Answers of the same kinds as tokens, with the end behind them or not. -/
theorem sameKind_tokens {ts : List (Tok T)} {as rest : List (Option (Tok T))}
    (h : Pairwise₂ SameKind (ts.map some ++ rest) as) :
    ∃ (us : List (Tok T)) (bs : List (Option (Tok T))), as = us.map some ++ bs ∧ SameTokens (ts.map Tok.kind) (us.map Tok.kind) ∧ Pairwise₂ SameKind rest bs := by
  induction ts generalizing as with
  | nil => exact ⟨[], as, rfl, .nil, h⟩
  | cons t ts ih =>
    cases h with
    | cons h1 h2 =>
      cases h1 with
      | @some _ u h1 =>
        obtain ⟨us, bs, rfl, h3, h4⟩ := ih h2
        exact ⟨u :: us, bs, rfl, .cons h1 h3, h4⟩

omit [Unicode] [DecidableEq V] [TerminalEq T] in
/-- Answers with just the same kinds. -/
theorem kindsOf_tokens {ts : List (Tok T)} {as rest : List (Option (Tok T))}
    (h : kindsOf as = kindsOf (ts.map some ++ rest)) :
    ∃ (us : List (Tok T)) (bs : List (Option (Tok T))), as = us.map some ++ bs ∧ us.map Tok.kind = ts.map Tok.kind ∧ kindsOf bs = kindsOf rest := by
  induction ts generalizing as with
  | nil => exact ⟨[], as, rfl, rfl, h⟩
  | cons t ts ih =>
    cases as with
    | nil => cases h
    | cons a as =>
      simp only [kindsOf, List.map_cons, List.cons_append, List.cons.injEq] at h
      obtain ⟨us, bs, rfl, h3, h4⟩ := ih h.2
      cases a with
      | none => cases h.1
      | some u => exact ⟨u :: us, bs, rfl, by rw [List.map_cons, List.map_cons, h3, Option.some.inj h.1], h4⟩

/-- C97, tokens of the same kinds: if a lexer returns tokens of the same kinds for a text as another lexer does for
another text, up to the first call that returns `None`, then so are the results of parsing them, with any table: trees
that differ at most in the tokens at their leaves, errors or panics. -/
theorem c97_kinds [LawfulTerminalEq T] (hl : LexerFor p rules es l) {input input' : List Char}
    (h : ∀ as, none ∉ as.dropLast → CallsReturn l input as →
      ∃ as', CallsReturn l' input' as' ∧ Pairwise₂ SameKind as as') (tbl : Table V T) :
    (∀ r, Parses l tbl input r → ∃ r', Parses l' tbl input' r' ∧ SameResult (.ok r) (.ok r')) ∧
      (Panics l tbl input → Panics l' tbl input') := by
  have key : ∀ {sim fuel : Nat} {o : Outcome (Option (Node V T))}, parseText l tbl sim fuel input = o → o ≠ .diverge →
      ∃ sim' o', parseText l' tbl sim' fuel input' = o' ∧ SameResult o o' := by
    intro sim fuel o h1 ho
    obtain ⟨ts, fin, h2, h3⟩ := parseText_seen hl h1
    have same : ∀ {us : List (Tok T)}, SameTokens (ts.map Tok.kind) (us.map Tok.kind) →
        SameResult o (parseTokens tbl fuel (us.map Tok.kind) fin) := by
      intro us hu
      rw [← h2]
      exact parseLoop_same hu (⟨rfl, .node .nil .nil⟩ : SameStack [(⟨.mk (.var tbl.start) [], 0⟩ : ParseNode V T)]
        [⟨.mk (.var tbl.start) [], 0⟩])
    have fine : ∀ {o' : Outcome (Option (Node V T))}, SameResult o o' → o' ≠ .diverge := by
      rintro o' hs rfl
      cases hs
      exact ho rfl
    rcases h3 with ⟨rfl, h3⟩ | ⟨rfl, h3⟩
    · obtain ⟨as, h4, h5⟩ := h _ (by simp) h3
      obtain ⟨us, bs, rfl, h6, h7⟩ := sameKind_tokens h5
      cases h7 with
      | cons h8 h9 =>
        cases h8
        cases h9
        obtain ⟨sim', h10⟩ := seen_parseText (tbl := tbl) (fuel := fuel) ⟨rfl, .inl ⟨rfl, h4⟩⟩ (fine (same h6))
        exact ⟨sim', _, h10, same h6⟩
    · have h0 : none ∉ (ts.map some).dropLast := fun h0 => by
        have := (List.dropLast_sublist _).subset h0
        simp at this
      rw [← List.append_nil (ts.map some)] at h0 h3
      obtain ⟨as, h4, h5⟩ := h _ h0 h3
      obtain ⟨us, bs, rfl, h6, h7⟩ := sameKind_tokens h5
      cases h7
      rw [List.append_nil] at h4
      obtain ⟨sim', h10⟩ := seen_parseText (tbl := tbl) (fuel := fuel) ⟨rfl, .inr ⟨rfl, h4⟩⟩ (fine (same h6))
      exact ⟨sim', _, h10, same h6⟩
  constructor
  · rintro r ⟨sim, fuel, h1⟩
    obtain ⟨sim', o, h2, h3⟩ := key h1 (by simp)
    cases h3 with
    | tree h4 => exact ⟨_, ⟨sim', fuel, h2⟩, .tree h4⟩
    | error => exact ⟨_, ⟨sim', fuel, h2⟩, .error⟩
  · rintro ⟨sim, fuel, h1⟩
    obtain ⟨sim', o, h2, h3⟩ := key h1 (by simp)
    cases h3
    exact ⟨sim', fuel, h2⟩

/-- C97: the result of parsing a text, if there is one, depends on nothing but the kinds of the tokens that the lexer
returns, up to the first call that returns `None`, and on whether the calls return. -/
theorem c97_equal (hl : LexerFor p rules es l) (hl' : LexerFor p' rules' es' l') {input input' : List Char}
    (h : ∀ ks, none ∉ ks.dropLast →
      ((∃ as, CallsReturn l input as ∧ kindsOf as = ks) ↔ ∃ as, CallsReturn l' input' as ∧ kindsOf as = ks))
    (tbl : Table V T) :
    (∀ r, Parses l tbl input r ↔ Parses l' tbl input' r) ∧ (Panics l tbl input ↔ Panics l' tbl input') := by
  have key : ∀ {p : Profile} {rules : List (List Char × (List Char → T))} {es : List Regex.Expr} {l l' : Lexer T}
      {input input' : List Char}, LexerFor p rules es l →
      (∀ as, none ∉ as.dropLast → CallsReturn l input as →
        ∃ as', CallsReturn l' input' as' ∧ kindsOf as' = kindsOf as) →
      ∀ {sim fuel : Nat} {o : Outcome (Option (Node V T))}, parseText l tbl sim fuel input = o → o ≠ .diverge →
        ∃ sim', parseText l' tbl sim' fuel input' = o := by
    intro p rules es l l' input input' hl h sim fuel o h1 ho
    obtain ⟨ts, fin, h2, h3⟩ := parseText_seen hl h1
    rcases h3 with ⟨rfl, h3⟩ | ⟨rfl, h3⟩
    · obtain ⟨as, h4, h5⟩ := h _ (by simp) h3
      obtain ⟨us, bs, rfl, h6, h7⟩ := kindsOf_tokens h5
      have h8 : bs = [none] := by
        cases bs with
        | nil => cases h7
        | cons b bs =>
          simp only [kindsOf, List.map_cons, List.map_nil, List.cons.injEq, List.map_eq_nil_iff, Option.map_eq_none_iff,
            Option.map_none] at h7
          rw [h7.1, h7.2]
      subst h8
      exact seen_parseText ⟨by rw [h6]; exact h2, .inl ⟨rfl, h4⟩⟩ ho
    · have h0 : none ∉ (ts.map some).dropLast := fun h0 => by
        have := (List.dropLast_sublist _).subset h0
        simp at this
      rw [← List.append_nil (ts.map some)] at h0 h3
      obtain ⟨as, h4, h5⟩ := h _ h0 h3
      obtain ⟨us, bs, rfl, h6, h7⟩ := kindsOf_tokens h5
      have h8 : bs = [] := List.map_eq_nil_iff.1 h7
      subst h8
      rw [List.append_nil] at h4
      exact seen_parseText ⟨by rw [h6]; exact h2, .inr ⟨rfl, h4⟩⟩ ho
  have clean : ∀ {as : List (Option (Tok T))}, none ∉ as.dropLast → none ∉ (kindsOf as).dropLast := by
    intro as ha hm
    rw [kindsOf, ← List.map_dropLast] at hm
    obtain ⟨a, h1, h2⟩ := List.mem_map.1 hm
    rw [Option.map_eq_none_iff.1 h2] at h1
    exact ha h1
  have to : ∀ as, none ∉ as.dropLast → CallsReturn l input as → ∃ as', CallsReturn l' input' as' ∧ kindsOf as' = kindsOf as :=
    fun as hn ha => (h _ (clean hn)).1 ⟨as, ha, rfl⟩
  have back : ∀ as, none ∉ as.dropLast → CallsReturn l' input' as → ∃ as', CallsReturn l input as' ∧ kindsOf as' = kindsOf as :=
    fun as hn ha => (h _ (clean hn)).2 ⟨as, ha, rfl⟩
  refine ⟨fun r => ⟨?_, ?_⟩, ?_, ?_⟩
  · rintro ⟨sim, fuel, h1⟩
    exact (key hl to h1 (by simp)).imp fun _ h => ⟨fuel, h⟩
  · rintro ⟨sim, fuel, h1⟩
    exact (key hl' back h1 (by simp)).imp fun _ h => ⟨fuel, h⟩
  · rintro ⟨sim, fuel, h1⟩
    exact (key hl to h1 (by simp)).imp fun _ h => ⟨fuel, h⟩
  · rintro ⟨sim, fuel, h1⟩
    exact (key hl' back h1 (by simp)).imp fun _ h => ⟨fuel, h⟩

/-- C97 and C95: with the same patterns, and functions that make tokens of the same kinds, so are the results of parsing
every text. -/
theorem c97_functions [LawfulTerminalEq T] (rules rules' : List (List Char × (List Char → T))) (hp : rules.map Prod.fst = rules'.map Prod.fst)
    (hk : ∀ (i : Nat) (a a' : List Char) (f f' : List Char → T) (source : List Char), rules[i]? = some (a, f) →
      rules'[i]? = some (a', f') → teq (f source) (f' source) = true) (l l' : Lexer T)
    (hl : buildLexer p rules = .ok (.ok l)) (hl' : buildLexer p rules' = .ok (.ok l')) (input : List Char)
    (tbl : Table V T) :
    (∀ r, Parses l tbl input r → ∃ r', Parses l' tbl input r' ∧ SameResult (.ok r) (.ok r')) ∧
      (Panics l tbl input → Panics l' tbl input) := by
  obtain ⟨es, bt⟩ := buildLexer_built hl
  refine c97_kinds (es := es) (p := p) (rules := rules) ⟨hl, bt.parsed⟩ (fun as hn ha => ?_) tbl
  obtain ⟨as', h1, h2⟩ := (c95_calls rules rules' hp l l' hl hl' input).1 as ha
  refine ⟨as', h1, ?_⟩
  clear h1 ha hn
  induction h2 with
  | nil => exact .nil
  | cons h _ ih =>
    refine .cons ?_ ih
    cases h with
    | none => exact .none
    | some h1 h2 => exact .some (hk _ _ _ _ _ _ h1 h2)

omit [DecidableEq V] [TerminalEq T] in
/-- The calls up to the first `None`, for a text of which all tokens are known. -/
theorem calls_of_tokens (hl : LexerFor p rules es l) {input : List Char} {ts : List (Tok T)} (ht : Tokens l input ts)
    {as : List (Option (Tok T))} (hn : none ∉ as.dropLast) : CallsReturn l input as ↔ as <+: ts.map some ++ [none] := by
  have h1 := (c23_tokens_partial _ _ _ _ hl _ _).1 ht
  constructor
  · intro h
    rcases scans_linear hl (((c23_calls_partial _ _ _ _ hl _ _ _).1 h).2) h1 with h2 | ⟨r, rfl⟩
    · exact h2
    · cases List.eq_nil_or_concat r with
      | inl h3 => rw [h3, List.append_nil]; exact List.prefix_refl _
      | inr h3 =>
        obtain ⟨r, a, rfl⟩ := h3
        refine absurd ?_ hn
        rw [List.concat_eq_append, ← List.append_assoc, List.dropLast_concat]
        simp
  · rintro ⟨r, h⟩
    exact (c23_calls_partial _ _ _ _ hl _ _ _).2 ⟨rfl, Scans.prefix (bs := r) (h ▸ h1)⟩

/-- C97 for texts with an end: if the tokens are of just the same kinds, so are the results. -/
theorem c97_tokens (hl : LexerFor p rules es l) (hl' : LexerFor p' rules' es' l') {input input' : List Char}
    {ts ts' : List (Tok T)} (ht : Tokens l input ts) (ht' : Tokens l' input' ts')
    (hk : ts.map Tok.kind = ts'.map Tok.kind) (tbl : Table V T) :
    (∀ r, Parses l tbl input r ↔ Parses l' tbl input' r) ∧ (Panics l tbl input ↔ Panics l' tbl input') := by
  have key : ∀ {p : Profile} {rules : List (List Char × (List Char → T))} {es : List Regex.Expr} {l : Lexer T}
      {input : List Char} {ts : List (Tok T)}, LexerFor p rules es l → Tokens l input ts →
      ∀ ks, none ∉ ks.dropLast →
        ((∃ as, CallsReturn l input as ∧ kindsOf as = ks) ↔ ks <+: (ts.map Tok.kind).map some ++ [none]) := by
    intro p rules es l input ts hl ht ks hn
    have hk : kindsOf (ts.map some ++ [none]) = (ts.map Tok.kind).map some ++ [none] := by
      simp [kindsOf]
    constructor
    · rintro ⟨as, h1, rfl⟩
      have h2 : none ∉ as.dropLast := fun h => hn (by
        rw [kindsOf, ← List.map_dropLast]
        exact List.mem_map.2 ⟨none, h, rfl⟩)
      rw [← hk]
      exact ((calls_of_tokens hl ht h2).1 h1).map _
    · intro h
      refine ⟨(ts.map some ++ [none]).take ks.length, (c23_calls_partial _ _ _ _ hl _ _ _).2 ⟨rfl, Scans.prefix
        (bs := (ts.map some ++ [none]).drop ks.length) (by
          rw [List.take_append_drop]
          exact (c23_tokens_partial _ _ _ _ hl _ _).1 ht)⟩, ?_⟩
      rw [kindsOf, List.map_take]
      exact (congrArg (List.take ks.length) hk).trans (List.prefix_iff_eq_take.1 h).symm
  exact c97_equal hl hl' (fun ks hn => by rw [key hl ht ks hn, key hl' ht' ks hn, hk]) tbl

/-- C97 and C85: rewriting the patterns of a lexer by the laws changes no result of parsing. -/
theorem c97_rewritten (hl : LexerFor p rules es l) (hl' : LexerFor p rules' es' l')
    (kinds : rules.map Prod.snd = rules'.map Prod.snd)
    (rewritten : ∀ (i : Nat) (e e' : Regex.Expr), es[i]? = some e → es'[i]? = some e' → Rewrites e e')
    (input : List Char) (tbl : Table V T) :
    (∀ r, Parses l tbl input r ↔ Parses l' tbl input r) ∧ (Panics l tbl input ↔ Panics l' tbl input) :=
  c97_equal hl hl' (fun _ _ => exists_congr fun as => and_congr_left fun _ =>
    c85_calls hl hl' kinds rewritten input as) tbl

/-! ## The theorems apply -/

/-- The lexer with the rules `[yx]` and `;`, of which the first makes `x` of both. -/
def xOrY : Lexer String :=
  ⟨⟨0, [⟨0, false, [(.literal (.group false [.mtch 'y', .mtch 'x']), [2]), (.literal (.mtch ';'), [3])]⟩, ⟨1, true, []⟩,
    ⟨2, true, []⟩, ⟨3, true, []⟩]⟩, [(2, fun _ => "x"), (3, String.ofList)]⟩

omit [Unicode] in
theorem xOrY_for : LexerFor .debug [("[yx]".toList, fun _ => "x"), (";".toList, String.ofList)]
    [.lit (.group false [.mtch 'y', .mtch 'x']) none, .lit (.mtch ';') none] xOrY := ⟨rfl, rfl⟩

/-- `x;?` for one lexer and `y;` for the other. -/
example : (∀ r, Parses semis (tableOf goodGrammar) "x;?".toList r ↔ Parses xOrY (tableOf goodGrammar) "y;".toList r) ∧
    Parses xOrY (tableOf goodGrammar) "y;".toList (some (.mk (.var "P")
      [.mk (.term ";") [], .mk (.var "Q") [.mk (.term "x") []]])) := by
  have h := (c97_tokens semis_for xOrY_for ⟨10, 5, _, semis_lexes⟩ (ts' := [⟨"x", ['y'], (0, 1)⟩, ⟨";", [';'], (1, 2)⟩])
    (input' := "y;".toList) ⟨10, 5, _, by with_unfolding_all rfl⟩ rfl (tableOf goodGrammar)).1
  exact ⟨h, (h _).1 semis_parses⟩

/-- `x` and `(x)`. -/
example : LexerFor .debug [("(x)".toList, String.ofList), (";".toList, String.ofList)]
      [.group (.lit (.mtch 'x') none) none, .lit (.mtch ';') none] semis ∧
    ∀ l' input, LexerFor .debug [("(x)".toList, String.ofList), (";".toList, String.ofList)]
      [.group (.lit (.mtch 'x') none) none, .lit (.mtch ';') none] l' →
      ∀ r, Parses semis (tableOf goodGrammar) input r ↔ Parses l' (tableOf goodGrammar) input r := by
  refine ⟨⟨rfl, rfl⟩, fun l' input h => (c97_rewritten semis_for h rfl (fun i e e' h h' => ?_) input _).1⟩
  match i with
  | 0 => cases h; cases h'; exact .symm .paren
  | 1 => cases h; cases h'; exact .refl

/-- Numbers with their lengths, and numbers that are all 7. -/
def numRules : List (List Char × (List Char → NumToken)) :=
  [("x".toList, fun s => .num s.length), (";".toList, fun _ => .semi)]

def sevenRules : List (List Char × (List Char → NumToken)) :=
  [("x".toList, fun _ => .num 7), (";".toList, fun _ => .semi)]

def numLexer : Lexer NumToken := ⟨semis.nfa, [(2, fun s => .num s.length), (3, fun _ => .semi)]⟩

def sevenLexer : Lexer NumToken := ⟨semis.nfa, [(2, fun _ => .num 7), (3, fun _ => .semi)]⟩

def numGrammar : Grammar String NumToken := 
  ⟨"S", [("S", [.var "S", .term (.num 0), .term .semi]), ("S", [.term (.num 0), .term .semi])]⟩

def numTable : Table String NumToken :=
  match slrNew numGrammar .insertion 100 with
  | .ok t => t
  | _ => ⟨"S", [], []⟩

instance : LawfulTerminalEq NumToken where
  refl a := by cases a <;> rfl
  symm a b h := by cases a <;> cases b <;> first | rfl | exact h
  trans a b c h1 h2 := by cases a <;> cases b <;> cases c <;> first | rfl | exact h1 | exact h2

example : Parses numLexer numTable "x;".toList (some (.mk (.var "S")
      [.mk (.term .semi) [], .mk (.term (.num 1)) []])) ∧
    ∃ r, Parses sevenLexer numTable "x;".toList r ∧ SameResult (.ok (some (.mk (.var "S")
      [.mk (.term .semi) [], .mk (.term (.num 1)) []]))) (.ok r) := by
  have h : Parses numLexer numTable "x;".toList (some (.mk (.var "S")
      [.mk (.term .semi) [], .mk (.term (.num 1)) []])) := by
    refine parses_of_tokens (ts := [⟨.num 1, ['x'], (0, 1)⟩, ⟨.semi, [';'], (1, 2)⟩]) (fuel := 10)
      ⟨10, 5, _, by with_unfolding_all rfl⟩ ?_
    decide +kernel
  refine ⟨h, (c97_functions (p := .debug) numRules sevenRules rfl (fun i a a' f f' s h1 h2 => ?_) numLexer sevenLexer rfl rfl _
    numTable).1 _ h⟩
  match i with
  | 0 => cases h1; cases h2; rfl
  | 1 => cases h1; cases h2; rfl

end Pango.Props
