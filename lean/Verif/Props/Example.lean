import Verif.Model.Example
import Verif.Props.ParseText

/-!
# C53: the example program

`exprMain p ord fuel text` is the program of `examples/expr.rs` on a text.
-/

namespace Pango.Props

open Pango Pango.Lex Pango.Parse Pango.Spec Pango.Example

/-! ## What the program should do -/

/-- The ten digits with their values. -/
def digits : List (Char × Nat) :=
  [('0', 0), ('1', 1), ('2', 2), ('3', 3), ('4', 4), ('5', 5), ('6', 6), ('7', 7), ('8', 8), ('9', 9)]

/-- A leaf of a tree. -/
def leaf (t : Terminals) : Node Variables Terminals := .mk (.term t) []

/-- The tree of an expression: digits with `+` and `*` between them, grouped from the left without precedence.  The
children of a node are listed from right to left. -/
inductive ExprTree : List Char → Node Variables Terminals → Prop
  | digit {c : Char} {n : Nat} : (c, n) ∈ digits → ExprTree [c] (.mk (.var .expr) [leaf (.val n)])
  | plus {w : List Char} {t : Node Variables Terminals} {c : Char} {n : Nat} : ExprTree w t → (c, n) ∈ digits →
      ExprTree (w ++ ['+', c]) (.mk (.var .expr) [leaf (.val n), leaf .plus, t])
  | mul {w : List Char} {t : Node Variables Terminals} {c : Char} {n : Nat} : ExprTree w t → (c, n) ∈ digits →
      ExprTree (w ++ ['*', c]) (.mk (.var .expr) [leaf (.val n), leaf .mul, t])

/-- The text does not begin with a digit or an operator. -/
def Foreign (text : List Char) : Prop :=
  ∀ c ∈ text.head?, c ≠ '+' ∧ c ≠ '*' ∧ ∀ n, (c, n) ∉ digits

/-! ## The grammar and its parser -/

instance : LawfulTerminalEq Terminals where
  refl t := by cases t <;> simp [teq]
  symm s t h := by cases s <;> cases t <;> simp_all [teq]
  trans s t u h h' := by cases s <;> cases t <;> cases u <;> simp_all [teq]

/-- `Expr → Expr * digit | Expr + digit | digit`. -/
def exprGrammar : Grammar Variables Terminals :=
  ⟨.expr, [(.expr, [.var .expr, .term .mul, .term (.val 0)]), (.expr, [.var .expr, .term .plus, .term (.val 0)]),
    (.expr, [.term (.val 0)])]⟩

theorem exprBuilder_build : exprBuilder.build = .ok exprGrammar := by decide

theorem exprGrammar_built : Built exprGrammar :=
  ⟨[.setStart .expr, .addRules .expr
    [[.var .expr, .term .mul, .term (.val 0)], [.var .expr, .term .plus, .term (.val 0)], [.term (.val 0)]]], by decide⟩

private theorem expr_rule {h : Variables} {β : Body Variables Terminals} (hr : (h, β) ∈ exprGrammar.rules) :
    β = [.var .expr, .term .mul, .term (.val 0)] ∨ β = [.var .expr, .term .plus, .term (.val 0)] ∨
      β = [.term (.val 0)] := by
  have : (h = .expr ∧ β = [.var .expr, .term .mul, .term (.val 0)]) ∨
      (h = .expr ∧ β = [.var .expr, .term .plus, .term (.val 0)]) ∨ (h = .expr ∧ β = [.term (.val 0)]) := by
    simpa [exprGrammar] using hr
  rcases this with ⟨_, h⟩ | ⟨_, h⟩ | ⟨_, h⟩ <;> simp [h]

theorem exprGrammar_epsFree : EpsFree exprGrammar := by
  intro h β hr
  rcases expr_rule hr with rfl | rfl | rfl <;> decide

theorem exprGrammar_followed : Followed exprGrammar exprGrammar.start :=
  ⟨.expr, [], .term .mul, [.term (.val 0)], by decide⟩

theorem exprGrammar_not_inside : ¬ Inside exprGrammar exprGrammar.start := by
  have h : ∀ v, ¬ Inside exprGrammar v := by
    intro v hv
    induction hv with
    | @behind h v x pre post hr =>
      rcases expr_rule hr with hb | hb | hb <;>
        simp only [List.cons.injEq] at hb <;> have hv := hb.2 <;>
        rcases pre with _ | ⟨a, _ | ⟨b, _ | ⟨c, pre⟩⟩⟩ <;> simp at hv
    | front _ _ ih => exact ih
  exact h _

theorem exprGrammar_no_unit (v w : Variables) : ¬ UnitChain exprGrammar v w := by
  have h : ∀ h v, (h, [.var v]) ∉ exprGrammar.rules := by
    intro h v hr
    rcases expr_rule hr with hb | hb | hb <;> simp at hb
  intro hc
  cases hc with
  | one hr => exact h _ _ hr
  | step hr _ => exact h _ _ hr

theorem exprGrammar_first : ∀ v β, (v, β) ∈ exprGrammar.rules → ∃ t, InFirst exprGrammar [.var v] (.term t) := by
  rintro ⟨⟩ β _
  exact ⟨Terminals.val 0, [], .step .refl (.rule (x := []) (y := []) (β := [.term (Terminals.val 0)]) (by decide))⟩

theorem exprGrammar_follow : ∀ v β, (v, β) ∈ exprGrammar.rules → ∃ t, InFollow exprGrammar v (.term t) := by
  rintro ⟨⟩ β _
  exact ⟨Terminals.plus, Variables.expr, [], [.term (Terminals.val 0)], .step .refl
    (.rule (x := []) (y := []) (β := [.var Variables.expr, .term Terminals.plus, .term (.val 0)]) (by decide))⟩

theorem exprGrammar_var : ∃ β v, (exprGrammar.start, β) ∈ exprGrammar.rules ∧ .var v ∈ β :=
  ⟨[.var .expr, .term .mul, .term (.val 0)], .expr, by decide, by decide⟩

/-- There is a parser, whatever the iteration order. -/
theorem exprGrammar_parser : ∃ bound, ∀ fuel ≥ bound, ∀ ord, ∃ tbl, slrNew exprGrammar ord fuel = .ok tbl := by
  obtain ⟨bound, hb⟩ := c42_construction_partial exprGrammar_built (.inl exprGrammar_followed.surely)
  have h1 : slrNew exprGrammar .insertion 100 ≠ .panic := by decide +kernel
  have h2 : slrNew exprGrammar .insertion 100 ≠ .diverge := by decide +kernel
  refine ⟨max bound 100, fun fuel hf ord => hb fuel (by omega) .insertion ord ?_⟩
  cases h : slrNew exprGrammar .insertion 100 with
  | panic => exact absurd h h1
  | diverge => exact absurd h h2
  | ok tbl => exact ⟨tbl, (slrNew_mono (by omega)).ok h⟩

/-! ## The lexer -/

/-- The lexer of the program. -/
def exprLexer : Lexer Terminals :=
  ⟨⟨0, [⟨0, false, [(.literal (.cls .digit), [2]), (.literal (.mtch '+'), [3]), (.literal (.mtch '*'), [4])]⟩,
    ⟨1, true, []⟩, ⟨2, true, []⟩, ⟨3, true, []⟩, ⟨4, true, []⟩]⟩,
    [(2, fun source => .val (parseNumber source)), (3, fun _ => .plus), (4, fun _ => .mul)]⟩

theorem exprLexer_built (p : Profile) : buildLexer p exprRules = .ok (.ok exprLexer) := by cases p <;> rfl

/-- The trees of its patterns. -/
def exprTrees : List Regex.Expr := [.lit (.cls .digit) none, .lit (.mtch '+') none, .lit (.mtch '*') none]

theorem exprLexer_for (p : Profile) : LexerFor p exprRules exprTrees exprLexer :=
  ⟨exprLexer_built p, by cases p <;> rfl⟩

theorem exprTrees_literals : ∀ e ∈ exprTrees, ∃ a, e = .lit a none := by simp [exprTrees]

/-- The token of a character. -/
def kindOf (c : Char) : Option Terminals :=
  if c = '+' then some .plus else if c = '*' then some .mul else (digits.lookup c).map .val

theorem kindOf_digit {c : Char} {n : Nat} (h : (c, n) ∈ digits) : kindOf c = some (.val n) := by
  simp only [digits, List.mem_cons, Prod.mk.injEq, List.not_mem_nil, or_false] at h
  rcases h with ⟨rfl, rfl⟩ | ⟨rfl, rfl⟩ | ⟨rfl, rfl⟩ | ⟨rfl, rfl⟩ | ⟨rfl, rfl⟩ | ⟨rfl, rfl⟩ | ⟨rfl, rfl⟩ |
    ⟨rfl, rfl⟩ | ⟨rfl, rfl⟩ | ⟨rfl, rfl⟩ <;> rfl

theorem kindOf_val {c : Char} {n : Nat} (h : kindOf c = some (.val n)) : (c, n) ∈ digits := by
  unfold kindOf at h
  split at h
  · simp at h
  · split at h
    · simp at h
    · simp only [Option.map_eq_some_iff, Terminals.val.injEq, exists_eq_right] at h
      have : ∀ l : List (Char × Nat), l.lookup c = some n → (c, n) ∈ l := by
        intro l
        induction l with
        | nil => simp
        | cons x l ih =>
          simp only [List.lookup]
          split
          · rename_i hx
            intro hn
            simp only [beq_iff_eq] at hx
            simp only [Option.some.injEq] at hn
            exact List.mem_cons.2 (.inl (Prod.ext hx hn.symm))
          · exact fun hn => List.mem_cons.2 (.inr (ih hn))
      exact this _ h

theorem kindOf_plus {c : Char} (h : kindOf c = some .plus) : c = '+' := by
  unfold kindOf at h
  split at h
  · assumption
  · split at h <;> simp at h

theorem kindOf_mul {c : Char} (h : kindOf c = some .mul) : c = '*' := by
  unfold kindOf at h
  split at h
  · simp at h
  · split at h
    · assumption
    · simp at h

theorem foreign_iff {text : List Char} : Foreign text ↔ ∀ c ∈ text.head?, kindOf c = none := by
  constructor
  · intro h c hc
    obtain ⟨h1, h2, h3⟩ := h c hc
    cases hk : kindOf c with
    | none => rfl
    | some t =>
      cases t with
      | plus => exact absurd (kindOf_plus hk) h1
      | mul => exact absurd (kindOf_mul hk) h2
      | val n => exact absurd (kindOf_val hk) (h3 n)
  · intro h c hc
    have h := h c hc
    refine ⟨?_, ?_, ?_⟩
    · rintro rfl; simp [kindOf] at h
    · rintro rfl; simp [kindOf] at h
    · intro n hn; rw [kindOf_digit hn] at h; simp at h

variable [Unicode]

private theorem expr_word {i : Nat} {w : List Char} (h : FirstMatch (languages exprTrees) w i) :
    ∃ c, w = [c] ∧ kindOf c ≠ none ∧ kindAt exprRules i w = kindOf c := by
  obtain ⟨M, h1, h2⟩ := h.isMatch
  simp only [languages, exprTrees, List.map_cons, List.map_nil] at h1
  match i, h1 with
  | 0, h1 =>
    cases h1
    obtain ⟨c, rfl, hc⟩ := matches_lit h2
    refine ⟨c, rfl, ?_⟩
    simp only [LitSet, ClassSet, List.mem_cons, List.not_mem_nil, or_false] at hc
    rcases hc with rfl | rfl | rfl | rfl | rfl | rfl | rfl | rfl | rfl | rfl <;> exact ⟨by decide, rfl⟩
  | 1, h1 =>
    cases h1
    obtain ⟨c, rfl, hc⟩ := matches_lit h2
    cases (show c = '+' from hc)
    exact ⟨_, rfl, by decide, rfl⟩
  | 2, h1 =>
    cases h1
    obtain ⟨c, rfl, hc⟩ := matches_lit h2
    cases (show c = '*' from hc)
    exact ⟨_, rfl, by decide, rfl⟩

private theorem expr_noMatch {text : List Char} (h : NoMatch (languages exprTrees) text) : Foreign text := by
  intro c hc
  have hm : ∀ a : Regex.Lit, .lit a none ∈ exprTrees → LitSet a c → False := by
    intro a ha hl
    refine h [c] (by simp) ?_ ⟨_, List.mem_map_of_mem ha, Matches.lit rfl (by simpa using hl)⟩
    cases text with
    | nil => simp at hc
    | cons d text => simp at hc; subst hc; exact ⟨text, rfl⟩
  refine ⟨fun h => hm (.mtch '+') (by simp [exprTrees]) h, fun h => hm (.mtch '*') (by simp [exprTrees]) h, ?_⟩
  intro n hn
  refine hm (.cls .digit) (by simp [exprTrees]) ?_
  simp only [digits, List.mem_cons, Prod.mk.injEq, List.not_mem_nil, or_false] at hn
  rcases hn with ⟨rfl, _⟩ | ⟨rfl, _⟩ | ⟨rfl, _⟩ | ⟨rfl, _⟩ | ⟨rfl, _⟩ | ⟨rfl, _⟩ | ⟨rfl, _⟩ | ⟨rfl, _⟩ | ⟨rfl, _⟩ |
    ⟨rfl, _⟩ <;> simp [LitSet, ClassSet]

private theorem expr_munch {text : List Char} {ws : List (List Char × Nat)} {tail : List Char}
    (h : Munch (languages exprTrees) text ws tail) :
    ∃ w, text = w ++ tail ∧ ws.map (fun x => kindAt exprRules x.2 x.1) = w.map kindOf ∧ (∀ c ∈ w, kindOf c ≠ none) ∧
      Foreign tail := by
  induction h with
  | stop hn => exact ⟨[], rfl, rfl, by simp, expr_noMatch hn⟩
  | token _ hf _ ih =>
    obtain ⟨w, h1, h2, h3, h4⟩ := ih
    obtain ⟨c, rfl, h5, h6⟩ := expr_word hf
    refine ⟨c :: w, by rw [h1]; rfl, ?_, ?_, h4⟩
    · simp [h2, h6]
    · intro d hd
      rcases List.mem_cons.1 hd with rfl | hd
      · exact h5
      · exact h3 d hd

omit [Unicode] in
/-- The part of a text that consists of tokens is determined. -/
private theorem expr_front {w w' rest rest' : List Char} (h : w ++ rest = w' ++ rest') (hw : ∀ c ∈ w, kindOf c ≠ none)
    (hw' : ∀ c ∈ w', kindOf c ≠ none) (hr : Foreign rest) (hr' : Foreign rest') : w = w' := by
  rw [foreign_iff] at hr hr'
  induction w generalizing w' with
  | nil =>
    cases w' with
    | nil => rfl
    | cons c w' =>
      simp only [List.nil_append, List.cons_append] at h
      exact absurd (hr c (by simp [h])) (hw' c (by simp))
  | cons d w ih =>
    cases w' with
    | nil =>
      simp only [List.nil_append, List.cons_append] at h
      exact absurd (hr' d (by simp [← h])) (hw d (by simp))
    | cons c w' =>
      simp only [List.cons_append, List.cons.injEq] at h
      rw [h.1, ih h.2 (fun c hc => hw c (by simp [hc])) (fun c hc => hw' c (by simp [hc]))]

/-! ## The trees -/

omit [Unicode] in
private theorem exprTree_kinds {w : List Char} {t : Node Variables Terminals} (h : ExprTree w t) :
    (∀ c ∈ w, kindOf c ≠ none) ∧ ∀ ks, w.map kindOf = ks.map some → ParseTree exprGrammar t ks := by
  have hs : ∀ {op : Terminals} {w : List Char} {a c : Char} {n : Nat} {t : Node Variables Terminals},
      (.expr, [.var .expr, .term op, .term (.val 0)]) ∈ exprGrammar.rules → kindOf a = some op →
      teq op op = true → (c, n) ∈ digits → ((∀ c ∈ w, kindOf c ≠ none) ∧
      ∀ ks, w.map kindOf = ks.map some → ParseTree exprGrammar t ks) →
      (∀ d ∈ w ++ [a, c], kindOf d ≠ none) ∧ ∀ ks, (w ++ [a, c]).map kindOf = ks.map some →
        ParseTree exprGrammar (.mk (.var .expr) [leaf (.val n), leaf op, t]) ks := by
    rintro op w a c n t hr ha hop hc ⟨h1, h2⟩
    constructor
    · intro d hd
      simp only [List.mem_append, List.mem_cons, List.not_mem_nil, or_false] at hd
      rcases hd with hd | rfl | rfl
      · exact h1 d hd
      · simp [ha]
      · simp [kindOf_digit hc]
    · intro ks hk
      rw [List.map_append] at hk
      obtain ⟨k1, k2, rfl, h3, h4⟩ := List.map_eq_append_iff.1 hk.symm
      have h5 : k2 = [op, .val n] := by
        simp only [List.map_cons, List.map_nil, ha, kindOf_digit hc] at h4
        rw [show [some op, some (.val n)] = [op, .val n].map some from rfl] at h4
        exact (List.map_inj_right fun _ _ h => Option.some.inj h).1 h4
      subst h5
      have h6 := h2 k1 h3.symm
      refine parseTree_iff.2 ⟨_, [t, leaf op, leaf (.val n)], hr, rfl, ?_⟩
      exact forest_append (β := [.term op, .term (.val 0)]) h6 (.term hop (.term rfl .nil))
  induction h with
  | digit hc =>
    constructor
    · simp [kindOf_digit hc]
    · intro ks hk
      simp only [List.map_cons, List.map_nil, kindOf_digit hc] at hk
      match ks, hk with
      | [k], hk =>
        simp only [List.map_cons, List.map_nil, List.cons.injEq, Option.some.injEq, and_true] at hk
        subst hk
        exact parseTree_iff.2 ⟨[.term (.val 0)], [leaf (.val _)], by decide, rfl, .term rfl .nil⟩
  | plus _ hc ih => exact hs (by decide) rfl rfl hc ih
  | mul _ hc ih => exact hs (by decide) rfl rfl hc ih

omit [Unicode] in
private theorem teq_val {n : Nat} {u : Terminals} (h : teq (.val n) u = true) : ∃ m, u = .val m := by
  cases u <;> simp [teq] at h
  exact ⟨_, rfl⟩

omit [Unicode] in
private theorem exprTree_of {k : Nat} : ∀ {w : List Char} {ks : List Terminals} {t : Node Variables Terminals},
    ks.length < k → w.map kindOf = ks.map some → ParseTree exprGrammar t ks → ExprTree w t ∧ EndsInToken t := by
  induction k with
  | zero => intro w ks t hl; omega
  | succ k ih =>
    intro w ks t hl hk ht
    obtain ⟨β, cs, hr, rfl, hf⟩ := parseTree_iff.1 ht
    have hop : ∀ op : Terminals, β = [.var .expr, .term op, .term (.val 0)] → ∃ w' t' a u c n, ExprTree w' t' ∧
        w = w' ++ [a, c] ∧ kindOf a = some u ∧ teq op u = true ∧ (c, n) ∈ digits ∧ cs = [t', leaf u, leaf (.val n)] := by
      rintro op rfl
      obtain ⟨n1, n2, k1, k2, rfl, rfl, h1, h2⟩ := forest_split (α := [.var Variables.expr]) hf
      obtain ⟨t', rfl⟩ := List.length_eq_one_iff.1 (forest_length h1 (by simp))
      cases h2 with
      | term hu h2 =>
        cases h2 with
        | term hv h2 =>
          cases h2
          obtain ⟨n, rfl⟩ := teq_val hv
          rw [List.map_append] at hk
          obtain ⟨w1, w2, rfl, h3, h4⟩ := List.map_eq_append_iff.1 hk
          match w2, h4 with
          | [], h4 => simp at h4
          | [_], h4 => simp at h4
          | _ :: _ :: _ :: _, h4 => simp at h4
          | [a, c], h4 =>
            simp only [List.map_cons, List.map_nil, List.cons.injEq, and_true] at h4
            refine ⟨w1, t', a, _, c, n, (ih ?_ h3 h1).1, rfl, h4.1, hu, kindOf_val h4.2, rfl⟩
            simp only [List.length_append, List.length_cons, List.length_nil] at hl
            omega
    rcases expr_rule hr with rfl | rfl | rfl
    · obtain ⟨w', t', a, u, c, n, h1, rfl, h2, h3, h4, rfl⟩ := hop _ rfl
      cases u <;> simp [teq] at h3
      rw [kindOf_mul h2]
      exact ⟨.mul h1 h4, _, _, _, rfl⟩
    · obtain ⟨w', t', a, u, c, n, h1, rfl, h2, h3, h4, rfl⟩ := hop _ rfl
      cases u <;> simp [teq] at h3
      rw [kindOf_plus h2]
      exact ⟨.plus h1 h4, _, _, _, rfl⟩
    · cases hf with
      | term hu h2 =>
        cases h2
        obtain ⟨n, rfl⟩ := teq_val hu
        match w, hk with
        | [], hk => simp at hk
        | _ :: _ :: _, hk => simp at hk
        | [c], hk =>
          simp only [List.map_cons, List.map_nil, List.cons.injEq, and_true] at hk
          exact ⟨.digit (kindOf_val hk), _, _, _, rfl⟩

private theorem expr_parses {tbl : Table Variables Terminals} (hp : IsParser exprGrammar tbl) {text : List Char}
    {t : Node Variables Terminals} :
    Parses exprLexer tbl text (some t) ↔ ∃ w rest, text = w ++ rest ∧ ExprTree w t ∧ Foreign rest := by
  have hr := literals_regular exprTrees_literals
  have ho := literals_oneLookahead exprTrees_literals
  rw [c48_partial exprGrammar_built hp exprGrammar_epsFree exprGrammar_followed.surely exprGrammar_not_inside
    (exprLexer_for .debug) hr ho]
  have htok : ∀ {ts : List (Tok Terminals)}, IsTokenization (languages exprTrees) exprRules text ts → ∃ w rest,
      text = w ++ rest ∧ w.map kindOf = (ts.map Tok.kind).map some ∧ (∀ c ∈ w, kindOf c ≠ none) ∧ Foreign rest := by
    rintro ts ⟨ws, tail, h1, h2⟩
    obtain ⟨w, h3, h4, h5, h6⟩ := expr_munch h1
    refine ⟨w, tail, h3, ?_, h5, h6⟩
    have := congrArg (List.map Prod.snd) h2
    simp only [List.map_map] at this
    rw [← h4, List.map_map]
    exact this.symm
  constructor
  · rintro ⟨ts, h1, h2, _⟩
    obtain ⟨w, rest, h3, h4, _, h5⟩ := htok h1
    exact ⟨w, rest, h3, (exprTree_of (Nat.lt_add_one _) h4 h2).1, h5⟩
  · rintro ⟨w, rest, h1, h2, h3⟩
    obtain ⟨c1, c2, _⟩ := c23_tokenizes_partial .debug exprRules exprTrees exprLexer (exprLexer_for .debug) hr ho
    obtain ⟨ts, h4⟩ := c1 text
    obtain ⟨w', rest', h5, h6, h7, h8⟩ := htok (c2 _ _ h4)
    obtain ⟨h9, h10⟩ := exprTree_kinds h2
    have := expr_front (h5 ▸ h1) h7 h9 h8 h3
    subst this
    have h11 := h10 _ h6
    exact ⟨ts, c2 _ _ h4, h11, (exprTree_of (Nat.lt_add_one _) h6 h11).2⟩

/-! ## C53 -/

/-- C53: for every text the program ends without a panic; it returns the tree of the expression in front of the first
character that is neither a digit nor an operator, and an error if there is no expression in front of it.  This does
not depend on the build profile and the iteration orders of the hash containers. -/
theorem c53_program (text : List Char) :
    ∃ r : Option (Node Variables Terminals),
      (∀ t, r = some t ↔ ∃ w rest, text = w ++ rest ∧ ExprTree w t ∧ Foreign rest) ∧
      ∀ p ord, (∃ bound, ∀ fuel ≥ bound, exprMain p ord fuel text = .ok (.ok r)) ∧
        ∀ fuel, exprMain p ord fuel text ≠ .panic := by
  obtain ⟨bound, hb⟩ := exprGrammar_parser
  have hany : ∀ {tbl}, IsParser exprGrammar tbl → ∃ r, Parses exprLexer tbl text r := fun hp =>
    (c49_partial exprGrammar_built hp exprGrammar_epsFree (fun v => exprGrammar_no_unit v v) exprGrammar_first
      exprGrammar_follow exprGrammar_var (exprLexer_for .debug) (literals_regular exprTrees_literals)
      (literals_oneLookahead exprTrees_literals) text).1
  obtain ⟨tbl, ht⟩ := hb bound (Nat.le_refl _) .insertion
  obtain ⟨r, hr⟩ := hany ⟨_, _, ht⟩
  have hspec : ∀ {tbl r}, IsParser exprGrammar tbl → Parses exprLexer tbl text r → ∀ t,
      r = some t ↔ ∃ w rest, text = w ++ rest ∧ ExprTree w t ∧ Foreign rest := by
    intro tbl r hp h t
    rw [← expr_parses hp]
    constructor
    · rintro rfl; exact h
    · exact fun h' => parses_unique h h'
  refine ⟨r, hspec ⟨_, _, ht⟩ hr, fun p ord => ?_⟩
  have hmain : ∀ fuel, exprMain p ord fuel text =
      (do let tbl ← slrNew exprGrammar ord fuel
          let r ← parseText exprLexer tbl fuel fuel text
          pure (.ok r)) := by
    intro fuel
    simp only [exprMain, exprBuilder_build, exprLexer_built, Outcome.bind_ok]
  obtain ⟨tbl', ht'⟩ := hb bound (Nat.le_refl _) ord
  obtain ⟨r', hr'⟩ := hany ⟨_, _, ht'⟩
  have : r' = r := by
    have h1 := hspec ⟨_, _, ht⟩ hr
    have h2 := hspec ⟨_, _, ht'⟩ hr'
    exact Option.ext fun t => (h2 t).trans (h1 t).symm
  subst this
  obtain ⟨sim, fuel, h⟩ := hr'
  have hle : ∀ k, max bound (max sim fuel) ≤ k → exprMain p ord k text = .ok (.ok r') := by
    intro k hk
    rw [hmain, (slrNew_mono (by omega)).ok ht', Outcome.bind_ok, (parseText_le (by omega) (by omega)).ok h]
    rfl
  refine ⟨⟨_, hle⟩, fun k hk => ?_⟩
  rw [hmain] at hk
  cases h1 : slrNew exprGrammar ord k with
  | panic =>
    have h2 := slrNew_mono (g := exprGrammar) (ord := ord) (Nat.le_max_left k bound)
    rw [h1, (slrNew_mono (Nat.le_max_right k bound)).ok ht'] at h2
    rcases h2 with h2 | h2 <;> cases h2
  | diverge => rw [h1] at hk; cases hk
  | ok tbl2 =>
    rw [h1, Outcome.bind_ok] at hk
    have h2 := (c49_partial exprGrammar_built ⟨_, _, h1⟩ exprGrammar_epsFree (fun v => exprGrammar_no_unit v v)
      exprGrammar_first exprGrammar_follow exprGrammar_var (exprLexer_for .debug) (literals_regular exprTrees_literals)
      (literals_oneLookahead exprTrees_literals) text).2 k k
    cases h3 : parseText exprLexer tbl2 k k text with
    | panic => exact h2 h3
    | diverge => rw [h3] at hk; cases hk
    | ok _ => rw [h3] at hk; cases hk

/-- The text of the example program, and its tree. -/
example : ∃ bound, ∀ fuel ≥ bound, exprMain .debug .insertion fuel "3+4*3+1".toList = .ok (.ok (some
    (.mk (.var .expr) [leaf (.val 1), leaf .plus, .mk (.var .expr) [leaf (.val 3), leaf .mul,
      .mk (.var .expr) [leaf (.val 4), leaf .plus, .mk (.var .expr) [leaf (.val 3)]]]]))) := by
  obtain ⟨r, h1, h2⟩ := c53_program "3+4*3+1".toList
  have h3 := (h1 _).2 ⟨"3+4*3+1".toList, [], rfl, .plus (w := "3+4*3".toList) (.mul (w := "3+4".toList)
    (.plus (w := "3".toList) (.digit (c := '3') (n := 3) (by decide)) (c := '4') (n := 4) (by decide)) (c := '3') (n := 3)
    (by decide)) (c := '1') (n := 1) (by decide), by simp [Foreign]⟩
  rw [← h3]
  exact (h2 _ _).1

/-- `1 + 2` is read as `1`: the rest of the text is ignored. -/
example : ∃ bound, ∀ fuel ≥ bound, exprMain .release .reversed fuel "1 + 2".toList =
    .ok (.ok (some (.mk (.var .expr) [leaf (.val 1)]))) := by
  obtain ⟨r, h1, h2⟩ := c53_program "1 + 2".toList
  have h3 := (h1 _).2 ⟨['1'], " + 2".toList, rfl, .digit (c := '1') (n := 1) (by decide), by
    intro c hc
    have : c = ' ' := (Option.some.inj hc).symm
    subst this
    exact ⟨by decide, by decide, fun n => by simp [digits]⟩⟩
  rw [← h3]
  exact (h2 _ _).1

end Pango.Props
