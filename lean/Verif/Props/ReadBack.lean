import Verif.Spec.ReadBack
import Verif.Props.Operators
import Verif.Props.WordsBack
import Verif.Props.TextMachine
import Verif.Props.EndMarker

/-!
# C110: what is printed is read back
-/

namespace Pango.Props

open Pango Pango.Parse Pango.Spec

open Pango.Lex hiding Built

section lexer

variable [Unicode] {K : Type} {p : Profile} {rules : List (List Char × (List Char → K))} {es : List Regex.Expr}
  {l : Lexer K}

omit [Unicode] in
private theorem kindAt_of {i : Nat} {r : List Char × (List Char → K)} {u : List Char} (h : rules[i]? = some r) :
    kindAt rules i u = some (r.2 u) := by
  simp [kindAt, h]

/-- The calls that take such a text apart. -/
theorem calls_written (hl : LexerFor p rules es l) (hp : ∀ w, Passes es w) :
    ∀ (us : List (List Char × K)) (sc : Scanner), (∀ u ∈ us, Spells rules es u.1 u.2) →
      us.IsChain (fun u v => EndsBefore es u.1 v.1) → sc.skipped = [] → sc.again.length ≤ 1 →
      word sc.left = (us.map Prod.fst).flatten →
      ∃ ts : List (Tok K), Calls (taken es) (Readable es) (Passes es) (kindAt rules) sc (ts.map some ++ [none]) ∧
        ts.map (fun t => (t.source, t.kind)) = us := by
  intro us
  induction us with
  | nil =>
    intro sc _ _ hsk _ hleft
    have h0 : sc.left = [] := by simpa [word] using hleft
    refine ⟨[], .next (hp _) (.over ?_ (.inl h0)) .done, rfl⟩
    rw [h0]
    exact .inl rfl
  | cons a us ih =>
    obtain ⟨u, k⟩ := a
    intro sc hus hc hsk hag hleft
    have hhead : Spells rules es u k := hus _ (List.mem_cons_self ..)
    obtain ⟨hune, i, r, hi, hri, rfl⟩ := hhead
    have hany : AnyMatch (taken es) u := by
      obtain ⟨M, h1, h2⟩ := hi.isMatch
      exact ⟨M, List.mem_of_getElem? h1, h2⟩
    have hread := hl.toBuilt.readable_taken hany
    cases us with
    | nil =>
      have hleft : word sc.left = u := by simpa using hleft
      obtain ⟨ts, h1, h2⟩ := ih ⟨[], [], [], stop sc.left⟩ (by simp) (by simp) rfl (by simp) rfl
      refine ⟨⟨r.2 u, u, (sc.start, stop sc.left)⟩ :: ts, ?_, by simp only [List.map_cons, h2]⟩
      have := Call.last (rules := taken es) (Live := Readable es) (kind := kindAt rules) (sc := sc) (i := i) (k := r.2 u)
        (by intro h; rw [h] at hleft; exact hune hleft.symm) (by rw [hleft]; exact hread) (by rw [hleft]; exact hi)
        (by rw [hsk]; simpa [hleft] using kindAt_of hri)
      rw [hsk, List.nil_append, hleft] at this
      exact .next (hp _) this h1
    | cons b us =>
      obtain ⟨v, k'⟩ := b
      have hv := (hus _ (List.mem_cons_of_mem _ (List.mem_cons_self ..))).nonempty
      rw [List.isChain_cons_cons] at hc
      obtain ⟨x, v', rfl⟩ : ∃ x v', v = x :: v' := by
        cases v with
        | nil => exact absurd rfl hv
        | cons x v' => exact ⟨x, v', rfl⟩
      have hx := hc.1 x rfl
      obtain ⟨lw, l1, e1, e2, e3⟩ := word_split (l := sc.left) (a := u) (b := x :: (v' ++ (us.map Prod.fst).flatten))
        (by rw [hleft]; simp)
      obtain ⟨lx, l2, rfl, e4, e5⟩ := word_split (a := [x]) (b := v' ++ (us.map Prod.fst).flatten) e3
      obtain ⟨y, rfl⟩ : ∃ y, lx = [y] := by
        have : lx.length = 1 := by simpa [word] using congrArg List.length e4
        exact List.length_eq_one_iff.1 this
      have hleft' : sc.again ++ sc.ahead = (lw ++ [] ++ [y]) ++ l2 := by
        have : sc.left = (lw ++ [] ++ [y]) ++ l2 := by rw [e1]; simp
        exact this
      have hahead : sc.ahead.drop ((lw ++ [] ++ [y]).length - sc.again.length) = l2 := by
        have h1 := congrArg (List.drop (lw ++ [] ++ [y]).length) hleft'
        rw [List.drop_left, List.drop_append, List.drop_eq_nil_of_le (by simp; omega), List.nil_append] at h1
        exact h1
      obtain ⟨ts, h1, h2⟩ := ih ⟨[], [] ++ [y], l2, stop lw⟩ (fun w hw => hus w (List.mem_cons_of_mem _ hw)) hc.2 rfl
        (by simp) (by
          have : word ([y] ++ l2) = [x] ++ (v' ++ (us.map Prod.fst).flatten) := by rw [word_append, e4, e5]
          simpa [Scanner.left] using this)
      refine ⟨⟨r.2 u, u, (sc.start, stop lw)⟩ :: ts, ?_, by simp only [List.map_cons, h2]⟩
      have := Call.token (rules := taken es) (Live := Readable es) (kind := kindAt rules) (sc := sc) (w := lw) (back := [])
        (x := y) (i := i) (k := r.2 u) ⟨l2, hleft'.symm⟩ (by rw [List.append_nil, e2]; exact hread)
        (by rw [List.append_nil, word_append, e2, e4]; exact hx)
        (by
          rw [List.append_nil, e2]
          exact ⟨hune, List.prefix_refl _, hany, fun w hw _ => hw.length_le⟩)
        (by rw [e2]; exact hi) (by rw [hsk, List.nil_append, e2]; exact kindAt_of hri)
      rw [hahead, hsk, List.nil_append, e2] at this
      exact .next (hp _) this h1

/-- C110.  A text that is made of words of which each ends before the next one is taken apart into these words, with the
tokens that they are written for. -/
theorem c110_tokens (hl : LexerFor p rules es l) (hr : ∀ e ∈ es, RepeatsNonEmpty e) {us : List (List Char × K)}
    (hu : ∀ u ∈ us, Spells rules es u.1 u.2) (hc : us.IsChain fun u v => EndsBefore es u.1 v.1) :
    ∃ ts, Tokens l (us.map Prod.fst).flatten ts ∧ ts.map (fun t => (t.source, t.kind)) = us := by
  obtain ⟨ts, h1, h2⟩ := calls_written hl (fun w e he v _ hs => by
    have hc := hl.toBuilt.compiles e he
    exact (c11_exact_partial e hc v).1 ((c10_exact_partial e hc).2 (hr e he) v) ⟨v, List.prefix_refl _, hs⟩) us (Scanner.new (us.map Prod.fst).flatten) hu hc
    rfl (by simp [Scanner.new])
    (by simp only [Scanner.left, Scanner.new, List.nil_append]; exact word_numbered ..)
  exact ⟨ts, (c23_tokens_partial p rules es l hl _ ts).2 h1, h2⟩

end lexer

section parser

variable [Unicode] {V T : Type} [DecidableEq V] [DecidableEq T] [TerminalEq T] [LawfulTerminalEq T] {g : Grammar V T}
  {tbl : Table V T} {z : V} {e f : T} {p : Profile} {rules : List (List Char × (List Char → T))}
  {es : List Regex.Expr} {l : Lexer T}

/-- C110.  If tokens are written so, and parsed by the parser of a grammar with an end marker, the result is the tree of
the tokens, or an error if they are not a sentence and the marker. -/
theorem c110_reads (hg : Built g) (he : EpsFree g) (hreach : ∀ v β, (v, β) ∈ g.rules → Reachable g v)
    (hfirst : ∀ v β, (v, β) ∈ g.rules → ∃ t, InFirst g [.var v] (.term t)) (hn : NotIn g z e f)
    (hp : IsParser (withEnd g z e f) tbl) (hl : LexerFor p rules es l) (hr : ∀ e ∈ es, RepeatsNonEmpty e)
    {us : List (List Char × T)} (hu : ∀ u ∈ us, Spells rules es u.1 u.2)
    (hc : us.IsChain fun u v => EndsBefore es u.1 v.1) (hf : ∀ u ∈ us, teq f u.2 = false) :
    ∃ r, (∀ r', Parses l tbl (us.map Prod.fst).flatten r' ↔ r' = r) ∧ ∀ n, r = some n ↔
      ∃ w e' m, us.map Prod.snd = w ++ [e'] ∧ teq e e' = true ∧ ParseTree g m w ∧
        n = .mk (.var z) [.mk (.term e') [], m] := by
  obtain ⟨ts, h1, h2⟩ := c110_tokens hl hr hu hc
  have hk : ts.map Tok.kind = us.map Prod.snd := by rw [← h2]; simp
  obtain ⟨r, h3, h4⟩ := c86_reads hg he hreach hfirst hn hp (input := us.map Prod.snd) (by
    intro t ht
    obtain ⟨u, hu, rfl⟩ := List.mem_map.1 ht
    exact hf u hu) (Nat.lt_succ_self _)
  have h5 := parses_of_tokens h1 (by rw [hk]; exact h3)
  exact ⟨r, fun r' => ⟨fun h => parses_unique h h5, fun h => h ▸ h5⟩, h4⟩

end parser

section operators

variable [Unicode] {O A : Type} [DecidableEq O] [DecidableEq A] {tb : OpTable O} {a : A} {g : Grammar Nat (OpTok O A)}
  {p : Profile} {rules : List (List Char × (List Char → OpTok O A))} {es : List Regex.Expr} {l : Lexer (OpTok O A)}

/-- Both tokens are values. -/
def BothValues : OpTok O A → OpTok O A → Prop
  | .val _, .val _ => True
  | _, _ => False

omit [Unicode] [DecidableEq O] [DecidableEq A] in
private theorem chain_join {u w : List (OpTok O A)} {t : OpTok O A} (ht : ∀ a, t ≠ .val a)
    (hu : u.IsChain fun s t => ¬ BothValues s t) (hw : w.IsChain fun s t => ¬ BothValues s t) :
    (u ++ t :: w).IsChain fun s t => ¬ BothValues s t := by
  have left : ∀ s, ¬ BothValues s t := by
    intro s h
    cases t with
    | val a => exact ht a rfl
    | _ => cases s <;> exact h
  have right : ∀ s, ¬ BothValues t s := by
    intro s h
    cases t with
    | val a => exact ht a rfl
    | _ => cases s <;> exact h
  rw [List.isChain_append]
  refine ⟨hu, ?_, fun x _ y hy => ?_⟩
  · cases w with
    | nil => simp
    | cons s w => exact List.isChain_cons_cons.2 ⟨right s, hw⟩
  · simp only [List.head?_cons, Option.mem_def, Option.some.injEq] at hy
    exact hy ▸ left x

omit [Unicode] [DecidableEq O] [DecidableEq A] in
/-- No two values stand side by side in the text of an expression. -/
theorem text_values {k : Nat} {w : List (OpTok O A)} {e : OpExpr O A} (h : IsText tb k w e) :
    w.IsChain fun s t => ¬ BothValues s t := by
  induction h with
  | val => simp
  | parens _ ih =>
    have := chain_join (u := []) (t := .lpar) (by simp) (by simp) (chain_join (t := .rpar) (w := []) (by simp) ih (by simp))
    simpa using this
  | tighter _ _ ih => exact ih
  | left _ _ _ ih1 ih2 => exact chain_join (by simp) ih1 ih2
  | right _ _ _ ih1 ih2 => exact chain_join (by simp) ih1 ih2
  | before _ _ ih => exact chain_join (u := []) (by simp) (by simp) ih
  | behind _ _ ih => exact chain_join (by simp) ih (by simp)

/-- C110 for a table of operators.  If all tokens of an expression can be written, and of two tokens that are not both
values the first one ends before the second one, the expression is printed, with parentheses where they are needed and
nothing between the tokens, and read back. -/
theorem c110_operators (h1 : OneLevel tb) (hg : Built g) (hs : g.start = 0)
    (hr : ∀ v β, (v, β) ∈ g.rules ↔ OpRule tb a v β) {tbl : Table Nat (OpTok O A)}
    (hp : IsParser (withEnd g (tb.length + 1) .stop .never) tbl) (hl : LexerFor p rules es l)
    (hrep : ∀ e ∈ es, RepeatsNonEmpty e) {s : OpTok O A → List Char} {x : OpExpr O A} (hx : FitsTable tb x)
    (hw : ∀ t ∈ opText tb 0 x ++ [.stop], Spells rules es (s t) t)
    (hsep : ∀ t ∈ opText tb 0 x ++ [.stop], ∀ t' ∈ opText tb 0 x ++ [.stop], ¬ BothValues t t' → EndsBefore es (s t) (s t')) :
    ∃ m, Stands m x ∧ ∀ r, Parses l tbl ((opText tb 0 x ++ [OpTok.stop]).flatMap s) r ↔
      r = some (.mk (.var (tb.length + 1)) [.mk (.term .stop) [], m]) := by
  obtain ⟨m, h2, h3⟩ := c106_written h1 hg hs hr hp hx (Nat.lt_succ_self _)
  generalize hd : opText tb 0 x ++ [OpTok.stop] = input at h3 hw hsep ⊢
  have hch : input.IsChain fun s t => ¬ BothValues s t := by
    rw [← hd]
    exact chain_join (by simp) (text_values (isText_opText h1 hx 0 (Nat.zero_le _))) (by simp)
  have hsub : ∀ {ts : List (OpTok O A)}, (∀ t ∈ ts, t ∈ input) → ts.IsChain (fun s t => ¬ BothValues s t) →
      (ts.map fun t => (s t, t)).IsChain fun u v => EndsBefore es u.1 v.1 := by
    intro ts hts hc
    induction ts with
    | nil => simp
    | cons t ts ih =>
      cases ts with
      | nil => simp
      | cons t' ts =>
        rw [List.isChain_cons_cons] at hc
        exact List.isChain_cons_cons.2 ⟨hsep t (hts t (by simp)) t' (hts t' (by simp)) hc.1,
          ih (fun t ht => hts t (List.mem_cons_of_mem _ ht)) hc.2⟩
  obtain ⟨ts, h4, h5⟩ := c110_tokens hl hrep (us := input.map fun t => (s t, t)) (by
    intro u hu
    obtain ⟨t, ht, rfl⟩ := List.mem_map.1 hu
    exact hw t ht) (hsub (fun t ht => ht) hch)
  have hk : ts.map Tok.kind = input := by
    have := congrArg (List.map Prod.snd) h5
    simpa [Function.comp_def] using this
  have h6 := parses_of_tokens h4 (by rw [hk]; exact h3)
  have e : ((input.map fun t => (s t, t)).map Prod.fst).flatten = input.flatMap s := by
    simp [List.flatMap, Function.comp_def]
  rw [e] at h6
  exact ⟨m, h2, fun r => ⟨fun h => parses_unique h h6, fun h => h ▸ h6⟩⟩

end operators

/-! ## Examples -/

/-- The characters of the operators, of the parentheses and of the end marker, with their patterns. -/
def calcSymbols : List (String × Char × OpTok String Nat) :=
  [("=", '=', .op "="), ("<", '<', .op "<"), ("\\+", '+', .op "+"), ("\\-", '-', .op "-"), ("\\*", '*', .op "*"),
    ("\\^", '^', .op "^"), ("~", '~', .op "~"), ("!", '!', .op "!"), ("\\(", '(', .lpar), ("\\)", ')', .rpar),
    (";", ';', .stop)]

/-- The rules of a lexer for arithmetic: `\d+` with the number as its value, and the symbols. -/
def calcRules : List (List Char × (List Char → OpTok String Nat)) :=
  ("\\d+".toList, fun s => .val (Nat.ofDigitChars 10 s 0)) :: calcSymbols.map fun s => (s.1.toList, fun _ => s.2.2)

def calcTrees : List Regex.Expr :=
  .lit (.cls .digit) (some .plus) :: calcSymbols.map fun s => .lit (.mtch s.2.1) none

/-- Numbers are written in decimal. -/
def calcText : OpTok String Nat → List Char
  | .op o => o.toList
  | .val n => Nat.toDigits 10 n
  | .lpar => ['(']
  | .rpar => [')']
  | .stop => [';']
  | .never => []

theorem calc_for : ∃ l, LexerFor .debug calcRules calcTrees l := ⟨_, by with_unfolding_all rfl, by with_unfolding_all rfl⟩

variable [Unicode]

theorem calc_repeats : ∀ e ∈ calcTrees, RepeatsNonEmpty e := by
  intro e he
  rw [← repeatsNonEmptyB_iff]
  simp only [calcTrees, calcSymbols, List.map_cons, List.map_nil, List.mem_cons, List.not_mem_nil, or_false] at he
  rcases he with rfl | rfl | rfl | rfl | rfl | rfl | rfl | rfl | rfl | rfl | rfl | rfl <;> decide

theorem calc_symbols {i : Nat} {s : String × Char × OpTok String Nat} (h : calcSymbols[i]? = some s) :
    (∀ j s', j < i → calcSymbols[j]? = some s' → s'.2.1 ≠ s.2.1) ∧
      s.2.1 ∉ ['0', '1', '2', '3', '4', '5', '6', '7', '8', '9'] := by
  have : ∀ i < 11, ∀ s ∈ calcSymbols[i]?, (∀ j < i, ∀ s' ∈ calcSymbols[j]?, s'.2.1 ≠ s.2.1) ∧
      s.2.1 ∉ ['0', '1', '2', '3', '4', '5', '6', '7', '8', '9'] := by decide
  obtain ⟨h1, h2⟩ := this i (List.getElem?_eq_some_iff.1 h).1 s h
  exact ⟨fun j s' hj hs => h1 j hj s' hs, h2⟩

private theorem digits_taken {w : List Char} (h : Taken (.lit (.cls .digit) (some .plus)) w) :
    ∀ c ∈ w, c ∈ ['0', '1', '2', '3', '4', '5', '6', '7', '8', '9'] := by
  rcases h with ⟨rfl, _⟩ | ⟨b, h⟩
  · simp
  · cases h with
    | rep _ _ h => exact h

theorem calc_spells {s : String × Char × OpTok String Nat} (hs : s ∈ calcSymbols) :
    Spells calcRules calcTrees [s.2.1] s.2.2 := by
  obtain ⟨i, h⟩ := List.mem_iff_getElem?.1 hs
  obtain ⟨h1, h2⟩ := calc_symbols h
  refine ⟨by simp, i + 1, (s.1.toList, fun _ => s.2.2), ⟨⟨Taken (.lit (.mtch s.2.1) none), by simp [taken, calcTrees, h],
    .inr ⟨true, .lit rfl⟩⟩, ?_⟩, by simp [calcRules, h], rfl⟩
  intro j M hj hM
  cases j with
  | zero =>
    simp only [taken, calcTrees, List.map_cons, List.getElem?_cons_zero, Option.some.injEq] at hM
    subst hM
    exact fun h => h2 (digits_taken h _ (by simp))
  | succ j =>
    simp only [taken, calcTrees, List.map_cons, List.getElem?_cons_succ, List.map_map, List.getElem?_map,
      Option.map_eq_some_iff, Function.comp] at hM
    obtain ⟨s', hs', rfl⟩ := hM
    rintro (⟨h, _⟩ | ⟨b, h⟩)
    · simp at h
    · cases h with
      | lit h => exact h1 j s' (by omega) hs' h.symm

omit [Unicode] in
private theorem digit_mem {c : Char} (h : c.isDigit = true) : c ∈ ['0', '1', '2', '3', '4', '5', '6', '7', '8', '9'] := by
  have h1 : 48 ≤ c.toNat ∧ c.toNat ≤ 57 := by
    simp only [Char.isDigit, Bool.and_eq_true, decide_eq_true_eq] at h
    exact ⟨h.1, h.2⟩
  have h2 : ∀ n < 58, 48 ≤ n → Char.ofNat n ∈ ['0', '1', '2', '3', '4', '5', '6', '7', '8', '9'] := by decide
  have := h2 c.toNat (by omega) h1.1
  rwa [Char.ofNat_toNat] at this

theorem calc_number (n : Nat) : Spells calcRules calcTrees (Nat.toDigits 10 n) (.val n) := by
  refine ⟨Nat.toDigits_ne_nil, 0, _, ⟨⟨_, rfl, .inr ⟨false, .rep Nat.toDigits_ne_nil ?_ fun c hc => ?_⟩⟩, by simp⟩, rfl, ?_⟩
  · have := List.length_pos_iff.2 (Nat.toDigits_ne_nil (n := n) (b := 10))
    simp only [QuantSet]
    omega
  · exact digit_mem (Nat.isDigit_of_mem_toDigits (by omega) (by omega) hc)
  · simp [Nat.ofDigitChars_toDigits]

theorem calc_ends {u v : List Char} (hu : u ≠ [])
    (h : (∃ c ∈ u, c ∉ ['0', '1', '2', '3', '4', '5', '6', '7', '8', '9']) ∨
      ∀ c, v.head? = some c → c ∉ ['0', '1', '2', '3', '4', '5', '6', '7', '8', '9']) : EndsBefore calcTrees u v := by
  rintro c hc (h0 | ⟨e, he, hb⟩)
  · simp at h0
  · rcases List.mem_cons.1 he with rfl | he
    · cases hb with
      | chars _ hd =>
        rcases h with ⟨d, hd1, hd2⟩ | h
        · exact hd2 (hd d (by simp [hd1]))
        · exact h c hc (hd c (by simp))
    · obtain ⟨s, _, rfl⟩ := List.mem_map.1 he
      generalize hw : u ++ [c] = w at hb
      cases hb with
      | char _ =>
        cases u with
        | nil => exact hu rfl
        | cons _ _ => simp at hw

omit [Unicode] in
/-- The tokens of an expression that fits the table. -/
theorem arithmetic_tokens {k : Nat} {w : List (OpTok String Nat)} {e : OpExpr String Nat} (h : IsText arithmetic k w e) :
    ∀ t ∈ w, (∃ n, t = .val n) ∨ ∃ s ∈ calcSymbols, calcText t = [s.2.1] ∧ s.2.2 = t := by
  have level : ∀ {i f o}, InLevel arithmetic i f o →
      ∃ s ∈ calcSymbols, calcText (.op o) = [s.2.1] ∧ s.2.2 = .op o := by
    rintro i f o ⟨ops, h1, h2⟩
    have hi : (f, ops) ∈ arithmetic := List.mem_of_getElem? h1
    have : ∀ lv ∈ arithmetic, ∀ o ∈ lv.2, ∃ s ∈ calcSymbols, calcText (.op o) = [s.2.1] ∧ s.2.2 = .op o := by
      decide
    exact this _ hi o h2
  have single : ∀ t ∈ [OpTok.lpar, .rpar], ∃ s ∈ calcSymbols, calcText t = [s.2.1] ∧ s.2.2 = t := by decide
  induction h with
  | val => intro t ht; exact .inl ⟨_, List.mem_singleton.1 ht⟩
  | parens _ ih =>
    intro t ht
    simp only [List.cons_append, List.mem_cons, List.mem_append, List.not_mem_nil, or_false] at ht
    rcases ht with rfl | ht | rfl
    · exact .inr (single _ (by simp))
    · exact ih t ht
    · exact .inr (single _ (by simp))
  | tighter _ _ ih => exact ih
  | left ho _ _ ih1 ih2 | right ho _ _ ih1 ih2 =>
    intro t ht
    simp only [List.mem_append, List.mem_cons] at ht
    rcases ht with ht | rfl | ht
    · exact ih1 t ht
    · exact .inr (level ho)
    · exact ih2 t ht
  | before ho _ ih =>
    intro t ht
    rcases List.mem_cons.1 ht with rfl | ht
    · exact .inr (level ho)
    · exact ih t ht
  | behind ho _ ih =>
    intro t ht
    simp only [List.mem_append, List.mem_cons, List.not_mem_nil, or_false] at ht
    rcases ht with ht | rfl
    · exact ih t ht
    · exact .inr (level ho)

/-- C110 for a calculator.  Every expression of the table, with numbers of any size, is printed in decimal and with
parentheses only where they are needed; this text with a `;` behind it is parsed, and the tree stands for the
expression. -/
theorem c110_calculator : ∃ (l : Lexer (OpTok String Nat)) (tbl : Table Nat (OpTok String Nat)),
    LexerFor .debug calcRules calcTrees l ∧ ∀ x, FitsTable arithmetic x →
      ∃ m, Stands m x ∧ ∀ r, Parses l tbl ((opText arithmetic 0 x ++ [OpTok.stop]).flatMap calcText) r ↔
        r = some (.mk (.var 7) [.mk (.term .stop) [], m]) := by
  obtain ⟨l, hl⟩ := calc_for
  obtain ⟨g, tbl, hg, hs, hr, hp⟩ := arithmetic_parser
  refine ⟨l, tbl, hl, fun x hx => ?_⟩
  have htok : ∀ t ∈ opText arithmetic 0 x ++ [OpTok.stop],
      (∃ n, t = .val n) ∨ ∃ s ∈ calcSymbols, calcText t = [s.2.1] ∧ s.2.2 = t := by
    intro t ht
    rcases List.mem_append.1 ht with ht | ht
    · exact arithmetic_tokens (isText_opText arithmetic_oneLevel hx 0 (Nat.zero_le _)) t ht
    · rw [List.mem_singleton.1 ht]
      exact .inr (by decide)
  have nodigit : ∀ s ∈ calcSymbols, s.2.1 ∉ ['0', '1', '2', '3', '4', '5', '6', '7', '8', '9'] := by decide
  refine c110_operators arithmetic_oneLevel hg hs hr hp hl calc_repeats hx ?_ ?_
  · intro t ht
    rcases htok t ht with ⟨n, rfl⟩ | ⟨s, h1, h2, h3⟩
    · exact calc_number n
    · rw [h2, ← h3]
      exact calc_spells h1
  · intro t ht t' ht' hv
    rcases htok t ht with ⟨n, rfl⟩ | ⟨s, h1, h2, h3⟩
    · refine calc_ends Nat.toDigits_ne_nil (.inr fun c hc => ?_)
      rcases htok t' ht' with ⟨n', rfl⟩ | ⟨s, h1, h2, h3⟩
      · exact absurd trivial hv
      · rw [h2] at hc
        cases hc
        exact nodigit s h1
    · rw [h2]
      exact calc_ends (by simp) (.inl ⟨_, by simp, nodigit s h1⟩)

/-- What is printed for `(1 - 2) - ((3 - 4) * (~5!))` and for `(10 + 20) ^ 300`. -/
example : (opText arithmetic 0 someExpr ++ [OpTok.stop]).flatMap calcText = "1-2-(3-4)*~5!;".toList ∧
    (opText arithmetic 0 (.binary (.binary (.val 10) "+" (.val 20)) "^" (.val 300)) ++ [OpTok.stop]).flatMap calcText =
      "(10+20)^300;".toList := by
  decide

omit [Unicode] in
private theorem chain_of_all {α : Type} {R : α → α → Prop} {l : List α} (h : ∀ u ∈ l, ∀ v, R u v) : l.IsChain R := by
  induction l with
  | nil => simp
  | cons a l ih =>
    cases l with
    | nil => simp
    | cons b l => exact List.isChain_cons_cons.2 ⟨h a (by simp) b, ih fun u hu => h u (List.mem_cons_of_mem _ hu)⟩

private theorem semi_spells {i : Nat} {c : Char} {k : String} (h1 : semisEndTrees[i]? = some (.lit (.mtch c) none))
    (h2 : ∀ j < i, semisEndTrees[j]? ≠ some (.lit (.mtch c) none)) (h3 : (semisEndRules[i]?.map fun r => r.2 [c]) = some k) :
    Spells semisEndRules semisEndTrees [c] k := by
  obtain ⟨r, hr, rfl⟩ := Option.map_eq_some_iff.1 h3
  refine ⟨by simp, i, r, ⟨⟨Taken (.lit (.mtch c) none), by simp [taken, h1], .inr ⟨true, .lit rfl⟩⟩, ?_⟩, hr, rfl⟩
  intro j M hj hM
  simp only [taken, List.getElem?_map, Option.map_eq_some_iff] at hM
  obtain ⟨e, he, rfl⟩ := hM
  have hm : e ∈ semisEndTrees := List.mem_of_getElem? he
  simp only [semisEndTrees, List.mem_cons, List.not_mem_nil, or_false] at hm
  rintro (⟨h, _⟩ | ⟨b, h⟩)
  · simp at h
  · rcases hm with rfl | rfl | rfl <;>
    · cases h with
      | lit h => cases h; exact h2 j hj he

/-- Lists as they are printed, `x;x;x!` and so on, with the lexer and the parser of C86. -/
example (n : Nat) : ∃ r, ∀ r', Parses semisEnd (tableOf listWithEnd)
    (((List.replicate n [(['x'], "x"), ([';'], ";")]).flatten ++ [(['x'], "x"), (['!'], "$")]).map Prod.fst).flatten r' ↔
      r' = r := by
  have hx : Spells semisEndRules semisEndTrees ['x'] "x" := semi_spells (i := 0) rfl (by simp) rfl
  have hs : Spells semisEndRules semisEndTrees [';'] ";" := semi_spells (i := 1) rfl (by simp [semisEndTrees]) rfl
  have he : Spells semisEndRules semisEndTrees ['!'] "$" := semi_spells (i := 2) rfl (by
    intro j hj
    match j, hj with
    | 0, _ | 1, _ => simp [semisEndTrees]) rfl
  have hmem : ∀ u ∈ (List.replicate n [(['x'], "x"), ([';'], ";")]).flatten ++ [(['x'], "x"), (['!'], "$")],
      u ∈ [(['x'], "x"), ([';'], ";"), (['!'], "$")] := by
    intro u hu
    simp only [List.mem_append, List.mem_flatten, List.mem_replicate] at hu
    rcases hu with ⟨l, ⟨_, rfl⟩, hu⟩ | hu
    · simp at hu ⊢
      rcases hu with rfl | rfl <;> simp
    · simp at hu ⊢
      rcases hu with rfl | rfl <;> simp
  have hl : ∀ e ∈ semisEndTrees, ∃ a, e = .lit a none := by simp [semisEndTrees]
  obtain ⟨r, hr, _⟩ := c110_reads listGrammar_built list_epsFree list_reachable list_first list_notIn listWithEnd_parser
    semisEnd_for (fun e he => (literals_regular hl e he).1)
    (us := (List.replicate n [(['x'], "x"), ([';'], ";")]).flatten ++ [(['x'], "x"), (['!'], "$")])
    (by
      intro u hu
      have := hmem u hu
      simp only [List.mem_cons, List.not_mem_nil, or_false] at this
      rcases this with rfl | rfl | rfl
      exacts [hx, hs, he])
    (by
      refine chain_of_all fun u hu v c _ => ?_
      rintro (h | ⟨e, he, h⟩)
      · simp at h
      · obtain ⟨a, rfl⟩ := hl e he
        have := hmem u hu
        simp only [List.mem_cons, List.not_mem_nil, or_false] at this
        rcases this with rfl | rfl | rfl <;> cases h)
    (by
      intro u hu
      have := hmem u hu
      simp only [List.mem_cons, List.not_mem_nil, or_false] at this
      rcases this with rfl | rfl | rfl <;> rfl)
  exact ⟨r, hr⟩

/-- Without the condition this is false: `1` and `2` side by side are `12`. -/
example : Spells calcRules calcTrees ['1'] (.val 1) ∧ Spells calcRules calcTrees ['2'] (.val 2) ∧
    Spells calcRules calcTrees ['1', '2'] (.val 12) ∧ ¬ EndsBefore calcTrees ['1'] ['2'] :=
  ⟨calc_number 1, calc_number 2, calc_number 12, fun h => h '2' rfl
    (.inr ⟨_, List.mem_cons_self .., .chars (by simp) (by simp [LitSet, ClassSet])⟩)⟩

end Pango.Props
