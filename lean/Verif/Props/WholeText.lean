import Verif.Props.EndMarker
import Verif.Props.RuleOrder

/-!
# C90: reading a whole text
-/

namespace Pango.Props

open Pango Pango.Parse Pango.Spec

open Pango.Lex hiding Built

/-- The tree of the pattern `.`, which matches every character. -/
def anyCharacter : Regex.Expr := .lit (.cls .wildcard) none

/-- The terminal is not in the grammar, is not the marker and not the other new terminal, not even up to its kind. -/
structure NotUsed {V T : Type} [TerminalEq T] (g : Grammar V T) (e f k : T) : Prop where
  grammar : ∀ h β t, (h, β) ∈ g.rules → .term t ∈ β → teq t k = false
  marker : teq e k = false
  never : teq f k = false

/-- Whatever of two or more characters can be read is matched by a pattern. -/
def NeverStranded [Unicode] (es : List Regex.Expr) : Prop :=
  ∀ w, 2 ≤ w.length → Readable es w → Passes es w → AnyMatch (taken es) w

section munch

variable {α : Type} {L : List (List α → Prop)} {D : List α → Prop}

private theorem any_append {w : List α} : AnyMatch (L ++ [D]) w ↔ AnyMatch L w ∨ D w := by
  simp only [AnyMatch, List.mem_append, List.mem_singleton]
  constructor
  · rintro ⟨M, h | rfl, h2⟩
    · exact .inl ⟨M, h, h2⟩
    · exact .inr h2
  · rintro (⟨M, h, h2⟩ | h)
    · exact ⟨M, .inl h, h2⟩
    · exact ⟨D, .inr rfl, h⟩

private theorem munch_more (hD : ∀ w, D w ↔ w.length = 1) {input tail : List α} {ws : List (List α × Nat)}
    (h : Munch L input ws tail) (ht : tail = []) : Munch (L ++ [D]) input ws [] := by
  induction h with
  | stop _ =>
    subst ht
    exact .stop fun w hw hp => absurd (List.prefix_nil.1 hp) hw
  | @token w rest i ts tail h1 h2 _ ih =>
    refine .token ⟨h1.nonempty, h1.isPrefix, any_append.2 (.inl h1.isMatch), fun v hv hm => ?_⟩ ⟨?_, ?_⟩ (ih ht)
    · rcases any_append.1 hm with hm | hm
      · exact h1.longest v hv hm
      · rw [(hD v).1 hm]
        exact List.length_pos_iff.2 h1.nonempty
    · obtain ⟨M, h3, h4⟩ := h2.isMatch
      exact ⟨M, by rw [List.getElem?_append_left (List.getElem?_eq_some_iff.1 h3).1, h3], h4⟩
    · intro j M hj hM
      obtain ⟨M', h3, _⟩ := h2.isMatch
      have := (List.getElem?_eq_some_iff.1 h3).1
      rw [List.getElem?_append_left (by omega)] at hM
      exact h2.first j M hj hM

private theorem munch_less {input tail : List α} {ws : List (List α × Nat)} (h : Munch (L ++ [D]) input ws tail)
    (hws : ∀ w ∈ ws, w.2 < L.length) : Munch L input ws tail := by
  induction h with
  | stop h => exact .stop fun w hw hp hm => h w hw hp (any_append.2 (.inl hm))
  | @token w rest i ts tail h1 h2 _ ih =>
    have hi : i < L.length := hws _ (List.mem_cons_self ..)
    obtain ⟨M, h3, h4⟩ := h2.isMatch
    rw [List.getElem?_append_left hi] at h3
    refine .token ⟨h1.nonempty, h1.isPrefix, ⟨M, List.mem_of_getElem? h3, h4⟩,
      fun v hv hm => h1.longest v hv (any_append.2 (.inl hm))⟩ ⟨⟨M, h3, h4⟩, ?_⟩
      (ih fun w hw => hws w (List.mem_cons_of_mem _ hw))
    intro j M hj hM
    exact h2.first j M hj (by rw [List.getElem?_append_left (by omega), hM])

end munch

section lexer

variable [Unicode] {K : Type} {p : Profile} {rules : List (List Char × (List Char → K))} {es : List Regex.Expr}
  {l : Lexer K} {k : List Char → K}

private theorem taken_any (w : List Char) : Taken anyCharacter w ↔ w.length = 1 := by
  constructor
  · rintro (⟨_, h⟩ | ⟨b, h⟩)
    · exact absurd h (by simp [anyCharacter, Skips])
    · cases h with
      | lit _ => rfl
  · intro h
    match w, h with
    | [c], _ => exact .inr ⟨true, .lit (by simp [LitSet, ClassSet])⟩

private theorem taken_append : taken (es ++ [anyCharacter]) = taken es ++ [Taken anyCharacter] := by
  simp [taken]

private theorem noMatch_nil {text : List Char} (h : NoMatch (taken (es ++ [anyCharacter])) text) : text = [] := by
  cases text with
  | nil => rfl
  | cons c text =>
    refine absurd ?_ (h [c] (by simp) ⟨text, rfl⟩)
    rw [taken_append]
    exact any_append.2 (.inr ((taken_any _).2 rfl))

/-- C90, nothing is ignored: with `.` as the last pattern the tokens are the whole text, for all texts on which lexing
ends, if and only if one character of lookahead is enough. -/
theorem c90_covers (hl : LexerFor p (rules ++ [(['.'], k)]) (es ++ [anyCharacter]) l) :
    (∀ input ts, Tokens l input ts → (ts.map Tok.source).flatten = input) ↔ LooksOneAhead (es ++ [anyCharacter]) := by
  constructor
  · intro h
    apply Classical.byContradiction
    intro ha
    obtain ⟨input, h1, h2⟩ := not_ahead hl ha
    have := h _ _ h1
    subst this
    exact h2 fun w hw hp => absurd (List.prefix_nil.1 hp) hw
  · intro ha input ts ht
    obtain ⟨ws, h1, h2, _⟩ := ahead_of hl ha ht
    have h3 := h1.flatten
    rw [noMatch_nil h1.noMatch, List.append_nil] at h3
    have h4 := congrArg (List.map Prod.fst) h2
    simp only [List.map_map] at h4
    rw [← h3]
    exact congrArg List.flatten h4

/-- What this asks for: that whatever of two or more characters can be read is matched by another pattern. -/
theorem c90_lookahead (hl : LexerFor p (rules ++ [(['.'], k)]) (es ++ [anyCharacter]) l) :
    LooksOneAhead (es ++ [anyCharacter]) ↔ NeverStranded es := by
  have spins : ∀ v, ¬ SpinsFirst anyCharacter v := by intro v h; cases h
  have passes : ∀ w, Passes (es ++ [anyCharacter]) w ↔ Passes es w := by
    intro w
    refine ⟨fun h e he => h e (by simp [he]), fun h e he v hv => ?_⟩
    rcases List.mem_append.1 he with he | he
    · exact h e he v hv
    · rw [List.mem_singleton.1 he]
      exact spins v
  have reads : ∀ w, 2 ≤ w.length → (Readable (es ++ [anyCharacter]) w ↔ Readable es w) := by
    intro w hw
    have hne : w ≠ [] := by rintro rfl; simp at hw
    simp only [Readable, hne, false_or, List.mem_append, List.mem_singleton]
    constructor
    · rintro ⟨e, he | rfl, h⟩
      · exact ⟨e, he, h⟩
      · cases h with
        | char _ => simp at hw
    · rintro ⟨e, he, h⟩
      exact ⟨e, .inl he, h⟩
  have long : ∀ w, 2 ≤ w.length → (AnyMatch (taken (es ++ [anyCharacter])) w ↔ AnyMatch (taken es) w) := by
    intro w hw
    rw [taken_append, any_append]
    constructor
    · rintro (h | h)
      · exact h
      · rw [taken_any] at h
        omega
    · exact .inl
  constructor
  · intro ha w hw hread hpass
    have key : ∀ n, ∀ v, v <+: w → v.length = n + 1 → AnyMatch (taken (es ++ [anyCharacter])) v := by
      intro n
      induction n with
      | zero =>
        intro v _ hv
        rw [taken_append, any_append]
        exact .inr ((taken_any v).2 hv)
      | succ n ih =>
        intro v hv hlen
        rcases List.eq_nil_or_concat v with rfl | ⟨u, c, rfl⟩
        · simp at hlen
        · rw [List.concat_eq_append] at hv hlen ⊢
          have hu : u.length = n + 1 := by simpa using hlen
          have hne : u ≠ [] := by rintro rfl; simp at hu
          refine ha u c hne (ih u ((List.prefix_append _ _).trans hv) hu) ?_ ?_
          · obtain ⟨x, rfl⟩ := hv
            exact hl.toBuilt.readable_mono ((reads _ hw).2 hread)
          · rw [passes]
            exact fun e he x hx => hpass e he x (hx.trans hv)
    exact (long w hw).1 (key (w.length - 1) w (List.prefix_refl _) (by omega))
  · intro hn w c hw _ hread hpass
    have h2 : 2 ≤ (w ++ [c]).length := by
      have := List.length_pos_iff.2 hw
      simp only [List.length_append, List.length_singleton]
      omega
    exact (long _ h2).2 (hn _ h2 ((reads _ h2).1 hread) ((passes _).1 hpass))

/-- C90, the lexer can be built: if it can be built without the last pattern. -/
theorem c90_builds (hl : LexerFor p rules es l) (k : List Char → K) :
    ∃ l', LexerFor p (rules ++ [(['.'], k)]) (es ++ [anyCharacter]) l' := by
  have hd : Regex.parse p ['.'] = .ok (.ok anyCharacter) := by cases p <;> rfl
  have ht : (rules ++ [(['.'], k)]).map (fun r => Regex.parse p r.1) =
      (es ++ [anyCharacter]).map (fun e => .ok (.ok e)) := by
    rw [List.map_append, List.map_append, hl.trees]
    simp [hd]
  obtain ⟨l', hl'⟩ := (c55_partial p (rules ++ [(['.'], k)])).2.1 fun r hr => by
    rcases List.mem_append.1 hr with hr | hr
    · exact hl.toBuilt.usable r hr
    · rw [List.mem_singleton.1 hr]
      exact ⟨_, hd, by rw [← hasEmptySeqB_iff]; decide⟩
  exact ⟨l', hl', ht⟩

end lexer

section parser

variable [Unicode] {V T : Type} [DecidableEq V] [DecidableEq T] [TerminalEq T] [LawfulTerminalEq T] {g : Grammar V T}
  {z : V} {e f : T} {tbl : Table V T} {p : Profile} {rules : List (List Char × (List Char → T))}
  {es : List Regex.Expr} {l : Lexer T} {k : List Char → T}

omit [Unicode] [DecidableEq V] [DecidableEq T] [LawfulTerminalEq T] in
private theorem leaves_known {α : List (Sym V T)} {ns : List (Node V T)} {w : List T} (h : Forest g α ns w) :
    ∀ t ∈ w, ∃ u, teq u t = true ∧ (.term u ∈ α ∨ ∃ v β, (v, β) ∈ g.rules ∧ .term u ∈ β) := by
  induction h with
  | nil => simp
  | eps _ ih =>
    intro t ht
    obtain ⟨u, h1, h2⟩ := ih t ht
    exact ⟨u, h1, h2.imp (List.mem_cons_of_mem _) id⟩
  | @term s u α ns w hs _ ih =>
    intro t ht
    rcases List.mem_cons.1 ht with rfl | ht
    · exact ⟨s, hs, .inl (List.mem_cons_self ..)⟩
    · obtain ⟨u, h1, h2⟩ := ih t ht
      exact ⟨u, h1, h2.imp (List.mem_cons_of_mem _) id⟩
  | @var v β α cs ns x w hr _ _ ih1 ih2 =>
    intro t ht
    rcases List.mem_append.1 ht with ht | ht
    · obtain ⟨u, h1, h2⟩ := ih1 t ht
      exact ⟨u, h1, .inr (h2.elim (fun h => ⟨v, β, hr, h⟩) id)⟩
    · obtain ⟨u, h1, h2⟩ := ih2 t ht
      exact ⟨u, h1, h2.imp (List.mem_cons_of_mem _) id⟩

/-- C90.  The rules are any patterns of which none repeats something empty, and `.` behind them for a kind of its own.
If whatever of two or more characters can be read is matched by a pattern, then the parser of the grammar with the
marker returns on every text, always the same.  It returns a tree exactly if the other rules divide the whole text, by
maximal munch, into the tokens of a sentence and the marker, and an error otherwise. -/
theorem c90_reads (hg : Built g) (he : EpsFree g) (hreach : ∀ v β, (v, β) ∈ g.rules → Reachable g v)
    (hfirst : ∀ v β, (v, β) ∈ g.rules → ∃ t, InFirst g [.var v] (.term t)) (hn : NotIn g z e f)
    (hp : IsParser (Spec.withEnd g z e f) tbl) (hl : LexerFor p (rules ++ [(['.'], k)]) (es ++ [anyCharacter]) l)
    (hr : ∀ e ∈ es, RepeatsNonEmpty e) (hs : NeverStranded es) (hf : ∀ r ∈ rules, ∀ s, teq f (r.2 s) = false)
    (hk : ∀ s, NotUsed g e f (k s)) (input : List Char) :
    ∃ r, (∀ r', Parses l tbl input r' ↔ r' = r) ∧ ∀ n, r = some n ↔
      ∃ ts w e' m, IsTokenization (taken es) rules input ts ∧ (ts.map Tok.source).flatten = input ∧
        ts.map Tok.kind = w ++ [e'] ∧ teq e e' = true ∧ ParseTree g m w ∧
        n = .mk (.var z) [.mk (.term e') [], m] := by
  have ha := (c90_lookahead hl).2 hs
  have b := hl.toBuilt
  have hlen : rules.length = es.length := by
    have := congrArg List.length hl.trees
    simpa using this
  obtain ⟨ts, ht⟩ : ∃ ts, Tokens l input ts := by
    obtain ⟨⟨as, it⟩, h⟩ := ((b.safe _).lexCalls (input.length + 1) (InputIter.new input)).2
      (b.total (fun e he => by
        rcases List.mem_append.1 he with he | he
        · exact hr e he
        · rw [List.mem_singleton.1 he]
          exact (repeatsNonEmptyB_iff _).1 rfl) (Nat.le_refl _))
    obtain ⟨⟨ts, it'⟩, h'⟩ := lexAll_of_calls h ((c16_finite _ _ _ _ _ _ h).2.2 (Nat.lt_succ_self _))
    exact ⟨ts, _, _, it', h'⟩
  obtain ⟨ws, h1, h2, _⟩ := ahead_of hl ha ht
  have hcover := (c90_covers hl).2 ha input ts ht
  have htail := noMatch_nil h1.noMatch
  rw [htail, taken_append] at h1
  have kinds : ∀ {t : Tok T}, t ∈ ts → ∃ w ∈ ws, kindAt (rules ++ [(['.'], k)]) w.2 w.1 = some t.kind := by
    intro t h
    have h3 : (t.source, some t.kind) ∈ ts.map fun t => (t.source, some t.kind) := List.mem_map.2 ⟨t, h, rfl⟩
    rw [h2] at h3
    obtain ⟨w, h4, h5⟩ := List.mem_map.1 h3
    exact ⟨w, h4, congrArg Prod.snd h5⟩
  have never : ∀ t ∈ ts.map Tok.kind, teq f t = false := by
    intro t h
    obtain ⟨tok, h3, rfl⟩ := List.mem_map.1 h
    obtain ⟨w, _, h4⟩ := kinds h3
    obtain ⟨r, h5, h6⟩ := Option.map_eq_some_iff.1 h4
    rw [← h6]
    rcases List.mem_append.1 (List.mem_of_getElem? h5) with h7 | h7
    · exact hf r h7 _
    · rw [List.mem_singleton.1 h7]
      exact (hk _).never
  obtain ⟨r, h3, h4⟩ := c86_reads hg he hreach hfirst hn hp never (Nat.lt_succ_self _)
  have h5 := parses_of_tokens ht h3
  refine ⟨r, fun r' => ⟨fun h => parses_unique h h5, fun h => h ▸ h5⟩, fun n => ?_⟩
  rw [h4]
  constructor
  · rintro ⟨w, e', m, h6, h7, h8, h9⟩
    refine ⟨ts, w, e', m, ?_, hcover, h6, h7, h8, h9⟩
    have known : ∀ t ∈ ts, ∃ u, teq u t.kind = true ∧ ∀ s, teq u (k s) = false := by
      intro t ht
      have : t.kind ∈ w ++ [e'] := h6 ▸ List.mem_map.2 ⟨t, ht, rfl⟩
      rcases List.mem_append.1 this with h | h
      · obtain ⟨u, h10, h11 | ⟨v, β, h11, h12⟩⟩ := leaves_known h8 _ h
        · simp at h11
        · exact ⟨u, h10, fun s => (hk s).grammar v β u h11 h12⟩
      · rw [List.mem_singleton.1 h]
        exact ⟨e, h7, fun s => (hk s).marker⟩
    have small : ∀ w ∈ ws, w.2 < rules.length := by
      intro w hw
      have h10 : (w.1, kindAt (rules ++ [(['.'], k)]) w.2 w.1) ∈
          ws.map fun w => (w.1, kindAt (rules ++ [(['.'], k)]) w.2 w.1) := List.mem_map.2 ⟨w, hw, rfl⟩
      rw [← h2] at h10
      obtain ⟨t, h11, h12⟩ := List.mem_map.1 h10
      obtain ⟨u, h13, h14⟩ := known t h11
      have h15 := (congrArg Prod.snd h12).symm
      obtain ⟨r, h16, h17⟩ := Option.map_eq_some_iff.1 h15
      rcases Nat.lt_or_ge w.2 rules.length with h | h
      · exact h
      · rw [List.getElem?_append_right h] at h16
        have := List.mem_singleton.1 (List.mem_of_getElem? h16)
        subst this
        rw [← h17, h14] at h13
        exact absurd h13 (by decide)
    refine ⟨ws, [], munch_less h1 fun w hw => ?_, ?_⟩
    · have := small w hw
      simp only [taken, List.length_map]
      omega
    · rw [h2]
      refine List.map_congr_left fun w hw => ?_
      simp only [kindAt, List.getElem?_append_left (small w hw)]
  · rintro ⟨ts', w, e', m, ⟨ws', tail, h6, h7⟩, h8, h9, h10⟩
    have h11 := congrArg (List.map Prod.fst) h7
    simp only [List.map_map] at h11
    have h12 : tail = [] := by
      have h13 := h6.flatten
      have : (ws'.map Prod.fst).flatten = input := by
        rw [← h8]
        exact congrArg List.flatten h11.symm
      rw [this] at h13
      simpa using h13
    have h13 := munch_more (D := Taken anyCharacter) taken_any h6 h12
    have h14 : ws' = ws := (h13.unique h1).1
    have h15 : ts.map Tok.kind = ts'.map Tok.kind := by
      have h16 : ws'.map (fun w => (w.1, kindAt (rules ++ [(['.'], k)]) w.2 w.1)) =
          ws'.map (fun w => (w.1, kindAt rules w.2 w.1)) := by
        refine List.map_congr_left fun w hw => ?_
        have h17 : (w.1, kindAt rules w.2 w.1) ∈ ws'.map fun w => (w.1, kindAt rules w.2 w.1) :=
          List.mem_map.2 ⟨w, hw, rfl⟩
        rw [← h7] at h17
        obtain ⟨t, _, h18⟩ := List.mem_map.1 h17
        obtain ⟨r, h19, _⟩ := Option.map_eq_some_iff.1 (congrArg Prod.snd h18).symm
        simp only [kindAt, List.getElem?_append_left (List.getElem?_eq_some_iff.1 h19).1]
      rw [h14] at h16
      rw [h14, ← h16, ← h2] at h7
      have h17 := congrArg (List.map Prod.snd) h7
      simp only [List.map_map] at h17
      have h18 := congrArg (List.map (fun o : Option T => o.getD e)) h17
      simp only [List.map_map] at h18
      exact h18.symm
    exact ⟨w, e', m, by rw [h15, h9], h10⟩

/-- C90, with regular rules: the rules are the languages of their patterns. -/
theorem c90_text (hg : Built g) (he : EpsFree g) (hreach : ∀ v β, (v, β) ∈ g.rules → Reachable g v)
    (hfirst : ∀ v β, (v, β) ∈ g.rules → ∃ t, InFirst g [.var v] (.term t)) (hn : NotIn g z e f)
    (hp : IsParser (Spec.withEnd g z e f) tbl) (hl : LexerFor p (rules ++ [(['.'], k)]) (es ++ [anyCharacter]) l)
    (hr : Regular es) (hs : ∀ w, 2 ≤ w.length → (∃ e ∈ es, MayRead e w) → AnyMatch (languages es) w)
    (hf : ∀ r ∈ rules, ∀ s, teq f (r.2 s) = false) (hk : ∀ s, NotUsed g e f (k s)) (input : List Char) :
    ∃ r, (∀ r', Parses l tbl input r' ↔ r' = r) ∧ ∀ n, r = some n ↔
      ∃ ts w e' m, IsTokenization (languages es) rules input ts ∧ (ts.map Tok.source).flatten = input ∧
        ts.map Tok.kind = w ++ [e'] ∧ teq e e' = true ∧ ParseTree g m w ∧
        n = .mk (.var z) [.mk (.term e') [], m] := by
  have hr' : Regular (es ++ [anyCharacter]) := by
    intro e he
    rcases List.mem_append.1 he with he | he
    · exact hr e he
    · rw [List.mem_singleton.1 he]
      exact ⟨(repeatsNonEmptyB_iff _).1 rfl, (countsAtStartB_iff _).1 rfl⟩
  have heq : taken es = languages es := by
    have h := taken_languages hl hr'
    rw [taken_append, show languages (es ++ [anyCharacter]) = languages es ++ languages [anyCharacter] from
      List.map_append] at h
    exact (List.append_inj h (by simp [taken, languages])).1
  have h := c90_reads hg he hreach hfirst hn hp hl (fun e he => (hr e he).1) ?_ hf hk input
  · rw [heq] at h
    exact h
  · intro w hw hread _
    rw [heq]
    refine hs w hw ?_
    have hne : w ≠ [] := by rintro rfl; simp at hw
    obtain ⟨e, h1, h2⟩ := hread.resolve_left hne
    have h3 : Readable (es ++ [anyCharacter]) w := .inr ⟨e, List.mem_append_left _ h1, h2⟩
    obtain ⟨e', h4, h5⟩ := hl.toBuilt.mayRead hr' hne ((hl.toBuilt.live _).2 h3)
    rcases List.mem_append.1 h4 with h4 | h4
    · exact ⟨e', h4, h5⟩
    · rw [List.mem_singleton.1 h4] at h5
      rcases mayRead_lit h5 with h6 | ⟨c, h6, _⟩ <;> subst h6 <;> simp at hw

end parser

/-- A kind that the grammar of the lists does not use. -/
theorem list_foreign : NotUsed listGrammar "$" "#" "?" := by
  refine ⟨?_, by decide, by decide⟩
  intro h β t hr ht
  have all : ∀ r ∈ listGrammar.rules, ∀ s ∈ r.2, ∀ t, s = .term t → teq t "?" = false := by
    intro r hr s hs t hst
    subst hst
    revert t
    intro t hs
    simp only [listGrammar, List.mem_cons, List.not_mem_nil, or_false] at hr
    rcases hr with rfl | rfl | rfl <;> simp at hs <;> subst hs <;> decide
  exact all _ hr _ ht t rfl

/-- All texts, read with the rules `x`, `;`, `!` and `.`. -/
example [Unicode] : ∃ l, LexerFor .debug (semisEndRules ++ [(['.'], fun _ => "?")]) (semisEndTrees ++ [anyCharacter]) l ∧
    ∀ input, ∃ r, (∀ r', Parses l (tableOf listWithEnd) input r' ↔ r' = r) ∧ ∀ n,
      r = some n ↔ ∃ ts w e' m, IsTokenization (languages semisEndTrees) semisEndRules input ts ∧
        (ts.map Tok.source).flatten = input ∧ ts.map Tok.kind = w ++ [e'] ∧ teq "$" e' = true ∧
        ParseTree listGrammar m w ∧ n = .mk (.var "Z") [.mk (.term e') [], m] := by
  have hl : ∀ e ∈ semisEndTrees, ∃ a, e = .lit a none := by simp [semisEndTrees]
  obtain ⟨l, h⟩ := c90_builds semisEnd_for fun _ => "?"
  refine ⟨l, h, c90_text listGrammar_built list_epsFree list_reachable list_first list_notIn listWithEnd_parser h
    (literals_regular hl) ?_ ?_ fun _ => list_foreign⟩
  · rintro w hw ⟨e, he, h⟩
    obtain ⟨a, rfl⟩ := hl e he
    rcases mayRead_lit h with h | ⟨c, h, _⟩ <;> subst h <;> simp at hw
  · intro r hr s
    simp only [semisEndRules, List.mem_cons, List.not_mem_nil, or_false] at hr
    rcases hr with rfl | rfl | rfl <;> rfl

/-- The text `x!` is read whole: a tree is returned. -/
example [Unicode] : ∃ ts : List (Tok String), IsTokenization (languages semisEndTrees) semisEndRules "x!".toList ts ∧
    (ts.map Tok.source).flatten = "x!".toList ∧ ts.map Tok.kind = ["x"] ++ ["$"] := by
  have h : lexAll (nfaMachine semisEnd.nfa 10) semisEnd.tokens 5 (InputIter.new "x!".toList) =
      .ok ([⟨"x", ['x'], (0, 1)⟩, ⟨"$", ['!'], (1, 2)⟩], ⟨[], [], (2, 0), [], []⟩) := by
    with_unfolding_all rfl
  have hl : ∀ e ∈ semisEndTrees, ∃ a, e = .lit a none := by simp [semisEndTrees]
  have ha := looksOneAhead_of semisEnd_for (literals_regular hl) (literals_oneLookahead hl)
  obtain ⟨ws, h1, h2, _⟩ := ahead_of semisEnd_for ha ⟨10, 5, _, h⟩
  rw [taken_languages semisEnd_for (literals_regular hl)] at h1
  exact ⟨_, ⟨ws, _, h1, h2⟩, rfl, rfl⟩

/-- With the rules `a` and `abc` a word of two characters can be read and is not matched: also with `.` the tokens
need not cover the text. -/
example [Unicode] : ¬ NeverStranded earlyTrees := by
  intro hs
  have h : LooksOneAhead earlyTrees := by
    intro w c hw _ hread hpass
    refine hs _ ?_ hread hpass
    have := List.length_pos_iff.2 hw
    simp only [List.length_append, List.length_singleton]
    omega
  have := (c15_exact_partial _ _ _ _ early_for).2 h _ _ early_tokens ['a'] (by simp) (by decide)
  exact this ⟨_, List.mem_cons_self .., .inr ⟨_, .lit rfl⟩⟩

end Pango.Props
