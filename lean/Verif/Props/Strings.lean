import Verif.Spec.Strings
import Verif.Props.Nested
import Verif.Props.ReadBack
import Verif.Props.Quoted

/-!
# C119: lists of strings are written and read back
-/

namespace Pango.Props

open Pango Pango.Parse Pango.Spec Pango.Lex Pango.Regex

/-! ## Any lists -/

section
variable [Unicode] {W T : Type} [DecidableEq W] [DecidableEq T] [TerminalEq T] [LawfulTerminalEq T] {i : Grammar W T}
  {opening sep closing : T} {H : Grammar (ListVar ⊕ W) T} {p : Profile} {rules : List (List Char × (List Char → T))}
  {es : List Regex.Expr} {l : Lexer T}

/-- C119.  If all tokens of a list can be written, and each ends before the next one, the list is written with nothing
between the tokens, and read back. -/
theorem c119_text (hi : Built i) (hH : Built H) (hs : H.start = .inl .data)
    (hr : ∀ v β, (v, β) ∈ H.rules ↔ ListRule i opening sep closing v β) (hf : ListFit i opening sep closing)
    (hri : ∀ v β, (v, β) ∈ i.rules → Reachable i v)
    (hfi : ∀ v β, (v, β) ∈ i.rules → ∃ t, InFirst i [.var v] (.term t))
    {z : ListVar ⊕ W} {e f : T} (hn : NotIn H z e f) {tbl : Table (ListVar ⊕ W) T}
    (hp : IsParser (withEnd H z e f) tbl) (hl : LexerFor p rules es l) (hrep : ∀ e ∈ es, RepeatsNonEmpty e)
    {X : Type} {text : X → List T} {tree : X → Node W T} (d : Data X)
    (hd : d.All fun x => ParseTree i (tree x) (text x)) {s : T → List Char}
    (hw : ∀ t ∈ d.text opening sep closing text ++ [e], Spells rules es (s t) t)
    (hc : (d.text opening sep closing text ++ [e]).IsChain fun t u => EndsBefore es (s t) (s u)) (r : Option _) :
    Parses l tbl ((d.text opening sep closing text ++ [e]).flatMap s) r ↔
      r = some (.mk (.var z) [.mk (.term e) [], d.tree opening sep closing tree]) := by
  have h1 := c118_tree hi hH hs hr hf hri hfi hn hp d hd (Nat.lt_succ_self _)
  generalize d.text opening sep closing text ++ [e] = input at h1 hw hc ⊢
  obtain ⟨ts, h2, h3⟩ := c110_tokens hl hrep (us := input.map fun t => (s t, t)) (by
    intro u hu
    obtain ⟨t, ht, rfl⟩ := List.mem_map.1 hu
    exact hw t ht) ((List.isChain_map _).2 hc)
  have hk : ts.map Tok.kind = input := by
    have := congrArg (List.map Prod.snd) h3
    simpa [Function.comp_def] using this
  have h4 := parses_of_tokens h2 (by rw [hk]; exact h1)
  have e : ((input.map fun t => (s t, t)).map Prod.fst).flatten = input.flatMap s := by
    simp [List.flatMap, Function.comp_def]
  rw [e] at h4
  exact ⟨fun h => parses_unique h h4, fun h => h ▸ h4⟩

end

/-! ## Lists of strings -/

instance : LawfulTerminalEq DataTok where
  refl t := by cases t <;> simp [teq]
  symm s t h := by cases s <;> cases t <;> simp [teq] at h ⊢
  trans s t u h h' := by cases s <;> cases t <;> simp [teq] at h <;> cases u <;> simp [teq] at h' ⊢

/-- The grammar of a string. -/
def oneString : Grammar Bool DataTok := ⟨false, [(false, [.term (.str [])])]⟩

theorem oneString_built : Built oneString :=
  ⟨[.setStart false, .addRules false [[.term (.str [])]]], by decide⟩

/-- The rules of a lexer for lists of strings. -/
def stringRules : List (List Char × (List Char → DataTok)) :=
  [("\"([^\"\\\\]|\\\\.)*\"".toList, fun w => .str (unquote w)), ("\\[".toList, fun _ => .opening),
    (",".toList, fun _ => .comma), ("\\]".toList, fun _ => .closing), (";".toList, fun _ => .stop)]

def stringTrees : List Regex.Expr :=
  [stringTree, .lit (.mtch '[') none, .lit (.mtch ',') none, .lit (.mtch ']') none, .lit (.mtch ';') none]

theorem strings_for : ∃ l, LexerFor .debug stringRules stringTrees l := by
  have h1 : parse .debug "\\[".toList = .ok (.ok (.lit (.mtch '[') none)) := by with_unfolding_all rfl
  have h2 : parse .debug ",".toList = .ok (.ok (.lit (.mtch ',') none)) := by with_unfolding_all rfl
  have h3 : parse .debug "\\]".toList = .ok (.ok (.lit (.mtch ']') none)) := by with_unfolding_all rfl
  have h4 : parse .debug ";".toList = .ok (.ok (.lit (.mtch ';') none)) := by with_unfolding_all rfl
  obtain ⟨l, hl⟩ := (c55_partial (K := DataTok) .debug stringRules).2.1 (by
    intro r hr
    simp only [stringRules, List.mem_cons, List.not_mem_nil, or_false] at hr
    rcases hr with rfl | rfl | rfl | rfl | rfl
    · exact ⟨_, stringTree_parse, by rw [← hasEmptySeqB_iff]; decide⟩
    · exact ⟨_, h1, by rw [← hasEmptySeqB_iff]; decide⟩
    · exact ⟨_, h2, by rw [← hasEmptySeqB_iff]; decide⟩
    · exact ⟨_, h3, by rw [← hasEmptySeqB_iff]; decide⟩
    · exact ⟨_, h4, by rw [← hasEmptySeqB_iff]; decide⟩)
  exact ⟨l, hl, by simp only [stringRules, stringTrees, List.map_cons, List.map_nil, stringTree_parse, h1, h2, h3, h4]⟩

/-- Nothing is lost if a string is written. -/
theorem unquote_quote (s : List Char) : unquote (quote s) = s := by
  have inside : ∀ s : List Char,
      unquote.inside ((s.flatMap fun c => if c = '"' ∨ c = '\\' then ['\\', c] else [c]) ++ ['"']) = s := by
    intro s
    induction s with
    | nil => simp [unquote.inside]
    | cons c s ih =>
      rw [List.flatMap_cons]
      by_cases h : c = '"' ∨ c = '\\'
      · rw [if_pos h]
        simp only [List.cons_append, List.nil_append, unquote.inside, ih]
      · rw [if_neg h]
        obtain ⟨h1, h2⟩ := not_or.1 h
        simp only [List.cons_append, List.nil_append]
        rw [unquote.inside.eq_def]
        split
        · rename_i heq; simp at heq; exact absurd heq.1 h2
        · rename_i heq; simp at heq; exact absurd heq.1 h1
        · rename_i heq; simp at heq; obtain ⟨rfl, rfl⟩ := heq; rw [ih]
        · rename_i heq; simp at heq
  simp only [quote, List.cons_append, unquote, inside]

variable [Unicode]

theorem quote_matches (s : List Char) : Matches stringTree (quote s) := by
  rw [stringTree, escapes_matches]
  refine ⟨_, rfl, ?_⟩
  induction s with
  | nil => exact .nil
  | cons c s ih =>
    rw [List.flatMap_cons]
    by_cases h : c = '"' ∨ c = '\\'
    · rw [if_pos h]
      exact .escape trivial ih
    · rw [if_neg h]
      refine .plain ?_ ih
      simpa [plainChars, LitSet, Spec.ItemSet] using h

theorem strings_regular : Regular stringTrees := by
  intro e he
  simp only [stringTrees, List.mem_cons, List.not_mem_nil, or_false] at he
  rcases he with rfl | rfl | rfl | rfl | rfl
  · exact escapes_regular
  all_goals simp [RepeatsNonEmpty, CountsAtStart]

theorem strings_spell {l : Lexer DataTok} (hl : LexerFor .debug stringRules stringTrees l) (t : DataTok)
    (ht : t ≠ .never) : Spells stringRules stringTrees (tokenText t) t := by
  have nostr : ∀ c : Char, c ≠ '"' → ¬ Matches stringTree [c] := by
    intro c hc h
    obtain ⟨u, h1, _⟩ := escapes_matches.1 h
    exact hc (by simpa using congrArg List.head? h1)
  have sym : ∀ i c r, stringTrees[i + 1]? = some (.lit (.mtch c) none) → stringRules[i + 1]? = some r → c ≠ '"' →
      (∀ j < i, ∀ c', stringTrees[j + 1]? = some (.lit (.mtch c') none) → c' ≠ c) →
      (∀ j < i, ∃ c', stringTrees[j + 1]? = some (.lit (.mtch c') none)) →
      Spells stringRules stringTrees [c] (r.2 [c]) := by
    intro i c r h1 h2 h3 h4 h5
    refine ⟨by simp, i + 1, r, ?_, h2, rfl⟩
    rw [taken_languages hl strings_regular]
    refine ⟨⟨_, by simp [languages, h1], matches_char.2 rfl⟩, ?_⟩
    intro j M hj hM
    cases j with
    | zero =>
      simp only [languages, stringTrees, List.map_cons, List.getElem?_cons_zero, Option.some.injEq] at hM
      subst hM
      exact nostr c h3
    | succ j =>
      obtain ⟨c', hc'⟩ := h5 j (by omega)
      rw [languages, List.getElem?_map, hc'] at hM
      cases hM
      intro h
      have := matches_char.1 h
      cases this
      exact h4 j (by omega) _ hc' rfl
  cases t with
  | str s =>
    refine ⟨by simp [tokenText, quote], 0, _, ?_, rfl, by simp [tokenText, unquote_quote]⟩
    rw [taken_languages hl strings_regular]
    exact ⟨⟨_, rfl, quote_matches s⟩, by simp⟩
  | opening => exact sym 0 '[' _ rfl rfl (by decide) (by simp) (by simp)
  | comma =>
    refine sym 1 ',' _ rfl rfl (by decide) ?_ ?_
    · intro j hj c' h
      match j, hj, h with
      | 0, _, h => cases h; decide
    · intro j hj
      match j, hj with
      | 0, _ => exact ⟨_, rfl⟩
  | closing =>
    refine sym 2 ']' _ rfl rfl (by decide) ?_ ?_
    · intro j hj c' h
      match j, hj, h with
      | 0, _, h | 1, _, h => cases h; decide
    · intro j hj
      match j, hj with
      | 0, _ | 1, _ => exact ⟨_, rfl⟩
  | stop =>
    refine sym 3 ';' _ rfl rfl (by decide) ?_ ?_
    · intro j hj c' h
      match j, hj, h with
      | 0, _, h | 1, _, h | 2, _, h => cases h; decide
    · intro j hj
      match j, hj with
      | 0, _ | 1, _ | 2, _ => exact ⟨_, rfl⟩
  | never => exact absurd rfl ht

/-- Each token ends, whatever comes next. -/
theorem strings_end {l : Lexer DataTok} (hl : LexerFor .debug stringRules stringTrees l) (t : DataTok) (ht : t ≠ .never)
    (v : List Char) : EndsBefore stringTrees (tokenText t) v := by
  intro c _ h
  obtain ⟨e, he, hr⟩ := hl.toBuilt.mayRead strings_regular (by simp) ((hl.toBuilt.live _).2 h)
  have hsym : ∀ (a : Char) (w : List Char), w ≠ [] → ¬ MayRead (.lit (.mtch a) none) (w ++ [c]) := by
    intro a w hw h
    generalize hu : w ++ [c] = u at h
    cases h with
    | nothing => simp at hu
    | char _ =>
      cases w with
      | nil => exact hw rfl
      | cons _ _ => simp at hu
  have hne : tokenText t ≠ [] := (strings_spell hl t ht).nonempty
  simp only [stringTrees, List.mem_cons, List.not_mem_nil, or_false] at he
  rcases he with rfl | rfl | rfl | rfl | rfl
  · cases t with
    | str s =>
      have := escapes_delimits (o := '"') (S := plainChars) (b := '\\') (X := .cls .wildcard) (q := '"')
        (by simp [plainChars, LitSet, Spec.ItemSet]) (by simp [plainChars, LitSet, Spec.ItemSet]) (by decide) _ _
        (quote_matches s) hr
      simp at this
    | never => exact ht rfl
    | _ => exact absurd (escapes_begin hr) (by decide)
  all_goals exact hsym _ _ hne hr

omit [Unicode] in
private theorem chain_all {α : Type} {R : α → α → Prop} {l : List α} (h : ∀ u ∈ l, ∀ v, R u v) : l.IsChain R := by
  induction l with
  | nil => simp
  | cons a l ih =>
    cases l with
    | nil => simp
    | cons b l => exact List.isChain_cons_cons.2 ⟨h a (by simp) b, ih fun u hu => h u (List.mem_cons_of_mem _ hu)⟩

omit [Unicode] in
private theorem one_rule {v : Bool} {β : Body Bool DataTok} (h : (v, β) ∈ oneString.rules) :
    v = false ∧ β = [.term (.str [])] := by
  simpa [oneString] using h

omit [Unicode] in
private theorem one_term {t : DataTok} (h : HasTerm oneString t) : t = .str [] := by
  obtain ⟨v, β, h1, h2⟩ := h
  rw [(one_rule h1).2] at h2
  simpa using h2

omit [Unicode] in
theorem strings_fit : ListFit oneString .opening .comma .closing where
  eps := by
    intro v β h
    rw [(one_rule h).2]
    simp
  kinds t u ht hu _ := by rw [one_term ht, one_term hu]
  opening_sep := rfl
  opening_closing := rfl
  sep_closing := rfl
  opening t h := by rw [one_term h]; rfl
  sep t h := by rw [one_term h]; rfl
  closing t h := by rw [one_term h]; rfl

omit [Unicode] in
theorem oneString_notIn : NotIn oneString true .stop .never where
  head β h := by have := (one_rule h).1; cases this
  marker v β t h ht := by rw [one_term ⟨v, β, h, ht⟩]; rfl
  never v β t h ht := by rw [one_term ⟨v, β, h, ht⟩]; rfl
  differ := rfl

omit [Unicode] in
mutual
private theorem text_ok : ∀ d : Data (List Char), ∀ t ∈ d.text DataTok.opening .comma .closing (fun s => [.str s]), t ≠ .never
  | .leaf s, t, h => by
    have : t = .str s := by simpa [Data.text] using h
    rw [this]
    exact nofun
  | .list ds, t, h => by
    simp only [Data.text, List.cons_append, List.mem_cons, List.mem_append, List.not_mem_nil, or_false] at h
    rcases h with rfl | h | rfl
    · exact nofun
    · exact items_ok ds t h
    · exact nofun

private theorem items_ok : ∀ ds : List (Data (List Char)),
    ∀ t ∈ itemsText DataTok.opening .comma .closing (fun s => [.str s]) ds, t ≠ .never
  | [], t, h => by simp [itemsText] at h
  | [d], t, h => text_ok d t (by simpa [itemsText] using h)
  | d :: d' :: ds, t, h => by
    simp only [itemsText, List.mem_append, List.mem_cons] at h
    rcases h with h | rfl | h
    · exact text_ok d t h
    · exact nofun
    · exact items_ok (d' :: ds) t h
end

omit [Unicode] in
mutual
private theorem all_true {X : Type} {P : X → Prop} (h : ∀ x, P x) : ∀ d : Data X, d.All P
  | .leaf x => by simpa [Data.All] using h x
  | .list ds => by simpa [Data.All] using allData_true h ds

private theorem allData_true {X : Type} {P : X → Prop} (h : ∀ x, P x) : ∀ ds : List (Data X), allData P ds
  | [] => by simp [allData]
  | d :: ds => by
    rw [allData]
    exact ⟨all_true h d, allData_true h ds⟩
end

private def oneTable : Table Bool DataTok :=
  match slrNew (withEnd oneString true .stop .never) .insertion 100 with
  | .ok t => t
  | _ => ⟨false, [], []⟩

/-- C119 for lists of strings.  There are a lexer and a grammar, and the grammar has parsers; with each of them every list
of lists of ... of strings, of any depth and with any characters in the strings, is written and read back. -/
theorem c119_strings : ∃ (l : Lexer DataTok) (H : Grammar (ListVar ⊕ Bool) DataTok),
    LexerFor .debug stringRules stringTrees l ∧ Built H ∧ H.start = .inl .data ∧
    (∀ v β, (v, β) ∈ H.rules ↔ ListRule oneString .opening .comma .closing v β) ∧
    (∃ tbl, IsParser (withEnd H (.inr true) .stop .never) tbl) ∧
    ∀ tbl, IsParser (withEnd H (.inr true) .stop .never) tbl → ∀ d r, Parses l tbl (stringsText d) r ↔
      r = some (.mk (.var (.inr true)) [.mk (.term .stop) [], stringsTree d]) := by
  obtain ⟨l, hl⟩ := strings_for
  obtain ⟨H, hH, hs, hr⟩ := c118_grammar oneString_built DataTok.opening .comma .closing
  have hn : NotIn H (.inr true) .stop .never := by
    have terms : ∀ {v β t}, (v, β) ∈ H.rules → Sym.term t ∈ β → teq t DataTok.stop = false ∧ teq t DataTok.never = false := by
      intro v β t h ht
      cases (hr _ _).1 h with
      | inner h1 =>
        obtain ⟨x, h2, h3⟩ := List.mem_map.1 ht
        cases x with
        | term u =>
          cases h3
          rw [one_term ⟨_, _, h1, h2⟩]
          exact ⟨rfl, rfl⟩
        | var _ => cases h3
        | eps => cases h3
      | leaf | one => simp at ht
      | list | done | some | more => simp at ht; subst ht; exact ⟨rfl, rfl⟩
    refine ⟨?_, fun v β t h ht => (terms h ht).1, fun v β t h ht => (terms h ht).2, rfl⟩
    intro β h
    cases (hr _ _).1 h with
    | inner h1 => have := (one_rule h1).1; cases this
  have hp : IsParser (withEnd oneString true .stop .never) oneTable := ⟨100, .insertion, by decide +kernel⟩
  refine ⟨l, H, hl, hH, hs, hr, (c118_parser oneString_built hH hs hr strings_fit oneString_notIn hp hn).1, ?_⟩
  intro tbl hp d r
  have never : ∀ t ∈ d.text DataTok.opening .comma .closing (fun s => [.str s]) ++ [.stop], t ≠ .never := by
    intro t ht
    rcases List.mem_append.1 ht with ht | ht
    · exact text_ok d t ht
    · rw [List.mem_singleton.1 ht]
      exact nofun
  refine c119_text oneString_built hH hs hr strings_fit ?_ ?_ hn hp hl (fun e he => (strings_regular e he).1) d
    (all_true (fun s => ?_) d) (s := tokenText) (fun t ht => strings_spell hl t (never t ht))
    (chain_all fun t ht u => strings_end hl t (never t ht) _) r
  · intro v β h
    rw [(one_rule h).1]
    exact .start
  · intro v β h
    rw [(one_rule h).1]
    exact ⟨.str [], derives_starts.2 (.inVar (β := [.term (.str [])]) (by simp [oneString]) .term)⟩
  · have h1 : Forest oneString [.term (.str [])] [.mk (.term (.str s)) []] [.str s] := .term rfl .nil
    exact .var (w := []) (by simp [oneString]) h1 .nil

/-! ## Nothing is lost -/

omit [Unicode] in
private theorem itemsTree_inj {W T : Type} {sep : T} (ns : List (Node (ListVar ⊕ W) T)) :
    ∀ {n n' : Node (ListVar ⊕ W) T} {ns' : List (Node (ListVar ⊕ W) T)}, itemsTree sep n ns = itemsTree sep n' ns' →
      n = n' ∧ ns = ns' := by
  induction ns using List.reverseRecOn with
  | nil =>
    intro n n' ns' h
    rcases List.eq_nil_or_concat ns' with rfl | ⟨ms, m, rfl⟩
    · simpa [itemsTree] using h
    · simp [itemsTree] at h
  | append_singleton ns m ih =>
    intro n n' ns' h
    rcases List.eq_nil_or_concat ns' with rfl | ⟨ms, m', rfl⟩
    · simp [itemsTree] at h
    · simp only [itemsTree, List.concat_eq_append, List.foldl_append, List.foldl_cons, List.foldl_nil, Node.mk.injEq,
        List.cons.injEq, and_true, true_and] at h
      obtain ⟨rfl, rfl⟩ := ih h.2
      exact ⟨rfl, by rw [h.1, List.concat_eq_append]⟩

omit [Unicode] in
mutual
private theorem tree_inj : ∀ d d' : Data (List Char), stringsTree d = stringsTree d' → d = d'
  | .leaf s, .leaf s', h => by
    simp [stringsTree, Data.tree, Node.rename, renameTrees, Sym.rename] at h
    rw [h]
  | .leaf _, .list _, h => by simp [stringsTree, Data.tree] at h
  | .list _, .leaf _, h => by simp [stringsTree, Data.tree] at h
  | .list ds, .list ds', h => by
    rw [trees_inj ds ds' ?_]
    simp only [stringsTree, Data.tree, Node.mk.injEq, List.cons.injEq, and_true, true_and] at h
    generalize dataTrees DataTok.opening .comma .closing _ ds = ns at h ⊢
    generalize dataTrees DataTok.opening .comma .closing _ ds' = ns' at h ⊢
    cases ns <;> cases ns' <;> simp at h ⊢
    exact itemsTree_inj _ h

private theorem trees_inj : ∀ ds ds' : List (Data (List Char)),
    dataTrees DataTok.opening .comma .closing (fun s => .mk (.var false) [.mk (.term (.str s)) []]) ds =
      dataTrees DataTok.opening .comma .closing (fun s => .mk (.var false) [.mk (.term (.str s)) []]) ds' → ds = ds'
  | [], [], _ => rfl
  | [], _ :: _, h => by simp [dataTrees] at h
  | _ :: _, [], h => by simp [dataTrees] at h
  | d :: ds, d' :: ds', h => by
    simp only [dataTrees, List.cons.injEq] at h
    rw [tree_inj d d' h.1, trees_inj ds ds' h.2]
end

omit [Unicode] in
/-- C119.  Different lists of strings have different trees. -/
theorem c119_trees {d d' : Data (List Char)} (h : stringsTree d = stringsTree d') : d = d' := tree_inj d d' h

/-- C119.  Different lists of strings are written differently: the parser finds out which of them was written. -/
theorem c119_texts {d d' : Data (List Char)} (h : stringsText d = stringsText d') : d = d' := by
  obtain ⟨l, H, _, _, _, _, ⟨tbl, hp⟩, h1⟩ := c119_strings
  have h2 := (h1 tbl hp d _).2 rfl
  rw [h, h1 tbl hp d'] at h2
  simp only [Option.some.injEq, Node.mk.injEq, List.cons.injEq, and_true, true_and] at h2
  exact c119_trees h2

/-- What is written for a list with the string `say "hi"`, an empty list, and a list with an empty string. -/
example : stringsText (.list [.leaf "say \"hi\"".toList, .list [], .list [.leaf []]]) =
    "[\"say \\\"hi\\\"\",[],[\"\"]];".toList := by
  decide +kernel

end Pango.Props
