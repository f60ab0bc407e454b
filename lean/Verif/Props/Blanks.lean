import Verif.Spec.Blanks
import Verif.Proofs.Rewrite
import Verif.Props.Compose
import Verif.Props.Lexing
import Verif.Props.OnlyKinds
import Verif.Proofs.Words
import Verif.Props.RuleOrder

/-!
# C115: blanks behind tokens
-/

namespace Pango.Props

open Pango Pango.Regex Pango.Fsm Pango.Lex Pango.Spec

variable [Unicode] {K : Type} {p : Profile} {S : Lit} {e : Expr} {es : List Expr}

theorem matches_blank {w : List Char} :
    Matches (blankTree S e) w ↔ ∃ u v, w = u ++ v ∧ Matches e u ∧ ∀ c ∈ v, LitSet S c := by
  rw [blankTree, mat_cons]
  have once : ∀ {x : Expr} {w : List Char}, Matches (.group x none) w ↔ Matches x w := by
    intro x w
    rw [mat_group]
    constructor
    · rintro ⟨ws, rfl, h, hm⟩
      obtain ⟨v, rfl⟩ := List.length_eq_one_iff.1 h
      simpa using hm
    · intro h
      exact ⟨[w], by simp, rfl, by simpa using h⟩
  constructor
  · rintro ⟨u, v, rfl, h1, h2⟩
    rw [mat_cons] at h2
    obtain ⟨v, t, rfl, h2, h3⟩ := h2
    rw [mat_nil] at h3
    rw [once, mat_lit] at h2
    exact ⟨u, v, by simp [h3], once.1 h1, h2.2⟩
  · rintro ⟨u, v, rfl, h1, h2⟩
    exact ⟨u, v, rfl, once.2 h1, mat_cons.2 ⟨v, [], by simp, once.2 (mat_lit.2 ⟨trivial, h2⟩), mat_nil.2 rfl⟩⟩

theorem read_blank {w : List Char} (h : MayRead (blankTree S e) w) :
    MayRead e w ∨ ∃ u v, w = u ++ v ∧ Matches e u ∧ ∀ c ∈ v, LitSet S c := by
  rw [blankTree, read_cons] at h
  rcases h with h | ⟨u, v, rfl, h1, h2⟩
  · exact .inl (read_group.1 h)
  · refine .inr ⟨u, v, rfl, ?_, ?_⟩
    · obtain ⟨ws, rfl, h, hm⟩ := mat_group.1 h1
      obtain ⟨v, rfl⟩ := List.length_eq_one_iff.1 h
      simpa using hm
    · rw [read_cons] at h2
      rcases h2 with h | ⟨u', v', rfl, h3, h4⟩
      · exact read_rep.1 (read_group.1 h)
      · rw [read_nil] at h4
        subst h4
        obtain ⟨ws, rfl, h, hm⟩ := mat_group.1 h3
        obtain ⟨v, rfl⟩ := List.length_eq_one_iff.1 h
        simpa using (mat_lit.1 (hm v (by simp))).2

/-- What the patterns have to be like: known, with one character of lookahead, not matching the empty text, and
reading no blanks. -/
structure WithoutBlanks (S : Lit) (es : List Expr) : Prop where
  regular : Regular es
  lookahead : OneLookahead es
  nonempty : ∀ e ∈ es, ¬ Matches e []
  apart : ∀ e ∈ es, ∀ w, MayRead e w → ∀ c ∈ w, ¬ LitSet S c

omit [Unicode] in
private theorem split_blank {B : Char → Prop} {u v u' v' : List Char} (hu : ∀ c ∈ u, ¬ B c) (hv : ∀ c ∈ v, B c)
    (hu' : ∀ c ∈ u', ¬ B c) (hv' : ∀ c ∈ v', B c) (h : u ++ v = u' ++ v') : u = u' ∧ v = v' := by
  rcases List.append_eq_append_iff.1 h with ⟨a, rfl, rfl⟩ | ⟨a, rfl, rfl⟩
  · cases a with
    | nil => simp
    | cons c a => exact absurd (hv c (by simp)) (hu' c (by simp))
  · cases a with
    | nil => simp
    | cons c a => exact absurd (hv' c (by simp)) (hu c (by simp))

private theorem any_iff {es : List Expr} {w : List Char} : AnyMatch (languages es) w ↔ ∃ x ∈ es, Matches x w := by
  constructor
  · rintro ⟨M, hM, h⟩
    obtain ⟨x, hx, rfl⟩ := List.mem_map.1 hM
    exact ⟨x, hx, h⟩
  · rintro ⟨x, hx, h⟩
    exact ⟨_, List.mem_map.2 ⟨x, hx, rfl⟩, h⟩

private theorem any_blank {w : List Char} : AnyMatch (languages (es.map (blankTree S))) w ↔
    ∃ u v, w = u ++ v ∧ AnyMatch (languages es) u ∧ ∀ c ∈ v, LitSet S c := by
  simp only [any_iff]
  constructor
  · rintro ⟨x, hx, h⟩
    obtain ⟨e, he, rfl⟩ := List.mem_map.1 hx
    obtain ⟨u, v, h1, h2, h3⟩ := matches_blank.1 h
    exact ⟨u, v, h1, ⟨e, he, h2⟩, h3⟩
  · rintro ⟨u, v, h1, ⟨e, he, h2⟩, h3⟩
    exact ⟨_, List.mem_map.2 ⟨e, he, rfl⟩, matches_blank.2 ⟨u, v, h1, h2, h3⟩⟩

private theorem any_apart (h : WithoutBlanks S es) {w : List Char} (hm : AnyMatch (languages es) w) :
    (∀ c ∈ w, ¬ LitSet S c) ∧ w ≠ [] := by
  obtain ⟨e, he, hm⟩ := any_iff.1 hm
  exact ⟨h.apart e he w hm.mayRead, fun h' => h.nonempty e he (h' ▸ hm)⟩

private theorem blank_regular (h : WithoutBlanks S es) : Regular (es.map (blankTree S)) := by
  intro x hx
  obtain ⟨e, he, rfl⟩ := List.mem_map.1 hx
  obtain ⟨h1, h2⟩ := h.regular e he
  exact ⟨by simp [blankTree, RepeatsNonEmpty, RepeatsNonEmptyAll, h1],
    by simp [blankTree, CountsAtStart, CountsAtStartSeq, h2]⟩

private theorem blank_lookahead (h : WithoutBlanks S es) : OneLookahead (es.map (blankTree S)) := by
  rintro w c hw hm ⟨x, hx, hr⟩
  obtain ⟨e, he, rfl⟩ := List.mem_map.1 hx
  obtain ⟨u, v, rfl, hu, hv⟩ := any_blank.1 hm
  rcases read_blank hr with hr | ⟨u', v', h1, h2, h3⟩
  · have hb := h.apart e he _ hr
    obtain rfl : v = [] := by
      cases v with
      | nil => rfl
      | cons d v => exact absurd (hv d (by simp)) (hb d (by simp))
    rw [List.append_nil] at hr ⊢
    exact any_blank.2 ⟨u ++ [c], [], by simp, h.lookahead u c (any_apart h hu).2 hu ⟨e, he, hr⟩, by simp⟩
  · rw [h1]
    exact any_blank.2 ⟨u', v', rfl, any_iff.2 ⟨e, he, h2⟩, h3⟩

private theorem first_blank (h : WithoutBlanks S es) {w bs : List Char} (hw : ∀ c ∈ w, ¬ LitSet S c)
    (hb : ∀ c ∈ bs, LitSet S c) {i : Nat} :
    FirstMatch (languages (es.map (blankTree S))) (w ++ bs) i ↔ FirstMatch (languages es) w i := by
  have key : ∀ {e : Expr}, e ∈ es → (Matches (blankTree S e) (w ++ bs) ↔ Matches e w) := by
    intro e he
    rw [matches_blank]
    constructor
    · rintro ⟨u, v, h1, h2, h3⟩
      rw [(split_blank hw hb (h.apart e he u h2.mayRead) h3 h1).1]
      exact h2
    · exact fun hm => ⟨w, bs, rfl, hm, hb⟩
  have at_ : ∀ {j : Nat} {M : List Char → Prop}, (languages (es.map (blankTree S)))[j]? = some M ↔
      ∃ e, es[j]? = some e ∧ (fun w => Matches (blankTree S e) w) = M := by
    intro j M
    rw [languages, List.map_map, List.getElem?_map, Option.map_eq_some_iff]
    rfl
  have at' : ∀ {j : Nat} {M : List Char → Prop}, (languages es)[j]? = some M ↔
      ∃ e, es[j]? = some e ∧ (fun w => Matches e w) = M := by
    intro j M
    rw [languages, List.getElem?_map, Option.map_eq_some_iff]
  constructor
  · rintro ⟨⟨M, h1, h2⟩, h3⟩
    obtain ⟨e, he, rfl⟩ := at_.1 h1
    refine ⟨⟨_, at'.2 ⟨e, he, rfl⟩, (key (List.mem_of_getElem? he)).1 h2⟩, fun j M hj hM hm => ?_⟩
    obtain ⟨e', he', rfl⟩ := at'.1 hM
    exact h3 j _ hj (at_.2 ⟨e', he', rfl⟩) ((key (List.mem_of_getElem? he')).2 hm)
  · rintro ⟨⟨M, h1, h2⟩, h3⟩
    obtain ⟨e, he, rfl⟩ := at'.1 h1
    refine ⟨⟨_, at_.2 ⟨e, he, rfl⟩, (key (List.mem_of_getElem? he)).2 h2⟩, fun j M hj hM hm => ?_⟩
    obtain ⟨e', he', rfl⟩ := at_.1 hM
    exact h3 j _ hj (at'.2 ⟨e', he', rfl⟩) ((key (List.mem_of_getElem? he')).1 hm)

private theorem spaced_of_munch (h : WithoutBlanks S es) {input : List Char} {ws : List (List Char × Nat)}
    {tail : List Char} (hm : Munch (languages (es.map (blankTree S))) input ws tail) :
    ∃ ts, SpacedMunch (languages es) (LitSet S) input ts tail ∧ ws = ts.map fun t => (t.1 ++ t.2.2, t.2.1) := by
  induction hm with
  | stop hn => exact ⟨[], .stop fun w hw hp hm => hn w hw hp (any_blank.2 ⟨w, [], by simp, hm, by simp⟩), rfl⟩
  | @token W rest i ws tail h1 h2 _ ih =>
    obtain ⟨ts, h3, rfl⟩ := ih
    obtain ⟨w, bs, rfl, hw, hb⟩ := any_blank.1 h1.isMatch
    obtain ⟨ha, hne⟩ := any_apart h hw
    refine ⟨(w, i, bs) :: ts, ?_, rfl⟩
    rw [List.append_assoc]
    refine .token ⟨hne, ⟨_, rfl⟩, hw, fun v hv hm => ?_⟩ ((first_blank h ha hb).1 h2) hb (fun c hc hS => ?_) h3
    · obtain ⟨hv', -⟩ := any_apart h hm
      rcases List.prefix_or_prefix_of_prefix hv (List.prefix_append w (bs ++ rest)) with hp | ⟨x, rfl⟩
      · exact hp.length_le
      · cases x with
        | nil => simp
        | cons c x =>
          have hlen := h1.longest (w ++ c :: x) (by rw [List.append_assoc]; exact hv)
            (any_blank.2 ⟨_, [], by simp, hm, by simp⟩)
          cases bs with
          | nil => simpa using hlen
          | cons d bs =>
            have hv2 := (List.prefix_append_right_inj w).1 hv
            obtain ⟨rfl, -⟩ := List.cons_prefix_cons.1 hv2
            exact absurd (hb c (by simp)) (hv' c (by simp))
    · cases rest with
      | nil => cases hc
      | cons d rest =>
        cases hc
        have := h1.longest (w ++ (bs ++ [c])) ⟨rest, by simp⟩ (any_blank.2 ⟨w, bs ++ [c], rfl, hw, by
          intro x hx
          rcases List.mem_append.1 hx with hx | hx
          · exact hb x hx
          · rw [List.mem_singleton.1 hx]; exact hS⟩)
        simp only [List.length_append, List.length_cons, List.length_nil] at this
        omega

private theorem munch_of_separated (h : WithoutBlanks S es) {ts : List (List Char × Nat × List Char)}
    (hs : Separated (languages es) (LitSet S) ts) :
    Munch (languages (es.map (blankTree S))) (spacedText ts) (ts.map fun t => (t.1 ++ t.2.2, t.2.1)) [] := by
  have any : ∀ {w : List Char} {i : Nat}, FirstMatch (languages es) w i → AnyMatch (languages es) w := by
    rintro w i ⟨⟨M, h1, h2⟩, _⟩
    exact ⟨M, List.mem_of_getElem? h1, h2⟩
  have none : NoMatch (languages (es.map (blankTree S))) [] := fun w hw hp => absurd (List.prefix_nil.1 hp) hw
  induction hs with
  | nil => exact .stop none
  | @last w bs i hw hf hb =>
    have hm := any hf
    obtain ⟨ha, -⟩ := any_apart h hm
    have : Munch (languages (es.map (blankTree S))) ((w ++ bs) ++ []) [(w ++ bs, i)] [] :=
      .token ⟨by simp [hw], ⟨[], rfl⟩, any_blank.2 ⟨w, bs, rfl, hm, hb⟩, fun v hv _ => by simpa using hv.length_le⟩
        ((first_blank h ha hb).2 hf) (.stop none)
    simpa [spacedText] using this
  | @cons w bs i ts hw hf hbs hb hs ih =>
    have hm := any hf
    obtain ⟨ha, -⟩ := any_apart h hm
    have front : ∀ c, (spacedText ts).head? = some c → ¬ LitSet S c := by
      intro c hc
      cases hs with
      | nil => cases hc
      | last hw2 hf2 _ =>
        refine (any_apart h (any hf2)).1 c (List.mem_of_mem_head? ?_)
        simpa [spacedText, hw2] using hc
      | cons hw2 hf2 _ _ _ =>
        refine (any_apart h (any hf2)).1 c (List.mem_of_mem_head? ?_)
        simpa [spacedText, List.append_assoc, hw2] using hc
    have : Munch (languages (es.map (blankTree S))) ((w ++ bs) ++ spacedText ts)
        ((w ++ bs, i) :: ts.map fun t => (t.1 ++ t.2.2, t.2.1)) [] := by
      refine .token ⟨by simp [hw], ⟨_, rfl⟩, any_blank.2 ⟨w, bs, rfl, hm, hb⟩, fun V hV hVm => ?_⟩
        ((first_blank h ha hb).2 hf) ih
      obtain ⟨u, v, rfl, hu, hv⟩ := any_blank.1 hVm
      obtain ⟨hu', -⟩ := any_apart h hu
      rcases List.prefix_or_prefix_of_prefix hV (List.prefix_append (w ++ bs) (spacedText ts)) with hp | ⟨x, hx⟩
      · exact hp.length_le
      · cases x with
        | nil => rw [← hx]; simp
        | cons c x =>
          exfalso
          have hc : ¬ LitSet S c := by
            rw [← hx] at hV
            obtain ⟨y, hy⟩ := (List.prefix_append_right_inj _).1 hV
            exact front c (by rw [← hy]; rfl)
          rw [List.append_assoc] at hx
          have hcv : c ∈ v := by
            rcases List.append_eq_append_iff.1 hx with ⟨a, rfl, h2⟩ | ⟨a, rfl, h2⟩
            · cases a with
              | nil => rw [List.nil_append] at h2; rw [← h2]; simp
              | cons d a =>
                cases bs with
                | nil => exact absurd rfl hbs
                | cons d' bs =>
                  simp only [List.cons_append, List.cons.injEq] at h2
                  exact absurd (hb d' (by simp)) (hu' d' (by simp [h2.1]))
            · rw [h2]; simp
          exact hc (hv c hcv)
    simpa [spacedText] using this

/-! ## C115 -/

variable {rules : List (List Char × (List Char → K))} {blank : List Char} {trim : List Char → List Char} {l : Lexer K}

omit [Unicode] in
private theorem blank_trees (hb : Whole p blank (.lit S (some .asterisk))) :
    ∀ {rules : List (List Char × (List Char → K))} {es : List Expr}, (∀ r ∈ rules, ∃ e, Whole p r.1 e) →
      rules.map (fun r => parse p r.1) = es.map (fun e => .ok (.ok e)) →
      (blankRules blank trim rules).map (fun r => parse p r.1) = (es.map (blankTree S)).map (fun e => .ok (.ok e)) := by
  intro rules
  induction rules with
  | nil =>
    intro es _ h
    cases es with
    | nil => rfl
    | cons _ _ => cases h
  | cons r rules ih =>
    intro es hr h
    cases es with
    | nil => cases h
    | cons e es =>
      simp only [List.map_cons, List.cons.injEq] at h
      obtain ⟨e', he'⟩ := hr r (by simp)
      have he := he'.parses
      rw [h.1] at he
      cases he
      have := ih (fun r h => hr r (by simp [h])) h.2
      simp only [blankRules, List.map_cons, List.cons.injEq] at this ⊢
      exact ⟨(he'.sequence hb).parses, this⟩

/-- C115, the lexer can be built: if one can be without the blanks, and the patterns and that for blanks are read to the
end. -/
theorem c115_builds {l₀ : Lexer K} (hl : LexerFor p rules es l₀) (hr : ∀ r ∈ rules, ∃ e, Whole p r.1 e)
    (hb : Whole p blank (.lit S (some .asterisk))) (trim : List Char → List Char) :
    ∃ l, LexerFor p (blankRules blank trim rules) (es.map (blankTree S)) l := by
  obtain ⟨l, h⟩ := (c55_partial p (blankRules blank trim rules)).2.1 fun r hr' => by
    obtain ⟨r, hr'', rfl⟩ := List.mem_map.1 hr'
    obtain ⟨e, he⟩ := hr r hr''
    exact ⟨_, (he.sequence hb).parses, (he.sequence hb).noEmpty⟩
  exact ⟨l, h, blank_trees hb hr hl.trees⟩

/-- What is left of a word with blanks behind it if these are removed. -/
def Trims (S : Lit) (trim : List Char → List Char) : Prop :=
  ∀ w bs, (∀ c ∈ w, ¬ LitSet S c) → (∀ c ∈ bs, LitSet S c) → trim (w ++ bs) = w

omit [Unicode] in
private theorem kindAt_blank {i : Nat} {v : List Char} :
    kindAt (blankRules blank trim rules) i v = kindAt rules i (trim v) := by
  simp [kindAt, blankRules, Function.comp_def]

/-- C115.  A lexer with blanks behind each of its patterns: on every text lexing ends, and the tokens are the words of
maximal munch without the blanks, with all blanks behind them. -/
theorem c115_tokens (hl : LexerFor p (blankRules blank trim rules) (es.map (blankTree S)) l) (h : WithoutBlanks S es)
    (ht : Trims S trim) (input : List Char) :
    (∃ ts, Tokens l input ts) ∧ ∀ ts, Tokens l input ts →
      ∃ ws tail, SpacedMunch (languages es) (LitSet S) input ws tail ∧
        ts.map (fun t => (t.source, some t.kind)) = ws.map fun w => (w.1 ++ w.2.2, kindAt rules w.2.1 w.1) := by
  obtain ⟨h1, h2, _⟩ := c23_tokenizes_partial p _ _ l hl (blank_regular h) (blank_lookahead h)
  refine ⟨h1 input, fun ts hts => ?_⟩
  obtain ⟨ws, tail, h3, h4⟩ := h2 input ts hts
  obtain ⟨us, h5, rfl⟩ := spaced_of_munch h h3
  refine ⟨us, tail, h5, ?_⟩
  rw [h4, List.map_map]
  have key : ∀ {input us tail}, SpacedMunch (languages es) (LitSet S) input us tail →
      ∀ u ∈ us, trim (u.1 ++ u.2.2) = u.1 := by
    intro input us tail hs
    induction hs with
    | stop _ => simp
    | token h1 _ h3 _ _ ih =>
      intro u hu
      rcases List.mem_cons.1 hu with rfl | hu
      · exact ht _ _ (any_apart h h1.isMatch).1 h3
      · exact ih u hu
  refine List.map_congr_left fun u hu => ?_
  simp only [Function.comp_apply, kindAt_blank, key h5 u hu]

/-- C115 for words with blanks between them: these are the tokens, whichever words they are and however many blanks. -/
theorem c115_separated (hl : LexerFor p (blankRules blank trim rules) (es.map (blankTree S)) l) (h : WithoutBlanks S es)
    (ht : Trims S trim) {ws : List (List Char × Nat × List Char)} (hs : Separated (languages es) (LitSet S) ws)
    {ts : List (Tok K)} (hts : Tokens l (spacedText ws) ts) :
    ts.map (fun t => (t.source, some t.kind)) = ws.map fun w => (w.1 ++ w.2.2, kindAt rules w.2.1 w.1) := by
  obtain ⟨_, h2, _⟩ := c23_tokenizes_partial p _ _ l hl (blank_regular h) (blank_lookahead h)
  obtain ⟨us, tail, h3, h4⟩ := h2 _ ts hts
  obtain ⟨rfl, rfl⟩ := h3.unique (munch_of_separated h hs)
  rw [h4, List.map_map]
  have key : ∀ {ws}, Separated (languages es) (LitSet S) ws → ∀ u ∈ ws, trim (u.1 ++ u.2.2) = u.1 := by
    have any : ∀ {w : List Char} {i : Nat}, FirstMatch (languages es) w i → AnyMatch (languages es) w := by
      rintro w i ⟨⟨M, h1, h2⟩, _⟩
      exact ⟨M, List.mem_of_getElem? h1, h2⟩
    intro ws hs
    induction hs with
    | nil => simp
    | last _ hf hb =>
      intro u hu
      rw [List.mem_singleton.1 hu]
      exact ht _ _ (any_apart h (any hf)).1 hb
    | cons _ hf _ hb _ ih =>
      intro u hu
      rcases List.mem_cons.1 hu with rfl | hu
      · exact ht _ _ (any_apart h (any hf)).1 hb
      · exact ih u hu
  refine List.map_congr_left fun u hu => ?_
  simp only [Function.comp_apply, kindAt_blank, key hs u hu]

end Pango.Props

namespace Pango.Props

open Pango Pango.Regex Pango.Fsm Pango.Lex Pango.Spec Pango.Parse

variable [Unicode] {V T : Type} [TerminalEq T] [DecidableEq V] {p : Profile} {S : Lit} {es : List Expr}
  {rules : List (List Char × (List Char → T))} {blank : List Char} {trim : List Char → List Char} {l : Lexer T}

/-- C115 for parsers: how many blanks there are between the words does not matter. -/
theorem c115_parse (hl : LexerFor p (blankRules blank trim rules) (es.map (blankTree S)) l) (h : WithoutBlanks S es)
    (ht : Trims S trim) {ws ws' : List (List Char × Nat × List Char)} (hs : Separated (languages es) (LitSet S) ws)
    (hs' : Separated (languages es) (LitSet S) ws')
    (same : ws.map (fun w => (w.1, w.2.1)) = ws'.map fun w => (w.1, w.2.1)) (tbl : Table V T) :
    (∀ r, Parses l tbl (spacedText ws) r ↔ Parses l tbl (spacedText ws') r) ∧
      (Panics l tbl (spacedText ws) ↔ Panics l tbl (spacedText ws')) := by
  obtain ⟨ts, hts⟩ := (c115_tokens hl h ht (spacedText ws)).1
  obtain ⟨ts', hts'⟩ := (c115_tokens hl h ht (spacedText ws')).1
  refine c97_tokens hl hl hts hts' ?_ tbl
  have h1 := congrArg (List.map Prod.snd) (c115_separated hl h ht hs hts)
  have h2 := congrArg (List.map Prod.snd) (c115_separated hl h ht hs' hts')
  have h3 := congrArg (List.map fun w : List Char × Nat => kindAt rules w.2 w.1) same
  simp only [List.map_map, Function.comp_def] at h1 h2 h3
  rw [h3, ← h2] at h1
  refine (List.map_inj_right (f := some) fun a b h => by simpa using h).1 ?_
  simpa [List.map_map, Function.comp_def] using h1

omit [Unicode] in
private theorem first_same {M : List (List Char → Prop)} : ∀ {us : List (List Char × Nat)}
    {ws : List (List Char × Nat × List Char)}, (∀ u ∈ us, FirstMatch M u.1 u.2) → (∀ w ∈ ws, FirstMatch M w.1 w.2.1) →
    us.map Prod.fst = ws.map Prod.fst → us = ws.map fun w => (w.1, w.2.1) := by
  intro us
  induction us with
  | nil =>
    intro ws _ _ h
    cases ws with
    | nil => rfl
    | cons _ _ => cases h
  | cons u us ih =>
    intro ws h1 h2 h
    cases ws with
    | nil => cases h
    | cons w ws =>
      obtain ⟨v, i⟩ := u
      obtain ⟨w, j, bs⟩ := w
      simp only [List.map_cons, List.cons.injEq] at h ⊢
      obtain ⟨rfl, h⟩ := h
      have : i = j := (h1 (v, i) (by simp)).unique (h2 (v, j, bs) (by simp))
      exact ⟨by rw [this], ih (fun u hu => h1 u (by simp [hu])) (fun w hw => h2 w (by simp [hw])) h⟩

/-- C115, with blanks between its words a text is parsed as before, by the lexer with blanks behind the patterns. -/
theorem c115_same {l₀ : Lexer T} (hl₀ : LexerFor p rules es l₀)
    (hl : LexerFor p (blankRules blank trim rules) (es.map (blankTree S)) l) (h : WithoutBlanks S es) (ht : Trims S trim)
    {input : List Char} {ts : List (Tok T)} (hts : Tokens l₀ input ts) {ws : List (List Char × Nat × List Char)}
    (hs : Separated (languages es) (LitSet S) ws) (hw : ws.map Prod.fst = ts.map Tok.source) (tbl : Table V T) :
    (∀ r, Parses l₀ tbl input r ↔ Parses l tbl (spacedText ws) r) ∧
      (Panics l₀ tbl input ↔ Panics l tbl (spacedText ws)) := by
  obtain ⟨ts', hts'⟩ := (c115_tokens hl h ht (spacedText ws)).1
  refine c97_tokens hl₀ hl hts hts' ?_ tbl
  obtain ⟨_, h2, _⟩ := c23_tokenizes_partial p _ _ l₀ hl₀ h.regular h.lookahead
  obtain ⟨us, tail, h3, h4⟩ := h2 input ts hts
  have hus : ∀ {input us tail}, Munch (languages es) input us tail → ∀ u ∈ us, FirstMatch (languages es) u.1 u.2 := by
    intro input us tail hm
    induction hm with
    | stop _ => simp
    | token _ h _ ih =>
      intro u hu
      rcases List.mem_cons.1 hu with rfl | hu
      · exact h
      · exact ih u hu
  have hws : ∀ {ws}, Separated (languages es) (LitSet S) ws → ∀ w ∈ ws, FirstMatch (languages es) w.1 w.2.1 := by
    intro ws hs
    induction hs with
    | nil => simp
    | last _ hf _ =>
      intro u hu
      rw [List.mem_singleton.1 hu]
      exact hf
    | cons _ hf _ _ _ ih =>
      intro u hu
      rcases List.mem_cons.1 hu with rfl | hu
      · exact hf
      · exact ih u hu
  have h5 : us.map Prod.fst = ws.map Prod.fst := by
    have := congrArg (List.map Prod.fst) h4
    simp only [List.map_map, Function.comp_def] at this
    rw [hw]
    exact this.symm
  have h6 := first_same (hus h3) (hws hs) h5
  have h7 := congrArg (List.map Prod.snd) h4
  have h8 := congrArg (List.map Prod.snd) (c115_separated hl h ht hs hts')
  have h9 := congrArg (List.map fun w : List Char × Nat => kindAt rules w.2 w.1) h6
  simp only [List.map_map, Function.comp_def] at h7 h8 h9
  rw [h9, ← h8] at h7
  refine (List.map_inj_right (f := some) fun a b h => by simpa using h).1 ?_
  simpa [List.map_map, Function.comp_def] using h7

/-! ### The rules `a+`, `=` and `==` with blanks behind them -/

theorem trims_char (b : Char) : Trims (.mtch b) (List.takeWhile (· ≠ b)) := by
  intro w bs hw hb
  have h1 : ∀ a ∈ w, (decide (a ≠ b)) = true := fun a ha => by
    have := hw a ha
    simpa [LitSet] using this
  have h2 : bs.takeWhile (· ≠ b) = [] := by
    cases bs with
    | nil => rfl
    | cons c bs =>
      have : c = b := by simpa [LitSet] using hb c (by simp)
      simp [this]
  rw [List.takeWhile_append_of_pos h1, h2, List.append_nil]

theorem words_withoutBlanks : WithoutBlanks (.mtch ' ') wordsTrees := by
  refine ⟨words_regular, words_oneLookahead, ?_, ?_⟩
  · intro e he hm
    simp only [wordsTrees, List.mem_cons, List.not_mem_nil, or_false] at he
    rcases he with rfl | rfl | rfl
    · simpa [QuantSet] using (mat_lit.1 hm).1
    · simpa [QuantSet] using (mat_lit.1 hm).1
    · obtain ⟨u, v, h, h1, _⟩ := mat_cons.1 hm
      obtain ⟨rfl, rfl⟩ := List.append_eq_nil_iff.1 h.symm
      simpa [QuantSet] using (mat_lit.1 h1).1
  · intro e he w hr c hc hS
    simp only [LitSet] at hS
    subst hS
    simp only [wordsTrees, List.mem_cons, List.not_mem_nil, or_false] at he
    rcases he with rfl | rfl | rfl
    · have := read_rep.1 hr _ hc
      simp [LitSet] at this
    · rcases read_lit.1 hr with rfl | ⟨d, rfl, hd⟩
      · simp at hc
      · simp only [LitSet] at hd
        simp [hd] at hc
    · have : w <+: ['=', '='] := mayRead_lits (w := ['=', '=']) |>.1 hr
      have := this.subset hc
      simp at this

private theorem words_separated : Separated (languages wordsTrees) (LitSet (.mtch ' '))
    [("aa".toList, 0, "  ".toList), ("==".toList, 2, " ".toList), ("=".toList, 1, [])] := by
  have short : ∀ {w : List Char}, Matches (.lit (.mtch '=') none) w → w = ['='] := by
    intro w h
    obtain ⟨c, rfl, hc⟩ := matches_lit h
    rw [show c = '=' from hc]
  have notA : ∀ {w : List Char}, ¬ Matches (.lit (.mtch 'a') (some .plus)) ('=' :: w) := by
    intro w h
    have := (mat_lit.1 h).2 '=' (by simp)
    simp [LitSet] at this
  have eq : Matches (.lit (.mtch '=') none) ['='] := mat_lit.2 ⟨rfl, by simp [LitSet]⟩
  refine .cons (by simp) ⟨⟨_, rfl, mat_lit.2 ⟨by simp [QuantSet], by simp [LitSet]⟩⟩, by omega⟩ (by simp)
    (by simp [LitSet]) (.cons (by simp) ⟨⟨_, rfl, .cons (u := ['=']) eq (.cons (u := ['=']) eq .nil)⟩, ?_⟩ (by simp)
      (by simp [LitSet]) (.last (by simp) ⟨⟨_, rfl, eq⟩, ?_⟩ (by simp)))
  · intro j M hj hM hm
    match j, hj with
    | 0, _ => cases hM; exact notA hm
    | 1, _ => cases hM; cases short hm
  · intro j M hj hM hm
    match j, hj with
    | 0, _ => cases hM; exact notA hm

/-- `aa  == =`: there is a lexer for the rules with blanks behind them, and these are its tokens. -/
theorem c115_example : ∃ l, LexerFor .debug (blankRules " *".toList (List.takeWhile (· ≠ ' ')) wordsRules)
      (wordsTrees.map (blankTree (.mtch ' '))) l ∧
    ∃ ts, Tokens l "aa  == =".toList ts ∧ ts.map (fun t => (t.source, t.kind)) =
      [("aa  ".toList, 2), ("== ".toList, 200), ("=".toList, 100)] := by
  have blank : Whole .debug " *".toList (.lit (.mtch ' ') (some .asterisk)) :=
    ⟨Expression.sub (.one (.mtch (.chr ' ') (.some .asterisk))), rfl⟩
  obtain ⟨l, hl⟩ := c115_builds words_for (by
    intro r hr
    simp only [List.mem_cons, List.not_mem_nil, or_false] at hr
    rcases hr with rfl | rfl | rfl
    · exact ⟨_, Expression.sub (.one (.mtch (.chr 'a') (.some .plus))), rfl⟩
    · exact ⟨_, Expression.sub (.one (.mtch (.chr '=') .none)), rfl⟩
    · exact ⟨_, Expression.sub (.more (.mtch (.chr '=') .none) (.one (.mtch (.chr '=') .none))), rfl⟩) blank
    (List.takeWhile (· ≠ ' '))
  refine ⟨l, hl, ?_⟩
  obtain ⟨⟨ts, hts⟩, _⟩ := c115_tokens hl words_withoutBlanks (trims_char ' ') "aa  == =".toList
  refine ⟨ts, hts, ?_⟩
  have := c115_separated hl words_withoutBlanks (trims_char ' ') words_separated hts
  refine (List.map_inj_right (f := fun x : List Char × Nat => (x.1, some x.2)) ?_).1 ?_
  · rintro ⟨_, _⟩ ⟨_, _⟩ h
    simpa using h
  · rw [List.map_map]
    exact this

end Pango.Props
