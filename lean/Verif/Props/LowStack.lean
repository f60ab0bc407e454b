import Verif.Props.Height
import Verif.Props.RegularTokens
import Verif.Props.TwoCounts
import Mathlib.Computability.MyhillNerode
import Mathlib.Data.Finite.Prod
import Mathlib.Data.Set.Finite.Lattice

/-!
# C138: what can be parsed with a stack of bounded height
-/

namespace Pango.Props

open Pango Pango.Parse Pango.Spec

section

variable {V T : Type} [DecidableEq V] [DecidableEq T] [TerminalEq T] [LawfulTerminalEq T] {g : Grammar V T}
  {tbl : Table V T} {z : V} {e f : T}

/-- The parser of the grammar with the marker can read tokens and the marker if and only if the tokens are a sentence. -/
private theorem path_iff_sentence (hg : Built g) (he : EpsFree g) (hn : NotIn g z e f) {w : List T} :
    (∃ γ, Path (withEnd g z e f) [] (w ++ [e]) γ) ↔ ∃ m, ParseTree g m w := by
  have wf := hg.wellFormed
  constructor
  · rintro ⟨γ, h⟩
    obtain ⟨γ1, _, h2⟩ := path_append.1 h
    have hlast : ∀ {σ σ'}, Takes (withEnd g z e f) e σ σ' → ∃ τ h i t, Viable (withEnd g z e f) τ (h, i) ∧
        Reads i (.term t) ∧ teq t e = true ∧ σ' = τ ++ [.term t] := by
      intro σ σ' ht
      induction ht with
      | shift h1 h2 h3 => exact ⟨_, _, _, _, h1, h2, h3, rfl⟩
      | reduce _ _ ih => exact ih
    obtain ⟨τ, hd, i, t, h3, h4, h5, rfl⟩ := hlast (path_one.1 h2)
    have hrule := (Viable_ok h3).rule
    simp only at hrule
    have hmem : Sym.term t ∈ i.body := by
      obtain ⟨pre, post, h6, _⟩ := h4
      rw [h6]
      simp
    have hτ : τ = [.var g.start] := by
      rcases (viable_withEnd wf hn).1 h3 with ⟨_, h6 | h6, h7, h8⟩ | ⟨h6, _⟩
      · obtain ⟨pre, post, h9, h10⟩ := h4
        simp only at h6 h7 h8
        rw [h6] at h9
        rcases pre with _ | ⟨x, _ | ⟨y, pre⟩⟩
        · simp at h9
        · rw [h8, h6, h10]
          rfl
        · have := congrArg List.length h9
          simp at this
      · simp only at h6
        rw [h6] at hmem
        simp at hmem
        subst hmem
        have := hn.differ
        rw [LawfulTerminalEq.symm _ _ h5] at this
        cases this
      · have := hn.marker _ _ t ((hn.rule h6).1 hrule) hmem
        rw [h5] at this
        cases this
    subst hτ
    obtain ⟨k, ns, hk⟩ := h.moves [] []
    obtain ⟨d, h6, h7⟩ := hk.forest (withEnd_epsFree he) (w := []) .nil
    simp only [List.append_nil, List.nil_append] at h6 h7
    subst h6
    obtain ⟨n1, n2, w1, w2, h8, h9, h10, h11⟩ := forest_split (α := [.var g.start]) h7
    have hz : Sym.var z ∉ ([.var g.start] : List (Sym V T)) := by
      simpa using fun h => hn.start wf h.symm
    have h12 := (forest_withEnd wf hn hz).1 h10
    have h13 : w2.length = 1 := by
      cases h11 with
      | term _ h => cases h; rfl
    obtain ⟨rfl, _⟩ := List.append_inj' h9 (by simpa using h13.symm)
    cases h12 with
    | var hr hb hrest =>
      cases hrest
      exact ⟨_, .var hr hb .nil⟩
  · rintro ⟨m, h⟩
    obtain ⟨k, y, h1, h2⟩ := sentence_read (rest := []) (w := w ++ [e]) (hg.withEnd hn.head).wellFormed
      (withEnd_epsFree he) (n := .mk (.var z) [.mk (.term e) [], m])
      ((tree_withEnd wf hn).2 (.inl ⟨w, e, m, by simp, LawfulTerminalEq.refl e, h, rfl⟩))
    exact ⟨_, h1.path h2⟩

private theorem lists_finite {α : Type} (l : List α) (n : Nat) : {γ : List α | (∀ x ∈ γ, x ∈ l) ∧ γ.length ≤ n}.Finite := by
  induction n with
  | zero =>
    refine (Set.finite_singleton ([] : List α)).subset ?_
    rintro γ ⟨_, h⟩
    exact List.length_eq_zero_iff.1 (Nat.le_zero.1 h)
  | succ n ih =>
    refine ((Set.finite_singleton ([] : List α)).union (Set.Finite.image2 List.cons (List.finite_toSet l) ih)).subset ?_
    rintro γ ⟨h1, h2⟩
    cases γ with
    | nil => exact .inl rfl
    | cons x γ =>
      exact .inr ⟨x, h1 x (by simp), γ, ⟨fun y hy => h1 y (by simp [hy]), by simpa using h2⟩, rfl⟩

/-- C138.  If the stack of the parser never gets higher than some number, then the sentences of the grammar are a regular
language. -/
theorem c138_regular (hg : Built g) (he : EpsFree g) (hn : NotIn g z e f) (hp : IsParser (withEnd g z e f) tbl)
    {bound : Nat} (hb : ∀ input fuel, ∀ p ∈ parseStacks tbl fuel input, p.2.length ≤ bound) :
    Language.IsRegular ({w | ∃ m, ParseTree g m w} : Language T) := by
  have hg' := hg.withEnd (e := e) (f := f) hn.head
  obtain ⟨c, follow, _, ok⟩ := hp.ok hg'
  have hdet : Det (withEnd g z e f) := fun _ _ _ h h' => Move.det ok h h'
  obtain ⟨s, h1, h2⟩ := ok.cfsm.reached_start
  have hs : StackOk c (bottomNode (withEnd g z e f)) [] [] [⟨bottomNode (withEnd g z e f), s.id⟩] s :=
    .bottom (reached_mem h2) h1
  let F : List (Sym V T) → Language T := fun γ => {w | ∃ γ', Path (withEnd g z e f) γ (w ++ [e]) γ'}
  suffices h : ∀ L : Language T, (∀ w, w ∈ L ↔ ∃ m, ParseTree g m w) → L.IsRegular from h _ fun _ => Iff.rfl
  intro L hL
  refine Language.isRegular_iff_finite_range_leftQuotient.2 ((((lists_finite (allSyms (withEnd g z e f)) bound).image F).union
    (Set.finite_singleton (0 : Language T))).subset ?_)
  rintro _ ⟨u, rfl⟩
  have hmem : ∀ w, w ∈ L.leftQuotient u ↔
      ∃ γ, Path (withEnd g z e f) [] (u ++ (w ++ [e])) γ := by
    intro w
    rw [Language.mem_leftQuotient, hL, ← List.append_assoc, path_iff_sentence hg he hn]
  by_cases hu : ∃ γ, Path (withEnd g z e f) [] u γ
  · obtain ⟨γ, hγ⟩ := hu
    refine .inl ⟨γ, ⟨Parse.path_syms (by simp) hγ, ?_⟩, ?_⟩
    · obtain ⟨k, ns, hk⟩ := hγ.moves [] [e]
      obtain ⟨st, h3, h4⟩ := moves_stacks ok (fin := .ok ()) hk (by simp) hs
      have := hb (u ++ [e]) (k + 1) ([e], st) (by
        rw [parseStacks, ok.start]
        rw [h1] at h3
        exact h3)
      simp only at this h4
      omega
    · ext w
      rw [hmem]
      simp only [path_append (w := u)]
      constructor
      · rintro ⟨γ', h⟩
        exact ⟨γ', γ, hγ, h⟩
      · rintro ⟨γ', γ1, h, h'⟩
        rw [hγ.det hdet h]
        exact ⟨γ', h'⟩
  · refine .inr (Set.mem_singleton_iff.2 ?_)
    ext w
    rw [hmem]
    refine iff_of_false (fun ⟨γ, h⟩ => hu ?_) (Language.notMem_zero w)
    obtain ⟨γ1, h, _⟩ := path_append.1 h
    exact ⟨γ1, h⟩

/-- C138.  Brackets inside of brackets need stacks of any height: however the grammar is written, there is no bound on the
height of the stack if the sentences of `a` and `b` are those with some `a` and as many `b` behind them. -/
theorem c138_nested (hg : Built g) (he : EpsFree g) (hn : NotIn g z e f) (hp : IsParser (withEnd g z e f) tbl) {a b : T}
    (hs : ∀ n i, (∃ m, ParseTree g m (List.replicate n a ++ List.replicate i b)) ↔ 1 ≤ n ∧ i = n) (bound : Nat) :
    ∃ input fuel, ∃ p ∈ parseStacks tbl fuel input, bound < p.2.length := by
  refine Classical.byContradiction fun hno => ?_
  have h := c138_regular hg he hn hp (bound := bound) fun input fuel p h =>
    Nat.not_lt.1 fun hlt => hno ⟨input, fuel, p, h, hlt⟩
  have key : ∀ L : Language T, (∀ w, w ∈ L ↔ ∃ m, ParseTree g m w) → ¬ L.IsRegular := by
    intro L hL hreg
    have hinj : Function.Injective fun n : Nat => L.leftQuotient (List.replicate (n + 1) a) := by
      intro n i hni
      have h1 : List.replicate (n + 1) b ∈ L.leftQuotient (List.replicate (n + 1) a) := by
        rw [Language.mem_leftQuotient, hL, hs]
        exact ⟨by omega, rfl⟩
      simp only at hni
      rw [hni, Language.mem_leftQuotient, hL, hs] at h1
      omega
    refine Set.infinite_range_of_injective hinj (hreg.finite_range_leftQuotient.subset ?_)
    rintro _ ⟨n, rfl⟩
    exact ⟨_, rfl⟩
  exact key _ (fun _ => Iff.rfl) h

end

/-- C138, exactly: there is a grammar and a parser with a stack of bounded height for a language (with a word, and without
the empty word) if and only if it is regular. -/
theorem c138_exact {A : Type} [Fintype A] [DecidableEq A] (L : Language A) (h0 : [] ∉ L) (hL : ∃ w, w ∈ L) :
    L.IsRegular ↔ ∃ (V : Type) (_ : DecidableEq V) (g : Grammar V (Marked A)) (z : V) (tbl : Table V (Marked A))
      (bound : Nat), Built g ∧ EpsFree g ∧ NotIn g z .stop .never ∧ (∀ w, (∃ m, ParseTree g m (w.map .letter)) ↔ w ∈ L) ∧
        IsParser (withEnd g z .stop .never) tbl ∧
        ∀ input fuel, ∀ p ∈ parseStacks tbl fuel input, p.2.length ≤ bound := by
  constructor
  · intro h
    obtain ⟨w, hw⟩ := hL
    have hne : ∀ w ∈ L, w ≠ [] := by
      rintro _ h rfl
      exact h0 h
    obtain ⟨V, _, g, z, hg, he, _, _, hn, ⟨tbl, hp⟩, htail, hs⟩ := regular_grammar L h ⟨w, hw, hne w hw⟩
    refine ⟨V, inferInstance, g, z, tbl, _, hg, he, hn, fun w => ?_, hp, fun input fuel p hp' =>
      c137_low (hg.withEnd hn.head) hp (leftOnly_of_terms ?_) hp'⟩
    · rw [hs]
      have inj : Function.Injective (Marked.letter : A → Marked A) := fun a b h => by cases h; rfl
      constructor
      · rintro ⟨u, _, h1, h2⟩
        rwa [inj.list_map h1]
      · exact fun h => ⟨w, hne w h, rfl, h⟩
    · intro v β h x hx
      rcases withEnd_mem.1 h with h | ⟨_, rfl | rfl⟩
      · exact htail v β h x hx
      · exact ⟨_, by simpa using hx⟩
      · exact ⟨_, by simpa using hx⟩
  · rintro ⟨V, _, g, z, tbl, bound, hg, he, hn, hs, hp, hb⟩
    obtain ⟨σ, _, D, hD⟩ := c138_regular hg he hn hp hb
    refine ⟨σ, inferInstance, D.comap .letter, ?_⟩
    ext w
    rw [DFA.accepts_comap, hD]
    exact hs w

/-! ## The hypotheses are met by a non-trivial case -/

/-- The lists of C137 are a regular language, since the stack stays low. -/
example : Language.IsRegular ({w | ∃ m, ParseTree (⟨"L", [("L", [.var "L", .term "x"]), ("L", [.term "x"])]⟩ :
    Grammar String String) m w} : Language String) := by
  refine c138_regular (z := "Z") (e := "$") (f := "#") (bound := 36)
    ⟨[.setStart "L", .addRules "L" [[.var "L", .term "x"], [.term "x"]]], by decide⟩ ?_ ⟨?_, ?_, ?_, by decide⟩
    leftList_parser fun input fuel p h => c137_low leftList_built leftList_parser leftList_left h
  · intro v β h
    simp at h
    rcases h with ⟨_, rfl⟩ | ⟨_, rfl⟩ <;> simp
  · intro β h
    simp at h
  all_goals
    intro v β t h ht
    simp at h
    rcases h with ⟨_, rfl⟩ | ⟨_, rfl⟩ <;> simp at ht <;> subst ht <;> decide

/-- `S → a R`, `R → a R b | b` has a parser, and no bound on its stacks. -/
example : ∃ (g : Grammar String String) (tbl : Table String String), IsParser (withEnd g "Z" "$" "#") tbl ∧
    (∀ w, (∃ m, ParseTree g m w) ↔ ∃ n, 1 ≤ n ∧ w = List.replicate n "a" ++ List.replicate (1 * n) "b") ∧
    ∀ bound, ∃ input fuel, ∃ p ∈ parseStacks tbl fuel input, bound < p.2.length := by
  obtain ⟨g, hg, he, _, hr, hs, tbl, hp⟩ := c130_each (p := 1) (s := "S") (r := "R") (by decide) (by decide) (by decide)
    (by decide)
  have hterm : ∀ v β t, (v, β) ∈ g.rules → .term t ∈ β → t = "a" ∨ t = "b" := by
    intro v β t h ht
    rcases mem_countRules.1 ((hr v β).1 h) with ⟨_, rfl⟩ | ⟨_, rfl | rfl⟩ <;> simp at ht <;> simp [ht]
  refine ⟨g, tbl, hp, hs, c138_nested hg he ⟨fun β h => ?_, fun v β t h ht => ?_, fun v β t h ht => ?_, by decide⟩ hp
    (a := "a") (b := "b") fun n i => ?_⟩
  · rcases mem_countRules.1 ((hr _ β).1 h) with ⟨h, _⟩ | ⟨h, _⟩ <;> exact absurd h (by decide)
  · rcases hterm v β t h ht with rfl | rfl <;> decide
  · rcases hterm v β t h ht with rfl | rfl <;> decide
  · rw [hs]
    constructor
    · rintro ⟨k, hk, h⟩
      have h1 := congrArg (List.count "a") h
      have h2 := congrArg (List.count "b") h
      simp [List.count_replicate] at h1 h2
      omega
    · rintro ⟨h, rfl⟩
      exact ⟨i, h, by simp⟩

end Pango.Props
