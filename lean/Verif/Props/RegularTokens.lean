import Mathlib.Data.Set.Finite.Range
import Mathlib.Data.Set.Finite.Basic
import Verif.Proofs.RegularGrammar
import Verif.Props.EndMarker

/-!
# C104: every regular language of tokens can be parsed

Regular languages and automata are those of Mathlib.
-/

namespace Pango.Props

open Pango Pango.Parse Pango.Spec

/-- A grammar with given rules can be built, if the start variable and every variable in a body has a rule. -/
theorem built_rules {V T : Type} [DecidableEq V] [DecidableEq T] (s : V) (l : List (V × Body V T))
    (h1 : ∃ β, (s, β) ∈ l) (h2 : ∀ v β w, (v, β) ∈ l → .var w ∈ β → ∃ γ, (w, γ) ∈ l)
    (h3 : ∀ v β, (v, β) ∈ l → β ≠ []) :
    ∃ g : Grammar V T, Built g ∧ g.start = s ∧ ∀ v β, (v, β) ∈ g.rules ↔ (v, β) ∈ l := by
  let calls : List (BuilderCall V T) := .setStart s :: l.map fun r => .addRule r.1 r.2
  have hstart : lastStart calls = some s := by
    have : ∀ l : List (V × Body V T), lastStart (l.map fun r => BuilderCall.addRule r.1 r.2) = none := by
      intro l
      induction l with
      | nil => rfl
      | cons r l ih => exact ih
    simp only [calls, lastStart, this]
    rfl
  have hadded : ∀ v β, Added calls v β ↔ (v, β) ∈ l := by
    intro v β
    constructor
    · rintro ⟨b, h, rfl⟩
      have h4 : BuilderCall.addRule v b ∈ calls := by
        rcases h with h | ⟨bs, h, _⟩
        · exact h
        · simp [calls] at h
      simp only [calls, List.mem_cons, reduceCtorEq, List.mem_map, BuilderCall.addRule.injEq, false_or] at h4
      obtain ⟨⟨v', b'⟩, h5, rfl, rfl⟩ := h4
      have h6 := h3 _ _ h5
      simp only at h6 ⊢
      rw [if_neg (by simpa using h6)]
      exact h5
    · intro h
      refine ⟨β, .inl ?_, ?_⟩
      · simp only [calls, List.mem_cons, List.mem_map]
        exact .inr ⟨(v, β), h, rfl⟩
      · rw [if_neg (by simpa using h3 _ _ h)]
  rcases c26_build calls with ⟨_, h | ⟨v, h4, h5⟩⟩ | ⟨g, h4, _, h5, _, h6⟩
  · rw [hstart] at h
    cases h
  · exfalso
    apply h5
    rcases h4 with h4 | ⟨hd, body, h4, h6⟩
    · rw [hstart] at h4
      cases h4
      obtain ⟨β, h⟩ := h1
      exact ⟨β, (hadded _ _).2 h⟩
    · obtain ⟨γ, h⟩ := h2 _ _ _ ((hadded _ _).1 h4) h6
      exact ⟨γ, (hadded _ _).2 h⟩
  · refine ⟨g, ⟨_, h4⟩, ?_, fun v β => (h6 v β).trans (hadded v β)⟩
    rw [hstart] at h5
    exact (Option.some.inj h5).symm

variable {A : Type} [Fintype A] [DecidableEq A]

/-- For every regular language that has a word other than the empty one there is a grammar with a variable for each
state of an automaton. -/
theorem regular_grammar (L : Language A) (hL : L.IsRegular) (hw : ∃ w ∈ L, w ≠ []) :
    ∃ (V : Type) (_ : DecidableEq V) (g : Grammar V (Marked A)) (z : V),
      Built g ∧ EpsFree g ∧ (∀ v β, (v, β) ∈ g.rules → Reachable g v) ∧
      (∀ v β, (v, β) ∈ g.rules → ∃ t, InFirst g [.var v] (.term t)) ∧ NotIn g z .stop .never ∧
      (∃ tbl, IsParser (withEnd g z .stop .never) tbl) ∧
      (∀ v β, (v, β) ∈ g.rules → ∀ x ∈ β.tail, ∃ t, x = .term t) ∧
      ∀ ts, (∃ m, ParseTree g m ts) ↔ ∃ w, w ≠ [] ∧ ts = w.map .letter ∧ w ∈ L := by
  classical
  obtain ⟨σ, _, D, rfl⟩ := hL
  have hfin : {r : StateVar σ × Body (StateVar σ) (Marked A) | RuleOf D r.1 r.2}.Finite := by
    refine Set.Finite.subset (((Set.finite_range fun q : σ =>
        ((.start, [.var (.state q)]) : StateVar σ × Body (StateVar σ) (Marked A))).union
      (Set.finite_range fun t : A => (.state (D.step D.start t), [.term (.letter t)]))).union
      (Set.finite_range fun p : σ × A => (.state (D.step p.1 p.2), [.var (.state p.1), .term (.letter p.2)]))) ?_
    rintro ⟨v, β⟩ h
    simp only [Set.mem_setOf_eq] at h
    cases h with
    | @accept q _ _ => exact .inl (.inl ⟨q, rfl⟩)
    | @first t _ => exact .inl (.inr ⟨t, rfl⟩)
    | @next q t _ _ => exact .inr ⟨(q, t), rfl⟩
  have hl : ∀ v β, (v, β) ∈ hfin.toFinset.toList ↔ RuleOf D v β := by
    intro v β
    rw [Finset.mem_toList, Set.Finite.mem_toFinset]
    rfl
  have hrule : ∀ q, Useful D q → ∃ β, RuleOf D (.state q) β := by
    rintro q ⟨⟨u, hu, rfl⟩, hlive⟩
    induction u using List.reverseRecOn with
    | nil => exact absurd rfl hu
    | append_singleton u t _ =>
      rw [DFA.eval_append_singleton] at hlive ⊢
      by_cases h : u = []
      · subst h
        exact ⟨_, .first hlive⟩
      · exact ⟨_, .next ⟨⟨u, h, rfl⟩, hlive.before⟩ hlive⟩
  obtain ⟨g, hg, hs, hr'⟩ := built_rules (StateVar.start : StateVar σ) hfin.toFinset.toList
    (by
      obtain ⟨w, h1, h2⟩ := hw
      exact ⟨_, (hl _ _).2 (.accept ⟨⟨w, h2, rfl⟩, [], h1⟩ h1)⟩)
    (by
      intro v β w h1 h2
      have h3 : ∃ q, w = .state q ∧ Useful D q := by
        cases (hl _ _).1 h1 with
        | @accept q hq _ => exact ⟨q, by simpa using h2, hq⟩
        | first _ => simp at h2
        | @next q t hq _ => exact ⟨q, by simpa using h2, hq⟩
      obtain ⟨q, rfl, hq⟩ := h3
      obtain ⟨γ, h⟩ := hrule q hq
      exact ⟨γ, (hl _ _).2 h⟩)
    (by
      intro v β h1
      cases (hl _ _).1 h1 <;> simp)
  have hr : ∀ v β, (v, β) ∈ g.rules ↔ RuleOf D v β := fun v β => (hr' v β).trans (hl v β)
  have he : EpsFree g := fun v β h => ((hr _ _).1 h).no_eps
  have hletter : ∀ v β t, (v, β) ∈ g.rules → .term t ∈ β → ∃ a, t = .letter a := by
    intro v β t h1 h2
    cases (hr _ _).1 h1 with
    | accept _ _ => simp at h2
    | @first a _ => exact ⟨a, by simpa using h2⟩
    | @next q a _ _ => exact ⟨a, by simpa using h2⟩
  have hn : NotIn g .top .stop .never :=
    { head := fun β h => by cases (hr _ _).1 h
      marker := fun v β t h1 h2 => by
        obtain ⟨a, rfl⟩ := hletter v β t h1 h2
        simp [teq]
      never := fun v β t h1 h2 => by
        obtain ⟨a, rfl⟩ := hletter v β t h1 h2
        simp [teq]
      differ := by simp [teq] }
  have hpar := (c86_table hg he hn).1.2 (one_entry hs hr)
  refine ⟨StateVar σ, inferInstance, g, .top, hg, he, reachable_ruleOf hs hr, first_ruleOf hr, hn, hpar, ?_,
    fun ts => tree_ruleOf hs hr⟩
  intro v β h x hx
  cases (hr _ _).1 h with
  | accept _ _ => simp at hx
  | first _ => simp at hx
  | @next q a _ _ => exact ⟨.letter a, by simpa using hx⟩

/-- C104.  For every regular language that has a word other than the empty one there is a grammar and a parser which
returns on every sequence of letters and an end marker behind them, after a number of iterations that is linear in
its length: a tree if the letters are a word of the language (other than the empty one), and otherwise an error. -/
theorem c104_parse (L : Language A) (hL : L.IsRegular) (hw : ∃ w ∈ L, w ≠ []) :
    ∃ (V : Type) (_ : DecidableEq V) (g : Grammar V (Marked A)) (tbl : Table V (Marked A)) (c : Nat),
      Built g ∧ IsParser g tbl ∧ ∀ (w : List A) (fuel : Nat), c * (w.length + 1) ≤ fuel →
        ∃ r, parseTokens tbl fuel (w.map .letter ++ [.stop]) = .ok r ∧ (r.isSome = true ↔ w ∈ L ∧ w ≠ []) := by
  obtain ⟨V, _, g, z, hg, he, hreach, hfirst, hn, ⟨tbl, hp⟩, _, hs⟩ := regular_grammar L hL hw
  refine ⟨V, inferInstance, withEnd g z .stop .never, tbl, 5 * (g.rules.length + 4) + 1,
    hg.withEnd hn.head, hp, fun w fuel hf => ?_⟩
  obtain ⟨r, h1, h2⟩ := c86_reads hg he hreach hfirst hn hp
    (input := w.map .letter ++ [.stop]) (fuel := fuel) (by
      intro t ht
      rcases List.mem_append.1 ht with h | h
      · obtain ⟨a, _, rfl⟩ := List.mem_map.1 h
        simp [teq]
      · obtain rfl := List.mem_singleton.1 h
        simp [teq]) (by
      refine Nat.lt_of_lt_of_le ?_ hf
      have : 2 * (w.map Marked.letter ++ [Marked.stop]).length + 1 ≤ 5 * (w.length + 1) := by
        simp
        omega
      calc _ ≤ 5 * (w.length + 1) * (g.rules.length + 4) := Nat.mul_le_mul_right _ this
        _ = 5 * (g.rules.length + 4) * (w.length + 1) := by
          rw [Nat.mul_assoc, Nat.mul_assoc, Nat.mul_comm (w.length + 1)]
        _ < _ := Nat.mul_lt_mul_of_pos_right (Nat.lt_succ_self _) (Nat.succ_pos _))
  refine ⟨r, h1, ?_⟩
  have inj : Function.Injective (Marked.letter : A → Marked A) := fun a b h => by cases h; rfl
  constructor
  · intro h
    obtain ⟨n, rfl⟩ := Option.isSome_iff_exists.1 h
    obtain ⟨w', e', m, h3, _, h4, _⟩ := (h2 n).1 rfl
    obtain ⟨rfl, _⟩ := List.append_inj' h3 rfl
    obtain ⟨u, h5, h6, h7⟩ := (hs _).1 ⟨m, h4⟩
    obtain rfl := inj.list_map h6
    exact ⟨h7, h5⟩
  · rintro ⟨h3, h4⟩
    obtain ⟨m, h5⟩ := (hs _).2 ⟨w, h4, rfl, h3⟩
    rw [(h2 _).2 ⟨_, _, m, rfl, LawfulTerminalEq.refl _, h5, rfl⟩]
    rfl

/-! ## The hypotheses are met by a non-trivial case -/

/-- Words with an odd number of letters `true`. -/
def oddTrue : DFA Bool Bool := ⟨fun q a => q != a, false, {true}⟩

example : oddTrue.accepts.IsRegular ∧ [false, true] ∈ oddTrue.accepts ∧ [true, true] ∉ oddTrue.accepts :=
  ⟨⟨Bool, inferInstance, oddTrue, rfl⟩, by simp [DFA.mem_accepts, DFA.eval, DFA.evalFrom, oddTrue],
    by simp [DFA.mem_accepts, DFA.eval, DFA.evalFrom, oddTrue]⟩

/-- So there is a parser that counts them. -/
example : ∃ (V : Type) (_ : DecidableEq V) (g : Grammar V (Marked Bool)) (tbl : Table V (Marked Bool)) (fuel : Nat),
    IsParser g tbl ∧ (∃ n, parseTokens tbl fuel [.letter false, .letter true, .stop] = .ok (some n)) ∧
      parseTokens tbl fuel [.letter true, .letter true, .stop] = .ok none := by
  obtain ⟨V, hV, g, tbl, c, _, h2, h3⟩ := c104_parse oddTrue.accepts ⟨Bool, inferInstance, oddTrue, rfl⟩
    ⟨[false, true], by simp [DFA.mem_accepts, DFA.eval, DFA.evalFrom, oddTrue], by simp⟩
  refine ⟨V, hV, g, tbl, c * 3, h2, ?_, ?_⟩
  · obtain ⟨r, h4, h5⟩ := h3 [false, true] (c * 3) (Nat.le_refl _)
    obtain ⟨n, rfl⟩ := Option.isSome_iff_exists.1
      (h5.2 ⟨by simp [DFA.mem_accepts, DFA.eval, DFA.evalFrom, oddTrue], by simp⟩)
    exact ⟨n, h4⟩
  · obtain ⟨r, h4, h5⟩ := h3 [true, true] (c * 3) (Nat.le_refl _)
    cases r with
    | none => exact h4
    | some n => exact absurd (h5.1 rfl).1 (by simp [DFA.mem_accepts, DFA.eval, DFA.evalFrom, oddTrue])

end Pango.Props
