import Verif.Proofs.Derive
import Verif.Proofs.Sound
import Verif.Spec.ContextFree

/-!
# Derivations of Mathlib and derivations of the specification
-/

namespace Pango.Parse

open Pango Pango.Spec

variable {V T : Type}

/-- A symbol of Mathlib as a symbol of a grammar. -/
def symOf : Symbol T V → Sym V T
  | .terminal t => .term t
  | .nonterminal v => .var v

theorem symbols_append (α β : List (Sym V T)) : symbols (α ++ β) = symbols α ++ symbols β := by
  induction α with
  | nil => rfl
  | cons x α ih => cases x <;> simp [symbols, ih]

theorem symbols_symOf (u : List (Symbol T V)) : symbols (u.map symOf) = u := by
  induction u with
  | nil => rfl
  | cons x u ih => cases x <;> simp [symbols, symOf, ih]

variable {g : Grammar V T}

theorem mem_asCfg {r : ContextFreeRule T V} : r ∈ (asCfg g).rules ↔ ∃ β, (r.input, β) ∈ g.rules ∧ symbols β = r.output := by
  classical
  have h0 : r ∈ (asCfg g).rules ↔ r ∈ g.rules.map fun r => (⟨r.1, symbols r.2⟩ : ContextFreeRule T V) :=
    List.mem_toFinset
  rw [h0, List.mem_map]
  constructor
  · rintro ⟨⟨v, β⟩, h, rfl⟩
    exact ⟨β, h, rfl⟩
  · rintro ⟨β, h, h'⟩
    exact ⟨(_, β), h, by cases r; cases h'; rfl⟩

/-- Epsilons can be removed. -/
theorem derives_symbols (α : List (Sym V T)) : Derives g α ((symbols α).map symOf) := by
  induction α with
  | nil => exact .refl
  | cons x α ih =>
    cases x with
    | eps => exact Derives.trans (.step .refl (Step.eps (x := []))) ih
    | term t => simpa [symbols, symOf] using ih.context [.term t] []
    | var v => simpa [symbols, symOf] using ih.context [.var v] []

theorem asCfg_of_derives {α β : List (Sym V T)} (h : Derives g α β) : (asCfg g).Derives (symbols α) (symbols β) := by
  induction h with
  | refl => exact Relation.ReflTransGen.refl
  | step _ hs ih =>
    cases hs with
    | @rule x y β v hr =>
      have h1 : symbols (x ++ .var v :: y) = symbols x ++ [Symbol.nonterminal v] ++ symbols y := by
        simp [symbols_append, symbols]
      have h2 : symbols (x ++ (β ++ y)) = symbols x ++ symbols β ++ symbols y := by simp [symbols_append]
      exact ih.tail ⟨⟨v, symbols β⟩, mem_asCfg.2 ⟨β, hr, rfl⟩, ContextFreeRule.rewrites_iff.2 ⟨_, _, h1, h2⟩⟩
    | @eps x y =>
      have h1 : symbols (x ++ .eps :: y) = symbols (x ++ y) := by simp [symbols_append, symbols]
      exact h1 ▸ ih

private theorem derives_parts {v : V} {o : List (Symbol T V)} (h : Derives g [.var v] (o.map symOf))
    (p q : List (Symbol T V)) :
    Derives g ((p ++ [Symbol.nonterminal v] ++ q).map symOf) ((p ++ o ++ q).map symOf) := by
  simpa [symOf] using h.context (p.map symOf) (q.map symOf)

theorem derives_of_asCfg {u v : List (Symbol T V)} (h : (asCfg g).Derives u v) :
    Derives g (u.map symOf) (v.map symOf) := by
  induction h with
  | refl => exact .refl
  | tail _ hs ih =>
    obtain ⟨r, hr, hw⟩ := hs
    obtain ⟨p, q, rfl, rfl⟩ := ContextFreeRule.rewrites_iff.1 hw
    obtain ⟨β, h1, h2⟩ := mem_asCfg.1 hr
    refine ih.trans ?_
    rw [← h2]
    have h3 := (Derives.rule h1 [] []).trans (by simpa using derives_symbols (g := g) β)
    exact derives_parts h3 p q

/-- The two kinds of derivations are the same. -/
theorem derives_asCfg {α : List (Sym V T)} {u : List (Symbol T V)} :
    Derives g α (u.map symOf) ↔ (asCfg g).Derives (symbols α) u := by
  constructor
  · intro h
    exact symbols_symOf u ▸ asCfg_of_derives h
  · intro h
    exact (derives_symbols α).trans (derives_of_asCfg h)

variable [TerminalEq T]

theorem sameTokens_append {a b a' b' : List T} (h : SameTokens a a') (h' : SameTokens b b') :
    SameTokens (a ++ b) (a' ++ b') := by
  induction h with
  | nil => exact h'
  | cons ht _ ih => exact .cons ht ih

theorem forest_derives {α : List (Sym V T)} {ns : List (Node V T)} {w : List T} (h : Forest g α ns w) :
    ∃ u, SameTokens u w ∧ Derives g α (u.map .term) := by
  induction h with
  | nil => exact ⟨[], .nil, .refl⟩
  | eps _ ih =>
    obtain ⟨u, h1, h2⟩ := ih
    exact ⟨u, h1, Derives.trans (.step .refl (Step.eps (x := []))) h2⟩
  | @term t _ _ _ _ ht _ ih =>
    obtain ⟨u, h1, h2⟩ := ih
    exact ⟨t :: u, .cons ht h1, by simpa using h2.context [.term t] []⟩
  | @var v β α _ _ _ _ hr _ _ ih1 ih2 =>
    obtain ⟨u1, h1, h2⟩ := ih1
    obtain ⟨u2, h3, h4⟩ := ih2
    refine ⟨u1 ++ u2, sameTokens_append h1 h3, ?_⟩
    have h5 := Derives.rule hr [] α
    have h6 := h2.context [] α
    have h7 := h4.context (u1.map .term) []
    simp only [List.nil_append, List.append_nil] at h5 h6 h7
    simpa using (h5.trans h6).trans h7

theorem forest_terms {u w : List T} (h : SameTokens u w) : ∃ ns, Forest g (u.map .term) ns w := by
  induction h with
  | nil => exact ⟨[], .nil⟩
  | cons ht _ ih =>
    obtain ⟨ns, h⟩ := ih
    exact ⟨_, .term ht h⟩

theorem forest_step {α β : List (Sym V T)} (hs : Step g α β) {ns : List (Node V T)} {w : List T}
    (h : Forest g β ns w) : ∃ ns', Forest g α ns' w := by
  cases hs with
  | @rule x y β v hr =>
    obtain ⟨n1, n2, w1, w2, rfl, rfl, h1, h2⟩ := forest_split h
    obtain ⟨n3, n4, w3, w4, rfl, rfl, h3, h4⟩ := forest_split h2
    exact ⟨_, forest_append h1 (.var hr h3 h4)⟩
  | @eps x y =>
    obtain ⟨n1, n2, w1, w2, rfl, rfl, h1, h2⟩ := forest_split h
    exact ⟨_, forest_append h1 (.eps h2)⟩

theorem forest_of_derives {α β : List (Sym V T)} (hd : Derives g α β) {ns : List (Node V T)} {w : List T}
    (h : Forest g β ns w) : ∃ ns', Forest g α ns' w := by
  induction hd generalizing ns with
  | refl => exact ⟨ns, h⟩
  | step _ hs ih =>
    obtain ⟨ns', h'⟩ := forest_step hs h
    exact ih h'

omit [TerminalEq T] in
theorem map_symOf (u : List T) : (u.map Symbol.terminal).map (symOf (V := V)) = u.map .term := by
  simp [symOf]

/-- The sentences of a grammar are the words of its context-free grammar. -/
theorem sentence_iff {w : List T} :
    (∃ n, ParseTree g n w) ↔ ∃ u ∈ (asCfg g).language, SameTokens u w := by
  constructor
  · rintro ⟨n, h⟩
    obtain ⟨u, h1, h2⟩ := forest_derives h
    rw [← map_symOf] at h2
    exact ⟨u, derives_asCfg.1 h2, h1⟩
  · rintro ⟨u, h1, h2⟩
    have h3 : Derives g [.var g.start] ((u.map Symbol.terminal).map symOf) := derives_asCfg.2 h1
    rw [map_symOf] at h3
    obtain ⟨ns, h4⟩ := forest_terms (g := g) h2
    obtain ⟨ns', h5⟩ := forest_of_derives h3 h4
    have h6 : ∃ n, ns' = [n] := by
      cases h5 with
      | var _ _ h => cases h; exact ⟨_, rfl⟩
    obtain ⟨n, rfl⟩ := h6
    exact ⟨n, h5⟩

end Pango.Parse
