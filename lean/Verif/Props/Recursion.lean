import Verif.Proofs.Recursion
import Verif.Props.Height

/-!
# C139: parsers of grammars without recursion
-/

namespace Pango.Props

open Pango Pango.Parse Pango.Spec

section

variable {V T : Type} [DecidableEq V] [DecidableEq T] [TerminalEq T] {g : Grammar V T}

/-- C139.  If no variable is inside of itself, then no sentence is longer than a number that depends on the grammar
only. -/
theorem c139_short (hg : Built g) (hn : NoRecursion g) {m : Node V T} {w : List T} (h : ParseTree g m w) :
    w.length ≤ ((g.rules.map fun r => r.2.length).sum + 1) ^ (g.rules.length + 1) := by
  have := forest_short hg.wellFormed hn h (g.rules.length + 1) fun v hv => by
    obtain rfl : v = g.start := by simpa using hv
    exact ⟨.start, Nat.lt_succ_of_le (rankOf_le _)⟩
  simpa [bodiesLength] using this

variable [LawfulTerminalEq T] {tbl : Table V T} {z : V} {e f : T}

omit [DecidableEq V] [DecidableEq T] [LawfulTerminalEq T] in
private theorem forest_kinds {α : List (Sym V T)} {ns : List (Node V T)} {w : List T} (h : Forest g α ns w) :
    ∀ t ∈ w, ∃ s, teq s t = true ∧ (.term s ∈ α ∨ ∃ v β, (v, β) ∈ g.rules ∧ .term s ∈ β) := by
  induction h with
  | nil => simp
  | eps _ ih =>
    intro t ht
    obtain ⟨s, h1, h2⟩ := ih t ht
    exact ⟨s, h1, h2.imp_left (List.mem_cons_of_mem _)⟩
  | term hu _ ih =>
    intro t ht
    rcases List.mem_cons.1 ht with rfl | ht
    · exact ⟨_, hu, .inl (by simp)⟩
    · obtain ⟨s, h1, h2⟩ := ih t ht
      exact ⟨s, h1, h2.imp_left (List.mem_cons_of_mem _)⟩
  | var hr _ _ ih1 ih2 =>
    intro t ht
    rcases List.mem_append.1 ht with ht | ht
    · obtain ⟨s, h1, h2⟩ := ih1 t ht
      exact ⟨s, h1, .inr (h2.elim (fun h => ⟨_, _, hr, h⟩) id)⟩
    · obtain ⟨s, h1, h2⟩ := ih2 t ht
      exact ⟨s, h1, h2.imp_left (List.mem_cons_of_mem _)⟩

omit [DecidableEq V] [DecidableEq T] in
private theorem sentence_never (hn : NotIn g z e f) {m : Node V T} {w : List T} (h : ParseTree g m w) :
    ∀ t ∈ w ++ [e], teq f t = false := by
  intro t ht
  refine Bool.eq_false_iff.2 fun hf => ?_
  rcases List.mem_append.1 ht with ht | ht
  · obtain ⟨s, h1, h2 | ⟨v, β, h2, h3⟩⟩ := forest_kinds h t ht
    · simp at h2
    · have := hn.never v β s h2 h3
      rw [LawfulTerminalEq.trans _ _ _ h1 (LawfulTerminalEq.symm _ _ hf)] at this
      cases this
  · obtain rfl : t = e := by simpa using ht
    have := hn.differ
    rw [LawfulTerminalEq.symm _ _ hf] at this
    cases this

/-- C139.  If a variable is inside of itself, then there are inputs of any length that the parser accepts (in grammars in
which every variable stands for some tokens). -/
theorem c139_long (hg : Built g) (he : EpsFree g) (hprod : Productive g) (hn : NotIn g z e f)
    (hp : IsParser (withEnd g z e f) tbl) {v : V} (hv : Reachable g v) (hi : HasInside g v v) (k : Nat) :
    ∃ w m fuel, ParseTree g m w ∧ k ≤ w.length ∧
      parseTokens tbl fuel (w ++ [e]) = .ok (some (.mk (.var z) [.mk (.term e) [], m])) := by
  obtain ⟨m, w, h1, h2⟩ := recursion_long hprod LawfulTerminalEq.refl hg.wellFormed
    (fun _ _ _ h h' => c86_unambiguous hg he hn hp h h') hv hi k
  obtain ⟨fuel, h3⟩ := (c86_accepts hg he hn hp (input := w ++ [e]) (sentence_never hn h1)).2 ⟨w, e, m, rfl, LawfulTerminalEq.refl e, h1, rfl⟩
  exact ⟨w, m, fuel, h1, h2, h3⟩

/-- C139, exactly: the inputs that the parser accepts are shorter than some number, if and only if no variable is inside
of itself. -/
theorem c139_exact (hg : Built g) (he : EpsFree g) (hprod : Productive g) (hn : NotIn g z e f)
    (hp : IsParser (withEnd g z e f) tbl) :
    (∃ bound, ∀ input : List T, (∀ t ∈ input, teq f t = false) → ∀ fuel n, parseTokens tbl fuel input = .ok (some n) →
      input.length ≤ bound) ↔ NoRecursion g := by
  constructor
  · rintro ⟨bound, h⟩ v hv hi
    obtain ⟨w, m, fuel, h1, h2, h3⟩ := c139_long hg he hprod hn hp hv hi bound
    have := h _ (sentence_never hn h1) fuel _ h3
    simp only [List.length_append, List.length_singleton] at this
    omega
  · refine fun hr => ⟨((g.rules.map fun r => r.2.length).sum + 1) ^ (g.rules.length + 1) + 1, fun input hi fuel n h => ?_⟩
    obtain ⟨w, e', m, rfl, _, h1, _⟩ := (c86_accepts hg he hn hp hi).1 ⟨fuel, h⟩
    rw [List.length_append, List.length_singleton]
    exact Nat.succ_le_succ (c139_short hg hr h1)

end

/-! ## The hypotheses are met by non-trivial cases -/

/-- `L → L x | x` has a parser that accepts lists of any length. -/
example (k : Nat) : ∃ w m fuel, ParseTree (⟨"L", [("L", [.var "L", .term "x"]), ("L", [.term "x"])]⟩ :
    Grammar String String) m w ∧ k ≤ w.length ∧
      parseTokens (tableOf leftList) fuel (w ++ ["$"]) = .ok (some (.mk (.var "Z") [.mk (.term "$") [], m])) := by
  refine c139_long (f := "#") ⟨[.setStart "L", .addRules "L" [[.var "L", .term "x"], [.term "x"]]], by decide⟩ ?_ ?_
    ⟨?_, ?_, ?_, by decide⟩ leftList_parser .start (.one (β := [.var "L", .term "x"]) (by decide) (by simp)) k
  · intro v β h
    simp at h
    rcases h with ⟨_, rfl⟩ | ⟨_, rfl⟩ <;> simp
  · intro v β h
    simp at h
    rcases h with ⟨rfl, _⟩ | ⟨rfl, _⟩ <;>
      exact ⟨_, _, .var (β := [.term "x"]) (cs := [_]) (x := ["x"]) (w := []) (by decide) (.term rfl .nil) .nil⟩
  · intro β h
    simp at h
  all_goals
    intro v β t h ht
    simp at h
    rcases h with ⟨_, rfl⟩ | ⟨_, rfl⟩ <;> simp at ht <;> subst ht <;> decide

/-- `P → W W`, `W → x | y`: no sentence has more than `5 ^ 4` tokens (they have two, in fact). -/
example {m : Node String String} {w : List String} (h : ParseTree (⟨"P", [("P", [.var "W", .var "W"]), ("W", [.term "x"]),
    ("W", [.term "y"])]⟩ : Grammar String String) m w) : w.length ≤ 5 ^ 4 := by
  refine c139_short ⟨[.setStart "P", .addRules "P" [[.var "W", .var "W"]], .addRules "W" [[.term "x"], [.term "y"]]],
    by decide⟩ ?_ h
  have key : ∀ {v w : String}, HasInside (⟨"P", [("P", [.var "W", .var "W"]), ("W", [.term "x"]),
      ("W", [.term "y"])]⟩ : Grammar String String) v w → v = "P" ∧ w = "W" := by
    intro v w h
    induction h with
    | one hr hm =>
      simp at hr
      rcases hr with ⟨rfl, rfl⟩ | ⟨rfl, rfl⟩ | ⟨rfl, rfl⟩ <;> simp at hm
      exact ⟨rfl, hm⟩
    | step hr hm _ ih =>
      simp at hr
      rcases hr with ⟨rfl, rfl⟩ | ⟨rfl, rfl⟩ | ⟨rfl, rfl⟩ <;> simp at hm
      exact ⟨rfl, ih.2⟩
  intro v _ hv
  obtain ⟨rfl, h2⟩ := key hv
  exact absurd h2 (by decide)

end Pango.Props
