import Verif.Proofs.Copies
import Verif.Props.Predictive
import Verif.Props.RegularTokens

/-!
# C132: a name that has to be repeated
-/

namespace Pango.Props

open Pango Pango.Parse Pango.Spec

/-- C132.  No grammar, with or without the empty string in its rules, has as sentences the names of two letters that stand
before and behind a separator, and no others that consist of the letters and the separator. -/
theorem c132_no_grammar {V T : Type} [DecidableEq T] [TerminalEq T] (g : Grammar V T) {a b s : T} (hab : a ≠ b) (has : a ≠ s)
    (hbs : b ≠ s) : ¬ ∀ w : List T, (∀ t ∈ w, t = a ∨ t = b ∨ t = s) → ((∃ m, ParseTree g m w) ↔
      ∃ v, v ≠ [] ∧ (∀ t ∈ v, t = a ∨ t = b) ∧ w = v ++ s :: v) := by
  intro h
  refine copies_impossible (g := g) hab has hbs (fun v hv hv' => (h _ ?_).2 ⟨v, hv, hv', rfl⟩) fun m w hw hm => ?_
  · intro t ht
    simp only [List.mem_append, List.mem_cons] at ht
    rcases ht with h | h | h
    · rcases hv' t h with h | h <;> simp [h]
    · simp [h]
    · rcases hv' t h with h | h <;> simp [h]
  · obtain ⟨v, _, h1, h2⟩ := (h w hw).1 ⟨m, hm⟩
    exact ⟨v, h1, h2⟩

/-! ## What can be done -/

private theorem equal_str {s t : String} (h : teq s t = true) : s = t := by
  have h : (s == t) = true := h
  exact eq_of_beq h

/-- `S → l S l` for every letter `l`, and `S → s`. -/
def mirrorRules (letters : List String) (s : String) : List (String × Body String String) :=
  ("S", [.term s]) :: letters.map fun l => ("S", [.term l, .var "S", .term l])

private theorem mem_mirrorRules {letters : List String} {s v : String} {β : Body String String} :
    (v, β) ∈ mirrorRules letters s ↔ v = "S" ∧ (β = [.term s] ∨ ∃ l ∈ letters, β = [.term l, .var "S", .term l]) := by
  simp only [mirrorRules, List.mem_cons, Prod.mk.injEq, List.mem_map]
  constructor
  · rintro (⟨h1, h2⟩ | ⟨l, hl, h1, h2⟩)
    · exact ⟨h1, .inl h2⟩
    · exact ⟨h1.symm, .inr ⟨l, hl, h2.symm⟩⟩
  · rintro ⟨h1, h2 | ⟨l, hl, h2⟩⟩
    · exact .inl ⟨h1, h2⟩
    · exact .inr ⟨l, hl, h1.symm, h2.symm⟩

/-- With any letters, the names that are repeated backwards behind the separator have a grammar with a parser. -/
theorem c132_mirror (letters : List String) (s : String) (hs : s ∉ letters) (he : "$" ∉ s :: letters) (hf : "#" ∉ s :: letters) :
    ∃ g : Grammar String String, Built g ∧ (∃ tbl, IsParser (withEnd g "Z" "$" "#") tbl) ∧
      ∀ w, (∃ m, ParseTree g m w) ↔ ∃ v, (∀ t ∈ v, t ∈ letters) ∧ w = v ++ s :: v.reverse := by
  obtain ⟨g, hg, hst, hr⟩ := built_rules "S" (mirrorRules letters s) ⟨[.term s], mem_mirrorRules.2 ⟨rfl, .inl rfl⟩⟩
    (fun v β w h hw => ⟨[.term s], mem_mirrorRules.2 ⟨by
      rcases (mem_mirrorRules.1 h).2 with rfl | ⟨l, hl, rfl⟩ <;> simp at hw
      exact hw, .inl rfl⟩⟩)
    (fun v β h => by rcases (mem_mirrorRules.1 h).2 with rfl | ⟨l, hl, rfl⟩ <;> simp)
  have hrule : ∀ {v β}, (v, β) ∈ g.rules → v = "S" ∧ (β = [.term s] ∨ ∃ l ∈ letters, β = [.term l, .var "S", .term l]) :=
    fun h => mem_mirrorRules.1 ((hr _ _).1 h)
  have hterm : ∀ v β t, (v, β) ∈ g.rules → .term t ∈ β → t ∈ s :: letters := by
    intro v β t h ht
    rcases (hrule h).2 with rfl | ⟨l, hl, rfl⟩ <;> simp at ht <;> simp [ht]
    exact .inr hl
  have hsimple : Simple g := by
    refine ⟨?_, ?_, ?_, fun v β t w γ u _ _ _ _ ht => equal_str ht⟩
    · intro v β h
      rcases (hrule h).2 with rfl | ⟨l, hl, rfl⟩ <;> simp
    · intro v β h
      rcases (hrule h).2 with rfl | ⟨l, hl, rfl⟩
      · exact ⟨_, _, rfl⟩
      · exact ⟨_, _, rfl⟩
    · intro v t α u β h1 h2 ht
      have ht := equal_str ht
      subst ht
      rcases (hrule h1).2 with h1 | ⟨l, hl, h1⟩ <;> rcases (hrule h2).2 with h2 | ⟨l', hl', h2⟩ <;>
        simp only [List.cons.injEq, Sym.term.injEq] at h1 h2
      · rw [h1.2, h2.2]
      · exact absurd (h1.1 ▸ h2.1 ▸ hl') hs
      · exact absurd (h2.1 ▸ h1.1 ▸ hl) hs
      · rw [h1.2, h2.2, ← h1.1, ← h2.1]
  have hne : ∀ {t x : String}, t ∈ s :: letters → x ∉ s :: letters → teq t x = false := by
    intro t x ht hx
    refine Bool.eq_false_iff.2 fun h => hx ?_
    rw [← equal_str h]
    exact ht
  refine ⟨g, hg, (c108_parser hg (c108_simple hsimple) ⟨?_, fun v β t h ht => hne (hterm v β t h ht) he,
    fun v β t h ht => hne (hterm v β t h ht) hf, by decide⟩).1, fun w => ⟨?_, ?_⟩⟩
  · intro β h
    have := (hrule h).1
    simp at this
  · rintro ⟨m, h⟩
    have : ∀ {α : List (Sym String String)} {ns : List (Node String String)} {w : List String}, Forest g α ns w →
        (∀ v, α = [.var v] → ∃ v, (∀ t ∈ v, t ∈ letters) ∧ w = v ++ s :: v.reverse) ∧
        (α = [.term s] → w = [s]) ∧ (∀ l, α = [.term l] → w = [l]) ∧
        (∀ l, α = [.var "S", .term l] → ∃ v, (∀ t ∈ v, t ∈ letters) ∧ w = v ++ s :: v.reverse ++ [l]) ∧
        (∀ l, α = [.term l, .var "S", .term l] → ∃ v, (∀ t ∈ v, t ∈ letters) ∧ w = l :: (v ++ s :: v.reverse ++ [l])) := by
      intro α ns w h
      induction h with
      | nil => simp
      | eps _ _ => simp
      | @term t t' α ns w ht h ih =>
        have ht := equal_str ht
        subst ht
        have hnil : α = [] → w = [] := by
          rintro rfl
          cases h
          rfl
        refine ⟨by simp, ?_, ?_, by simp, ?_⟩
        · intro h1
          simp only [List.cons.injEq, Sym.term.injEq] at h1
          rw [h1.1, hnil h1.2]
        · intro l h1
          simp only [List.cons.injEq, Sym.term.injEq] at h1
          rw [h1.1, hnil h1.2]
        · intro l h1
          simp only [List.cons.injEq, Sym.term.injEq] at h1
          obtain ⟨v, hv, h2⟩ := ih.2.2.2.1 l h1.2
          exact ⟨v, hv, by rw [h1.1, h2]⟩
      | @var v β α cs ns x w h1 h2 h3 ih1 ih2 =>
        have hx : ∃ v, (∀ t ∈ v, t ∈ letters) ∧ x = v ++ s :: v.reverse := by
          rcases (hrule h1).2 with rfl | ⟨l, hl, rfl⟩
          · exact ⟨[], by simp, by simpa using ih1.2.1 rfl⟩
          · obtain ⟨v, hv, h4⟩ := ih1.2.2.2.2 l rfl
            refine ⟨l :: v, ?_, by rw [h4]; simp⟩
            intro t ht
            rcases List.mem_cons.1 ht with rfl | ht
            · exact hl
            · exact hv t ht
        obtain ⟨v', hv', rfl⟩ := hx
        refine ⟨?_, by simp, by simp, ?_, by simp⟩
        · intro _ h4
          simp only [List.cons.injEq] at h4
          obtain ⟨_, rfl⟩ := h4
          cases h3
          exact ⟨v', hv', by simp⟩
        · intro l h4
          simp only [List.cons.injEq] at h4
          exact ⟨v', hv', by rw [ih2.2.2.1 l h4.2]⟩
    exact (this h).1 _ rfl
  · rintro ⟨v, hv, rfl⟩
    unfold ParseTree
    rw [hst]
    induction v with
    | nil =>
      exact ⟨_, .var (w := []) ((hr _ _).2 (mem_mirrorRules.2 ⟨rfl, .inl rfl⟩)) (.term (LawfulTerminalEq.refl s) .nil) .nil⟩
    | cons l v ih =>
      obtain ⟨m, h⟩ := ih fun t ht => hv t (by simp [ht])
      have h1 : Forest g [.term l] [.mk (.term l) []] [l] := .term (LawfulTerminalEq.refl l) .nil
      have h2 := Forest.term (LawfulTerminalEq.refl l) (forest_append h h1)
      have h3 := Forest.var (w := []) ((hr _ _).2 (mem_mirrorRules.2 ⟨rfl, .inr ⟨l, hv l (by simp), rfl⟩⟩)) h2 .nil
      exact ⟨_, cast (congrArg _ (by simp)) h3⟩

/-- `S → n s n` for every name `n`. -/
def namedRules (names : List String) (s : String) : List (String × Body String String) :=
  names.map fun n => ("S", [.term n, .term s, .term n])

/-- If there are finitely many names, each of which is a token, they can be repeated. -/
theorem c132_names (names : List String) (s : String) (hne : names ≠ []) (he : "$" ∉ s :: names) (hf : "#" ∉ s :: names) :
    ∃ g : Grammar String String, Built g ∧ (∃ tbl, IsParser (withEnd g "Z" "$" "#") tbl) ∧
      ∀ w, (∃ m, ParseTree g m w) ↔ ∃ n ∈ names, w = [n, s, n] := by
  have mem : ∀ {v β}, (v, β) ∈ namedRules names s ↔ v = "S" ∧ ∃ n ∈ names, β = [.term n, .term s, .term n] := by
    intro v β
    simp only [namedRules, List.mem_map, Prod.mk.injEq]
    constructor
    · rintro ⟨l, hl, h1, h2⟩
      exact ⟨h1.symm, l, hl, h2.symm⟩
    · rintro ⟨h1, l, hl, h2⟩
      exact ⟨l, hl, h1.symm, h2.symm⟩
  obtain ⟨n, hn⟩ := List.exists_mem_of_ne_nil _ hne
  obtain ⟨g, hg, hst, hr⟩ := built_rules "S" (namedRules names s) ⟨_, mem.2 ⟨rfl, n, hn, rfl⟩⟩
    (fun v β w h hw => by
      obtain ⟨_, l, hl, rfl⟩ := mem.1 h
      simp at hw)
    (fun v β h => by
      obtain ⟨_, l, hl, rfl⟩ := mem.1 h
      simp)
  have hterm : ∀ v β t, (v, β) ∈ g.rules → .term t ∈ β → t ∈ s :: names := by
    intro v β t h ht
    obtain ⟨_, l, hl, rfl⟩ := mem.1 ((hr _ _).1 h)
    simp at ht
    rcases ht with rfl | rfl | rfl <;> simp [hl]
  have hsimple : Simple g := by
    refine ⟨?_, ?_, ?_, fun v β t w γ u _ _ _ _ ht => equal_str ht⟩
    · intro v β h
      obtain ⟨_, l, hl, rfl⟩ := mem.1 ((hr _ _).1 h)
      simp
    · intro v β h
      obtain ⟨_, l, hl, rfl⟩ := mem.1 ((hr _ _).1 h)
      exact ⟨_, _, rfl⟩
    · intro v t α u β h1 h2 ht
      have ht := equal_str ht
      subst ht
      obtain ⟨_, l, hl, h1⟩ := mem.1 ((hr _ _).1 h1)
      obtain ⟨_, l', hl', h2⟩ := mem.1 ((hr _ _).1 h2)
      simp only [List.cons.injEq, Sym.term.injEq] at h1 h2
      rw [h1.2, h2.2, ← h1.1, ← h2.1]
  have hno : ∀ {t x : String}, t ∈ s :: names → x ∉ s :: names → teq t x = false := by
    intro t x ht hx
    refine Bool.eq_false_iff.2 fun h => hx ?_
    rw [← equal_str h]
    exact ht
  refine ⟨g, hg, (c108_parser hg (c108_simple hsimple) ⟨?_, fun v β t h ht => hno (hterm v β t h ht) he,
    fun v β t h ht => hno (hterm v β t h ht) hf, by decide⟩).1, fun w => ⟨?_, ?_⟩⟩
  · intro β h
    have := (mem.1 ((hr _ _).1 h)).1
    simp at this
  · rintro ⟨m, h⟩
    unfold ParseTree at h
    cases h with
    | var h1 h2 h3 =>
      obtain ⟨_, l, hl, rfl⟩ := mem.1 ((hr _ _).1 h1)
      cases h3
      cases h2 with
      | term t1 h2 =>
        cases h2 with
        | term t2 h2 =>
          cases h2 with
          | term t3 h2 =>
            cases h2
            rw [← equal_str t1, ← equal_str t2, ← equal_str t3]
            exact ⟨l, hl, rfl⟩
  · rintro ⟨l, hl, rfl⟩
    unfold ParseTree
    rw [hst]
    exact ⟨_, .var (w := []) ((hr _ _).2 (mem.2 ⟨rfl, l, hl, rfl⟩)) (.term (LawfulTerminalEq.refl l)
      (.term (LawfulTerminalEq.refl s) (.term (LawfulTerminalEq.refl l) .nil))) .nil⟩

/-- The letters `a` and `b`, with `|` between the name and what comes from it: backwards there is a parser, and `a b | b a`
is a sentence, but `a b | a b` is not. -/
example : ∃ g : Grammar String String, (∃ tbl, IsParser (withEnd g "Z" "$" "#") tbl) ∧
    (∃ m, ParseTree g m ["a", "b", "|", "b", "a"]) ∧ ¬ ∃ m, ParseTree g m ["a", "b", "|", "a", "b"] := by
  obtain ⟨g, _, ht, h⟩ := c132_mirror ["a", "b"] "|" (by decide) (by decide) (by decide)
  refine ⟨g, ht, (h _).2 ⟨["a", "b"], by simp, rfl⟩, fun hm => ?_⟩
  obtain ⟨v, hv, h1⟩ := (h _).1 hm
  have hns : "|" ∉ v := fun h => by simpa using hv _ h
  obtain ⟨rfl, h2⟩ := split_once (s := "|") (p := ["a", "b"]) (by decide) hns h1
  simp at h2

/-- The same letters in the same order: no grammar. -/
example (g : Grammar String String) : ¬ ∀ w : List String, (∀ t ∈ w, t = "a" ∨ t = "b" ∨ t = "|") →
    ((∃ m, ParseTree g m w) ↔ ∃ v, v ≠ [] ∧ (∀ t ∈ v, t = "a" ∨ t = "b") ∧ w = v ++ "|" :: v) :=
  c132_no_grammar g (by decide) (by decide) (by decide)

/-- Two names. -/
example : ∃ g : Grammar String String, (∃ tbl, IsParser (withEnd g "Z" "$" "#") tbl) ∧
    (∃ m, ParseTree g m ["begin", "|", "begin"]) ∧ ¬ ∃ m, ParseTree g m ["begin", "|", "end"] := by
  obtain ⟨g, _, ht, h⟩ := c132_names ["begin", "end"] "|" (by decide) (by decide) (by decide)
  refine ⟨g, ht, (h _).2 ⟨"begin", by simp, rfl⟩, fun hm => ?_⟩
  obtain ⟨n, hn, h1⟩ := (h _).1 hm
  simp at h1
  exact absurd (h1.1.trans h1.2.symm) (by decide)

end Pango.Props
