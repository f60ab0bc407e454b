import Verif.Proofs.ThreeCounts
import Verif.Props.Choice

/-!
# C131: what two parsers both accept need not have a grammar
-/

namespace Pango.Props

open Pango Pango.Parse Pango.Spec

/-- C131.  No grammar, with or without the empty string in its rules, has the sentences `a ... a b ... b c ... c` with as
many of each and no others that consist of `a`, `b` and `c`. -/
theorem c131_no_grammar {V T : Type} [DecidableEq T] [TerminalEq T] (g : Grammar V T) {a b c : T} (hab : a ≠ b) (hac : a ≠ c)
    (hbc : b ≠ c) : ¬ ∀ w : List T, (∀ t ∈ w, t = a ∨ t = b ∨ t = c) → ((∃ m, ParseTree g m w) ↔
      ∃ n, 1 ≤ n ∧ w = List.replicate n a ++ List.replicate n b ++ List.replicate n c) := by
  intro h
  refine three_impossible (g := g) hab hac hbc (fun n hn => (h _ ?_).2 ⟨n, hn, rfl⟩) fun m w hw hm => ?_
  · intro t ht
    simp only [List.mem_append, List.mem_replicate] at ht
    rcases ht with (h | h) | h
    · exact .inl h.2
    · exact .inr (.inl h.2)
    · exact .inr (.inr h.2)
  · obtain ⟨n, _, h1⟩ := (h w hw).1 ⟨m, hm⟩
    exact ⟨n, h1⟩

/-! ## Two of the numbers -/

/-- `S → A C`, `A → a B`, `B → A b | b`, `C → C c | c`. -/
def firstTwo : Grammar String String := ⟨"S", [("S", [.var "A", .var "C"]), ("A", [.term "a", .var "B"]),
  ("B", [.var "A", .term "b"]), ("B", [.term "b"]), ("C", [.var "C", .term "c"]), ("C", [.term "c"])]⟩

/-- `S → A B`, `A → A a | a`, `B → b C`, `C → B c | c`. -/
def lastTwo : Grammar String String := ⟨"S", [("S", [.var "A", .var "B"]), ("A", [.var "A", .term "a"]),
  ("A", [.term "a"]), ("B", [.term "b", .var "C"]), ("C", [.var "B", .term "c"]), ("C", [.term "c"])]⟩

private theorem teq_str {s t : String} (h : teq s t = true) : s = t := by
  have h : (s == t) = true := h
  exact eq_of_beq h

/-- What comes from the symbols, if `L` is what comes from the variables. -/
private def Comes (L : String → List String → Prop) : List (Sym String String) → List String → Prop
  | [], w => w = []
  | .eps :: α, w => Comes L α w
  | .term t :: α, w => ∃ w', w = t :: w' ∧ Comes L α w'
  | .var v :: α, w => ∃ u w', w = u ++ w' ∧ L v u ∧ Comes L α w'

private theorem comes_of {g : Grammar String String} {L : String → List String → Prop}
    (hL : ∀ v β w, (v, β) ∈ g.rules → Comes L β w → L v w) {α : List (Sym String String)} {ns : List (Node String String)}
    {w : List String} (h : Forest g α ns w) : Comes L α w := by
  induction h with
  | nil => exact rfl
  | eps _ ih => exact ih
  | term ht _ ih => exact ⟨_, by rw [teq_str ht], ih⟩
  | var h1 _ _ ih1 ih2 => exact ⟨_, _, rfl, hL _ _ _ h1 ih1, ih2⟩

private theorem snoc_replicate {t : String} (n : Nat) : List.replicate n t ++ [t] = List.replicate (n + 1) t := by
  rw [List.replicate_succ']

/-- The sentences of the first grammar have as many `b` as `a`. -/
theorem c131_first (w : List String) : (∃ m, ParseTree firstTwo m w) ↔
    ∃ n k, 1 ≤ n ∧ 1 ≤ k ∧ w = List.replicate n "a" ++ List.replicate n "b" ++ List.replicate k "c" := by
  constructor
  · rintro ⟨m, h⟩
    let L : String → List String → Prop := fun v u =>
      if v = "S" then ∃ n k, 1 ≤ n ∧ 1 ≤ k ∧ u = List.replicate n "a" ++ List.replicate n "b" ++ List.replicate k "c"
      else if v = "A" then ∃ n, 1 ≤ n ∧ u = List.replicate n "a" ++ List.replicate n "b"
      else if v = "B" then ∃ n, u = List.replicate n "a" ++ List.replicate (n + 1) "b"
      else ∃ k, 1 ≤ k ∧ u = List.replicate k "c"
    have := comes_of (L := L) (fun v β u hr hu => by
      simp [firstTwo] at hr
      rcases hr with ⟨rfl, rfl⟩ | ⟨rfl, rfl⟩ | ⟨rfl, rfl⟩ | ⟨rfl, rfl⟩ | ⟨rfl, rfl⟩ | ⟨rfl, rfl⟩
      · obtain ⟨u1, _, rfl, ⟨n, hn, rfl⟩, u2, _, rfl, ⟨k, hk, rfl⟩, rfl⟩ := hu
        exact ⟨n, k, hn, hk, by simp⟩
      · obtain ⟨_, rfl, u1, _, rfl, ⟨n, rfl⟩, rfl⟩ := hu
        exact ⟨n + 1, by omega, by simp [List.replicate_succ]⟩
      · obtain ⟨u1, _, rfl, ⟨n, hn, rfl⟩, _, rfl, rfl⟩ := hu
        exact ⟨n, by rw [List.append_assoc, snoc_replicate]⟩
      · obtain ⟨_, rfl, rfl⟩ := hu
        exact ⟨0, rfl⟩
      · obtain ⟨u1, _, rfl, ⟨n, hn, rfl⟩, _, rfl, rfl⟩ := hu
        exact ⟨n + 1, by omega, snoc_replicate n⟩
      · obtain ⟨_, rfl, rfl⟩ := hu
        exact ⟨1, by omega, rfl⟩) h
    obtain ⟨u, _, rfl, ⟨n, k, hn, hk, rfl⟩, rfl⟩ := this
    exact ⟨n, k, hn, hk, by simp⟩
  · rintro ⟨n, k, hn, hk, rfl⟩
    have hA : ∀ n, ∃ m, Forest firstTwo [.var "A"] [m] (List.replicate (n + 1) "a" ++ List.replicate (n + 1) "b") := by
      intro n
      induction n with
      | zero =>
        have h1 : Forest firstTwo [.var "B"] _ ["b"] := .var (β := [.term "b"]) (w := []) (by decide) (.term rfl .nil) .nil
        exact ⟨_, .var (β := [.term "a", .var "B"]) (w := []) (by decide) (.term rfl h1) .nil⟩
      | succ n ih =>
        obtain ⟨m, h⟩ := ih
        have h1 : Forest firstTwo [.term "b"] _ ["b"] := .term rfl .nil
        have h2 := Forest.var (v := "B") (w := []) (by decide) (forest_append h h1) .nil
        have h2 := Forest.term (t := "a") (u := "a") rfl h2
        have h3 := Forest.var (v := "A") (w := []) (by decide) h2 .nil
        refine ⟨_, cast (congrArg _ ?_) h3⟩
        rw [← snoc_replicate (t := "b") (n + 1), List.replicate_succ (n := n + 1)]
        simp
    have hC : ∀ k, ∃ m, Forest firstTwo [.var "C"] [m] (List.replicate (k + 1) "c") := by
      intro k
      induction k with
      | zero => exact ⟨_, .var (β := [.term "c"]) (w := []) (by decide) (.term rfl .nil) .nil⟩
      | succ k ih =>
        obtain ⟨m, h⟩ := ih
        have h1 : Forest firstTwo [.term "c"] _ ["c"] := .term rfl .nil
        have h3 := Forest.var (v := "C") (w := []) (by decide) (forest_append h h1) .nil
        exact ⟨_, cast (congrArg _ (by rw [snoc_replicate]; simp)) h3⟩
    obtain ⟨n, rfl⟩ : ∃ j, n = j + 1 := ⟨n - 1, by omega⟩
    obtain ⟨k, rfl⟩ : ∃ j, k = j + 1 := ⟨k - 1, by omega⟩
    obtain ⟨m1, h1⟩ := hA n
    obtain ⟨m2, h2⟩ := hC k
    have h3 := Forest.var (v := "S") (w := []) (by decide) (forest_append h1 h2) .nil
    exact ⟨_, cast (congrArg _ (by simp)) h3⟩

/-- The sentences of the second grammar have as many `c` as `b`. -/
theorem c131_last (w : List String) : (∃ m, ParseTree lastTwo m w) ↔
    ∃ n k, 1 ≤ n ∧ 1 ≤ k ∧ w = List.replicate k "a" ++ List.replicate n "b" ++ List.replicate n "c" := by
  constructor
  · rintro ⟨m, h⟩
    let L : String → List String → Prop := fun v u =>
      if v = "S" then ∃ n k, 1 ≤ n ∧ 1 ≤ k ∧ u = List.replicate k "a" ++ List.replicate n "b" ++ List.replicate n "c"
      else if v = "B" then ∃ n, 1 ≤ n ∧ u = List.replicate n "b" ++ List.replicate n "c"
      else if v = "C" then ∃ n, u = List.replicate n "b" ++ List.replicate (n + 1) "c"
      else ∃ k, 1 ≤ k ∧ u = List.replicate k "a"
    have := comes_of (L := L) (fun v β u hr hu => by
      simp [lastTwo] at hr
      rcases hr with ⟨rfl, rfl⟩ | ⟨rfl, rfl⟩ | ⟨rfl, rfl⟩ | ⟨rfl, rfl⟩ | ⟨rfl, rfl⟩ | ⟨rfl, rfl⟩
      · obtain ⟨u1, _, rfl, ⟨k, hk, rfl⟩, u2, _, rfl, ⟨n, hn, rfl⟩, rfl⟩ := hu
        exact ⟨n, k, hn, hk, by simp⟩
      · obtain ⟨u1, _, rfl, ⟨n, hn, rfl⟩, _, rfl, rfl⟩ := hu
        exact ⟨n + 1, by omega, snoc_replicate n⟩
      · obtain ⟨_, rfl, rfl⟩ := hu
        exact ⟨1, by omega, rfl⟩
      · obtain ⟨_, rfl, u1, _, rfl, ⟨n, rfl⟩, rfl⟩ := hu
        exact ⟨n + 1, by omega, by simp [List.replicate_succ]⟩
      · obtain ⟨u1, _, rfl, ⟨n, hn, rfl⟩, _, rfl, rfl⟩ := hu
        exact ⟨n, by rw [List.append_assoc, snoc_replicate]⟩
      · obtain ⟨_, rfl, rfl⟩ := hu
        exact ⟨0, rfl⟩) h
    obtain ⟨u, _, rfl, ⟨n, k, hn, hk, rfl⟩, rfl⟩ := this
    exact ⟨n, k, hn, hk, by simp⟩
  · rintro ⟨n, k, hn, hk, rfl⟩
    have hB : ∀ n, ∃ m, Forest lastTwo [.var "B"] [m] (List.replicate (n + 1) "b" ++ List.replicate (n + 1) "c") := by
      intro n
      induction n with
      | zero =>
        have h1 : Forest lastTwo [.var "C"] _ ["c"] := .var (β := [.term "c"]) (w := []) (by decide) (.term rfl .nil) .nil
        exact ⟨_, .var (β := [.term "b", .var "C"]) (w := []) (by decide) (.term rfl h1) .nil⟩
      | succ n ih =>
        obtain ⟨m, h⟩ := ih
        have h1 : Forest lastTwo [.term "c"] _ ["c"] := .term rfl .nil
        have h2 := Forest.var (v := "C") (w := []) (by decide) (forest_append h h1) .nil
        have h2 := Forest.term (t := "b") (u := "b") rfl h2
        have h3 := Forest.var (v := "B") (w := []) (by decide) h2 .nil
        refine ⟨_, cast (congrArg _ ?_) h3⟩
        rw [← snoc_replicate (t := "c") (n + 1), List.replicate_succ (n := n + 1)]
        simp
    have hA : ∀ k, ∃ m, Forest lastTwo [.var "A"] [m] (List.replicate (k + 1) "a") := by
      intro k
      induction k with
      | zero => exact ⟨_, .var (β := [.term "a"]) (w := []) (by decide) (.term rfl .nil) .nil⟩
      | succ k ih =>
        obtain ⟨m, h⟩ := ih
        have h1 : Forest lastTwo [.term "a"] _ ["a"] := .term rfl .nil
        have h3 := Forest.var (v := "A") (w := []) (by decide) (forest_append h h1) .nil
        exact ⟨_, cast (congrArg _ (by rw [snoc_replicate]; simp)) h3⟩
    obtain ⟨n, rfl⟩ : ∃ j, n = j + 1 := ⟨n - 1, by omega⟩
    obtain ⟨k, rfl⟩ : ∃ j, k = j + 1 := ⟨k - 1, by omega⟩
    obtain ⟨m1, h1⟩ := hA k
    obtain ⟨m2, h2⟩ := hB n
    have h3 := Forest.var (v := "S") (w := []) (by decide) (forest_append h1 h2) .nil
    exact ⟨_, cast (congrArg _ (by simp)) h3⟩

/-- Both grammars have parsers, but no grammar has exactly the sentences that both of them have. -/
theorem c131_both : Built firstTwo ∧ Built lastTwo ∧ (∃ tbl, IsParser (withEnd firstTwo "Z" "$" "#") tbl) ∧
    (∃ tbl, IsParser (withEnd lastTwo "Z" "$" "#") tbl) ∧
    ∀ {V : Type} (g : Grammar V String), ¬ ∀ w, (∃ m, ParseTree g m w) ↔
      (∃ m, ParseTree firstTwo m w) ∧ ∃ m, ParseTree lastTwo m w := by
  refine ⟨⟨.setStart firstTwo.start :: firstTwo.rules.map fun r => .addRule r.1 r.2, by rfl⟩,
    ⟨.setStart lastTwo.start :: lastTwo.rules.map fun r => .addRule r.1 r.2, by rfl⟩,
    ⟨tableOf (withEnd firstTwo "Z" "$" "#"), 100, .insertion, by decide +kernel⟩,
    ⟨tableOf (withEnd lastTwo "Z" "$" "#"), 100, .insertion, by decide +kernel⟩, fun g h => ?_⟩
  refine c131_no_grammar g (a := "a") (b := "b") (c := "c") (by decide) (by decide) (by decide) fun w _ => ?_
  rw [h, c131_first, c131_last]
  constructor
  · rintro ⟨⟨n, k, hn, hk, rfl⟩, n', k', hn', hk', h⟩
    have h1 := congrArg (List.count "b") h
    have h2 := congrArg (List.count "c") h
    simp [List.count_append, List.count_replicate] at h1 h2
    subst h1
    subst h2
    exact ⟨_, hn, rfl⟩
  · rintro ⟨n, hn, rfl⟩
    exact ⟨⟨n, n, hn, hn, rfl⟩, n, n, hn, hn, rfl⟩

/-- `a a b b c c` is a sentence of both, `a a b b c` is one of the first only. -/
example : ((∃ m, ParseTree firstTwo m ["a", "a", "b", "b", "c", "c"]) ∧ ∃ m, ParseTree lastTwo m ["a", "a", "b", "b", "c", "c"]) ∧
    (∃ m, ParseTree firstTwo m ["a", "a", "b", "b", "c"]) ∧ ¬ ∃ m, ParseTree lastTwo m ["a", "a", "b", "b", "c"] := by
  refine ⟨⟨(c131_first _).2 ⟨2, 2, by decide, by decide, rfl⟩, (c131_last _).2 ⟨2, 2, by decide, by decide, rfl⟩⟩,
    (c131_first _).2 ⟨2, 1, by decide, by decide, rfl⟩, fun h => ?_⟩
  obtain ⟨n, k, _, _, h⟩ := (c131_last _).1 h
  have h1 := congrArg (List.count "b") h
  have h2 := congrArg (List.count "c") h
  simp [List.count_append, List.count_replicate] at h1 h2
  omega

end Pango.Props
