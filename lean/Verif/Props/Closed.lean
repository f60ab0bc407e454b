import Mathlib.Computability.NFA
import Verif.Proofs.Kleene
import Verif.Props.Regular

/-!
# C127: what can be made of patterns

Finite automata, and the regular languages, which are those of finite automata, are those of Mathlib.
-/

namespace Pango.Props

open Pango Pango.Regex Pango.Spec Pango.Regular

variable [Unicode]

/-- C127.  The languages that patterns decide are those that deterministic finite automata accept. -/
theorem c127_automata (p : Profile) (L : Language Char) : (∃ pattern, Decides p pattern L) ↔ L.IsRegular := by
  rw [c102_regular]
  constructor
  · rintro ⟨r, rfl⟩
    exact regex_isRegular r
  · intro h
    obtain ⟨letters, hl⟩ := all_chars
    exact isRegular_regex hl h

private theorem regular_pattern {L : Language Char} (h : L.IsRegular) : ∃ pattern, ∀ p, Decides p pattern L := by
  obtain ⟨letters, hl⟩ := all_chars
  obtain ⟨r, rfl⟩ := isRegular_regex hl h
  exact c102_every r

private theorem pattern_regular {p : Profile} {pattern : List Char} {L : Language Char} (h : Decides p pattern L) :
    L.IsRegular := (c127_automata p L).1 ⟨pattern, h⟩

/-- C127.  There is a pattern for the texts that a pattern does not match. -/
theorem c127_not {p : Profile} {pattern : List Char} {L : Language Char} (h : Decides p pattern L) :
    ∃ pattern', ∀ p', Decides p' pattern' {w | w ∉ L} :=
  regular_pattern (pattern_regular h).compl

/-- C127.  There is a pattern for the texts that two patterns both match. -/
theorem c127_both {p : Profile} {pattern1 pattern2 : List Char} {L1 L2 : Language Char} (h1 : Decides p pattern1 L1)
    (h2 : Decides p pattern2 L2) : ∃ pattern', ∀ p', Decides p' pattern' {w | w ∈ L1 ∧ w ∈ L2} :=
  regular_pattern ((pattern_regular h1).inf (pattern_regular h2))

/-- C127.  There is a pattern for the texts that, read backwards, a pattern matches. -/
theorem c127_backwards {p : Profile} {pattern : List Char} {L : Language Char} (h : Decides p pattern L) :
    ∃ pattern', ∀ p', Decides p' pattern' {w | w.reverse ∈ L} :=
  regular_pattern (pattern_regular h).reverse

omit [Unicode] in
private theorem flatten_chars (w : List Char) : w = (w.map fun c => [c]).flatten := by
  induction w with
  | nil => rfl
  | cons c w ih =>
    rw [List.map_cons, List.flatten_cons, ← ih]
    rfl

/-- C127.  There is a pattern for the texts in which nothing is found that a pattern matches. -/
theorem c127_without {p : Profile} {pattern : List Char} {L : Language Char} (h : Decides p pattern L) :
    ∃ pattern', ∀ p', Decides p' pattern' {w | ¬ ∃ x y z, w = x ++ y ++ z ∧ y ∈ L} := by
  obtain ⟨letters, hl⟩ := all_chars
  obtain ⟨r, rfl⟩ := (c102_regular p L).1 ⟨_, h⟩
  let any : RegularExpression Char := (anyOf .char letters).star
  have hany : ∀ w : List Char, w ∈ any.matches' := by
    intro w
    refine Language.mem_kstar.2 ⟨w.map fun c => [c], flatten_chars w, ?_⟩
    intro y hy
    obtain ⟨c, _, rfl⟩ := List.mem_map.1 hy
    exact mem_anyOf.2 ⟨c, hl c, rfl⟩
  have : (any * r * any).matches' = {w | ∃ x y z, w = x ++ y ++ z ∧ y ∈ r.matches'} := by
    refine Language.ext fun w => ?_
    rw [RegularExpression.matches'_mul, Language.mem_mul, RegularExpression.matches'_mul]
    constructor
    · rintro ⟨xy, hxy, z, _, rfl⟩
      obtain ⟨x, _, y, hy, rfl⟩ := Language.mem_mul.1 hxy
      exact ⟨x, y, z, rfl, hy⟩
    · rintro ⟨x, y, z, rfl, hy⟩
      exact ⟨x ++ y, Language.mem_mul.2 ⟨x, hany x, y, hy, rfl⟩, z, hany z, rfl⟩
  have hreg := (regex_isRegular (any * r * any)).compl
  rw [this] at hreg
  exact regular_pattern hreg

/-! ## Patterns for which the claims say something -/

/-- There is a pattern for the end of a comment, so all of the above is about it, too. -/
example (p : Profile) : ∃ pattern, Decides p pattern ({['*', '/']} : Language Char) :=
  (c102_regular p _).2 ⟨.comp (.char '*') (.char '/'), by
    refine Language.ext fun w => ?_
    constructor
    · rintro h
      obtain ⟨a, rfl, b, rfl, rfl⟩ := Language.mem_mul.1 h
      rfl
    · rintro h
      exact Language.mem_mul.2 ⟨['*'], rfl, ['/'], rfl, h.symm⟩⟩

/-- There is a pattern for comments: between their two ends their last end is not found. -/
example (p : Profile) : ∃ pattern, Decides p pattern
    {w | ∃ u, w = ['/', '*'] ++ u ++ ['*', '/'] ∧ ¬ ∃ x z, u = x ++ ['*', '/'] ++ z} := by
  have h : ∀ a b : Char, (RegularExpression.comp (.char a) (.char b)).matches' = {w | w = [a, b]} := by
    intro a b
    refine Language.ext fun w => ?_
    constructor
    · rintro h
      obtain ⟨x, rfl, y, rfl, rfl⟩ := Language.mem_mul.1 h
      rfl
    · rintro h
      exact Language.mem_mul.2 ⟨[a], rfl, [b], rfl, h.symm⟩
  obtain ⟨pattern, hp⟩ := c102_every (.comp (.char '*') (.char '/'))
  obtain ⟨pattern', hp'⟩ := c127_without (hp p)
  obtain ⟨r, hr⟩ := (c102_regular p _).1 ⟨_, hp' p⟩
  refine (c102_regular p _).2 ⟨.comp (.comp (.char '/') (.char '*')) (.comp r (.comp (.char '*') (.char '/'))), ?_⟩
  refine Language.ext fun w => ?_
  have h1 : ∀ u, u ∈ r.matches' ↔ ¬ ∃ x z, u = x ++ ['*', '/'] ++ z := by
    intro u
    rw [hr, h]
    exact not_congr ⟨fun ⟨x, y, z, h, hy⟩ => ⟨x, z, by rw [h, show y = ['*', '/'] from hy]⟩,
      fun ⟨x, z, h⟩ => ⟨x, _, z, h, rfl⟩⟩
  constructor
  · intro hw
    obtain ⟨x, hx, y, hy, rfl⟩ := Language.mem_mul.1 hw
    obtain ⟨u, hu, z, hz, rfl⟩ := Language.mem_mul.1 hy
    rw [h] at hx hz
    refine ⟨u, ?_, (h1 u).1 hu⟩
    rw [show x = ['/', '*'] from hx, show z = ['*', '/'] from hz, List.append_assoc]
  · rintro ⟨u, rfl, hu⟩
    refine Language.mem_mul.2 ⟨['/', '*'], by rw [h]; rfl, u ++ ['*', '/'], ?_, by simp⟩
    exact Language.mem_mul.2 ⟨u, (h1 u).2 hu, _, by rw [h]; rfl, rfl⟩

end Pango.Props
