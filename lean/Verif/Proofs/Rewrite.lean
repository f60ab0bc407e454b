import Verif.Spec.Rewrite
import Verif.Spec.RegexReach

/-!
# Rewriting a pattern changes nothing that the matcher sees
-/

namespace Pango.Spec

open Pango.Regex

variable [Unicode]

/-- Everything that the matcher does with a pattern is the same. -/
structure Same (e e' : Expr) : Prop where
  mat : ∀ w, Matches e w ↔ Matches e' w
  skips : Skips e ↔ Skips e'
  begins : ∀ b w, Begins e b w ↔ Begins e' b w
  reads : ∀ w, MayRead e w ↔ MayRead e' w
  mayBegin : ∀ w, MayBegin e w ↔ MayBegin e' w
  spins : ∀ w, Spins e w ↔ Spins e' w
  spinsFirst : ∀ w, SpinsFirst e w ↔ SpinsFirst e' w

/-! ## The definitions, one construct at a time -/

variable {l r e : Expr} {es : List Expr} {b : Bool} {w : List Char} {t : Lit} {q : Option Quant} {k : Quant}

theorem mat_alt : Matches (.alt l r) w ↔ Matches l w ∨ Matches r w :=
  ⟨fun h => by cases h with | altL h => exact .inl h | altR h => exact .inr h, fun h => h.elim .altL .altR⟩

theorem mat_nil : Matches (.concat []) w ↔ w = [] :=
  ⟨fun h => by cases h; rfl, fun h => h ▸ .nil⟩

theorem mat_cons : Matches (.concat (e :: es)) w ↔
    ∃ u v, w = u ++ v ∧ Matches e u ∧ Matches (.concat es) v :=
  ⟨fun h => by cases h with | cons h1 h2 => exact ⟨_, _, rfl, h1, h2⟩, fun ⟨_, _, h, h1, h2⟩ => h ▸ .cons h1 h2⟩

theorem mat_lit : Matches (.lit t q) w ↔ QuantSet q w.length ∧ ∀ c ∈ w, LitSet t c :=
  ⟨fun h => by cases h with | lit h1 h2 => exact ⟨h1, h2⟩, fun h => .lit h.1 h.2⟩

theorem mat_group : Matches (.group e q) w ↔
    ∃ ws : List (List Char), w = ws.flatten ∧ QuantSet q ws.length ∧ ∀ v ∈ ws, Matches e v :=
  ⟨fun h => by cases h with | group h1 h2 => exact ⟨_, rfl, h1, h2⟩, fun ⟨_, h, h1, h2⟩ => h ▸ .group h1 h2⟩

theorem beg_alt : Begins (.alt l r) b w ↔ Begins l b w ∨ Begins r b w :=
  ⟨fun h => by cases h with | altL h => exact .inl h | altR h => exact .inr h, fun h => h.elim .altL .altR⟩

theorem beg_nil : ¬ Begins (.concat []) b w := nofun

theorem beg_cons : Begins (.concat (e :: es)) b w ↔
    (∃ u v, w = u ++ v ∧ Begins e b u ∧ Matches (.concat es) v) ∨
      b = false ∧ Skips e ∧ ∃ b', Begins (.concat es) b' w := by
  constructor
  · intro h
    cases h with
    | here h1 h2 => exact .inl ⟨_, _, rfl, h1, h2⟩
    | later h1 h2 => exact .inr ⟨rfl, h1, _, h2⟩
  · rintro (⟨_, _, rfl, h1, h2⟩ | ⟨rfl, h1, _, h2⟩)
    · exact .here h1 h2
    · exact .later h1 h2

theorem beg_lit : Begins (.lit t none) b w ↔ b = true ∧ ∃ c, w = [c] ∧ LitSet t c := by
  constructor
  · intro h
    cases h with
    | lit h => exact ⟨rfl, _, rfl, h⟩
  · rintro ⟨rfl, c, rfl, h⟩
    exact .lit h

theorem beg_rep : Begins (.lit t (some k)) b w ↔
    b = false ∧ w ≠ [] ∧ QuantSet (some k) w.length ∧ ∀ c ∈ w, LitSet t c := by
  constructor
  · intro h
    cases h with
    | rep h1 h2 h3 => exact ⟨rfl, h1, h2, h3⟩
  · rintro ⟨rfl, h1, h2, h3⟩
    exact .rep h1 h2 h3

theorem beg_group : Begins (.group e none) b w ↔ Begins e b w :=
  ⟨fun h => by cases h with | group h => exact h, .group⟩

theorem beg_rounds : Begins (.group e (some k)) b w ↔
    b = false ∧ ∃ b' u, ∃ ws : List (List Char), w = u ++ ws.flatten ∧ Begins e b' u ∧ (∀ v ∈ ws, Matches e v) ∧
      QuantSet (some k) (if b' then ws.length + 1 else ws.length) := by
  constructor
  · intro h
    cases h with
    | rounds h1 h2 h3 => exact ⟨rfl, _, _, _, rfl, h1, h2, h3⟩
  · rintro ⟨rfl, _, _, _, rfl, h1, h2, h3⟩
    exact .rounds h1 h2 h3

theorem read_alt : MayRead (.alt l r) w ↔ MayRead l w ∨ MayRead r w := by
  constructor
  · intro h
    cases h with
    | nothing => exact .inl .nothing
    | altL h => exact .inl h
    | altR h => exact .inr h
  · exact fun h => h.elim .altL .altR

theorem read_nil : MayRead (.concat []) w ↔ w = [] :=
  ⟨fun h => by cases h; rfl, fun h => h ▸ .nothing⟩

theorem read_cons : MayRead (.concat (e :: es)) w ↔
    MayRead e w ∨ ∃ u v, w = u ++ v ∧ Matches e u ∧ MayRead (.concat es) v := by
  constructor
  · intro h
    cases h with
    | nothing => exact .inl .nothing
    | here h => exact .inl h
    | later h1 h2 => exact .inr ⟨_, _, rfl, h1, h2⟩
  · rintro (h | ⟨_, _, rfl, h1, h2⟩)
    · exact .here h
    · exact .later h1 h2

theorem read_lit : MayRead (.lit t none) w ↔ w = [] ∨ ∃ c, w = [c] ∧ LitSet t c := by
  constructor
  · intro h
    cases h with
    | nothing => exact .inl rfl
    | char h => exact .inr ⟨_, rfl, h⟩
  · rintro (rfl | ⟨c, rfl, h⟩)
    · exact .nothing
    · exact .char h

theorem read_rep : MayRead (.lit t (some k)) w ↔ ∀ c ∈ w, LitSet t c := by
  constructor
  · intro h
    cases h with
    | nothing => simp
    | chars h => exact h
  · exact .chars

theorem read_group : MayRead (.group e none) w ↔ MayRead e w := by
  constructor
  · intro h
    cases h with
    | nothing => exact .nothing
    | once h => exact h
  · exact .once

theorem read_times : MayRead (.group e (some k)) w ↔
    ∃ (ws : List (List Char)) (v : List Char), w = ws.flatten ++ v ∧ (∀ u ∈ ws, Matches e u) ∧ MayRead e v := by
  constructor
  · intro h
    cases h with
    | nothing => exact ⟨[], [], rfl, by simp, .nothing⟩
    | times h1 h2 => exact ⟨_, _, rfl, h1, h2⟩
  · rintro ⟨_, _, rfl, h1, h2⟩
    exact .times h1 h2

theorem may_alt : MayBegin (.alt l r) w ↔ MayBegin l w ∨ MayBegin r w :=
  ⟨fun h => by cases h with | altL h => exact .inl h | altR h => exact .inr h, fun h => h.elim .altL .altR⟩

theorem may_nil : ¬ MayBegin (.concat []) w := nofun

theorem may_cons : MayBegin (.concat (e :: es)) w ↔
    MayBegin e w ∨ (∃ b u v, w = u ++ v ∧ Begins e b u ∧ MayRead (.concat es) v) ∨
      Skips e ∧ MayBegin (.concat es) w := by
  constructor
  · intro h
    cases h with
    | here h => exact .inl h
    | after h1 h2 => exact .inr (.inl ⟨_, _, _, rfl, h1, h2⟩)
    | later h1 h2 => exact .inr (.inr ⟨h1, h2⟩)
  · rintro (h | ⟨_, _, _, rfl, h1, h2⟩ | ⟨h1, h2⟩)
    · exact .here h
    · exact .after h1 h2
    · exact .later h1 h2

theorem may_lit : MayBegin (.lit t none) w ↔ ∃ c, w = [c] ∧ LitSet t c :=
  ⟨fun h => by cases h with | char h => exact ⟨_, rfl, h⟩, fun ⟨_, h1, h⟩ => h1 ▸ .char h⟩

theorem may_rep : MayBegin (.lit t (some k)) w ↔ w ≠ [] ∧ ∀ c ∈ w, LitSet t c :=
  ⟨fun h => by cases h with | chars h1 h2 => exact ⟨h1, h2⟩, fun h => .chars h.1 h.2⟩

theorem may_group : MayBegin (.group e none) w ↔ MayBegin e w :=
  ⟨fun h => by cases h with | group h => exact h, .group⟩

theorem may_times : MayBegin (.group e (some k)) w ↔
    MayBegin e w ∨ ∃ b u, ∃ (ws : List (List Char)) (v : List Char), w = u ++ (ws.flatten ++ v) ∧ Begins e b u ∧ (∀ x ∈ ws, Matches e x) ∧
      MayRead e v := by
  constructor
  · intro h
    cases h with
    | first h => exact .inl h
    | inside h1 h2 h3 => exact .inr ⟨_, _, _, _, rfl, h1, h2, h3⟩
  · rintro (h | ⟨_, _, _, _, rfl, h1, h2, h3⟩)
    · exact .first h
    · exact .inside h1 h2 h3

theorem spin_alt : Spins (.alt l r) w ↔ Spins l w ∨ Spins r w :=
  ⟨fun h => by cases h with | altL h => exact .inl h | altR h => exact .inr h, fun h => h.elim .altL .altR⟩

theorem spin_nil : ¬ Spins (.concat []) w := nofun

theorem spin_lit : ¬ Spins (.lit t q) w := nofun

theorem spin_cons : Spins (.concat (e :: es)) w ↔
    Spins e w ∨ ∃ u v, w = u ++ v ∧ Matches e u ∧ Spins (.concat es) v := by
  constructor
  · intro h
    cases h with
    | here h => exact .inl h
    | later h1 h2 => exact .inr ⟨_, _, rfl, h1, h2⟩
  · rintro (h | ⟨_, _, rfl, h1, h2⟩)
    · exact .here h
    · exact .later h1 h2

theorem spin_group : Spins (.group e none) w ↔ Spins e w :=
  ⟨fun h => by cases h with | group h => exact h, .group⟩

theorem spin_rounds : Spins (.group e (some k)) w ↔
    (∃ ws : List (List Char), w = ws.flatten ∧ (∀ x ∈ ws, Matches e x) ∧ Matches e []) ∨
      ∃ (ws : List (List Char)) (v : List Char), w = ws.flatten ++ v ∧ (∀ x ∈ ws, Matches e x) ∧ Spins e v := by
  constructor
  · intro h
    cases h with
    | rounds h1 h2 => exact .inl ⟨_, rfl, h1, h2⟩
    | inside h1 h2 => exact .inr ⟨_, _, rfl, h1, h2⟩
  · rintro (⟨_, rfl, h1, h2⟩ | ⟨_, _, rfl, h1, h2⟩)
    · exact .rounds h1 h2
    · exact .inside h1 h2

theorem first_alt : SpinsFirst (.alt l r) w ↔ SpinsFirst l w ∨ SpinsFirst r w :=
  ⟨fun h => by cases h with | altL h => exact .inl h | altR h => exact .inr h, fun h => h.elim .altL .altR⟩

theorem first_nil : ¬ SpinsFirst (.concat []) w := nofun

theorem first_lit : ¬ SpinsFirst (.lit t q) w := nofun

theorem first_cons : SpinsFirst (.concat (e :: es)) w ↔
    SpinsFirst e w ∨ (∃ b u v, w = u ++ v ∧ Begins e b u ∧ Spins (.concat es) v) ∨
      Skips e ∧ SpinsFirst (.concat es) w := by
  constructor
  · intro h
    cases h with
    | here h => exact .inl h
    | after h1 h2 => exact .inr (.inl ⟨_, _, _, rfl, h1, h2⟩)
    | later h1 h2 => exact .inr (.inr ⟨h1, h2⟩)
  · rintro (h | ⟨_, _, _, rfl, h1, h2⟩ | ⟨h1, h2⟩)
    · exact .here h
    · exact .after h1 h2
    · exact .later h1 h2

theorem first_group : SpinsFirst (.group e none) w ↔ SpinsFirst e w :=
  ⟨fun h => by cases h with | group h => exact h, .group⟩

theorem first_rounds : SpinsFirst (.group e (some k)) w ↔
    SpinsFirst e w ∨
      (∃ b u, ∃ ws : List (List Char), w = u ++ ws.flatten ∧ Begins e b u ∧ (∀ x ∈ ws, Matches e x) ∧ Matches e []) ∨
      ∃ b u, ∃ (ws : List (List Char)) (v : List Char), w = u ++ (ws.flatten ++ v) ∧ Begins e b u ∧ (∀ x ∈ ws, Matches e x) ∧ Spins e v := by
  constructor
  · intro h
    cases h with
    | first h => exact .inl h
    | rounds h1 h2 h3 => exact .inr (.inl ⟨_, _, _, rfl, h1, h2, h3⟩)
    | inside h1 h2 h3 => exact .inr (.inr ⟨_, _, _, _, rfl, h1, h2, h3⟩)
  · rintro (h | ⟨_, _, _, rfl, h1, h2, h3⟩ | ⟨_, _, _, _, rfl, h1, h2, h3⟩)
    · exact .first h
    · exact .rounds h1 h2 h3
    · exact .inside h1 h2 h3

/-! ## What is matched can be read -/

theorem Matches.mayRead {e : Expr} {w : List Char} (h : Matches e w) : MayRead e w := by
  induction h with
  | empty => exact .nothing
  | altL _ ih => exact .altL ih
  | altR _ ih => exact .altR ih
  | nil => exact .nothing
  | cons h _ _ ih => exact .later h ih
  | @lit l q w h1 h2 =>
    cases q with
    | none =>
      obtain ⟨c, rfl⟩ := List.length_eq_one_iff.1 h1
      exact .char (h2 c (by simp))
    | some q => exact .chars h2
  | @group e q ws h1 h2 ih =>
    cases q with
    | none =>
      obtain ⟨v, rfl⟩ := List.length_eq_one_iff.1 h1
      simpa using MayRead.once (ih v (by simp))
    | some q => simpa using MayRead.times (q := q) h2 .nothing

theorem Begins.mayBegin {e : Expr} {b : Bool} {w : List Char} (h : Begins e b w) : MayBegin e w := by
  induction h with
  | lit h => exact .char h
  | rep h1 h2 h3 => exact .chars h1 h3
  | altL _ ih => exact .altL ih
  | altR _ ih => exact .altR ih
  | here h1 h2 _ => exact .after h1 h2.mayRead
  | later h1 _ ih => exact .later h1 ih
  | group _ ih => exact .group ih
  | @rounds e q b u ws h1 h2 _ _ => simpa using MayBegin.inside (q := q) h1 h2 .nothing

/-! ## Congruence -/

theorem Same.refl (e : Expr) : Same e e := by constructor <;> simp

theorem Same.symm {e e' : Expr} (h : Same e e') : Same e' e :=
  ⟨fun w => (h.mat w).symm, h.skips.symm, fun b w => (h.begins b w).symm, fun w => (h.reads w).symm,
    fun w => (h.mayBegin w).symm, fun w => (h.spins w).symm, fun w => (h.spinsFirst w).symm⟩

theorem Same.trans {e e' e'' : Expr} (h : Same e e') (h' : Same e' e'') : Same e e'' :=
  ⟨fun w => (h.mat w).trans (h'.mat w), h.skips.trans h'.skips, fun b w => (h.begins b w).trans (h'.begins b w),
    fun w => (h.reads w).trans (h'.reads w), fun w => (h.mayBegin w).trans (h'.mayBegin w),
    fun w => (h.spins w).trans (h'.spins w), fun w => (h.spinsFirst w).trans (h'.spinsFirst w)⟩

theorem Same.alt {a a' b b' : Expr} (h : Same a a') (h' : Same b b') : Same (.alt a b) (.alt a' b') := by
  constructor <;> intros <;>
    simp only [Skips, mat_alt, beg_alt, read_alt, may_alt, spin_alt, first_alt, h.mat, h.skips, h.begins, h.reads,
      h.mayBegin, h.spins, h.spinsFirst, h'.mat, h'.skips, h'.begins, h'.reads, h'.mayBegin, h'.spins, h'.spinsFirst]

theorem skips_cons : Skips (.concat (e :: es)) ↔ Skips e ∧ Skips (.concat es) := by
  simp only [Skips, SkipsAll]

theorem Same.cons {e e' : Expr} {es es' : List Expr} (h : Same e e') (h' : Same (.concat es) (.concat es')) :
    Same (.concat (e :: es)) (.concat (e' :: es')) := by
  constructor <;> intros <;>
    simp only [skips_cons, mat_cons, beg_cons, read_cons, may_cons, spin_cons, first_cons, h.mat, h.skips, h.begins,
      h.reads, h.mayBegin, h.spins, h.spinsFirst, h'.mat, h'.skips, h'.begins, h'.reads, h'.mayBegin, h'.spins,
      h'.spinsFirst]

theorem Same.group {e e' : Expr} {q : Option Quant} (h : Same e e') : Same (.group e q) (.group e' q) := by
  cases q <;> constructor <;> intros <;>
    simp only [Skips, mat_group, beg_group, beg_rounds, read_group, read_times, may_group, may_times, spin_group,
      spin_rounds, first_group, first_rounds, h.mat, h.skips, h.begins, h.reads, h.mayBegin, h.spins, h.spinsFirst]

/-! ## The laws -/

theorem same_altComm {a b : Expr} : Same (.alt a b) (.alt b a) := by
  constructor <;> intros <;>
    simp only [Skips, mat_alt, beg_alt, read_alt, may_alt, spin_alt, first_alt] <;> exact Or.comm

theorem same_altAssoc {a b c : Expr} : Same (.alt (.alt a b) c) (.alt a (.alt b c)) := by
  constructor <;> intros <;>
    simp only [Skips, mat_alt, beg_alt, read_alt, may_alt, spin_alt, first_alt, or_assoc]

theorem same_altSame {a : Expr} : Same (.alt a a) a := by
  constructor <;> intros <;>
    simp only [Skips, mat_alt, beg_alt, read_alt, may_alt, spin_alt, first_alt, or_self]

theorem same_paren {e : Expr} : Same (.group e none) e := by
  constructor <;> intros <;>
    simp only [Skips, mat_group, beg_group, read_group, may_group, spin_group, first_group, QuantSet]
  rename_i w
  constructor
  · rintro ⟨ws, rfl, h1, h2⟩
    obtain ⟨v, rfl⟩ := List.length_eq_one_iff.1 h1
    simpa using h2
  · exact fun h => ⟨[w], by simp, rfl, by simpa using h⟩

theorem same_single {e : Expr} : Same (.concat [e]) e := by
  constructor <;> intros <;>
    simp only [Skips, SkipsAll, mat_cons, mat_nil, beg_cons, beg_nil, read_cons, read_nil, may_cons,
      may_nil, spin_cons, spin_nil, first_cons, first_nil, and_true, and_false, exists_false, or_false]
  case mat => simp
  case begins => simp
  case reads w =>
    constructor
    · rintro (h | ⟨u, v, rfl, h, rfl⟩)
      · exact h
      · rw [List.append_nil]
        exact h.mayRead
    · exact .inl
  case mayBegin w =>
    constructor
    · rintro (h | ⟨b, u, v, rfl, h, rfl⟩)
      · exact h
      · rw [List.append_nil]
        exact h.mayBegin
    · exact .inl

theorem same_assoc {e : Expr} {ys zs : List Expr} :
    Same (.concat (.concat (e :: ys) :: zs)) (.concat (e :: .concat ys :: zs)) := by
  constructor <;> intros <;>
    simp only [Skips, SkipsAll, mat_cons, beg_cons, read_cons, may_cons, spin_cons, first_cons, and_assoc]
  case mat =>
    constructor
    · rintro ⟨_, v', rfl, ⟨u, v, rfl, h1, h2⟩, h3⟩
      exact ⟨u, v ++ v', by simp, h1, v, v', rfl, h2, h3⟩
    · rintro ⟨u, _, rfl, h1, v, v', rfl, h2, h3⟩
      exact ⟨u ++ v, v', by simp, ⟨u, v, rfl, h1, h2⟩, h3⟩
  case begins =>
    constructor
    · rintro (⟨_, v', rfl, ⟨u, v, rfl, h1, h2⟩ | ⟨rfl, h1, b, h2⟩, h3⟩ | ⟨rfl, h1, h2, b, h3⟩)
      · exact .inl ⟨u, v ++ v', by simp, h1, v, v', rfl, h2, h3⟩
      · exact .inr ⟨rfl, h1, b, .inl ⟨_, _, rfl, h2, h3⟩⟩
      · exact .inr ⟨rfl, h1, false, .inr ⟨rfl, h2, b, h3⟩⟩
    · rintro (⟨u, _, rfl, h1, v, v', rfl, h2, h3⟩ | ⟨rfl, h1, b, ⟨u, v, rfl, h2, h3⟩ | ⟨rfl, h2, b', h3⟩⟩)
      · exact .inl ⟨u ++ v, v', by simp, .inl ⟨u, v, rfl, h1, h2⟩, h3⟩
      · exact .inl ⟨u, v, rfl, .inr ⟨rfl, h1, b, h2⟩, h3⟩
      · exact .inr ⟨rfl, h1, h2, b', h3⟩
  case reads =>
    constructor
    · rintro ((h | ⟨u, v, rfl, h1, h2⟩) | ⟨_, v', rfl, ⟨u, v, rfl, h1, h2⟩, h3⟩)
      · exact .inl h
      · exact .inr ⟨u, v, rfl, h1, .inl h2⟩
      · exact .inr ⟨u, v ++ v', by simp, h1, .inr ⟨v, v', rfl, h2, h3⟩⟩
    · rintro (h | ⟨u, v, rfl, h1, h2 | ⟨v, v', rfl, h2, h3⟩⟩)
      · exact .inl (.inl h)
      · exact .inl (.inr ⟨u, v, rfl, h1, h2⟩)
      · exact .inr ⟨u ++ v, v', by simp, ⟨u, v, rfl, h1, h2⟩, h3⟩
  case mayBegin =>
    constructor
    · rintro ((h | ⟨b, u, v, rfl, h1, h2⟩ | ⟨h1, h2⟩) |
        ⟨b, _, v', rfl, ⟨u, v, rfl, h1, h2⟩ | ⟨rfl, h1, b, h2⟩, h3⟩ | ⟨h1, h2, h3⟩)
      · exact .inl h
      · exact .inr (.inl ⟨b, u, v, rfl, h1, .inl h2⟩)
      · exact .inr (.inr ⟨h1, .inl h2⟩)
      · exact .inr (.inl ⟨b, u, v ++ v', by simp, h1, .inr ⟨v, v', rfl, h2, h3⟩⟩)
      · exact .inr (.inr ⟨h1, .inr (.inl ⟨b, _, v', rfl, h2, h3⟩)⟩)
      · exact .inr (.inr ⟨h1, .inr (.inr ⟨h2, h3⟩)⟩)
    · rintro (h | ⟨b, u, v, rfl, h1, h2 | ⟨v, v', rfl, h2, h3⟩⟩ |
        ⟨h1, h2 | ⟨b, u, v, rfl, h2, h3⟩ | ⟨h2, h3⟩⟩)
      · exact .inl (.inl h)
      · exact .inl (.inr (.inl ⟨b, u, v, rfl, h1, h2⟩))
      · exact .inr (.inl ⟨b, u ++ v, v', by simp, .inl ⟨u, v, rfl, h1, h2⟩, h3⟩)
      · exact .inl (.inr (.inr ⟨h1, h2⟩))
      · exact .inr (.inl ⟨false, u, v, rfl, .inr ⟨rfl, h1, b, h2⟩, h3⟩)
      · exact .inr (.inr ⟨h1, h2, h3⟩)
  case spins =>
    constructor
    · rintro ((h | ⟨u, v, rfl, h1, h2⟩) | ⟨_, v', rfl, ⟨u, v, rfl, h1, h2⟩, h3⟩)
      · exact .inl h
      · exact .inr ⟨u, v, rfl, h1, .inl h2⟩
      · exact .inr ⟨u, v ++ v', by simp, h1, .inr ⟨v, v', rfl, h2, h3⟩⟩
    · rintro (h | ⟨u, v, rfl, h1, h2 | ⟨v, v', rfl, h2, h3⟩⟩)
      · exact .inl (.inl h)
      · exact .inl (.inr ⟨u, v, rfl, h1, h2⟩)
      · exact .inr ⟨u ++ v, v', by simp, ⟨u, v, rfl, h1, h2⟩, h3⟩
  case spinsFirst =>
    constructor
    · rintro ((h | ⟨b, u, v, rfl, h1, h2⟩ | ⟨h1, h2⟩) |
        ⟨b, _, v', rfl, ⟨u, v, rfl, h1, h2⟩ | ⟨rfl, h1, b, h2⟩, h3⟩ | ⟨h1, h2, h3⟩)
      · exact .inl h
      · exact .inr (.inl ⟨b, u, v, rfl, h1, .inl h2⟩)
      · exact .inr (.inr ⟨h1, .inl h2⟩)
      · exact .inr (.inl ⟨b, u, v ++ v', by simp, h1, .inr ⟨v, v', rfl, h2, h3⟩⟩)
      · exact .inr (.inr ⟨h1, .inr (.inl ⟨b, _, v', rfl, h2, h3⟩)⟩)
      · exact .inr (.inr ⟨h1, .inr (.inr ⟨h2, h3⟩)⟩)
    · rintro (h | ⟨b, u, v, rfl, h1, h2 | ⟨v, v', rfl, h2, h3⟩⟩ |
        ⟨h1, h2 | ⟨b, u, v, rfl, h2, h3⟩ | ⟨h2, h3⟩⟩)
      · exact .inl (.inl h)
      · exact .inl (.inr (.inl ⟨b, u, v, rfl, h1, h2⟩))
      · exact .inr (.inl ⟨b, u ++ v, v', by simp, .inl ⟨u, v, rfl, h1, h2⟩, h3⟩)
      · exact .inl (.inr (.inr ⟨h1, h2⟩))
      · exact .inr (.inl ⟨false, u, v, rfl, .inr ⟨rfl, h1, b, h2⟩, h3⟩)
      · exact .inr (.inr ⟨h1, h2, h3⟩)

theorem same_inline {ys zs : List Expr} : ∀ {e : Expr},
    Same (.concat (.concat (e :: ys) :: zs)) (.concat (e :: ys ++ zs)) := by
  induction ys with
  | nil => exact Same.cons same_single (.refl _)
  | cons y ys ih => exact same_assoc.trans (Same.cons (.refl _) ih)

theorem same_distribL {a b : Expr} {es : List Expr} :
    Same (.concat (.alt a b :: es)) (.alt (.concat (a :: es)) (.concat (b :: es))) := by
  constructor <;> intros <;>
    simp only [Skips, SkipsAll, mat_cons, beg_cons, read_cons, may_cons, spin_cons, first_cons, mat_alt, beg_alt,
      read_alt, may_alt, spin_alt, first_alt] <;> grind

theorem same_spread {e : Expr} {es es1 es2 : List Expr}
    (h : Same (.concat es) (.alt (.concat es1) (.concat es2))) :
    Same (.concat (e :: es)) (.alt (.concat (e :: es1)) (.concat (e :: es2))) := by
  constructor
  case skips =>
    have := h.skips
    simp only [Skips, SkipsAll] at *
    grind
  all_goals
    intros
    simp only [mat_cons, beg_cons, read_cons, may_cons, spin_cons, first_cons, h.mat,
      h.begins, h.reads, h.mayBegin, h.spins, h.spinsFirst, mat_alt, beg_alt, read_alt, may_alt, spin_alt,
      first_alt]
    grind

theorem same_distrib {a b : Expr} {pre es : List Expr} :
    Same (.concat (pre ++ .alt a b :: es)) (.alt (.concat (pre ++ a :: es)) (.concat (pre ++ b :: es))) := by
  induction pre with
  | nil => exact same_distribL
  | cons e pre ih => exact same_spread ih

theorem same_quantLit {l : Lit} {q q' : Quant} (h : ∀ n, QuantSet (some q) n ↔ QuantSet (some q') n) :
    Same (.lit l (some q)) (.lit l (some q')) := by
  constructor <;> intros <;>
    simp only [Skips, mat_lit, beg_rep, read_rep, may_rep, spin_lit, first_lit, h]

theorem same_quantGroup {e : Expr} {q q' : Quant} (h : ∀ n, QuantSet (some q) n ↔ QuantSet (some q') n) :
    Same (.group e (some q)) (.group e (some q')) := by
  constructor <;> intros <;>
    simp only [Skips, mat_group, beg_rounds, read_times, may_times, spin_rounds, first_rounds, h]

theorem same_chars {l l' : Lit} {q : Option Quant} (h : ∀ c, LitSet l c ↔ LitSet l' c) :
    Same (.lit l q) (.lit l' q) := by
  cases q <;> constructor <;> intros <;>
    simp only [Skips, mat_lit, beg_lit, beg_rep, read_lit, read_rep, may_lit, may_rep, spin_lit, first_lit, h]

theorem same_choice {l l1 l2 : Lit} (h : ∀ c, LitSet l c ↔ LitSet l1 c ∨ LitSet l2 c) :
    Same (.lit l none) (.alt (.lit l1 none) (.lit l2 none)) := by
  constructor <;> intros <;>
    simp only [Skips, mat_alt, beg_alt, read_alt, may_alt, spin_alt, first_alt, mat_lit, beg_lit, read_lit, may_lit,
      spin_lit, first_lit, h, QuantSet, List.length_eq_one_iff] <;> grind

theorem singles {l : Lit} {ws : List (List Char)} (h : ∀ v ∈ ws, Matches (.lit l none) v) :
    ws.flatten.length = ws.length ∧ ∀ c ∈ ws.flatten, LitSet l c := by
  induction ws with
  | nil => simp
  | cons v ws ih =>
    obtain ⟨h1, h2⟩ := mat_lit.1 (h v (by simp))
    obtain ⟨h3, h4⟩ := ih fun v hv => h v (by simp [hv])
    obtain ⟨c, rfl⟩ := List.length_eq_one_iff.1 h1
    exact ⟨by simp only [List.flatten_cons, List.length_append, h3, List.length_cons, List.length_nil]; omega,
      by simpa using ⟨h2 c (by simp), by simpa using h4⟩⟩

theorem split_singles {l : Lit} {w : List Char} (h : ∀ c ∈ w, LitSet l c) :
    ∃ ws : List (List Char), w = ws.flatten ∧ w.length = ws.length ∧ ∀ v ∈ ws, Matches (.lit l none) v := by
  refine ⟨w.map fun c => [c], ?_, by simp, ?_⟩
  · induction w with
    | nil => rfl
    | cons c w ih => simpa using ih fun c hc => h c (by simp [hc])
  · intro v hv
    obtain ⟨c, hc, rfl⟩ := List.mem_map.1 hv
    exact mat_lit.2 ⟨rfl, by simpa using h c hc⟩

theorem same_wrap {l : Lit} {q : Quant} : Same (.lit l (some q)) (.group (.lit l none) (some q)) := by
  constructor <;> intros
  case mat w =>
    rw [mat_lit, mat_group]
    constructor
    · rintro ⟨h1, h2⟩
      obtain ⟨ws, h3, h4, h5⟩ := split_singles h2
      exact ⟨ws, h3, h4 ▸ h1, h5⟩
    · rintro ⟨ws, rfl, h1, h2⟩
      obtain ⟨h3, h4⟩ := singles h2
      exact ⟨h3 ▸ h1, h4⟩
  case skips => simp only [Skips]
  case begins b w =>
    rw [beg_rep, beg_rounds]
    constructor
    · rintro ⟨rfl, h0, h1, h2⟩
      cases w with
      | nil => exact absurd rfl h0
      | cons c w =>
        obtain ⟨ws, h3, h4, h5⟩ := split_singles (w := w) fun c' hc => h2 c' (by simp [hc])
        refine ⟨rfl, true, [c], ws, by rw [h3]; rfl, .lit (h2 c (by simp)), h5, ?_⟩
        rw [← h4]
        exact h1
    · rintro ⟨rfl, b, u, ws, rfl, h1, h2, h3⟩
      obtain ⟨rfl, c, rfl, h4⟩ := beg_lit.1 h1
      obtain ⟨h5, h6⟩ := singles h2
      refine ⟨rfl, by simp, ?_, ?_⟩
      · rw [List.singleton_append, List.length_cons, h5]
        exact h3
      · simpa using ⟨h4, by simpa using h6⟩
  case reads w =>
    rw [read_rep, read_times]
    constructor
    · intro h
      obtain ⟨ws, h3, _, h5⟩ := split_singles h
      exact ⟨ws, [], by simpa using h3, h5, .nothing⟩
    · rintro ⟨ws, v, rfl, h1, h2⟩ c hc
      rcases List.mem_append.1 hc with hc | hc
      · exact (singles h1).2 c hc
      · rcases read_lit.1 h2 with rfl | ⟨c', rfl, h⟩
        · simp at hc
        · simp only [List.mem_singleton] at hc
          exact hc ▸ h
  case mayBegin w =>
    rw [may_rep, may_times]
    constructor
    · rintro ⟨h0, h2⟩
      cases w with
      | nil => exact absurd rfl h0
      | cons c w =>
        obtain ⟨ws, h3, h4, h5⟩ := split_singles (w := w) fun c' hc => h2 c' (by simp [hc])
        exact .inr ⟨true, [c], ws, [], by rw [h3]; simp, .lit (h2 c (by simp)), h5, .nothing⟩
    · rintro (h | ⟨b, u, ws, v, rfl, h1, h2, h3⟩)
      · obtain ⟨c, rfl, hc⟩ := may_lit.1 h
        exact ⟨by simp, by simpa using hc⟩
      · obtain ⟨rfl, c, rfl, h4⟩ := beg_lit.1 h1
        refine ⟨by simp, fun c' hc => ?_⟩
        rcases List.mem_append.1 hc with hc | hc
        · simp only [List.mem_singleton] at hc
          exact hc ▸ h4
        rcases List.mem_append.1 hc with hc | hc
        · exact (singles h2).2 c' hc
        · rcases read_lit.1 h3 with rfl | ⟨c', rfl, h⟩
          · simp at hc
          · simp only [List.mem_singleton] at hc
            exact hc ▸ h
  case spins w =>
    simp only [spin_lit, spin_rounds, mat_lit, QuantSet, List.length_nil]
    simp
  case spinsFirst w =>
    simp only [first_lit, first_rounds, spin_lit, mat_lit, QuantSet, List.length_nil]
    simp

theorem Rewrites.same {e e' : Expr} (h : Rewrites e e') : Same e e' := by
  induction h with
  | refl => exact .refl _
  | symm _ ih => exact ih.symm
  | trans _ _ ih ih' => exact ih.trans ih'
  | altComm => exact same_altComm
  | altAssoc => exact same_altAssoc
  | altSame => exact same_altSame
  | paren => exact same_paren
  | single => exact same_single
  | inline => exact same_inline
  | distrib => exact same_distrib
  | quantLit h => exact same_quantLit h
  | quantGroup h => exact same_quantGroup h
  | chars h => exact same_chars h
  | choice h => exact same_choice h
  | wrap => exact same_wrap
  | alt _ _ ih ih' => exact ih.alt ih'
  | head _ ih => exact ih.cons (.refl _)
  | tail _ ih => exact Same.cons (.refl _) ih
  | group _ ih => exact ih.group

end Pango.Spec
