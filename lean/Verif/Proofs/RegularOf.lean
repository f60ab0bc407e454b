import Mathlib.Computability.RegularExpressions
import Verif.Spec.RegexStart

/-!
# What the matcher takes is a regular language
-/

namespace Pango.Regex

open Pango.Spec

/-- The words are those of a regular expression. -/
def Reg (L : List Char → Prop) : Prop := ∃ r : RegularExpression Char, ∀ v, v ∈ r.matches' ↔ L v

theorem Reg.congr {L M : List Char → Prop} (h : Reg L) (e : ∀ v, L v ↔ M v) : Reg M := by
  obtain ⟨r, hr⟩ := h
  exact ⟨r, fun v => (hr v).trans (e v)⟩

theorem Reg.none : Reg fun _ => False := ⟨0, fun v => by simp [Language.notMem_zero]⟩

theorem Reg.nil : Reg fun v => v = [] := ⟨1, fun v => by simp [Language.mem_one]⟩

theorem Reg.char (c : Char) : Reg fun v => v = [c] := ⟨.char c, fun v => Iff.rfl⟩

theorem Reg.or {L M : List Char → Prop} (h : Reg L) (h' : Reg M) : Reg fun v => L v ∨ M v := by
  obtain ⟨r, hr⟩ := h
  obtain ⟨s, hs⟩ := h'
  exact ⟨r + s, fun v => by rw [RegularExpression.matches'_add, Language.mem_add, hr, hs]⟩

theorem Reg.cat {L M : List Char → Prop} (h : Reg L) (h' : Reg M) :
    Reg fun x => ∃ u v, L u ∧ M v ∧ x = u ++ v := by
  obtain ⟨r, hr⟩ := h
  obtain ⟨s, hs⟩ := h'
  refine ⟨r * s, fun x => ?_⟩
  rw [RegularExpression.matches'_mul, Language.mem_mul]
  constructor
  · rintro ⟨u, hu, v, hv, rfl⟩
    exact ⟨u, v, (hr u).1 hu, (hs v).1 hv, rfl⟩
  · rintro ⟨u, v, hu, hv, rfl⟩
    exact ⟨u, (hr u).2 hu, v, (hs v).2 hv, rfl⟩

theorem Reg.star {L : List Char → Prop} (h : Reg L) :
    Reg fun x => ∃ ws : List (List Char), (∀ w ∈ ws, L w) ∧ x = ws.flatten := by
  obtain ⟨r, hr⟩ := h
  refine ⟨r.star, fun x => ?_⟩
  rw [RegularExpression.matches'_star, Language.mem_kstar]
  constructor
  · rintro ⟨ws, rfl, h⟩
    exact ⟨ws, fun w hw => (hr w).1 (h w hw), rfl⟩
  · rintro ⟨ws, h, rfl⟩
    exact ⟨ws, rfl, fun w hw => (hr w).2 (h w hw)⟩

theorem Reg.and (P : Prop) {L : List Char → Prop} (h : P → Reg L) : Reg fun v => P ∧ L v := by
  by_cases hp : P
  · exact (h hp).congr fun v => by simp [hp]
  · exact Reg.none.congr fun v => by simp [hp]

/-- Words made of `n` words. -/
theorem Reg.pow {L : List Char → Prop} (h : Reg L) (n : Nat) :
    Reg fun x => ∃ ws : List (List Char), ws.length = n ∧ (∀ w ∈ ws, L w) ∧ x = ws.flatten := by
  induction n with
  | zero =>
    refine Reg.nil.congr fun v => ⟨?_, ?_⟩
    · rintro rfl
      exact ⟨[], rfl, by simp, rfl⟩
    · rintro ⟨ws, h1, _, rfl⟩
      rw [List.length_eq_zero_iff.1 h1]
      rfl
  | succ n ih =>
    refine (h.cat ih).congr fun x => ⟨?_, ?_⟩
    · rintro ⟨u, v, hu, ⟨ws, h1, h2, rfl⟩, rfl⟩
      exact ⟨u :: ws, by simp [h1], by simpa [hu] using h2, by simp⟩
    · rintro ⟨ws, h1, h2, rfl⟩
      cases ws with
      | nil => cases h1
      | cons u ws =>
        exact ⟨u, ws.flatten, h2 u (by simp), ⟨ws, by simpa using h1, fun w hw => h2 w (by simp [hw]), rfl⟩, by simp⟩

theorem Reg.least {L : List Char → Prop} (h : Reg L) (lo : Nat) :
    Reg fun x => ∃ ws : List (List Char), lo ≤ ws.length ∧ (∀ w ∈ ws, L w) ∧ x = ws.flatten := by
  refine ((h.pow lo).cat h.star).congr fun x => ⟨?_, ?_⟩
  · rintro ⟨_, _, ⟨ws, h1, h2, rfl⟩, ⟨ws', h3, rfl⟩, rfl⟩
    refine ⟨ws ++ ws', by simp; omega, fun w hw => ?_, by simp⟩
    rcases List.mem_append.1 hw with hw | hw
    · exact h2 w hw
    · exact h3 w hw
  · rintro ⟨ws, h1, h2, rfl⟩
    refine ⟨(ws.take lo).flatten, (ws.drop lo).flatten, ⟨_, by simp; omega, fun w hw => h2 w (List.mem_of_mem_take hw), rfl⟩,
      ⟨_, fun w hw => h2 w (List.mem_of_mem_drop hw), rfl⟩, ?_⟩
    rw [← List.flatten_append, List.take_append_drop]

theorem Reg.between {L : List Char → Prop} (h : Reg L) (lo hi : Nat) :
    Reg fun x => ∃ ws : List (List Char), (lo ≤ ws.length ∧ ws.length ≤ hi) ∧ (∀ w ∈ ws, L w) ∧ x = ws.flatten := by
  induction hi with
  | zero =>
    refine (Reg.and (lo ≤ 0) fun _ => Reg.nil).congr fun x => ⟨?_, ?_⟩
    · rintro ⟨h1, rfl⟩
      exact ⟨[], ⟨h1, Nat.le_refl _⟩, by simp, rfl⟩
    · rintro ⟨ws, ⟨h1, h2⟩, _, rfl⟩
      rw [List.length_eq_zero_iff.1 (Nat.le_zero.1 h2)] at h1 ⊢
      exact ⟨h1, rfl⟩
  | succ hi ih =>
    refine (ih.or (Reg.and (lo ≤ hi + 1) fun _ => h.pow (hi + 1))).congr fun x => ⟨?_, ?_⟩
    · rintro (⟨ws, ⟨h1, h2⟩, h3⟩ | ⟨h1, ws, h2, h3⟩)
      · exact ⟨ws, ⟨h1, by omega⟩, h3⟩
      · exact ⟨ws, ⟨by omega, by omega⟩, h3⟩
    · rintro ⟨ws, ⟨h1, h2⟩, h3⟩
      by_cases e : ws.length = hi + 1
      · exact .inr ⟨by omega, ws, e, h3⟩
      · exact .inl ⟨ws, ⟨h1, by omega⟩, h3⟩

/-- The numbers of repetitions, with `k` of them counted already. -/
theorem Reg.quant {L : List Char → Prop} (h : Reg L) (q : Option Quant) (k : Nat) :
    Reg fun x => ∃ ws : List (List Char), QuantSet q (ws.length + k) ∧ (∀ w ∈ ws, L w) ∧ x = ws.flatten := by
  have range (lo hi : Nat) : Reg fun x => ∃ ws : List (List Char), (lo ≤ ws.length + k ∧ ws.length + k ≤ hi) ∧
      (∀ w ∈ ws, L w) ∧ x = ws.flatten := by
    by_cases hk : k ≤ hi
    · refine (h.between (lo - k) (hi - k)).congr fun x => ?_
      refine exists_congr fun ws => and_congr ?_ Iff.rfl
      omega
    · refine Reg.none.congr fun x => ⟨False.elim, ?_⟩
      rintro ⟨ws, h1, _⟩
      omega
  have least (lo : Nat) : Reg fun x => ∃ ws : List (List Char), lo ≤ ws.length + k ∧
      (∀ w ∈ ws, L w) ∧ x = ws.flatten := by
    refine (h.least (lo - k)).congr fun x => ?_
    refine exists_congr fun ws => and_congr ?_ Iff.rfl
    omega
  cases q with
  | none =>
    refine (range 1 1).congr fun x => exists_congr fun ws => and_congr ?_ Iff.rfl
    simp only [QuantSet]
    omega
  | some q =>
    cases q with
    | asterisk => exact (least 0).congr fun x => exists_congr fun ws => and_congr (by simp [QuantSet]) Iff.rfl
    | plus => exact least 1
    | questionMark =>
      refine (range 0 1).congr fun x => exists_congr fun ws => and_congr ?_ Iff.rfl
      simp only [QuantSet]
      omega
    | max m =>
      refine (range m m).congr fun x => exists_congr fun ws => and_congr ?_ Iff.rfl
      simp only [QuantSet]
      omega
    | min m => exact least m
    | range lo hi => exact range lo hi

/-! ## Characters -/

/-- All characters. -/
def allChars : List Char := (List.range 0x110000).map Char.ofNat

theorem mem_allChars (c : Char) : c ∈ allChars := by
  refine List.mem_map.2 ⟨c.toNat, List.mem_range.2 ?_, Char.ofNat_toNat c⟩
  rcases c.valid with h | ⟨_, h⟩
  · exact Nat.lt_trans h (by decide)
  · exact h

theorem Reg.charsIn (cs : List Char) (P : Char → Prop) : Reg fun v => ∃ c ∈ cs, P c ∧ v = [c] := by
  induction cs with
  | nil => exact Reg.none.congr fun v => by simp
  | cons c cs ih => exact ((Reg.and (P c) fun _ => Reg.char c).or ih).congr fun v => by simp

theorem Reg.chars (P : Char → Prop) : Reg fun v => ∃ c, P c ∧ v = [c] :=
  (Reg.charsIn allChars P).congr fun v => by simp [mem_allChars]

theorem flatten_singles (w : List Char) : w = (w.map fun c => [c]).flatten := by
  induction w with
  | nil => rfl
  | cons c w ih => rw [List.map_cons, List.flatten_cons, ← ih]; rfl

theorem singles {P : Char → Prop} {w : List Char} (h : ∀ c ∈ w, P c) :
    ∃ ws : List (List Char), ws.length = w.length ∧ (∀ x ∈ ws, ∃ c, P c ∧ x = [c]) ∧ w = ws.flatten :=
  ⟨w.map fun c => [c], by simp, by simpa using h, flatten_singles w⟩

theorem singles_length {P : Char → Prop} {ws : List (List Char)} (h : ∀ x ∈ ws, ∃ c, P c ∧ x = [c]) :
    ws.flatten.length = ws.length ∧ ∀ c ∈ ws.flatten, P c := by
  induction ws with
  | nil => simp
  | cons x ws ih =>
    obtain ⟨c, hc, rfl⟩ := h x (by simp)
    obtain ⟨h1, h2⟩ := ih fun x hx => h x (by simp [hx])
    exact ⟨by simp [h1], by simpa [hc] using h2⟩

/-- Repetitions of characters. -/
theorem Reg.rep (P : Char → Prop) (q : Option Quant) :
    Reg fun w => QuantSet q w.length ∧ ∀ c ∈ w, P c := by
  refine ((Reg.chars P).quant q 0).congr fun w => ⟨?_, ?_⟩
  · rintro ⟨ws, h1, h2, rfl⟩
    obtain ⟨h3, h4⟩ := singles_length h2
    exact ⟨by rw [h3]; exact h1, h4⟩
  · rintro ⟨h1, h2⟩
    obtain ⟨ws, h3, h4, h5⟩ := singles h2
    exact ⟨ws, by rw [Nat.add_zero, h3]; exact h1, h4, h5⟩

/-- A part that is not empty. -/
theorem Reg.nonEmptyRep (P : Char → Prop) (q : Option Quant) :
    Reg fun w => w ≠ [] ∧ QuantSet q w.length ∧ ∀ c ∈ w, P c := by
  refine ((Reg.chars P).cat ((Reg.chars P).quant q 1)).congr fun w => ⟨?_, ?_⟩
  · rintro ⟨_, _, ⟨c, hc, rfl⟩, ⟨ws, h1, h2, rfl⟩, rfl⟩
    obtain ⟨h3, h4⟩ := singles_length h2
    exact ⟨by simp, by simpa [← h3] using h1, by simpa [hc] using h4⟩
  · rintro ⟨h0, h1, h2⟩
    cases w with
    | nil => exact absurd rfl h0
    | cons c w =>
      obtain ⟨ws, h3, h4, h5⟩ := singles (fun x hx => h2 x (List.mem_cons_of_mem _ hx))
      exact ⟨[c], w, ⟨c, h2 c (by simp), rfl⟩, ⟨ws, by rw [h3]; exact h1, h4, h5⟩, rfl⟩

/-! ## Patterns -/

variable [Unicode]

mutual

theorem matches_reg : ∀ e : Expr, Reg (Matches e)
  | .concat es => matchesAll_reg es
  | .empty => Reg.nil.congr fun v => ⟨by rintro rfl; exact .empty, fun h => by cases h; rfl⟩
  | .alt l r => ((matches_reg l).or (matches_reg r)).congr fun v =>
      ⟨fun h => h.elim .altL .altR, fun h => by cases h with
        | altL h => exact .inl h
        | altR h => exact .inr h⟩
  | .lit l q => (Reg.rep (LitSet l) q).congr fun v => ⟨fun h => .lit h.1 h.2, fun h => by
      cases h with
      | lit h1 h2 => exact ⟨h1, h2⟩⟩
  | .group e q => ((matches_reg e).quant q 0).congr fun v => ⟨by
      rintro ⟨ws, h1, h2, rfl⟩
      exact .group h1 h2, fun h => by
      cases h with
      | group h1 h2 => exact ⟨_, h1, h2, rfl⟩⟩

theorem matchesAll_reg : ∀ es : List Expr, Reg (Matches (.concat es))
  | [] => Reg.nil.congr fun v => ⟨by rintro rfl; exact .nil, fun h => by cases h; rfl⟩
  | e :: es => ((matches_reg e).cat (matchesAll_reg es)).congr fun v => ⟨by
      rintro ⟨u, v, h1, h2, rfl⟩
      exact .cons h1 h2, fun h => by
      cases h with
      | cons h1 h2 => exact ⟨_, _, h1, h2, rfl⟩⟩

end

mutual

theorem begins_reg : ∀ (e : Expr) (b : Bool), Reg (Begins e b)
  | .concat es, b => beginsAll_reg es b
  | .empty, b => Reg.none.congr fun v => ⟨False.elim, fun h => by cases h⟩
  | .alt l r, b => ((begins_reg l b).or (begins_reg r b)).congr fun v =>
      ⟨fun h => h.elim .altL .altR, fun h => by cases h with
        | altL h => exact .inl h
        | altR h => exact .inr h⟩
  | .lit l none, b => (Reg.and (b = true) fun _ => Reg.chars (LitSet l)).congr fun v => ⟨by
      rintro ⟨rfl, c, h, rfl⟩
      exact .lit h, fun h => by
      cases h with
      | lit h => exact ⟨rfl, _, h, rfl⟩⟩
  | .lit l (some q), b => (Reg.and (b = false) fun _ => Reg.nonEmptyRep (LitSet l) (some q)).congr fun v => ⟨by
      rintro ⟨rfl, h1, h2, h3⟩
      exact .rep h1 h2 h3, fun h => by
      cases h with
      | rep h1 h2 h3 => exact ⟨rfl, h1, h2, h3⟩⟩
  | .group e none, b => (begins_reg e b).congr fun v => ⟨.group, fun h => by
      cases h with
      | group h => exact h⟩
  | .group e (some q), b =>
    (Reg.and (b = false) fun _ => (((begins_reg e true).cat ((matches_reg e).quant (some q) 1)).or
      ((begins_reg e false).cat ((matches_reg e).quant (some q) 0)))).congr fun v => ⟨by
      rintro ⟨rfl, (⟨u, _, h1, ⟨ws, h2, h3, rfl⟩, rfl⟩ | ⟨u, _, h1, ⟨ws, h2, h3, rfl⟩, rfl⟩)⟩
      · exact .rounds h1 h3 h2
      · exact .rounds h1 h3 h2, fun h => by
      cases h with
      | @rounds _ _ b u ws h1 h2 h3 =>
        refine ⟨rfl, ?_⟩
        cases b with
        | true => exact .inl ⟨u, _, h1, ⟨ws, h3, h2, rfl⟩, rfl⟩
        | false => exact .inr ⟨u, _, h1, ⟨ws, h3, h2, rfl⟩, rfl⟩⟩

theorem beginsAll_reg : ∀ (es : List Expr) (b : Bool), Reg (Begins (.concat es) b)
  | [], b => Reg.none.congr fun v => ⟨False.elim, fun h => by cases h⟩
  | e :: es, b => (((begins_reg e b).cat (matchesAll_reg es)).or (Reg.and (b = false ∧ Skips e) fun _ =>
      (beginsAll_reg es true).or (beginsAll_reg es false))).congr fun v => ⟨by
      rintro (⟨u, v, h1, h2, rfl⟩ | ⟨⟨rfl, h1⟩, h2 | h2⟩)
      · exact .here h1 h2
      · exact .later h1 h2
      · exact .later h1 h2, fun h => by
      cases h with
      | here h1 h2 => exact .inl ⟨_, _, h1, h2, rfl⟩
      | @later _ _ b _ h1 h2 =>
        cases b with
        | true => exact .inr ⟨⟨rfl, h1⟩, .inl h2⟩
        | false => exact .inr ⟨⟨rfl, h1⟩, .inr h2⟩⟩

end

theorem taken_reg (e : Expr) : Reg (Taken e) :=
  ((Reg.and (Skips e) fun _ => Reg.nil).or ((begins_reg e true).or (begins_reg e false))).congr fun v => by
    unfold Taken
    constructor
    · rintro (⟨h1, h2⟩ | h | h)
      · exact .inl ⟨h2, h1⟩
      · exact .inr ⟨_, h⟩
      · exact .inr ⟨_, h⟩
    · rintro (⟨h1, h2⟩ | ⟨b, h⟩)
      · exact .inl ⟨h2, h1⟩
      · cases b with
        | true => exact .inr (.inl h)
        | false => exact .inr (.inr h)

end Pango.Regex
