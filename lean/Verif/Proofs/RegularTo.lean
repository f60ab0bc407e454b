import Mathlib.Computability.RegularExpressions
import Verif.Spec.RegexClass
import Verif.Spec.RegexSyntax

/-!
# A pattern for every regular expression
-/

namespace Pango.Regex

open Pango.Spec

/-- A tree for what either of the two matches. -/
def orTree : Option Expr → Option Expr → Option Expr
  | none, b => b
  | a, none => a
  | some a, some b => some (.alt (.group a none) (.group b none))

/-- A tree for what the one matches followed by what the other matches. -/
def catTree : Option Expr → Option Expr → Option Expr
  | some a, some b => some (.concat [.group a none, .group b none])
  | _, _ => none

/-- A tree for the words other than the empty one. -/
def nonEmptyTree : RegularExpression Char → Option Expr
  | .zero => none
  | .epsilon => none
  | .char c => some (.lit (.mtch c) none)
  | .plus r s => orTree (nonEmptyTree r) (nonEmptyTree s)
  | .comp r s => orTree (catTree (nonEmptyTree r) (nonEmptyTree s))
      (orTree (if r.matchEpsilon then nonEmptyTree s else none) (if s.matchEpsilon then nonEmptyTree r else none))
  | .star r => match nonEmptyTree r with
    | none => none
    | some a => some (.concat [.group a none, .group a (some .asterisk)])

/-- `a{0}` -/
def emptyTree : Expr := .lit (.mtch 'a') (some (.max 0))

/-- `[b-a]` -/
def neverTree : Expr := .lit (.group false [.range 'b' 'a']) none

/-- A tree for all words. -/
def treeOf (r : RegularExpression Char) : Expr :=
  match nonEmptyTree r, r.matchEpsilon with
  | some a, false => a
  | some a, true => .alt (.group a none) emptyTree
  | none, true => emptyTree
  | none, false => neverTree

variable [Unicode]

/-- What the matcher needs. -/
structure Plain (e : Expr) : Prop where
  syn : ∃ ks, Expression strict e ks
  fits : ExprFits e
  repeats : RepeatsNonEmpty e
  counts : CountsAtStart e
  seq : ¬ HasEmptySeq e

theorem matches_group_none {e : Expr} {w : List Char} : Matches (.group e none) w ↔ Matches e w := by
  constructor
  · intro h
    cases h with
    | @group _ _ ws h1 h2 =>
      match ws, h1 with
      | [w], _ => simpa using h2
  · intro h
    have := Matches.group (q := none) (ws := [w]) rfl (by simpa using h)
    simpa using this

theorem matches_alt_iff {a b : Expr} {w : List Char} : Matches (.alt a b) w ↔ Matches a w ∨ Matches b w :=
  ⟨fun h => by
    cases h with
    | altL h => exact .inl h
    | altR h => exact .inr h, fun h => h.elim .altL .altR⟩

theorem matches_pair {a b : Expr} {w : List Char} :
    Matches (.concat [a, b]) w ↔ ∃ u v, Matches a u ∧ Matches b v ∧ w = u ++ v := by
  constructor
  · intro h
    cases h with
    | cons h1 h2 =>
      cases h2 with
      | cons h2 h3 =>
        cases h3
        exact ⟨_, _, h1, h2, by simp⟩
  · rintro ⟨u, v, h1, h2, rfl⟩
    have := Matches.cons h1 (.cons h2 .nil)
    simpa using this

theorem Plain.group {e : Expr} (h : Plain e) : ∃ ks, SubExpressionItem strict (.group e none) ks :=
  h.syn.elim fun _ hk => ⟨_, .group hk .none⟩

theorem Plain.alt {a b : Expr} (ha : Plain a) {ks : List TokenKind} (hb : Plain b)
    (hs : SubExpressionItem strict b ks) : Plain (.alt (.group a none) b) := by
  obtain ⟨ka, hka⟩ := ha.group
  have h1 : Expression strict (seqTree [b]) ks := .sub (.one hs)
  exact ⟨⟨_, Expression.alt (es := [.group a none]) (.one hka) h1⟩, ⟨⟨ha.fits, trivial⟩, hb.fits⟩,
    ⟨ha.repeats, hb.repeats⟩, ⟨ha.counts, hb.counts⟩, fun h => h.elim ha.seq hb.seq⟩

theorem Plain.grouped {a : Expr} (ha : Plain a) : Plain (.group a none) := by
  obtain ⟨ka, hka⟩ := ha.group
  exact ⟨⟨ka, Expression.sub (es := [.group a none]) (.one hka)⟩, ⟨ha.fits, trivial⟩, ha.repeats, ha.counts, ha.seq⟩

theorem Plain.pair {a b : Expr} (ha : Plain a) (hb : Plain b) (h0 : ¬ Matches a []) :
    Plain (.concat [.group a none, .group b none]) := by
  obtain ⟨ka, hka⟩ := ha.group
  obtain ⟨kb, hkb⟩ := hb.group
  refine ⟨⟨_, Expression.sub (es := [.group a none, .group b none]) (.more hka (.one hkb))⟩,
    ⟨⟨ha.fits, trivial⟩, ⟨hb.fits, trivial⟩, trivial⟩, ⟨ha.repeats, hb.repeats, trivial⟩, ⟨ha.counts, fun h => ?_⟩, ?_⟩
  · exact absurd (matches_group_none.1 h) h0
  · simp only [HasEmptySeq, AnyEmptySeq]
    simp [ha.seq, hb.seq]

theorem Plain.again {a : Expr} (ha : Plain a) (h0 : ¬ Matches a []) :
    Plain (.concat [.group a none, .group a (some .asterisk)]) := by
  obtain ⟨ka, hka⟩ := ha.group
  obtain ⟨kb, hkb⟩ := ha.syn
  refine ⟨⟨_, Expression.sub (es := [.group a none, .group a (some .asterisk)])
    (.more hka (.one (.group hkb (.some _))))⟩, ⟨⟨ha.fits, trivial⟩, ⟨ha.fits, trivial⟩, trivial⟩,
    ⟨ha.repeats, ⟨h0, ha.repeats⟩, trivial⟩, ⟨ha.counts, fun h => ?_⟩, ?_⟩
  · exact absurd (matches_group_none.1 h) h0
  · simp only [HasEmptySeq, AnyEmptySeq]
    simp [ha.seq]

theorem plain_empty : Plain emptyTree :=
  ⟨⟨_, Expression.sub (es := [emptyTree]) (.one (.mtch (.chr 'a') (.some _)))⟩,
    by simp [emptyTree, ExprFits, QuantFits], trivial, trivial, fun h => h⟩

theorem matches_empty {w : List Char} : Matches emptyTree w ↔ w = [] := by
  constructor
  · intro h
    cases h with
    | lit h1 _ => exact List.length_eq_zero_iff.1 h1
  · rintro rfl
    exact .lit rfl (by simp)

theorem plain_never : Plain neverTree :=
  ⟨⟨_, Expression.sub (es := [neverTree]) (.one (.mtch (.group (.one (.range 'b' 'a'))) .none))⟩,
    trivial, trivial, trivial, fun h => h⟩

theorem matches_never {w : List Char} : ¬ Matches neverTree w := by
  intro h
  cases h with
  | lit h1 h2 =>
    match w, h1 with
    | [c], _ =>
      have := h2 c (by simp)
      simp only [LitSet, List.mem_singleton, exists_eq_left, ItemSet] at this
      have h3 : 'b'.toNat ≤ 'a'.toNat := Nat.le_trans this.1 this.2
      exact absurd h3 (by decide)

/-- The trees that may be missing, and what they match. -/
def OptPlain (o : Option Expr) (L : List Char → Prop) : Prop :=
  (∀ e, o = some e → Plain e ∧ ¬ Matches e []) ∧ ∀ w, L w ↔ ∃ e, o = some e ∧ Matches e w

theorem OptPlain.none : OptPlain none fun _ => False := ⟨by simp, by simp⟩

theorem OptPlain.or {a b : Option Expr} {L M : List Char → Prop} (ha : OptPlain a L) (hb : OptPlain b M) :
    OptPlain (orTree a b) fun w => L w ∨ M w := by
  cases a with
  | none => exact ⟨hb.1, fun w => (or_congr (ha.2 w) (hb.2 w)).trans (by simp [orTree])⟩
  | some a =>
    cases b with
    | none => exact ⟨ha.1, fun w => (or_congr (ha.2 w) (hb.2 w)).trans (by simp [orTree])⟩
    | some b =>
      obtain ⟨pa, ea⟩ := ha.1 a rfl
      obtain ⟨pb, eb⟩ := hb.1 b rfl
      obtain ⟨kb, hkb⟩ := pb.group
      refine ⟨?_, fun w => ?_⟩
      · rintro e ⟨⟩
        refine ⟨pa.alt pb.grouped hkb, ?_⟩
        rw [matches_alt_iff, matches_group_none, matches_group_none]
        exact fun h => h.elim ea eb
      · refine (or_congr (ha.2 w) (hb.2 w)).trans ?_
        simp [orTree, matches_alt_iff, matches_group_none]

theorem OptPlain.cat {a b : Option Expr} {L M : List Char → Prop} (ha : OptPlain a L) (hb : OptPlain b M) :
    OptPlain (catTree a b) fun w => ∃ u v, L u ∧ M v ∧ w = u ++ v := by
  cases a with
  | none => exact ⟨by simp [catTree], fun w => by simp [ha.2, catTree]⟩
  | some a =>
    cases b with
    | none => exact ⟨by simp [catTree], fun w => by simp [hb.2, catTree]⟩
    | some b =>
      obtain ⟨pa, ea⟩ := ha.1 a rfl
      obtain ⟨pb, eb⟩ := hb.1 b rfl
      refine ⟨?_, fun w => ?_⟩
      · rintro e ⟨⟩
        refine ⟨pa.pair pb ea, ?_⟩
        rw [matches_pair]
        rintro ⟨u, v, h1, _, h3⟩
        have h4 : u = [] := (List.append_eq_nil_iff.1 h3.symm).1
        subst h4
        exact ea (matches_group_none.1 h1)
      · simp [ha.2, hb.2, catTree, matches_pair, matches_group_none]

theorem OptPlain.when {a : Option Expr} {L : List Char → Prop} (ha : OptPlain a L) (b : Bool) :
    OptPlain (if b then a else Option.none) fun w => b = true ∧ L w := by
  cases b with
  | true => exact ⟨by simpa using ha.1, fun w => by simpa using ha.2 w⟩
  | false => exact ⟨by simp, by simp⟩

theorem OptPlain.congr {a : Option Expr} {L M : List Char → Prop} (ha : OptPlain a L) (h : ∀ w, L w ↔ M w) :
    OptPlain a M := ⟨ha.1, fun w => by rw [← h]; exact ha.2 w⟩

omit [Unicode] in
theorem nil_mem {r : RegularExpression Char} : r.matchEpsilon = true ↔ [] ∈ r.matches' := by
  rw [← RegularExpression.rmatch_iff_matches']
  rfl

theorem nonEmptyTree_plain (r : RegularExpression Char) :
    OptPlain (nonEmptyTree r) fun w => w ∈ r.matches' ∧ w ≠ [] := by
  induction r with
  | zero => exact OptPlain.none.congr fun w => by simp [RegularExpression.zero_def, Language.notMem_zero]
  | epsilon => exact OptPlain.none.congr fun w => by simp [RegularExpression.one_def, Language.mem_one]
  | char c =>
    refine ⟨?_, fun w => ?_⟩
    · rintro e ⟨⟩
      refine ⟨⟨⟨_, Expression.sub (es := [.lit (.mtch c) none]) (.one (.mtch (.chr c) .none))⟩, trivial, trivial, trivial,
        fun h => h⟩, ?_⟩
      intro h
      cases h with
      | lit h1 _ => cases h1
    · show w = [c] ∧ w ≠ [] ↔ _
      simp only [nonEmptyTree, Option.some.injEq, exists_eq_left']
      constructor
      · rintro ⟨rfl, _⟩
        exact .lit rfl (by simp [LitSet])
      · intro h
        cases h with
        | lit h1 h2 =>
          match w, h1 with
          | [x], _ => exact ⟨by rw [show x = c from h2 x (by simp)], by simp⟩
  | plus r s hr hs =>
    refine (hr.or hs).congr fun w => ?_
    rw [RegularExpression.plus_def, RegularExpression.matches'_add, Language.mem_add]
    tauto
  | comp r s hr hs =>
    refine ((hr.cat hs).or ((hs.when r.matchEpsilon).or (hr.when s.matchEpsilon))).congr fun w => ?_
    rw [RegularExpression.comp_def, RegularExpression.matches'_mul, Language.mem_mul, nil_mem, nil_mem]
    constructor
    · rintro (⟨u, v, ⟨h1, h2⟩, ⟨h3, h4⟩, rfl⟩ | ⟨h1, h2, h3⟩ | ⟨h1, h2, h3⟩)
      · exact ⟨⟨u, h1, v, h3, rfl⟩, by simp [h2]⟩
      · exact ⟨⟨[], h1, w, h2, rfl⟩, h3⟩
      · exact ⟨⟨w, h2, [], h1, by simp⟩, h3⟩
    · rintro ⟨⟨u, h1, v, h2, rfl⟩, h3⟩
      by_cases hu : u = []
      · subst hu
        exact .inr (.inl ⟨h1, h2, h3⟩)
      · by_cases hv : v = []
        · subst hv
          exact .inr (.inr ⟨h2, by simpa using h1, h3⟩)
        · exact .inl ⟨u, v, ⟨h1, hu⟩, ⟨h2, hv⟩, rfl⟩
  | star r hr =>
    have hstar : ∀ w, (w ∈ r.star.matches' ∧ w ≠ []) ↔ ∃ u ws, (u ∈ r.matches' ∧ u ≠ []) ∧
        (∀ x ∈ ws, x ∈ r.matches' ∧ x ≠ []) ∧ w = u ++ List.flatten ws := by
      intro w
      rw [RegularExpression.matches'_star, Language.mem_kstar_iff_exists_nonempty]
      constructor
      · rintro ⟨⟨S, rfl, h⟩, h0⟩
        cases S with
        | nil => simp at h0
        | cons u ws => exact ⟨u, ws, h u (by simp), fun x hx => h x (by simp [hx]), by simp⟩
      · rintro ⟨u, ws, h1, h2, rfl⟩
        refine ⟨⟨u :: ws, by simp, ?_⟩, by simp [h1.2]⟩
        intro x hx
        rcases List.mem_cons.1 hx with rfl | hx
        · exact h1
        · exact h2 x hx
    simp only [nonEmptyTree]
    cases hn : nonEmptyTree r with
    | none =>
      rw [hn] at hr
      refine OptPlain.none.congr fun w => ?_
      rw [hstar]
      constructor
      · exact False.elim
      · rintro ⟨u, _, hu, _⟩
        obtain ⟨_, h, _⟩ := (hr.2 u).1 hu
        cases h
    | some a =>
      rw [hn] at hr
      obtain ⟨pa, ea⟩ := hr.1 a rfl
      have hm : ∀ w, (w ∈ r.matches' ∧ w ≠ []) ↔ Matches a w := fun w => (hr.2 w).trans (by simp)
      refine ⟨?_, fun w => ?_⟩
      · rintro e ⟨⟩
        refine ⟨pa.again ea, ?_⟩
        rw [matches_pair]
        rintro ⟨u, v, h1, _, h3⟩
        have h4 : u = [] := (List.append_eq_nil_iff.1 h3.symm).1
        subst h4
        exact ea (matches_group_none.1 h1)
      · refine (hstar w).trans ?_
        simp only [Option.some.injEq, exists_eq_left', matches_pair, matches_group_none]
        constructor
        · rintro ⟨u, ws, h1, h2, rfl⟩
          exact ⟨u, ws.flatten, (hm u).1 h1, .group trivial fun x hx => (hm x).1 (h2 x hx), rfl⟩
        · rintro ⟨u, v, h1, h2, rfl⟩
          cases h2 with
          | @group _ _ ws _ h2 => exact ⟨u, ws, (hm u).2 h1, fun x hx => (hm x).2 (h2 x hx), rfl⟩

theorem treeOf_plain (r : RegularExpression Char) :
    Plain (treeOf r) ∧ ∀ w, Matches (treeOf r) w ↔ w ∈ r.matches' := by
  have h := nonEmptyTree_plain r
  have hn := nil_mem (r := r)
  unfold treeOf
  cases ho : nonEmptyTree r with
  | some a =>
    rw [ho] at h
    obtain ⟨pa, ea⟩ := h.1 a rfl
    have hm : ∀ w, (w ∈ r.matches' ∧ w ≠ []) ↔ Matches a w := fun w => (h.2 w).trans (by simp)
    cases he : r.matchEpsilon with
    | true =>
      have h0 : [] ∈ r.matches' := hn.1 he
      refine ⟨pa.alt plain_empty (.mtch (.chr 'a') (.some _)), fun w => ?_⟩
      simp only [matches_alt_iff, matches_group_none, matches_empty, ← hm]
      constructor
      · rintro (h | rfl)
        · exact h.1
        · exact h0
      · intro h
        by_cases hw : w = []
        · exact .inr hw
        · exact .inl ⟨h, hw⟩
    | false =>
      have h0 : [] ∉ r.matches' := fun h => by rw [hn.2 h] at he; cases he
      refine ⟨pa, fun w => ?_⟩
      simp only [← hm]
      exact ⟨fun h => h.1, fun h => ⟨h, fun e => h0 (e ▸ h)⟩⟩
  | none =>
    rw [ho] at h
    have hm : ∀ w, w ∈ r.matches' → w = [] := fun w hw => by
      apply Classical.byContradiction
      intro e
      obtain ⟨_, h, _⟩ := (h.2 w).1 ⟨hw, e⟩
      cases h
    cases he : r.matchEpsilon with
    | true =>
      have h0 : [] ∈ r.matches' := hn.1 he
      refine ⟨plain_empty, fun w => ?_⟩
      simp only [matches_empty]
      exact ⟨fun h => h ▸ h0, hm w⟩
    | false =>
      have h0 : [] ∉ r.matches' := fun h => by rw [hn.2 h] at he; cases he
      refine ⟨plain_never, fun w => ?_⟩
      exact ⟨fun h => absurd h matches_never, fun h => absurd (hm w h ▸ h) h0⟩

end Pango.Regex
