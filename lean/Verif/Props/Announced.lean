import Verif.Proofs.Useful
import Verif.Props.MoreRules
import Verif.Props.TwoCounts

/-!
# C134: a choice that is announced in front can be parsed, one that is announced behind cannot
-/

namespace Pango.Props

open Pango Pango.Parse Pango.Spec

section

variable {V T : Type} [TerminalEq T] [LawfulTerminalEq T] {g : Grammar V T} {z : V} {e f : T}

private theorem sentence_kinds (hn : NotIn g z e f) {α : List (Sym V T)} {ns : List (Node V T)} {w : List T}
    (h : Forest g α ns w) (hα : ∀ t, .term t ∈ α → teq t e = false ∧ teq t f = false) :
    ∀ u ∈ w, teq e u = false ∧ teq f u = false := by
  have other : ∀ {t u x : T}, teq t u = true → teq t x = false → teq x u = false := by
    intro t u x h1 h2
    refine Bool.eq_false_iff.2 fun h3 => ?_
    rw [LawfulTerminalEq.trans _ _ _ h1 (LawfulTerminalEq.symm _ _ h3)] at h2
    cases h2
  induction h with
  | nil => simp
  | eps _ ih => exact ih fun t ht => hα t (List.mem_cons_of_mem _ ht)
  | @term t u α ns w ht _ ih =>
    intro x hx
    rcases List.mem_cons.1 hx with rfl | hx
    · exact ⟨other ht (hα t (by simp)).1, other ht (hα t (by simp)).2⟩
    · exact ih (fun t ht => hα t (List.mem_cons_of_mem _ ht)) x hx
  | var h1 _ _ ih1 ih2 =>
    intro x hx
    rcases List.mem_append.1 hx with hx | hx
    · exact ih1 (fun t ht => ⟨hn.marker _ _ t h1 ht, hn.never _ _ t h1 ht⟩) x hx
    · exact ih2 (fun t ht => hα t (List.mem_cons_of_mem _ ht)) x hx

variable [DecidableEq V] [DecidableEq T]

/-- What can be read begins a sentence. -/
private theorem path_begins (hg : Built g) (he : EpsFree g) (hprod : Productive g) (hn : NotIn g z e f) {w : List T}
    {γ : List (Sym V T)} (h : Path (withEnd g z e f) [] w γ) (hw : ∀ t ∈ w, teq e t = false ∧ teq f t = false) :
    BeginsSentence g w := by
  have wf := hg.wellFormed
  have hsplit : ∀ {rest u : List T} {s x : T}, w ++ rest = u ++ [x] → (∀ t ∈ w, teq s t = false) → teq s x = true →
      ∃ rest', u = w ++ rest' ∧ rest = rest' ++ [x] := by
    intro rest u s x h h1 h2
    rcases List.eq_nil_or_concat rest with rfl | ⟨rest, y, rfl⟩
    · rw [List.append_nil] at h
      have := h1 x (by rw [h]; simp)
      rw [h2] at this
      cases this
    · rw [List.concat_eq_append, ← List.append_assoc] at h
      refine ⟨rest, (List.append_inj_left' h rfl).symm, ?_⟩
      rw [List.concat_eq_append, List.append_inj_right' h rfl]
  have hprod' : Productive (withEnd g z e f) := by
    intro v β hr
    rcases withEnd_mem.1 hr with hr | ⟨rfl, _⟩
    · obtain ⟨n, u, h⟩ := hprod v β hr
      exact ⟨n, u, forest_mono withEnd_sub h⟩
    · obtain ⟨β, hβ⟩ := wf.start
      obtain ⟨n, u, h⟩ := hprod _ _ hβ
      exact ⟨_, _, (tree_withEnd wf hn).2 (.inl ⟨u, e, n, rfl, LawfulTerminalEq.refl e, h, rfl⟩)⟩
  obtain ⟨k, ns, h1⟩ := h.moves [] []
  obtain ⟨rest, n, h2⟩ := read_sentence (hg.withEnd hn.head).wellFormed (withEnd_epsFree he) hprod' LawfulTerminalEq.refl
    h1 rfl
  rw [List.append_nil] at h2
  generalize hk : rest.length = k at h2
  clear h1 h
  induction k generalizing rest n with
  | zero =>
    obtain rfl := List.length_eq_zero_iff.1 hk
    rcases (tree_withEnd wf hn).1 h2 with ⟨u, e', m, h1, h3, _⟩ | ⟨u, f', m, h1, h3, _⟩
    · obtain ⟨rest', _, h4⟩ := hsplit h1 (fun t ht => (hw t ht).1) h3
      simp at h4
    · obtain ⟨rest', _, h4⟩ := hsplit h1 (fun t ht => (hw t ht).2) h3
      simp at h4
  | succ k ih =>
    rcases (tree_withEnd wf hn).1 h2 with ⟨u, e', m, h1, h3, h5, _⟩ | ⟨u, f', m, h1, h3, h5, _⟩
    · obtain ⟨rest', rfl, h4⟩ := hsplit h1 (fun t ht => (hw t ht).1) h3
      exact ⟨rest', m, h5⟩
    · obtain ⟨rest', rfl, rfl⟩ := hsplit h1 (fun t ht => (hw t ht).2) h3
      exact ih rest' m h5 (by simpa using hk)

omit [TerminalEq T] [LawfulTerminalEq T] [DecidableEq T] in
theorem replicate_alike {a : T} {n k : Nat} {s s' : List T} (hs : s.head? ≠ some a) (hs' : s'.head? ≠ some a)
    (h : List.replicate n a ++ s = List.replicate k a ++ s') : n = k ∧ s = s' := by
  induction n generalizing k with
  | zero =>
    cases k with
    | zero => exact ⟨rfl, h⟩
    | succ k =>
      simp only [List.replicate_zero, List.nil_append] at h
      rw [h] at hs
      simp [List.replicate_succ] at hs
  | succ n ih =>
    cases k with
    | zero =>
      simp only [List.replicate_zero, List.nil_append] at h
      rw [← h] at hs'
      simp [List.replicate_succ] at hs'
    | succ k =>
      simp only [List.replicate_succ, List.cons_append, List.cons.injEq, true_and] at h
      obtain ⟨h1, h2⟩ := ih h
      exact ⟨by rw [h1], h2⟩

omit [TerminalEq T] [LawfulTerminalEq T] [DecidableEq T] in
theorem word_alike {a b c d : T} {n k i j : Nat} {rest : List T} (hab : b ≠ a) (hca : c ≠ a) (hcb : c ≠ b)
    (hda : d ≠ a) (hdb : d ≠ b)
    (h : List.replicate n a ++ (List.replicate i b ++ c :: rest) = List.replicate k a ++ (List.replicate j b ++ [d])) :
    n = k ∧ i = j ∧ c = d := by
  have head : ∀ {i : Nat} {c : T} {rest : List T}, c ≠ a → (List.replicate i b ++ c :: rest).head? ≠ some a := by
    intro i c rest hc
    cases i with
    | zero => simpa using hc
    | succ i => simpa [List.replicate_succ] using hab
  obtain ⟨h1, h2⟩ := replicate_alike (head hca) (head hda) h
  obtain ⟨h3, h4⟩ := replicate_alike (by simpa using hcb) (by simpa using hdb) h2
  simp only [List.cons.injEq] at h4
  exact ⟨h1, h3, h4.1⟩

private theorem behind_useful (hg : Built g) (he : EpsFree g) (hprod : Productive g) (hn : NotIn g z e f) {a b c d : T}
    (hd : [a, b, c, d].Nodup) {p q : Nat} (hp : 0 < p) (hpq : p < q)
    (hs : ∀ w, (∃ m, ParseTree g m w) ↔ ∃ n, 1 ≤ n ∧
      (w = List.replicate n a ++ (List.replicate (p * n) b ++ [c]) ∨
        w = List.replicate n a ++ (List.replicate (q * n) b ++ [d]))) :
    ¬ ∃ tbl, IsParser (withEnd g z e f) tbl := by
  classical
  rintro ⟨tbl, hpar⟩
  have hg' := hg.withEnd (e := e) (f := f) hn.head
  obtain ⟨_, follow, fo, ok⟩ := hpar.ok hg'
  have hdet : Det (withEnd g z e f) := fun _ _ _ h h' => Move.det ok h h'
  simp only [List.nodup_cons, List.mem_cons, List.not_mem_nil, or_false, not_or, List.nodup_nil] at hd
  obtain ⟨⟨hab, hac, had⟩, ⟨hbc, hbd⟩, hcd, _⟩ := hd
  have hterm : ∀ t, t = a ∨ t = b ∨ t = c ∨ t = d → teq e t = false ∧ teq f t = false := by
    obtain ⟨m, h1⟩ := (hs _).2 ⟨1, Nat.le_refl 1, .inl rfl⟩
    obtain ⟨m', h2⟩ := (hs _).2 ⟨1, Nat.le_refl 1, .inr rfl⟩
    intro t ht
    rcases ht with rfl | rfl | rfl | rfl
    · exact sentence_kinds hn h1 (by simp) _ (by simp)
    · exact sentence_kinds hn h1 (by simp) _ (by simp; omega)
    · exact sentence_kinds hn h1 (by simp) _ (by simp)
    · exact sentence_kinds hn h2 (by simp) _ (by simp)
  have sentence_path : ∀ {w rest : List T}, (∃ m, ParseTree g m (w ++ rest)) → ∃ γ, Path (withEnd g z e f) [] w γ := by
    rintro w rest ⟨m, h⟩
    obtain ⟨k, y, h1, h2⟩ := sentence_read (rest := rest ++ [e]) (w := w) hg'.wellFormed
      (withEnd_epsFree he) (n := .mk (.var z) [.mk (.term e) [], m])
      ((tree_withEnd hg.wellFormed hn).2 (.inl ⟨w ++ rest, e, m, by simp, LawfulTerminalEq.refl e, h, rfl⟩))
    exact ⟨_, h1.path h2⟩
  have hpath : ∀ n i, i ≤ q * n → ∃ γ, Path (withEnd g z e f) [] (List.replicate n a ++ List.replicate i b) γ := by
    intro n i hi
    cases n with
    | zero =>
      obtain rfl : i = 0 := by omega
      exact ⟨[], rfl⟩
    | succ n =>
      obtain ⟨r, hr⟩ := Nat.exists_eq_add_of_le hi
      refine sentence_path (rest := List.replicate r b ++ [d]) ((hs _).2 ⟨n + 1, by omega, .inr ?_⟩)
      rw [hr, show List.replicate (i + r) b = List.replicate i b ++ List.replicate r b from by simp]
      simp only [List.append_assoc]
  let D : Nat → Nat → List (Sym V T) := fun n i =>
    if h : ∃ γ, Path (withEnd g z e f) [] (List.replicate n a ++ List.replicate i b) γ then h.choose else []
  have hD : ∀ n i, i ≤ q * n → Path (withEnd g z e f) [] (List.replicate n a ++ List.replicate i b) (D n i) := by
    intro n i hi
    have h := hpath n i hi
    simp only [D, dif_pos h]
    exact h.choose_spec
  have one : ∀ {w : List T} {t : T} {γ γ' : List (Sym V T)}, Path (withEnd g z e f) [] w γ →
      Path (withEnd g z e f) [] (w ++ [t]) γ' → Takes (withEnd g z e f) t γ γ' := by
    intro w t γ γ' h1 h2
    obtain ⟨γ1, h3, h4⟩ := path_append.1 h2
    rw [h1.det hdet h3]
    exact path_one.1 h4
  have ends : ∀ t, t = a ∨ t = b ∨ t = c ∨ t = d → ∀ n i, i ≤ q * n → ((∃ γ, Takes (withEnd g z e f) t (D n i) γ) ↔
      ∃ rest m, ParseTree g m (List.replicate n a ++ (List.replicate i b ++ t :: rest))) := by
    intro t ht n i hi
    constructor
    · rintro ⟨γ, h⟩
      obtain ⟨rest, m, h1⟩ := path_begins hg he hprod hn (path_append.2 ⟨_, hD n i hi, path_one.2 h⟩) (by
        intro u hu
        simp only [List.mem_append, List.mem_replicate, List.mem_singleton] at hu
        rcases hu with (⟨_, rfl⟩ | ⟨_, rfl⟩) | rfl
        · exact hterm _ (.inl rfl)
        · exact hterm _ (.inr (.inl rfl))
        · exact hterm _ ht)
      exact ⟨rest, m, by simpa using h1⟩
    · rintro ⟨rest, m, h⟩
      obtain ⟨γ, h1⟩ := sentence_path (w := List.replicate n a ++ List.replicate i b ++ [t]) (rest := rest)
        ⟨m, by simpa using h⟩
      exact ⟨γ, one (hD n i hi) h1⟩
  refine Counts.impossible (g := withEnd g z e f) (a := a) (b := b) (e := c) (e' := d) (alike := False) (p := p) (q := q)
    (D := D) ⟨hg'.wellFormed, hdet, path_syms (hD 0 0 (Nat.zero_le _)), fun n => ?_, fun n i hi => ?_, fun n i hn1 hi => ?_,
      fun n i hn1 hi => ?_, hp, hpq⟩
  · refine one (hD n 0 (Nat.zero_le _)) ?_
    have := hD (n + 1) 0 (Nat.zero_le _)
    rw [List.replicate_succ'] at this
    simpa using this
  · refine one (hD n i (by omega)) ?_
    have := hD n (i + 1) (by omega)
    rw [List.replicate_succ'] at this
    simpa using this
  · rw [ends c (by simp) n i hi, false_and, or_false]
    constructor
    · rintro ⟨rest, h⟩
      obtain ⟨k, _, h | h⟩ := (hs _).1 h
      · obtain ⟨rfl, rfl, _⟩ := word_alike (Ne.symm hab) (Ne.symm hac) (Ne.symm hbc) (Ne.symm hac) (Ne.symm hbc) h
        rfl
      · exact absurd (word_alike (Ne.symm hab) (Ne.symm hac) (Ne.symm hbc) (Ne.symm had) (Ne.symm hbd) h).2.2 hcd
    · rintro rfl
      exact ⟨[], (hs _).2 ⟨n, hn1, .inl rfl⟩⟩
  · rw [ends d (by simp) n i hi, false_and, or_false]
    constructor
    · rintro ⟨rest, h⟩
      obtain ⟨k, _, h | h⟩ := (hs _).1 h
      · exact absurd (word_alike (Ne.symm hab) (Ne.symm had) (Ne.symm hbd) (Ne.symm hac) (Ne.symm hbc) h).2.2 (Ne.symm hcd)
      · obtain ⟨rfl, rfl, _⟩ := word_alike (Ne.symm hab) (Ne.symm had) (Ne.symm hbd) (Ne.symm had) (Ne.symm hbd) h
        rfl
    · rintro rfl
      exact ⟨[], (hs _).2 ⟨n, hn1, .inr rfl⟩⟩

/-- C134.  Let `p` and `q` be numbers with `0 < p < q`.  If behind `n` times `a` there are `p * n` times `b` and then `c`,
or `q * n` times `b` and then `d`, the grammar has no parser, whatever its rules are. -/
theorem c134_behind (hg : Built g) (he : EpsFree g) (hn : NotIn g z e f) {a b c d : T} (hd : [a, b, c, d].Nodup)
    {p q : Nat} (hp : 0 < p) (hpq : p < q)
    (hs : ∀ w, (∃ m, ParseTree g m w) ↔ ∃ n, 1 ≤ n ∧
      (w = List.replicate n a ++ (List.replicate (p * n) b ++ [c]) ∨
        w = List.replicate n a ++ (List.replicate (q * n) b ++ [d]))) :
    ¬ ∃ tbl, IsParser (withEnd g z e f) tbl := by
  obtain ⟨g0, hg0, hx0, hprod0, hs0⟩ := useful_grammar hg (by
    obtain ⟨m, h⟩ := (hs _).2 ⟨1, Nat.le_refl 1, .inl rfl⟩
    exact ⟨m, _, h⟩)
  have he0 : EpsFree g0 := fun v β h => he v β (hx0.2 _ h)
  have hn0 : NotIn g0 z e f :=
    ⟨fun β h => hn.head β (hx0.2 _ h), fun h β t h1 => hn.marker h β t (hx0.2 _ h1),
      fun h β t h1 => hn.never h β t (hx0.2 _ h1), hn.differ⟩
  simp only [← hs0] at hs
  intro hpar
  have hpar' : ∃ tbl, IsParser (withEnd g0 z e f) tbl := by
    refine (c94_exists (hg0.withEnd hn0.head) (hg.withEnd hn.head) ⟨rfl, fun ⟨v, β⟩ h => ?_⟩).1 hpar
    rcases withEnd_mem.1 h with h | h
    · exact withEnd_mem.2 (.inl (hx0.2 _ h))
    · exact withEnd_mem.2 (.inr (by rw [← hx0.1]; exact h))
  exact behind_useful hg0 he0 hprod0 hn0 hd hp hpq hs hpar'

end

/-! ## The two grammars -/

/-- `S → c P | d Q`, and the rules of `P` and of `Q` for the two counts. -/
def frontRules (p q : Nat) : List (String × Body String String) :=
  ("S", [.term "c", .var "P"]) :: ("S", [.term "d", .var "Q"]) :: (countRules p "P" "R" ++ countRules q "Q" "U")

/-- `S → P c | Q d`, and the rules of `P` and of `Q` for the two counts. -/
def behindRules (p q : Nat) : List (String × Body String String) :=
  ("S", [.var "P", .term "c"]) :: ("S", [.var "Q", .term "d"]) :: (countRules p "P" "R" ++ countRules q "Q" "U")

/-- The grammar has the rules of the two counts, and besides only two rules of its start variable. -/
structure Joined (g : Grammar String String) (p q : Nat) (β₁ β₂ : Body String String) : Prop where
  built : Built g
  start : g.start = "S"
  rules : ∀ v β, (v, β) ∈ g.rules ↔
    v = "S" ∧ (β = β₁ ∨ β = β₂) ∨ (v, β) ∈ countRules p "P" "R" ∨ (v, β) ∈ countRules q "Q" "U"

theorem joined {p q : Nat} (hp : 0 < p) (hq : 0 < q) {β₁ β₂ : Body String String} (h1 : β₁ ≠ []) (h2 : β₂ ≠ [])
    (h3 : ∀ v, .var v ∈ β₁ ∨ .var v ∈ β₂ → v = "P" ∨ v = "Q" ∨ v = "R" ∨ v = "U") : ∃ g, Joined g p q β₁ β₂ := by
  have hr : ∀ v β, (v, β) ∈ ("S", β₁) :: ("S", β₂) :: (countRules p "P" "R" ++ countRules q "Q" "U") ↔
      v = "S" ∧ (β = β₁ ∨ β = β₂) ∨ (v, β) ∈ countRules p "P" "R" ∨ (v, β) ∈ countRules q "Q" "U" := by
    intro v β
    simp only [List.mem_cons, Prod.mk.injEq, List.mem_append]
    constructor
    · rintro (h | h | h) <;> simp [h]
    · rintro (⟨h, h' | h'⟩ | h) <;> simp [*]
  obtain ⟨g, hg, hs, h⟩ := built_rules "S" _ ⟨β₁, (hr _ _).2 (.inl ⟨rfl, .inl rfl⟩)⟩
    (by
      intro v β w h hw
      have hw' : w = "P" ∨ w = "Q" ∨ w = "R" ∨ w = "U" := by
        rcases (hr _ _).1 h with ⟨_, rfl | rfl⟩ | h | h
        · exact h3 w (.inl hw)
        · exact h3 w (.inr hw)
        · rcases mem_countRules.1 h with ⟨rfl, rfl⟩ | ⟨rfl, rfl | rfl⟩ <;> simp [List.mem_replicate] at hw <;> simp [hw]
        · rcases mem_countRules.1 h with ⟨rfl, rfl⟩ | ⟨rfl, rfl | rfl⟩ <;> simp [List.mem_replicate] at hw <;> simp [hw]
      rcases hw' with rfl | rfl | rfl | rfl
      · exact ⟨_, (hr _ _).2 (.inr (.inl (mem_countRules.2 (.inl ⟨rfl, rfl⟩))))⟩
      · exact ⟨_, (hr _ _).2 (.inr (.inr (mem_countRules.2 (.inl ⟨rfl, rfl⟩))))⟩
      · exact ⟨_, (hr _ _).2 (.inr (.inl (mem_countRules.2 (.inr ⟨rfl, .inl rfl⟩))))⟩
      · exact ⟨_, (hr _ _).2 (.inr (.inr (mem_countRules.2 (.inr ⟨rfl, .inl rfl⟩))))⟩)
    (by
      intro v β h
      rcases (hr _ _).1 h with ⟨_, rfl | rfl⟩ | h | h
      · exact h1
      · exact h2
      · rcases mem_countRules.1 h with ⟨rfl, rfl⟩ | ⟨rfl, rfl | rfl⟩ <;> simp; omega
      · rcases mem_countRules.1 h with ⟨rfl, rfl⟩ | ⟨rfl, rfl | rfl⟩ <;> simp; omega)
  exact ⟨g, hg, hs, fun v β => (h v β).trans (hr v β)⟩

variable {g : Grammar String String} {p q : Nat} {β₁ β₂ : Body String String}

/-- What the two variables stand for. -/
theorem joined_means (hj : Joined g p q β₁ β₂) (hp : 0 < p) (hq : 0 < q) (w : List String) :
    ((∃ m, Forest g [.var "P"] [m] w) ↔ ∃ n, 1 ≤ n ∧ w = List.replicate n "a" ++ List.replicate (p * n) "b") ∧
    ((∃ m, Forest g [.var "Q"] [m] w) ↔ ∃ n, 1 ≤ n ∧ w = List.replicate n "a" ++ List.replicate (q * n) "b") := by
  obtain ⟨g₁, _, _, s1, r1, l1, _⟩ := c130_each (p := p) (s := "P") (r := "R") hp (by decide) (by decide) (by decide)
  obtain ⟨g₂, _, _, s2, r2, l2, _⟩ := c130_each (p := q) (s := "Q") (r := "U") hq (by decide) (by decide) (by decide)
  constructor
  · rw [← l1 w]
    unfold ParseTree
    rw [s1]
    refine exists_congr fun m => ⟨fun h => forest_within_rules (fun v => v = "P" ∨ v = "R") ?_ h (by simp),
      forest_mono fun ⟨v, β⟩ h => (hj.rules _ _).2 (.inr (.inl ((r1 _ _).1 h)))⟩
    intro v β hv h
    rcases (hj.rules _ _).1 h with ⟨rfl, _⟩ | h | h
    · simp at hv
    · refine ⟨(r1 _ _).2 h, fun w hw => ?_⟩
      rcases mem_countRules.1 h with ⟨rfl, rfl⟩ | ⟨rfl, rfl | rfl⟩ <;> simp [List.mem_replicate] at hw <;> simp [hw]
    · rcases mem_countRules.1 h with ⟨rfl, _⟩ | ⟨rfl, _⟩ <;> simp at hv
  · rw [← l2 w]
    unfold ParseTree
    rw [s2]
    refine exists_congr fun m => ⟨fun h => forest_within_rules (fun v => v = "Q" ∨ v = "U") ?_ h (by simp),
      forest_mono fun ⟨v, β⟩ h => (hj.rules _ _).2 (.inr (.inr ((r2 _ _).1 h)))⟩
    intro v β hv h
    rcases (hj.rules _ _).1 h with ⟨rfl, _⟩ | h | h
    · simp at hv
    · rcases mem_countRules.1 h with ⟨rfl, _⟩ | ⟨rfl, _⟩ <;> simp at hv
    · refine ⟨(r2 _ _).2 h, fun w hw => ?_⟩
      rcases mem_countRules.1 h with ⟨rfl, rfl⟩ | ⟨rfl, rfl | rfl⟩ <;> simp [List.mem_replicate] at hw <;> simp [hw]

theorem joined_tree (hj : Joined g p q β₁ β₂) {w : List String} :
    (∃ m, ParseTree g m w) ↔ (∃ ns, Forest g β₁ ns w) ∨ ∃ ns, Forest g β₂ ns w := by
  constructor
  · rintro ⟨m, h⟩
    obtain ⟨β, cs, h1, _, h2⟩ := parseTree_iff.1 h
    rw [hj.start] at h1
    rcases (hj.rules _ _).1 h1 with ⟨_, rfl | rfl⟩ | h | h
    · exact .inl ⟨_, h2⟩
    · exact .inr ⟨_, h2⟩
    · rcases mem_countRules.1 h with ⟨h, _⟩ | ⟨h, _⟩ <;> simp at h
    · rcases mem_countRules.1 h with ⟨h, _⟩ | ⟨h, _⟩ <;> simp at h
  · rintro (⟨ns, h⟩ | ⟨ns, h⟩)
    · exact ⟨_, parseTree_iff.2 ⟨β₁, _, by rw [hj.start]; exact (hj.rules _ _).2 (.inl ⟨rfl, .inl rfl⟩), rfl, h⟩⟩
    · exact ⟨_, parseTree_iff.2 ⟨β₂, _, by rw [hj.start]; exact (hj.rules _ _).2 (.inl ⟨rfl, .inr rfl⟩), rfl, h⟩⟩

theorem joined_terms (hj : Joined g p q β₁ β₂)
    (h1 : ∀ t, .term t ∈ β₁ ∨ .term t ∈ β₂ → t = "a" ∨ t = "b" ∨ t = "c" ∨ t = "d") (h3 : .eps ∉ β₁) (h4 : .eps ∉ β₂) :
    EpsFree g ∧ (∀ v β t, (v, β) ∈ g.rules → .term t ∈ β → t = "a" ∨ t = "b" ∨ t = "c" ∨ t = "d") ∧ NotIn g "Z" "$" "#" := by
  have hterm : ∀ v β t, (v, β) ∈ g.rules → .term t ∈ β → t = "a" ∨ t = "b" ∨ t = "c" ∨ t = "d" := by
    intro v β t h ht
    rcases (hj.rules _ _).1 h with ⟨_, rfl | rfl⟩ | h | h
    · exact h1 t (.inl ht)
    · exact h1 t (.inr ht)
    · rcases mem_countRules.1 h with ⟨rfl, rfl⟩ | ⟨rfl, rfl | rfl⟩ <;> simp [List.mem_replicate] at ht <;> grind
    · rcases mem_countRules.1 h with ⟨rfl, rfl⟩ | ⟨rfl, rfl | rfl⟩ <;> simp [List.mem_replicate] at ht <;> grind
  refine ⟨?_, hterm, ?_, ?_, ?_, by decide⟩
  · intro v β h
    rcases (hj.rules _ _).1 h with ⟨_, rfl | rfl⟩ | h | h
    · exact h3
    · exact h4
    · rcases mem_countRules.1 h with ⟨rfl, rfl⟩ | ⟨rfl, rfl | rfl⟩ <;> simp [List.mem_replicate]
    · rcases mem_countRules.1 h with ⟨rfl, rfl⟩ | ⟨rfl, rfl | rfl⟩ <;> simp [List.mem_replicate]
  · intro β h
    rcases (hj.rules _ _).1 h with ⟨h, _⟩ | h | h
    · simp at h
    · rcases mem_countRules.1 h with ⟨h, _⟩ | ⟨h, _⟩ <;> simp at h
    · rcases mem_countRules.1 h with ⟨h, _⟩ | ⟨h, _⟩ <;> simp at h
  · intro v β t h ht
    rcases hterm v β t h ht with rfl | rfl | rfl | rfl <;> decide
  · intro v β t h ht
    rcases hterm v β t h ht with rfl | rfl | rfl | rfl <;> decide

theorem forest_token_var {t v : String} {w : List String} :
    (∃ ns, Forest g [.term t, .var v] ns w) ↔ ∃ u, w = t :: u ∧ ∃ m, Forest g [.var v] [m] u := by
  constructor
  · rintro ⟨ns, h⟩
    cases h with
    | @term _ _ _ ms u ht h =>
      have one : ∃ m, ms = [m] := by
        cases h with
        | var _ _ h => cases h; exact ⟨_, rfl⟩
      obtain ⟨m, rfl⟩ := one
      exact ⟨u, by rw [str_teq ht], m, h⟩
  · rintro ⟨u, rfl, m, h⟩
    exact ⟨_, .term (LawfulTerminalEq.refl t) h⟩

/-- If the token that tells which of the two counts it is comes first, there is a grammar with a parser. -/
theorem c134_front (hp : 0 < p) (hq : 0 < q) : ∃ g : Grammar String String, Built g ∧ EpsFree g ∧
    (∀ v β, (v, β) ∈ g.rules ↔ (v, β) ∈ frontRules p q) ∧
    (∀ w, (∃ m, ParseTree g m w) ↔ ∃ n, 1 ≤ n ∧
      (w = "c" :: (List.replicate n "a" ++ List.replicate (p * n) "b") ∨
        w = "d" :: (List.replicate n "a" ++ List.replicate (q * n) "b"))) ∧
    ∃ tbl, IsParser (withEnd g "Z" "$" "#") tbl := by
  obtain ⟨g, hj⟩ := joined (p := p) (q := q) (β₁ := [.term "c", .var "P"]) (β₂ := [.term "d", .var "Q"]) hp hq (by simp)
    (by simp) (by simp)
  obtain ⟨he, hterm, hn⟩ := joined_terms hj (by simp) (by simp) (by simp)
  have hm := joined_means hj hp hq
  refine ⟨g, hj.built, he, fun v β => ?_, fun w => ?_, (c108_parser hj.built (c108_simple ⟨he, ?_, ?_, ?_⟩) hn).1⟩
  · rw [hj.rules]
    simp only [frontRules, List.mem_cons, Prod.mk.injEq, List.mem_append]
    constructor
    · rintro (⟨h, h' | h'⟩ | h) <;> simp [*]
    · rintro (h | h | h) <;> simp [h]
  · rw [joined_tree hj, forest_token_var, forest_token_var]
    simp only [(hm _).1, (hm _).2]
    constructor
    · rintro (⟨u, rfl, n, h1, rfl⟩ | ⟨u, rfl, n, h1, rfl⟩)
      · exact ⟨n, h1, .inl rfl⟩
      · exact ⟨n, h1, .inr rfl⟩
    · rintro ⟨n, h1, rfl | rfl⟩
      · exact .inl ⟨_, rfl, n, h1, rfl⟩
      · exact .inr ⟨_, rfl, n, h1, rfl⟩
  · obtain ⟨p, rfl⟩ : ∃ k, p = k + 1 := ⟨p - 1, by omega⟩
    obtain ⟨q, rfl⟩ : ∃ k, q = k + 1 := ⟨q - 1, by omega⟩
    intro v β h
    rcases (hj.rules _ _).1 h with ⟨_, rfl | rfl⟩ | h | h
    · exact ⟨_, _, rfl⟩
    · exact ⟨_, _, rfl⟩
    · rcases mem_countRules.1 h with ⟨rfl, rfl⟩ | ⟨rfl, rfl | rfl⟩
      · exact ⟨_, _, rfl⟩
      · exact ⟨_, _, rfl⟩
      · exact ⟨_, _, List.replicate_succ⟩
    · rcases mem_countRules.1 h with ⟨rfl, rfl⟩ | ⟨rfl, rfl | rfl⟩
      · exact ⟨_, _, rfl⟩
      · exact ⟨_, _, rfl⟩
      · exact ⟨_, _, List.replicate_succ⟩
  · obtain ⟨p, rfl⟩ : ∃ k, p = k + 1 := ⟨p - 1, by omega⟩
    obtain ⟨q, rfl⟩ : ∃ k, q = k + 1 := ⟨q - 1, by omega⟩
    intro v t α u β h1 h2 ht
    have ht := str_teq ht
    subst ht
    replace h1 := (hj.rules _ _).1 h1
    replace h2 := (hj.rules _ _).1 h2
    simp only [mem_countRules, List.replicate_succ, List.cons.injEq, Sym.term.injEq] at h1 h2
    grind
  · intro v β t w γ u _ _ _ _ ht
    exact str_teq ht

/-- If that token comes last, there is a grammar as well. -/
theorem c134_grammar (hp : 0 < p) (hq : 0 < q) : ∃ g : Grammar String String, Built g ∧ EpsFree g ∧ NotIn g "Z" "$" "#" ∧
    (∀ v β, (v, β) ∈ g.rules ↔ (v, β) ∈ behindRules p q) ∧
    ∀ w, (∃ m, ParseTree g m w) ↔ ∃ n, 1 ≤ n ∧
      (w = List.replicate n "a" ++ (List.replicate (p * n) "b" ++ ["c"]) ∨
        w = List.replicate n "a" ++ (List.replicate (q * n) "b" ++ ["d"])) := by
  obtain ⟨g, hj⟩ := joined (p := p) (q := q) (β₁ := [.var "P", .term "c"]) (β₂ := [.var "Q", .term "d"]) hp hq (by simp)
    (by simp) (by simp)
  obtain ⟨he, _, hn⟩ := joined_terms hj (by simp) (by simp) (by simp)
  have hm := joined_means hj hp hq
  have hbody : ∀ {t v : String} {w : List String},
      (∃ ns, Forest g [.var v, .term t] ns w) ↔ ∃ u, w = u ++ [t] ∧ ∃ m, Forest g [.var v] [m] u := by
    intro t v w
    constructor
    · rintro ⟨ns, h⟩
      cases h with
      | @var _ β _ cs _ x w h1 h2 h3 =>
        cases h3 with
        | term ht h3 =>
          cases h3
          refine ⟨x, by rw [str_teq ht], .mk (.var v) cs.reverse, ?_⟩
          have := Forest.var (w := []) h1 h2 .nil
          simpa using this
    · rintro ⟨u, rfl, m, h⟩
      exact ⟨_, forest_append h (.term (LawfulTerminalEq.refl t) .nil)⟩
  refine ⟨g, hj.built, he, hn, fun v β => ?_, fun w => ?_⟩
  · rw [hj.rules]
    simp only [behindRules, List.mem_cons, Prod.mk.injEq, List.mem_append]
    constructor
    · rintro (⟨h, h' | h'⟩ | h) <;> simp [*]
    · rintro (h | h | h) <;> simp [h]
  · rw [joined_tree hj, hbody, hbody]
    simp only [(hm _).1, (hm _).2]
    constructor
    · rintro (⟨u, rfl, n, h1, rfl⟩ | ⟨u, rfl, n, h1, rfl⟩)
      · exact ⟨n, h1, .inl (by simp)⟩
      · exact ⟨n, h1, .inr (by simp)⟩
    · rintro ⟨n, h1, rfl | rfl⟩
      · exact .inl ⟨_, by simp, n, h1, rfl⟩
      · exact .inr ⟨_, by simp, n, h1, rfl⟩

/-- As many `b` as `a`, or twice as many: with the token for it in front, a parser; with the token behind, none. -/
example : ∃ g₁ g₂ : Grammar String String, (∃ tbl, IsParser (withEnd g₁ "Z" "$" "#") tbl) ∧
    (∃ m, ParseTree g₁ m ["c", "a", "a", "b", "b"]) ∧ (∃ m, ParseTree g₁ m ["d", "a", "b", "b"]) ∧
    (∃ m, ParseTree g₂ m ["a", "a", "b", "b", "c"]) ∧ (∃ m, ParseTree g₂ m ["a", "b", "b", "d"]) ∧
    ¬ ∃ tbl, IsParser (withEnd g₂ "Z" "$" "#") tbl := by
  obtain ⟨g₁, _, _, _, l1, t1⟩ := c134_front (p := 1) (q := 2) (by decide) (by decide)
  obtain ⟨g₂, hg, he, hn, _, l2⟩ := c134_grammar (p := 1) (q := 2) (by decide) (by decide)
  exact ⟨g₁, g₂, t1, (l1 _).2 ⟨2, by decide, .inl rfl⟩, (l1 _).2 ⟨1, by decide, .inr rfl⟩,
    (l2 _).2 ⟨2, by decide, .inl rfl⟩, (l2 _).2 ⟨1, by decide, .inr rfl⟩,
    c134_behind hg he hn (a := "a") (b := "b") (c := "c") (d := "d") (by decide) (by decide) (by decide) l2⟩

end Pango.Props
