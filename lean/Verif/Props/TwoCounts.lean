import Verif.Proofs.TwoCounts
import Verif.Props.Choice
import Verif.Props.Palindromes
import Verif.Props.Predictive
import Verif.Props.RegularTokens

/-!
# C130: some choices cannot be parsed, however they are written
-/

namespace Pango.Props

open Pango Pango.Parse Pango.Spec

variable {V T : Type} [DecidableEq V] [DecidableEq T] [TerminalEq T] [LawfulTerminalEq T] {g : Grammar V T} {z : V} {e f : T}

theorem path_syms {u : List T} {γ : List (Sym V T)} (h : Path g [] u γ) : ∀ x ∈ γ, x ∈ allSyms g := by
  rcases List.eq_nil_or_concat u with rfl | ⟨u, t, rfl⟩
  · obtain rfl : γ = [] := h
    simp
  · rw [List.concat_eq_append] at h
    obtain ⟨_, _, h⟩ := path_append.1 h
    obtain ⟨p, h⟩ := (path_one.1 h).viable
    exact viable_syms h

/-- The same behind any tokens. -/
theorem no_parser_behind (hg : Built g) (he : EpsFree g) (hn : NotIn g z e f) {a b : T} {p q : Nat} (hp : 0 < p)
    (hpq : p < q) (u : List T)
    (hs : ∀ n i, 1 ≤ n → ((∃ m, ParseTree g m (u ++ (List.replicate n a ++ List.replicate i b))) ↔
      i = p * n ∨ i = q * n)) :
    ¬ ∃ tbl, IsParser (withEnd g z e f) tbl := by
  classical
  rintro ⟨tbl, hpar⟩
  have hg' := hg.withEnd (e := e) (f := f) hn.head
  obtain ⟨c, follow, fo, ok⟩ := hpar.ok hg'
  have hd : Det (withEnd g z e f) := fun _ _ _ h h' => Move.det ok h h'
  have sentence_path : ∀ {w rest : List T}, (∃ m, ParseTree g m (w ++ rest)) → ∃ γ, Path (withEnd g z e f) [] w γ := by
    rintro w rest ⟨m, h⟩
    obtain ⟨k, y, h1, h2⟩ := sentence_read (rest := rest ++ [e]) (w := w) hg'.wellFormed
      (withEnd_epsFree he) (n := .mk (.var z) [.mk (.term e) [], m])
      ((tree_withEnd hg.wellFormed hn).2 (.inl ⟨w ++ rest, e, m, by simp, LawfulTerminalEq.refl e, h, rfl⟩))
    exact ⟨_, h1.path h2⟩
  have hpath : ∀ n i, i ≤ q * n →
      ∃ γ, Path (withEnd g z e f) [] (u ++ (List.replicate n a ++ List.replicate i b)) γ := by
    intro n i hi
    cases n with
    | zero =>
      obtain rfl : i = 0 := by omega
      exact sentence_path (rest := List.replicate 1 a ++ List.replicate (q * 1) b) (by
        simpa using (hs 1 (q * 1) (Nat.le_refl 1)).2 (.inr rfl))
    | succ n =>
      obtain ⟨r, hr⟩ := Nat.exists_eq_add_of_le hi
      obtain ⟨m, h⟩ := (hs (n + 1) (q * (n + 1)) (by omega)).2 (.inr rfl)
      rw [hr, show List.replicate (i + r) b = List.replicate i b ++ List.replicate r b from by simp] at h
      exact sentence_path (rest := List.replicate r b) ⟨m, by simpa using h⟩
  let D : Nat → Nat → List (Sym V T) := fun n i =>
    if h : ∃ γ, Path (withEnd g z e f) [] (u ++ (List.replicate n a ++ List.replicate i b)) γ then h.choose else []
  have hD : ∀ n i, i ≤ q * n → Path (withEnd g z e f) [] (u ++ (List.replicate n a ++ List.replicate i b)) (D n i) := by
    intro n i hi
    have h := hpath n i hi
    simp only [D, dif_pos h]
    exact h.choose_spec
  have one : ∀ {w : List T} {t : T} {γ γ' : List (Sym V T)}, Path (withEnd g z e f) [] w γ →
      Path (withEnd g z e f) [] (w ++ [t]) γ' → Takes (withEnd g z e f) t γ γ' := by
    intro w t γ γ' h1 h2
    obtain ⟨γ1, h3, h4⟩ := path_append.1 h2
    rw [h1.det hd h3]
    exact path_one.1 h4
  have ends : ∀ n i, 1 ≤ n → i ≤ q * n → ((∃ γ, Takes (withEnd g z e f) e (D n i) γ) ↔ i = p * n ∨ i = q * n) := by
    intro n i hn1 hi
    rw [← hs n i hn1,
      ← path_sentence (z := z) (e := e) (f := f) hg.wellFormed hg'.wellFormed he hn]
    constructor
    · rintro ⟨γ, h⟩
      exact ⟨γ, path_append.2 ⟨_, hD n i hi, path_one.2 h⟩⟩
    · rintro ⟨γ, h⟩
      exact ⟨γ, one (hD n i hi) h⟩
  refine Counts.impossible (g := withEnd g z e f) (a := a) (b := b) (e := e) (e' := e) (alike := True) (p := p) (q := q)
    (D := D) ⟨hg'.wellFormed, hd, path_syms (hD 0 0 (Nat.zero_le _)), fun n => ?_, fun n i hi => ?_, fun n i hn1 hi => ?_,
      fun n i hn1 hi => ?_, hp, hpq⟩
  · refine one (hD n 0 (Nat.zero_le _)) ?_
    have := hD (n + 1) 0 (Nat.zero_le _)
    rw [List.replicate_succ'] at this
    simpa using this
  · refine one (hD n i (by omega)) ?_
    have := hD n (i + 1) (by omega)
    rw [List.replicate_succ'] at this
    simpa using this
  · rw [ends n i hn1 hi, true_and]
  · rw [ends n i hn1 hi, true_and]
    exact or_comm

/-- C130.  Let `p` and `q` be numbers with `0 < p < q`.  If behind `n` times `a` there have to be `p * n` or `q * n` times
`b`, the grammar has no parser, whatever its rules are. -/
theorem c130_no_parser (hg : Built g) (he : EpsFree g) (hn : NotIn g z e f) {a b : T} {p q : Nat} (hp : 0 < p) (hpq : p < q)
    (hs : ∀ n i, (∃ m, ParseTree g m (List.replicate n a ++ List.replicate i b)) ↔ 1 ≤ n ∧ (i = p * n ∨ i = q * n)) :
    ¬ ∃ tbl, IsParser (withEnd g z e f) tbl :=
  no_parser_behind hg he hn hp hpq [] fun n i hn1 => by rw [← and_iff_right (a := 1 ≤ n) (b := _ ∨ _) hn1, ← hs]; rfl

/-! ## The two counts one by one -/

/-- `S → a R`, `R → a R b ... b | b ... b`, with `p` times `b`. -/
def countRules (p : Nat) (s r : String) : List (String × Body String String) :=
  [(s, [.term "a", .var r]), (r, .term "a" :: .var r :: List.replicate p (.term "b")), (r, List.replicate p (.term "b"))]

theorem mem_countRules {p : Nat} {s r v : String} {β : Body String String} :
    (v, β) ∈ countRules p s r ↔ v = s ∧ β = [.term "a", .var r] ∨
      v = r ∧ (β = .term "a" :: .var r :: List.replicate p (.term "b") ∨ β = List.replicate p (.term "b")) := by
  simp only [countRules, List.mem_cons, Prod.mk.injEq, List.not_mem_nil, or_false]
  constructor
  · rintro (h | h | h) <;> simp [h]
  · rintro (h | ⟨h1, h2 | h2⟩) <;> simp [*]

/-- What can be derived from the variables. -/
private def VarMeans (p : Nat) (s v : String) (u : List String) : Prop :=
  ∃ n, u = List.replicate (if v = s then n + 1 else n) "a" ++ List.replicate (p * (n + 1)) "b"

private def Means (p : Nat) (s : String) : List (Sym String String) → List String → Prop
  | [], w => w = []
  | .eps :: α, w => Means p s α w
  | .term t :: α, w => ∃ w', w = t :: w' ∧ Means p s α w'
  | .var v :: α, w => ∃ u w', w = u ++ w' ∧ VarMeans p s v u ∧ Means p s α w'

private theorem means_bs {p : Nat} {s : String} {k : Nat} {w : List String}
    (h : Means p s (List.replicate k (.term "b")) w) : w = List.replicate k "b" := by
  induction k generalizing w with
  | zero => exact h
  | succ k ih =>
    obtain ⟨w', rfl, h⟩ := h
    rw [ih h, List.replicate_succ]

theorem str_teq {s t : String} (h : teq s t = true) : s = t := by
  have h : (s == t) = true := h
  exact eq_of_beq h

variable {g : Grammar String String} {p : Nat} {s r : String}

private theorem count_means (hsr : r ≠ s) (hr : ∀ v β, (v, β) ∈ g.rules ↔ (v, β) ∈ countRules p s r)
    {α : List (Sym String String)} {ns : List (Node String String)} {w : List String} (h : Forest g α ns w) :
    Means p s α w := by
  induction h with
  | nil => exact rfl
  | eps _ ih => exact ih
  | term ht _ ih => exact ⟨_, by rw [str_teq ht], ih⟩
  | @var v β α cs ns x w h1 _ _ ih1 ih2 =>
    refine ⟨x, w, rfl, ?_, ih2⟩
    rcases mem_countRules.1 ((hr _ _).1 h1) with ⟨rfl, rfl⟩ | ⟨rfl, rfl | rfl⟩
    · obtain ⟨w1, rfl, u, w2, rfl, ⟨n, rfl⟩, rfl⟩ := ih1
      exact ⟨n, by simp [hsr, List.replicate_succ]⟩
    · obtain ⟨w1, rfl, u, w2, rfl, ⟨n, rfl⟩, h⟩ := ih1
      rw [means_bs h]
      refine ⟨n + 1, ?_⟩
      rw [if_neg hsr, if_neg hsr, Nat.mul_succ p (n + 1),
        show List.replicate (p * (n + 1) + p) "b" = List.replicate (p * (n + 1)) "b" ++ List.replicate p "b" from by simp,
        List.replicate_succ]
      simp only [List.append_assoc, List.cons_append]
    · rw [means_bs ih1]
      exact ⟨0, by simp [hsr]⟩

private theorem count_bs (k : Nat) : ∃ ns, Forest g (List.replicate k (.term "b")) ns (List.replicate k "b") := by
  induction k with
  | zero => exact ⟨_, .nil⟩
  | succ k ih =>
    obtain ⟨ns, h⟩ := ih
    exact ⟨_, .term (LawfulTerminalEq.refl "b") h⟩

private theorem count_trees (hr : ∀ v β, (v, β) ∈ g.rules ↔ (v, β) ∈ countRules p s r) (n : Nat) :
    ∃ m, Forest g [.var r] [m] (List.replicate n "a" ++ List.replicate (p * (n + 1)) "b") := by
  induction n with
  | zero =>
    obtain ⟨ns, h⟩ := count_bs (g := g) p
    have := Forest.var (w := []) ((hr r _).2 (mem_countRules.2 (.inr ⟨rfl, .inr rfl⟩))) h .nil
    exact ⟨_, by simpa using this⟩
  | succ n ih =>
    obtain ⟨m, h⟩ := ih
    obtain ⟨ns, h1⟩ := count_bs (g := g) p
    have h3 := Forest.term (LawfulTerminalEq.refl "a") (forest_append h h1)
    have h4 := Forest.var (w := []) ((hr r _).2 (mem_countRules.2 (.inr ⟨rfl, .inl rfl⟩))) h3 .nil
    refine ⟨_, cast (congrArg _ ?_) h4⟩
    rw [Nat.mul_succ p (n + 1),
      show List.replicate (p * (n + 1) + p) "b" = List.replicate (p * (n + 1)) "b" ++ List.replicate p "b" from by simp,
      List.replicate_succ]
    simp only [List.append_assoc, List.cons_append, List.append_nil]

/-- For every `p` there is a grammar with a parser whose sentences are `a ... a b ... b` with `p` times as many `b` as
`a`, at least one `a`. -/
theorem c130_each (hp : 0 < p) (hsr : r ≠ s) (hs : s ≠ "Z") (hz : r ≠ "Z") : ∃ g : Grammar String String,
    Built g ∧ EpsFree g ∧ g.start = s ∧ (∀ v β, (v, β) ∈ g.rules ↔ (v, β) ∈ countRules p s r) ∧
    (∀ w, (∃ m, ParseTree g m w) ↔ ∃ n, 1 ≤ n ∧ w = List.replicate n "a" ++ List.replicate (p * n) "b") ∧
    ∃ tbl, IsParser (withEnd g "Z" "$" "#") tbl := by
  obtain ⟨p, rfl⟩ : ∃ k, p = k + 1 := ⟨p - 1, by omega⟩
  obtain ⟨g, hg, hst, hr⟩ := built_rules s (countRules (p + 1) s r) ⟨_, by simp [countRules]; exact .inl rfl⟩
    (fun v β w h hw => by
      refine ⟨List.replicate (p + 1) (.term "b"), ?_⟩
      rw [mem_countRules] at h ⊢
      rcases h with ⟨rfl, rfl⟩ | ⟨rfl, rfl | rfl⟩ <;> simp [List.mem_replicate] at hw <;> simp [hw])
    (fun v β h => by
      rw [mem_countRules] at h
      rcases h with ⟨rfl, rfl⟩ | ⟨rfl, rfl | rfl⟩ <;> simp)
  have hterm : ∀ v β t, (v, β) ∈ g.rules → .term t ∈ β → t = "a" ∨ t = "b" := by
    intro v β t h ht
    rcases mem_countRules.1 ((hr _ _).1 h) with ⟨rfl, rfl⟩ | ⟨rfl, rfl | rfl⟩ <;>
      simp [List.mem_replicate] at ht <;> simp [ht]
  have he : EpsFree g := by
    intro v β h
    rcases mem_countRules.1 ((hr _ _).1 h) with ⟨rfl, rfl⟩ | ⟨rfl, rfl | rfl⟩ <;> simp [List.mem_replicate]
  have hsimple : Simple g := by
    refine ⟨he, ?_, ?_, ?_⟩
    · intro v β h
      rcases mem_countRules.1 ((hr _ _).1 h) with ⟨rfl, rfl⟩ | ⟨rfl, rfl | rfl⟩
      · exact ⟨_, _, rfl⟩
      · exact ⟨_, _, rfl⟩
      · exact ⟨_, _, List.replicate_succ⟩
    · intro v t α u β h1 h2 ht
      have ht := str_teq ht
      subst ht
      have h1 := mem_countRules.1 ((hr _ _).1 h1)
      have h2 := mem_countRules.1 ((hr _ _).1 h2)
      simp only [List.replicate_succ, List.cons.injEq, Sym.term.injEq] at h1 h2
      rcases h1 with ⟨rfl, rfl, rfl⟩ | ⟨rfl, ⟨rfl, rfl⟩ | ⟨rfl, rfl⟩⟩ <;>
        rcases h2 with ⟨h2, h3, rfl⟩ | ⟨h2, ⟨h3, rfl⟩ | ⟨h3, rfl⟩⟩ <;> first | rfl | simp_all
    · intro v β t w γ u _ _ _ _ ht
      exact str_teq ht
  refine ⟨g, hg, he, hst, hr, fun w => ⟨?_, ?_⟩, (c108_parser hg (c108_simple hsimple) ⟨?_, ?_, ?_, by decide⟩).1⟩
  · rintro ⟨m, h⟩
    obtain ⟨u, w', rfl, ⟨n, rfl⟩, rfl⟩ := count_means hsr hr h
    exact ⟨n + 1, by omega, by simp [hst]⟩
  · rintro ⟨n, hn, rfl⟩
    obtain ⟨n, rfl⟩ : ∃ k, n = k + 1 := ⟨n - 1, by omega⟩
    obtain ⟨m, h⟩ := count_trees hr n
    have h1 := Forest.var (w := []) ((hr s _).2 (mem_countRules.2 (.inl ⟨rfl, rfl⟩)))
      (Forest.term (LawfulTerminalEq.refl "a") h) .nil
    refine ⟨.mk (.var s) [m, .mk (.term "a") []], ?_⟩
    unfold ParseTree
    rw [hst]
    exact cast (congrArg _ (by simp [List.replicate_succ])) h1
  · intro β h
    rcases mem_countRules.1 ((hr _ _).1 h) with ⟨h, _⟩ | ⟨h, _⟩
    · exact hs h.symm
    · exact hz h.symm
  · intro v β t h ht
    rcases hterm v β t h ht with rfl | rfl <;> decide
  · intro v β t h ht
    rcases hterm v β t h ht with rfl | rfl <;> decide

theorem counts_alike {n k i m : Nat}
    (h : List.replicate n "a" ++ List.replicate i "b" = List.replicate k "a" ++ List.replicate m "b") : n = k ∧ i = m := by
  have h1 := congrArg (List.count "a") h
  have h2 := congrArg (List.count "b") h
  simp [List.count_append, List.count_replicate] at h1 h2
  exact ⟨h1, h2⟩

/-- Whenever `p` is below `q`, there are two grammars with parsers so that no grammar whose sentences are
those of the one and those of the other has a parser, although there are such grammars. -/
theorem c130_choice {p q : Nat} (hp : 0 < p) (hpq : p < q) : ∃ g₁ g₂ : Grammar String String,
    (∀ w, (∃ m, ParseTree g₁ m w) ↔ ∃ n, 1 ≤ n ∧ w = List.replicate n "a" ++ List.replicate (p * n) "b") ∧
    (∀ w, (∃ m, ParseTree g₂ m w) ↔ ∃ n, 1 ≤ n ∧ w = List.replicate n "a" ++ List.replicate (q * n) "b") ∧
    (∃ tbl, IsParser (withEnd g₁ "Z" "$" "#") tbl) ∧ (∃ tbl, IsParser (withEnd g₂ "Z" "$" "#") tbl) ∧
    (∃ g, Built g ∧ EpsFree g ∧ NotIn g "Z" "$" "#" ∧
      ∀ w, (∃ m, ParseTree g m w) ↔ (∃ m, ParseTree g₁ m w) ∨ ∃ m, ParseTree g₂ m w) ∧
    ∀ (g : Grammar String String) (z e f : String), Built g → EpsFree g → NotIn g z e f →
      (∀ w, (∃ m, ParseTree g m w) ↔ (∃ m, ParseTree g₁ m w) ∨ ∃ m, ParseTree g₂ m w) →
      ¬ ∃ tbl, IsParser (withEnd g z e f) tbl := by
  obtain ⟨g₁, b1, e1, s1, r1, l1, t1⟩ := c130_each (p := p) (s := "P") (r := "R") hp (by decide) (by decide) (by decide)
  obtain ⟨g₂, b2, e2, s2, r2, l2, t2⟩ :=
    c130_each (p := q) (s := "Q") (r := "U") (by omega) (by decide) (by decide) (by decide)
  have d1 : ∀ v β, (v, β) ∈ g₁.rules → v = "P" ∨ v = "R" := fun v β h => by
    rcases mem_countRules.1 ((r1 _ _).1 h) with ⟨h, _⟩ | ⟨h, _⟩ <;> simp [h]
  have d2 : ∀ v β, (v, β) ∈ g₂.rules → v = "Q" ∨ v = "U" := fun v β h => by
    rcases mem_countRules.1 ((r2 _ _).1 h) with ⟨h, _⟩ | ⟨h, _⟩ <;> simp [h]
  refine ⟨g₁, g₂, l1, l2, t1, t2, ?_, fun g z e f hg he hn h => c130_no_parser hg he hn (a := "a") (b := "b") hp hpq ?_⟩
  · obtain ⟨g, hg, hz, hc⟩ := c129_grammar (gs := [g₁, g₂]) (z := "S") (by simp) (by simp [b1, b2])
      (by
        intro a ha β h
        simp at ha
        rcases ha with rfl | rfl
        · rcases d1 _ _ h with h | h <;> simp at h
        · rcases d2 _ _ h with h | h <;> simp at h)
      (by
        intro a ha b hb v β γ h1 h2
        simp at ha hb
        rcases ha with rfl | rfl <;> rcases hb with rfl | rfl <;> first | rfl | skip
        · rcases d1 _ _ h1 with rfl | rfl <;> rcases d2 _ _ h2 with h | h <;> simp at h
        · rcases d2 _ _ h1 with rfl | rfl <;> rcases d1 _ _ h2 with h | h <;> simp at h)
    have cases : ∀ v β, (v, β) ∈ g.rules → (v, β) ∈ countRules p "P" "R" ∨ (v, β) ∈ countRules q "Q" "U" ∨
        v = "S" ∧ (β = [.var g₁.start] ∨ β = [.var g₂.start]) := by
      intro v β h
      rcases (hc.rules v β).1 h with ⟨a, ha, h⟩ | ⟨h, a, ha, h'⟩
      · simp at ha
        rcases ha with rfl | rfl
        · exact .inl ((r1 _ _).1 h)
        · exact .inr (.inl ((r2 _ _).1 h))
      · simp at ha
        rcases ha with rfl | rfl
        · exact .inr (.inr ⟨h.trans hz, .inl h'⟩)
        · exact .inr (.inr ⟨h.trans hz, .inr h'⟩)
    have term : ∀ v β t, (v, β) ∈ g.rules → .term t ∈ β → t = "a" ∨ t = "b" := by
      intro v β t h ht
      rcases cases v β h with h | h | ⟨rfl, rfl | rfl⟩
      · rcases mem_countRules.1 h with ⟨rfl, rfl⟩ | ⟨rfl, rfl | rfl⟩ <;> simp [List.mem_replicate] at ht <;> simp_all
        rcases ht with h | ⟨_, h⟩ <;> simp [h]
      · rcases mem_countRules.1 h with ⟨rfl, rfl⟩ | ⟨rfl, rfl | rfl⟩ <;> simp [List.mem_replicate] at ht <;> simp_all
        rcases ht with h | ⟨_, h⟩ <;> simp [h]
      · simp at ht
      · simp at ht
    refine ⟨g, hg, ?_, ⟨?_, ?_, ?_, by decide⟩, fun w => ⟨?_, ?_⟩⟩
    · intro v β h
      rcases (hc.rules v β).1 h with ⟨a, ha, h⟩ | ⟨_, a, ha, rfl⟩
      · simp at ha
        rcases ha with rfl | rfl
        · exact e1 _ _ h
        · exact e2 _ _ h
      · simp
    · intro β h
      rcases cases _ β h with h | h | ⟨h, _⟩
      · rcases mem_countRules.1 h with ⟨h, _⟩ | ⟨h, _⟩ <;> simp at h
      · rcases mem_countRules.1 h with ⟨h, _⟩ | ⟨h, _⟩ <;> simp at h
      · simp at h
    · intro v β t h ht
      rcases term v β t h ht with rfl | rfl <;> decide
    · intro v β t h ht
      rcases term v β t h ht with rfl | rfl <;> decide
    · rintro ⟨m, h⟩
      obtain ⟨a, ha, m', h1, _⟩ := (c129_trees (by simp [b1.wellFormed, b2.wellFormed]) hc).1 h
      simp at ha
      rcases ha with rfl | rfl
      · exact .inl ⟨_, h1⟩
      · exact .inr ⟨_, h1⟩
    · rintro (⟨m, h⟩ | ⟨m, h⟩)
      · exact ⟨_, (c129_trees (by simp [b1.wellFormed, b2.wellFormed]) hc).2 ⟨g₁, by simp, m, h, rfl⟩⟩
      · exact ⟨_, (c129_trees (by simp [b1.wellFormed, b2.wellFormed]) hc).2 ⟨g₂, by simp, m, h, rfl⟩⟩
  · intro n i
    rw [h, l1, l2]
    constructor
    · rintro (⟨k, hk, h⟩ | ⟨k, hk, h⟩)
      · obtain ⟨rfl, rfl⟩ := counts_alike h
        exact ⟨hk, .inl rfl⟩
      · obtain ⟨rfl, rfl⟩ := counts_alike h
        exact ⟨hk, .inr rfl⟩
    · rintro ⟨hk, rfl | rfl⟩
      · exact .inl ⟨n, hk, rfl⟩
      · exact .inr ⟨n, hk, rfl⟩

/-- As many `b` as `a`, or twice as many: there is a parser for each of them, and there is a grammar for both without the
empty string, but it has no parser. -/
example : ∃ g₁ g₂ g : Grammar String String, (∃ tbl, IsParser (withEnd g₁ "Z" "$" "#") tbl) ∧
    (∃ tbl, IsParser (withEnd g₂ "Z" "$" "#") tbl) ∧
    (∃ m, ParseTree g m ["a", "a", "b", "b"]) ∧ (∃ m, ParseTree g m ["a", "a", "b", "b", "b", "b"]) ∧
    ¬ ∃ tbl, IsParser (withEnd g "Z" "$" "#") tbl := by
  obtain ⟨g₁, g₂, l1, l2, t1, t2, ⟨g, hg, he, hn, hl⟩, h⟩ := c130_choice (p := 1) (q := 2) (by decide) (by decide)
  exact ⟨g₁, g₂, g, t1, t2, (hl _).2 (.inl ((l1 _).2 ⟨2, by decide, rfl⟩)), (hl _).2 (.inr ((l2 _).2 ⟨2, by decide, rfl⟩)),
    h g _ _ _ hg he hn hl⟩

end Pango.Props
