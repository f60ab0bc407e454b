import Mathlib.Computability.MyhillNerode
import Mathlib.Computability.RegularExpressions
import Mathlib.Data.Finite.Prod
import Mathlib.Data.Set.Finite.Lattice

/-!
# Regular expressions and finite automata

Mathlib has both, but not that they describe the same languages.
-/

namespace Pango.Regular

open Computability

variable {α : Type}

/-! ## From regular expressions to automata -/

/-- The words of some of the languages. -/
def unions (S : Set (Language α)) : Language α := {y | ∃ A ∈ S, y ∈ A}

theorem mem_unions {S : Set (Language α)} {y : List α} : y ∈ unions S ↔ ∃ A ∈ S, y ∈ A := Iff.rfl

theorem zero_quotients : (Set.range (0 : Language α).leftQuotient).Finite := by
  refine (Set.finite_singleton (0 : Language α)).subset ?_
  rintro _ ⟨x, rfl⟩
  exact Set.mem_singleton_iff.2 rfl

theorem one_quotient (x : List α) : (1 : Language α).leftQuotient x = 1 ∨ (1 : Language α).leftQuotient x = 0 := by
  cases x with
  | nil => exact .inl rfl
  | cons a x =>
    refine .inr (Language.ext fun y => ?_)
    rw [Language.mem_leftQuotient, Language.mem_one]
    simpa using Language.notMem_zero _

theorem one_quotients : (Set.range (1 : Language α).leftQuotient).Finite := by
  refine ((Set.finite_singleton (0 : Language α)).insert 1).subset ?_
  rintro _ ⟨x, rfl⟩
  simpa using one_quotient x

theorem char_quotients (a : α) : (Set.range ((RegularExpression.char a).matches').leftQuotient).Finite := by
  have hm : ∀ w : List α, w ∈ (RegularExpression.char a).matches' ↔ w = [a] := fun w => Iff.rfl
  refine (((Set.finite_singleton (0 : Language α)).insert 1).insert (RegularExpression.char a).matches').subset ?_
  rintro _ ⟨x, rfl⟩
  simp only [Set.mem_insert_iff, Set.mem_singleton_iff]
  rcases x with _ | ⟨b, x⟩
  · exact .inl rfl
  · refine .inr ?_
    by_cases h : b :: x = [a]
    · refine .inl (Language.ext fun y => ?_)
      rw [Language.mem_leftQuotient, hm, Language.mem_one, h]
      simp
    · refine .inr (Language.ext fun y => ?_)
      rw [Language.mem_leftQuotient, hm]
      refine iff_of_false (fun h' => h ?_) (Language.notMem_zero _)
      simp only [List.cons_append, List.cons.injEq, List.append_eq_nil_iff] at h'
      rw [h'.1, h'.2.1]

theorem add_quotients {P Q : Language α} (hP : (Set.range P.leftQuotient).Finite) (hQ : (Set.range Q.leftQuotient).Finite) :
    (Set.range (P + Q).leftQuotient).Finite := by
  refine (Set.Finite.image2 (fun A B => A + B) hP hQ).subset ?_
  rintro _ ⟨x, rfl⟩
  exact ⟨_, ⟨x, rfl⟩, _, ⟨x, rfl⟩, rfl⟩

theorem mul_quotients {P Q : Language α} (hP : (Set.range P.leftQuotient).Finite) (hQ : (Set.range Q.leftQuotient).Finite) :
    (Set.range (P * Q).leftQuotient).Finite := by
  refine (Set.Finite.image2 (fun A S => A * Q + unions S) hP hQ.finite_subsets).subset ?_
  rintro _ ⟨x, rfl⟩
  refine ⟨_, ⟨x, rfl⟩, {B | ∃ u v, x = u ++ v ∧ u ∈ P ∧ B = Q.leftQuotient v}, ?_, ?_⟩
  · rintro _ ⟨u, v, _, _, rfl⟩
    exact ⟨v, rfl⟩
  · refine Language.ext fun y => ?_
    rw [Language.mem_leftQuotient, Language.mem_add, Language.mem_mul, Language.mem_mul, mem_unions]
    constructor
    · rintro (⟨a, ha, b, hb, rfl⟩ | ⟨_, ⟨u, v, rfl, hu, rfl⟩, hy⟩)
      · exact ⟨x ++ a, ha, b, hb, by simp⟩
      · exact ⟨u, hu, v ++ y, hy, by simp⟩
    · rintro ⟨a, ha, b, hb, h⟩
      rcases List.append_eq_append_iff.1 h with ⟨v, rfl, rfl⟩ | ⟨v, rfl, rfl⟩
      · exact .inr ⟨_, ⟨a, v, rfl, ha, rfl⟩, hb⟩
      · exact .inl ⟨v, ha, b, hb, rfl⟩

theorem star_split {P : Language α} {x y : List α} (hx : x ≠ []) (h : x ++ y ∈ P∗) :
    ∃ u v y1 y2, x = u ++ v ∧ u ∈ P∗ ∧ v ++ y1 ∈ P ∧ y2 ∈ P∗ ∧ y = y1 ++ y2 := by
  obtain ⟨ws, hw, hws⟩ := Language.mem_kstar.1 h
  clear h
  induction ws generalizing x with
  | nil => simp_all
  | cons w ws ih =>
    rw [List.flatten_cons] at hw
    have hP := hws w (by simp)
    have hws' := fun z hz => hws z (List.mem_cons_of_mem _ hz)
    rcases List.append_eq_append_iff.1 hw with ⟨v, rfl, rfl⟩ | ⟨v, rfl, hv⟩
    · exact ⟨[], x, v, ws.flatten, rfl, Language.nil_mem_kstar _, hP, Language.join_mem_kstar hws', rfl⟩
    · by_cases h0 : v = []
      · subst h0
        refine ⟨[], w, [], y, by simp, Language.nil_mem_kstar _, by simpa using hP, ?_, rfl⟩
        rw [List.nil_append] at hv
        rw [← hv]
        exact Language.join_mem_kstar hws'
      · obtain ⟨u, v', y1, y2, rfl, h1, h2, h3, rfl⟩ := ih h0 hv.symm hws'
        refine ⟨w ++ u, v', y1, y2, by simp, ?_, h2, h3, rfl⟩
        obtain ⟨us, rfl, hus⟩ := Language.mem_kstar.1 h1
        exact Language.mem_kstar.2 ⟨w :: us, by simp, by simpa using ⟨hP, hus⟩⟩

theorem star_quotients {P : Language α} (hP : (Set.range P.leftQuotient).Finite) :
    (Set.range (P∗).leftQuotient).Finite := by
  refine ((hP.finite_subsets.image (fun S => unions S * P∗)).insert P∗).subset ?_
  rintro _ ⟨x, rfl⟩
  by_cases hx : x = []
  · subst hx
    exact .inl rfl
  · refine .inr ⟨{B | ∃ u v, x = u ++ v ∧ u ∈ P∗ ∧ B = P.leftQuotient v}, ?_, ?_⟩
    · rintro _ ⟨u, v, _, _, rfl⟩
      exact ⟨v, rfl⟩
    · refine Language.ext fun y => ?_
      rw [Language.mem_leftQuotient, Language.mem_mul]
      constructor
      · rintro ⟨y1, ⟨_, ⟨u, v, rfl, hu, rfl⟩, h1⟩, y2, h2, rfl⟩
        obtain ⟨us, rfl, hus⟩ := Language.mem_kstar.1 hu
        obtain ⟨ys, rfl, hys⟩ := Language.mem_kstar.1 h2
        refine Language.mem_kstar.2 ⟨us ++ (v ++ y1) :: ys, by simp, ?_⟩
        intro z hz
        rcases List.mem_append.1 hz with h | h
        · exact hus z h
        · rcases List.mem_cons.1 h with rfl | h
          · exact h1
          · exact hys z h
      · intro h
        obtain ⟨u, v, y1, y2, rfl, h1, h2, h3, rfl⟩ := star_split hx h
        exact ⟨y1, ⟨_, ⟨u, v, rfl, h1, rfl⟩, h2⟩, y2, h3, rfl⟩

theorem regex_quotients (r : RegularExpression α) : (Set.range (r.matches').leftQuotient).Finite := by
  induction r with
  | zero => exact zero_quotients
  | epsilon => exact one_quotients
  | char a => exact char_quotients a
  | plus P Q ihP ihQ => exact add_quotients ihP ihQ
  | comp P Q ihP ihQ => exact mul_quotients ihP ihQ
  | star P ih => exact star_quotients ih

/-- The languages of regular expressions are regular. -/
theorem regex_isRegular (r : RegularExpression α) : (r.matches').IsRegular :=
  Language.isRegular_iff_finite_range_leftQuotient.2 (regex_quotients r)

/-! ## From automata to regular expressions -/

/-- Any of the expressions. -/
def anyOf {β : Type} (f : β → RegularExpression α) : List β → RegularExpression α
  | [] => 0
  | b :: l => f b + anyOf f l

theorem mem_anyOf {β : Type} {f : β → RegularExpression α} {l : List β} {w : List α} :
    w ∈ (anyOf f l).matches' ↔ ∃ b ∈ l, w ∈ (f b).matches' := by
  induction l with
  | nil => simpa [anyOf] using Language.notMem_zero w
  | cons b l ih =>
    rw [anyOf, RegularExpression.matches'_add, Language.mem_add, ih]
    simp

variable {σ : Type} {M : DFA α σ}

/-- From one state to another, by a word that is not empty, over states of which something holds. -/
inductive Path (M : DFA α σ) (K : σ → Prop) : σ → List α → σ → Prop
  | one {s : σ} (a : α) : Path M K s [a] (M.step s a)
  | cons {s t : σ} {w : List α} (a : α) : K (M.step s a) → Path M K (M.step s a) w t → Path M K s (a :: w) t

theorem Path.mono {K K' : σ → Prop} (hK : ∀ s, K s → K' s) {s t : σ} {w : List α} (h : Path M K s w t) :
    Path M K' s w t := by
  induction h with
  | one a => exact .one a
  | cons a h1 _ ih => exact .cons a (hK _ h1) ih

theorem Path.append {K : σ → Prop} {s k t : σ} {u v : List α} (h : Path M K s u k) (hk : K k) (h' : Path M K k v t) :
    Path M K s (u ++ v) t := by
  induction h with
  | one a => exact .cons a hk h'
  | cons a h1 _ ih => exact .cons a h1 (ih hk h')

theorem Path.split {K : σ → Prop} {s t k : σ} {w : List α} (h : Path M (fun x => x = k ∨ K x) s w t) :
    Path M K s w t ∨ ∃ u v, w = u ++ v ∧ u ≠ [] ∧ Path M K s u k ∧ Path M (fun x => x = k ∨ K x) k v t := by
  induction h with
  | one a => exact .inl (.one a)
  | @cons s t w a h1 h2 ih =>
    by_cases hk : M.step s a = k
    · exact .inr ⟨[a], w, rfl, by simp, hk ▸ .one a, hk ▸ h2⟩
    · have h1 := h1.resolve_left hk
      rcases ih with h | ⟨u, v, rfl, _, h3, h4⟩
      · exact .inl (.cons a h1 h)
      · exact .inr ⟨a :: u, v, rfl, by simp, .cons a h1 h3, h4⟩

theorem path_eval {s t : σ} {w : List α} : Path M (fun _ => True) s w t ↔ w ≠ [] ∧ M.evalFrom s w = t := by
  constructor
  · intro h
    induction h with
    | one a => exact ⟨by simp, rfl⟩
    | cons a _ _ ih => exact ⟨by simp, by simpa using ih.2⟩
  · rintro ⟨h1, rfl⟩
    induction w generalizing s with
    | nil => exact absurd rfl h1
    | cons a w ih =>
      cases w with
      | nil => exact .one a
      | cons b w =>
        have := ih (s := M.step s a) (by simp)
        exact .cons a trivial this

open Classical in
/-- The words from one state to another, over states of the list. -/
noncomputable def between (M : DFA α σ) (letters : List α) : List σ → σ → σ → RegularExpression α
  | [], s, t => anyOf .char (letters.filter fun a => M.step s a = t)
  | k :: K, s, t => between M letters K s t +
      between M letters K s k * ((between M letters K k k).star * between M letters K k t)

open Classical in
theorem mem_between {letters : List α} (hl : ∀ a, a ∈ letters) {K : List σ} {s t : σ} {w : List α} :
    w ∈ (between M letters K s t).matches' ↔ Path M (· ∈ K) s w t := by
  induction K generalizing s t w with
  | nil =>
    rw [between, mem_anyOf]
    constructor
    · rintro ⟨a, ha, hw⟩
      have hw : w = [a] := hw
      subst hw
      obtain ⟨_, h⟩ := List.mem_filter.1 ha
      rw [← of_decide_eq_true h]
      exact .one a
    · intro h
      cases h with
      | one a => exact ⟨a, List.mem_filter.2 ⟨hl a, by simp⟩, rfl⟩
      | cons a h _ => simp at h
  | cons k K ih =>
    have hK : (fun x => x ∈ k :: K) = fun x => x = k ∨ x ∈ K := by
      funext x
      simp
    rw [hK, between, RegularExpression.matches'_add, Language.mem_add, RegularExpression.matches'_mul, Language.mem_mul, ih]
    constructor
    · rintro (h | ⟨u, hu, v, hv, rfl⟩)
      · exact h.mono fun _ => .inr
      · refine ((ih.1 hu).mono fun _ => .inr).append (.inl rfl) ?_
        rw [RegularExpression.matches'_mul, Language.mem_mul] at hv
        obtain ⟨us, hus, v, hv, rfl⟩ := hv
        rw [RegularExpression.matches'_star] at hus
        obtain ⟨us, rfl, hus'⟩ := Language.mem_kstar.1 hus
        clear hus
        induction us with
        | nil => exact (ih.1 hv).mono fun _ => .inr
        | cons u us ih' =>
          rw [List.flatten_cons, List.append_assoc]
          exact ((ih.1 (hus' u (by simp))).mono fun _ => .inr).append (.inl rfl) (ih' fun y hy => hus' y (by simp [hy]))
    · have key : ∀ n : Nat, ∀ v : List α, v.length ≤ n → Path M (fun x => x = k ∨ x ∈ K) k v t →
          v ∈ ((between M letters K k k).star * between M letters K k t).matches' := by
        intro n
        induction n with
        | zero =>
          intro v hv h
          cases h <;> simp at hv
        | succ n ihn =>
          intro v hv h
          rw [RegularExpression.matches'_mul, Language.mem_mul]
          rcases h.split with h | ⟨u, v, rfl, hne, h1, h2⟩
          · exact ⟨[], Language.nil_mem_kstar _, v, ih.2 h, rfl⟩
          · have hu : 0 < u.length := List.length_pos_iff.2 hne
            rw [List.length_append] at hv
            have h3 := ihn v (by omega) h2
            rw [RegularExpression.matches'_mul, Language.mem_mul] at h3
            obtain ⟨us, hus, v, hv', rfl⟩ := h3
            rw [RegularExpression.matches'_star] at hus
            obtain ⟨us, rfl, hus'⟩ := Language.mem_kstar.1 hus
            refine ⟨u ++ us.flatten, ?_, v, hv', by simp⟩
            rw [RegularExpression.matches'_star]
            exact Language.mem_kstar.2 ⟨u :: us, by simp, by simpa using ⟨ih.2 h1, hus'⟩⟩
      intro h
      rcases h.split with h | ⟨u, v, rfl, _, h1, h2⟩
      · exact .inl h
      · exact .inr ⟨u, ih.2 h1, v, key _ v (Nat.le_refl _) h2, rfl⟩

open Classical in
/-- Every regular language over finitely many letters has a regular expression. -/
theorem isRegular_regex {letters : List α} (hl : ∀ a, a ∈ letters) {L : Language α} (h : L.IsRegular) :
    ∃ r : RegularExpression α, r.matches' = L := by
  obtain ⟨σ, hσ, M, rfl⟩ := h
  have hall : (fun s => s ∈ (Finset.univ : Finset σ).toList) = fun _ => True := by
    funext s
    simp
  refine ⟨(if M.start ∈ M.accept then 1 else 0) + anyOf (between M letters (Finset.univ : Finset σ).toList M.start)
    ((Finset.univ : Finset σ).toList.filter fun t => t ∈ M.accept), Language.ext fun w => ?_⟩
  rw [RegularExpression.matches'_add, Language.mem_add, mem_anyOf, DFA.mem_accepts]
  simp only [mem_between hl, hall, path_eval]
  constructor
  · rintro (h | ⟨t, ht, _, rfl⟩)
    · split at h
      · rw [RegularExpression.matches'_epsilon, Language.mem_one] at h
        subst h
        assumption
      · exact absurd h (Language.notMem_zero _)
    · exact of_decide_eq_true (List.mem_filter.1 ht).2
  · intro h
    by_cases hw : w = []
    · subst hw
      refine .inl ?_
      have h : M.start ∈ M.accept := h
      rw [if_pos h, RegularExpression.matches'_epsilon, Language.mem_one]
    · exact .inr ⟨_, List.mem_filter.2 ⟨by simp, decide_eq_true h⟩, hw, rfl⟩

/-- The characters are finitely many. -/
theorem all_chars : ∃ letters : List Char, ∀ a, a ∈ letters := by
  refine ⟨(List.range 0x110000).map Char.ofNat, fun a => List.mem_map.2 ⟨a.toNat, ?_, Char.ofNat_toNat a⟩⟩
  rw [List.mem_range]
  rcases a.valid with h | h
  · exact Nat.lt_trans h (by decide)
  · exact h.2

end Pango.Regular
