import Verif.Spec.Words

/-!
# What the matcher does on patterns that are words
-/

namespace Pango.Spec

open Pango.Regex

variable [Unicode]

/-- The characters as literals. -/
abbrev lits (w : List Char) : List Expr := w.map fun c => .lit (.mtch c) none

theorem matches_char {c : Char} {v : List Char} : Matches (.lit (.mtch c) none) v ↔ v = [c] := by
  constructor
  · intro h
    cases h with
    | lit h1 h2 =>
      obtain ⟨d, rfl⟩ := List.length_eq_one_iff.1 h1
      rw [show d = c from h2 d (by simp)]
  · rintro rfl
    exact .lit rfl (fun d hd => List.mem_singleton.1 hd)

theorem matches_lits {w : List Char} : ∀ {v : List Char}, Matches (.concat (lits w)) v ↔ v = w := by
  induction w with
  | nil =>
    intro v
    constructor
    · intro h; cases h; rfl
    · rintro rfl; exact .nil
  | cons c w ih =>
    intro v
    constructor
    · intro h
      cases h with
      | cons h1 h2 => rw [matches_char.1 h1, ih.1 h2]; rfl
    · rintro rfl
      exact Matches.cons (u := [c]) (matches_char.2 rfl) (ih.2 rfl)

theorem mayRead_lits {w : List Char} : ∀ {v : List Char}, MayRead (.concat (lits w)) v ↔ v <+: w := by
  induction w with
  | nil =>
    intro v
    constructor
    · intro h; cases h; exact List.prefix_refl _
    · intro h; rw [List.prefix_nil.1 h]; exact .nothing
  | cons c w ih =>
    intro v
    constructor
    · intro h
      cases h with
      | nothing => exact List.nil_prefix
      | here h =>
        cases h with
        | nothing => exact List.nil_prefix
        | char h => rw [show _ = c from h]; exact ⟨w, rfl⟩
      | later h1 h2 =>
        rw [matches_char.1 h1]
        simpa using ih.1 h2
    · intro h
      cases v with
      | nil => exact .nothing
      | cons d v =>
        obtain ⟨rfl, hp⟩ := List.cons_prefix_cons.1 h
        exact MayRead.later (u := [d]) (matches_char.2 rfl) (ih.2 hp)

theorem begins_char {c : Char} {b : Bool} {v : List Char} (h : Begins (.lit (.mtch c) none) b v) : v = [c] := by
  cases h with
  | lit h => rw [show _ = c from h]

theorem begins_lits {w : List Char} {b : Bool} {v : List Char} (h : Begins (.concat (lits w)) b v) : v = w := by
  cases w with
  | nil => cases h
  | cons c w =>
    cases h with
    | here h1 h2 => rw [begins_char h1, matches_lits.1 h2]; rfl
    | later h => exact h.elim

theorem mayBegin_lits {w : List Char} {v : List Char} (h : MayBegin (.concat (lits w)) v) : v <+: w := by
  cases w with
  | nil => cases h
  | cons c w =>
    cases h with
    | here h =>
      cases h with
      | char h => rw [show _ = c from h]; exact ⟨w, rfl⟩
    | after h1 h2 =>
      rw [begins_char h1]
      simpa using mayRead_lits.1 h2
    | later h => exact h.elim

omit [Unicode] in
theorem wordTree_cases (w : List Char) : (∃ c, w = [c] ∧ wordTree w = .lit (.mtch c) none) ∨
    wordTree w = .concat (lits w) := by
  match w with
  | [] => exact .inr rfl
  | [c] => exact .inl ⟨c, rfl, rfl⟩
  | _ :: _ :: _ => exact .inr rfl

/-- The matcher takes the word and nothing else. -/
theorem taken_word {w : List Char} (hw : w ≠ []) {v : List Char} : Taken (wordTree w) v ↔ v = w := by
  rcases wordTree_cases w with ⟨c, rfl, h⟩ | h
  · rw [h]
    constructor
    · rintro (⟨_, h⟩ | ⟨b, h⟩)
      · exact h.elim
      · exact begins_char h
    · rintro rfl
      exact .inr ⟨true, .lit rfl⟩
  · rw [h]
    constructor
    · rintro (⟨_, h⟩ | ⟨b, h⟩)
      · cases w with
        | nil => exact absurd rfl hw
        | cons c w => exact h.1.elim
      · exact begins_lits h
    · rintro rfl
      cases v with
      | nil => exact absurd rfl hw
      | cons c v => exact .inr ⟨true, Begins.here (u := [c]) (.lit rfl) (matches_lits.2 rfl)⟩

theorem matches_word {w v : List Char} : Matches (wordTree w) v ↔ v = w := by
  rcases wordTree_cases w with ⟨c, rfl, h⟩ | h
  · rw [h]; exact matches_char
  · rw [h]; exact matches_lits

theorem mayBegin_word {w v : List Char} (hv : v ≠ []) : MayBegin (wordTree w) v ↔ v <+: w := by
  rcases wordTree_cases w with ⟨c, rfl, h⟩ | h
  · rw [h]
    constructor
    · intro h
      cases h with
      | char h => rw [show _ = c from h]; exact List.prefix_refl _
    · intro h
      cases v with
      | nil => exact absurd rfl hv
      | cons d v =>
        obtain ⟨rfl, hp⟩ := List.cons_prefix_cons.1 h
        rw [List.prefix_nil.1 hp]
        exact .char rfl
  · rw [h]
    refine ⟨mayBegin_lits, fun h => ?_⟩
    cases v with
    | nil => exact absurd rfl hv
    | cons d v =>
      cases w with
      | nil => exact absurd (List.prefix_nil.1 h) (by simp)
      | cons c w =>
        obtain ⟨rfl, hp⟩ := List.cons_prefix_cons.1 h
        exact MayBegin.after (u := [d]) (.lit rfl) (mayRead_lits.2 hp)

theorem spins_lits {w v : List Char} : ¬ Spins (.concat (lits w)) v := by
  induction w generalizing v with
  | nil => intro h; cases h
  | cons c w ih =>
    intro h
    cases h with
    | here h => cases h
    | later _ h => exact ih h

theorem spinsFirst_lits {w v : List Char} : ¬ SpinsFirst (.concat (lits w)) v := by
  intro h
  cases w with
  | nil => cases h
  | cons c w =>
    cases h with
    | here h => cases h
    | after _ h => exact spins_lits h
    | later h => exact h.elim

theorem spinsFirst_word {w v : List Char} : ¬ SpinsFirst (wordTree w) v := by
  rcases wordTree_cases w with ⟨c, rfl, h⟩ | h
  · rw [h]; intro h; cases h
  · rw [h]; exact spinsFirst_lits

/-! ## Several words -/

variable {ws : List (List Char)}

theorem passes_words (v : List Char) : Passes (ws.map wordTree) v := by
  intro e he u _
  obtain ⟨w, _, rfl⟩ := List.mem_map.1 he
  exact spinsFirst_word

theorem readable_words {v : List Char} : Readable (ws.map wordTree) v ↔ v = [] ∨ ∃ w ∈ ws, v <+: w := by
  by_cases hv : v = []
  · simp [Readable, hv]
  · simp only [Readable, hv, false_or, List.mem_map]
    constructor
    · rintro ⟨_, ⟨w, hw, rfl⟩, h⟩
      exact ⟨w, hw, (mayBegin_word hv).1 h⟩
    · rintro ⟨w, hw, h⟩
      exact ⟨_, ⟨w, hw, rfl⟩, (mayBegin_word hv).2 h⟩

theorem anyMatch_words (hne : [] ∉ ws) {v : List Char} : AnyMatch (taken (ws.map wordTree)) v ↔ v ∈ ws := by
  have ne : ∀ {w}, w ∈ ws → w ≠ [] := fun h hw => hne (hw ▸ h)
  constructor
  · rintro ⟨M, hM, h⟩
    obtain ⟨e, he, rfl⟩ := List.mem_map.1 hM
    obtain ⟨w, hw, rfl⟩ := List.mem_map.1 he
    rw [(taken_word (ne hw)).1 h]
    exact hw
  · intro hv
    exact ⟨_, List.mem_map_of_mem (List.mem_map_of_mem hv), (taken_word (ne hv)).2 rfl⟩

theorem looksOneAhead_words (hne : [] ∉ ws) : LooksOneAhead (ws.map wordTree) ↔ FillsUp ws := by
  constructor
  · intro h u hu v hv x hux hxv
    obtain ⟨r, rfl⟩ := hux
    have key : ∀ (r u : List Char), u ∈ ws → u ++ r <+: v → u ++ r ∈ ws := by
      intro r
      induction r with
      | nil => intro u hu _; simpa using hu
      | cons c r ih =>
        intro u hu hp
        have e : u ++ c :: r = (u ++ [c]) ++ r := by simp
        rw [e] at hp ⊢
        refine ih _ ?_ hp
        have := h u c (fun h => hne (h ▸ hu)) ((anyMatch_words hne).2 hu)
          (readable_words.2 (.inr ⟨v, hv, (List.prefix_append _ _).trans hp⟩)) (passes_words _)
        exact (anyMatch_words hne).1 this
    exact key r u hu hxv
  · intro h w c hw hm hr _
    rw [anyMatch_words hne] at hm ⊢
    rcases readable_words.1 hr with hr | ⟨v, hv, hr⟩
    · simp at hr
    · exact h w hm v hv _ (List.prefix_append _ _) hr

end Pango.Spec
