/-!
# What a lexer should do

Words are lists of characters.  A rule is given by the words that it matches; rules are numbered by the order
in which they were added.
-/

namespace Pango.Spec

variable {α : Type}

/-- Some rule matches the word. -/
def AnyMatch (rules : List (List α → Prop)) (w : List α) : Prop := ∃ M ∈ rules, M w

/-- `w` is the longest non-empty prefix of the input that some rule matches. -/
structure Longest (rules : List (List α → Prop)) (input w : List α) : Prop where
  nonempty : w ≠ []
  isPrefix : w <+: input
  isMatch : AnyMatch rules w
  longest : ∀ v, v <+: input → AnyMatch rules v → v.length ≤ w.length

/-- Rule `i` is the first one that matches the word. -/
structure FirstMatch (rules : List (List α → Prop)) (w : List α) (i : Nat) : Prop where
  isMatch : ∃ M, rules[i]? = some M ∧ M w
  first : ∀ j M, j < i → rules[j]? = some M → ¬ M w

/-- No rule matches a non-empty prefix of the input. -/
def NoMatch (rules : List (List α → Prop)) (input : List α) : Prop :=
  ∀ w, w ≠ [] → w <+: input → ¬ AnyMatch rules w

/-- The tokenization of an input by maximal munch: the words with the numbers of their rules, and the rest
of the input at which no rule matches any more. -/
inductive Munch (rules : List (List α → Prop)) :
    List α → List (List α × Nat) → List α → Prop
  | stop {input : List α} : NoMatch rules input → Munch rules input [] input
  | token {w rest : List α} {i : Nat} {ts : List (List α × Nat)} {tail : List α} :
      Longest rules (w ++ rest) w → FirstMatch rules w i → Munch rules rest ts tail →
      Munch rules (w ++ rest) ((w, i) :: ts) tail

/-- Maximal munch with losses: every word is the longest match at the front of what is left, but characters
may disappear from what is left after each word. -/
inductive LossyMunch (rules : List (List α → Prop)) : List α → List (List α) → List α → Prop
  | stop {input : List α} : LossyMunch rules input [] input
  | token {w rest rest' : List α} {ws : List (List α)} {tail : List α} :
      Longest rules (w ++ rest) w → rest'.Sublist rest → LossyMunch rules rest' ws tail →
      LossyMunch rules (w ++ rest) (w :: ws) tail

theorem Longest.unique {rules : List (List α → Prop)} {input w w' : List α} (h : Longest rules input w)
    (h' : Longest rules input w') : w = w' := by
  have h1 := h.longest w' h'.isPrefix h'.isMatch
  have h2 := h'.longest w h.isPrefix h.isMatch
  obtain ⟨a, ha⟩ := h.isPrefix
  obtain ⟨b, hb⟩ := h'.isPrefix
  exact (List.append_inj (ha.trans hb.symm) (by omega)).1

theorem FirstMatch.unique {rules : List (List α → Prop)} {w : List α} {i j : Nat}
    (h : FirstMatch rules w i) (h' : FirstMatch rules w j) : i = j := by
  obtain ⟨M, h1, h2⟩ := h.isMatch
  obtain ⟨N, h3, h4⟩ := h'.isMatch
  rcases Nat.lt_trichotomy i j with hlt | rfl | hlt
  · exact absurd h2 (h'.first i M hlt h1)
  · rfl
  · exact absurd h4 (h.first j N hlt h3)

/-- There is only one tokenization. -/
theorem Munch.unique {rules : List (List α → Prop)} {input : List α} {ts ts' : List (List α × Nat)}
    {tail tail' : List α} (h : Munch rules input ts tail) (h' : Munch rules input ts' tail') :
    ts = ts' ∧ tail = tail' := by
  induction h generalizing ts' tail' with
  | stop hn =>
    cases h' with
    | stop => exact ⟨rfl, rfl⟩
    | token hl _ _ => exact absurd hl.isMatch (hn _ hl.nonempty hl.isPrefix)
  | @token w rest i ts tail hl hf _ ih =>
    generalize hin : w ++ rest = input at h'
    cases h' with
    | stop hn => subst hin; exact absurd hl.isMatch (hn _ hl.nonempty hl.isPrefix)
    | @token w' rest' i' ts' _ hl' hf' hm =>
      rw [← hin] at hl'
      have := hl.unique hl'
      subst this
      have := List.append_cancel_left hin
      subst this
      have := hf.unique hf'
      subst this
      obtain ⟨rfl, rfl⟩ := ih hm
      exact ⟨rfl, rfl⟩

/-- The tokenization ends where no rule matches. -/
theorem Munch.noMatch {rules : List (List α → Prop)} {input : List α} {ts : List (List α × Nat)}
    {tail : List α} (h : Munch rules input ts tail) : NoMatch rules tail := by
  induction h with
  | stop h => exact h
  | token _ _ _ ih => exact ih

/-- The words of the tokenization and its rest make up the input. -/
theorem Munch.flatten {rules : List (List α → Prop)} {input : List α} {ts : List (List α × Nat)}
    {tail : List α} (h : Munch rules input ts tail) : (ts.map Prod.fst).flatten ++ tail = input := by
  induction h with
  | stop => rfl
  | token _ _ _ ih => simp [ih]

end Pango.Spec
