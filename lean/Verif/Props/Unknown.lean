import Verif.Props.Trim
import Verif.Spec.Asking
import Verif.Spec.Unknown

/-!
# C96: tokens that no rule mentions
-/

namespace Pango.Props

open Pango Pango.Parse Pango.Spec

variable {V T : Type} [DecidableEq V] [TerminalEq T] {g : Grammar V T} {tbl : Table V T}

/-- No row of the table has an entry for the token. -/
def Blind (tbl : Table V T) (u : T) : Prop := ∀ row ∈ tbl.action, rowGet row (some u) = none

theorem Blind.handle {u : T} (hb : Blind tbl u) (st : List (ParseNode V T)) (s : Nat) :
    handleToken tbl (some u) st s = if s < tbl.action.length then .ok none else .panic := by
  unfold handleToken
  split
  · next h =>
    rw [List.getElem?_eq_getElem h]
    simp only [Outcome.expect, bind, Outcome.bind, hb _ (List.getElem_mem h)]
    rfl
  · next h =>
    rw [List.getElem?_eq_none (Nat.le_of_not_lt h)]
    rfl

/-- The table accepts at the end of the input only. -/
def AtEnd (tbl : Table V T) : Prop :=
  ∀ row ∈ tbl.action, ∀ t v k, rowGet row (some t) ≠ some (.accept v k)

theorem AtEnd.handle (ha : AtEnd tbl) {t : T} {st : List (ParseNode V T)} {s : Nat} {h : Handled V T}
    (hh : handleToken tbl (some t) st s = .ok (some h)) : h.accepted = false := by
  unfold handleToken at hh
  cases hr : tbl.action[s]? with
  | none => rw [hr] at hh; cases hh
  | some row =>
    rw [hr] at hh
    simp only [Outcome.expect, bind, Outcome.bind] at hh
    cases ha' : rowGet row (some t) with
    | none => rw [ha'] at hh; cases hh
    | some a =>
      rw [ha'] at hh
      cases a with
      | shift d => cases hh; rfl
      | reduce v k =>
        simp only [drainStack] at hh
        split at hh
        · next heq =>
          split at heq
          · cases heq
            simp only at hh
            split at hh
            · split at hh
              · split at hh
                · cases hh
                · cases hh; rfl
              all_goals cases hh
            all_goals cases hh
          · cases heq
        all_goals cases hh
      | accept v k => exact absurd ha' (ha row (List.mem_of_getElem? hr) t v k)

theorem Blind.loop (ha : AtEnd tbl) (n : Nat) (w : List T) (st : List (ParseNode V T)) (s : Nat) :
    ∃ result : Outcome (Option (Node V T)), (∀ m, result ≠ .ok (some m)) ∧
      ∀ u, Blind tbl u → ∀ more fin, parseLoop tbl fin n (w ++ u :: more) st s = result := by
  induction n generalizing w st s with
  | zero => exact ⟨.diverge, by simp, fun u _ more fin => by cases w <;> rfl⟩
  | succ n ih =>
    cases w with
    | nil =>
      refine ⟨if s < tbl.action.length then .ok none else .panic, fun m => by split <;> simp, fun u hu more fin => ?_⟩
      rw [List.nil_append, parseLoop, hu.handle]
      split <;> rfl
    | cons t w =>
      simp only [List.cons_append, parseLoop]
      cases hh : handleToken tbl (some t) st s with
      | panic => exact ⟨.panic, by simp, fun _ _ _ _ => rfl⟩
      | diverge => exact ⟨.diverge, by simp, fun _ _ _ _ => rfl⟩
      | ok r =>
        cases r with
        | none => exact ⟨.ok none, by simp, fun _ _ _ _ => rfl⟩
        | some h =>
          have h1 := ha.handle hh
          simp only [bind, Outcome.bind, h1]
          cases h.taken with
          | true => exact ih w _ _
          | false => exact ih (t :: w) _ _

variable [DecidableEq T] [LawfulTerminalEq T]

omit [TerminalEq T] [LawfulTerminalEq T] in
theorem starts_mentioned {t : T} {α : List (Sym V T)} (h : Starts g t α) :
    .term t ∈ α ∨ ∃ h β, (h, β) ∈ g.rules ∧ .term t ∈ β := by
  induction h with
  | term => exact .inl (by simp)
  | eps _ ih => exact ih.imp (List.mem_cons_of_mem _) id
  | inVar hr _ ih => exact .inr (ih.elim (fun h => ⟨_, _, hr, h⟩) id)
  | skip _ _ _ ih => exact ih.imp (List.mem_cons_of_mem _) id

omit [TerminalEq T] [LawfulTerminalEq T] in
theorem fol_mentioned {t : T} {v : V} (h : Fol g t v) : ∃ h β, (h, β) ∈ g.rules ∧ .term t ∈ β := by
  induction h with
  | here hr hs =>
    rcases starts_mentioned hs with h | h
    · exact ⟨_, _, hr, by simp [h]⟩
    · exact h
  | up _ _ _ ih => exact ih

theorem IsParser.rows (hg : Built g) (hp : IsParser g tbl) : AtEnd tbl ∧ ∀ u, Unknown g u → Blind tbl u := by
  obtain ⟨c, follow, fo, ok⟩ := hp.ok hg
  have key : ∀ row ∈ tbl.action, ∀ k a, rowGet row k = some a → ∃ s ∈ c.states, ∃ p ∈ s.items, ∃ k',
      Ask g (Entry g follow) s p k' a ∧ keyEq k' k = true := by
    intro row hr k a h
    obtain ⟨n, hn, rfl⟩ := List.mem_iff_getElem.1 hr
    obtain ⟨s, hs, hle, -⟩ := (ok.actionLen n).1 hn
    have hlt : s.id < c.states.length := by
      have := ok.cfsm.index hs
      exact (List.getElem?_eq_some_iff.1 this).1
    have hm : c.states[n] ∈ c.states := List.getElem_mem (by omega)
    have hid : (c.states[n]'(by omega)).id = n := by
      have h2 := congrArg (fun l => l[n]?) ok.cfsm.ids
      simp only [List.getElem?_map, List.getElem?_range (show n < c.states.length by omega),
        List.getElem?_eq_getElem (show n < c.states.length by omega), Option.map_some, Option.some.injEq] at h2
      exact h2
    refine ⟨_, hm, ((ok.action _ hm k a).1 ?_)⟩
    rw [lookup, hid, List.getElem?_eq_getElem hn]
    exact h
  constructor
  · intro row hr t v k h
    obtain ⟨s, hs, p, hi, k', hask, hk⟩ := key row hr _ _ h
    cases hask
    cases hk
  · intro u hu row hr
    cases h : rowGet row (some u) with
    | none => rfl
    | some a =>
      obtain ⟨s, hs, p, hi, k', hask, hk⟩ := key row hr _ _ h
      cases hask with
      | @shift h i t d hc _ =>
        have := hu _ _ t ((ok.cfsm.sets s hs).ok _ hi).rule (by
          obtain ⟨pre, post, h1, -⟩ := reads_iff.2 hc
          rw [h1]; simp)
        simp only [keyEq, this] at hk
        cases hk
      | @reduce h i t _ hf =>
        obtain ⟨h', β, hr', ht⟩ := fol_mentioned hf
        simp only [keyEq, hu _ _ t hr' ht] at hk
        cases hk
      | accept _ _ => cases hk

/-- C96: a token of a kind that is in no rule settles the result, whatever the parser has read and whatever comes behind
it.  The result is the same for all such tokens, and it is not a tree. -/
theorem c96_settles (hg : Built g) (hp : IsParser g tbl) (fuel : Nat) (w : List T) :
    ∃ result, (∀ n, result ≠ .ok (some n)) ∧ ∀ u, Unknown g u → Settles tbl fuel (w ++ [u]) result := by
  obtain ⟨h1, h2⟩ := IsParser.rows hg hp
  obtain ⟨r, h3, h4⟩ := Blind.loop h1 fuel w [⟨.mk (.var tbl.start) [], 0⟩] 0
  refine ⟨r, h3, fun u hu more fin => ?_⟩
  rw [parseTokens, List.append_assoc]
  exact h4 u (h2 u hu) more fin

/-- C96: no input with such a token is accepted. -/
theorem c96_rejected (hg : Built g) (hp : IsParser g tbl) {u : T} (hu : Unknown g u) {input : List T} (hi : u ∈ input)
    (fuel : Nat) (n : Node V T) : parseTokens tbl fuel input ≠ .ok (some n) := by
  obtain ⟨w, more, rfl⟩ := List.append_of_mem hi
  obtain ⟨r, h1, h2⟩ := c96_settles hg hp fuel w
  have := h2 u hu more (.ok ())
  rw [List.append_assoc] at this
  rw [show w ++ u :: more = w ++ ([u] ++ more) from rfl, this]
  exact h1 n

/-- C96 for trim grammars: an error is returned, after a number of steps that depends on the tokens in front of the
unknown one only. -/
theorem c96_error (hg : Built g) (hp : IsParser g tbl) (ht : Trim g) {u : T} (hu : Unknown g u) (w : List T) {fuel : Nat}
    (hf : (2 * w.length + 3) * (g.rules.length + 2) < fuel) : Settles tbl fuel (w ++ [u]) (.ok none) := by
  obtain ⟨r, h1, h2⟩ := c96_settles hg hp fuel w
  obtain ⟨r', h3⟩ := c40_trim_partial hg hp ht (w ++ [u]) (fuel := fuel) (by
    rw [List.length_append, List.length_singleton, show 2 * (w.length + 1) + 1 = 2 * w.length + 3 by omega]
    exact hf)
  have h4 := h2 u hu [] (.ok ())
  rw [List.append_nil, h3] at h4
  cases r' with
  | none => rw [h4]; exact h2 u hu
  | some n => exact absurd h4.symm (h1 n)

/-! ## The theorems apply -/

/-- `P → P Q ; | Q ;`, `Q → x | ( Q )` does not mention `+`. -/
theorem goodGrammar_unknown : Unknown goodGrammar "+" := by
  intro h β t hr ht
  simp only [goodGrammar, List.mem_cons, Prod.mk.injEq, List.not_mem_nil, or_false] at hr
  rcases hr with ⟨_, rfl⟩ | ⟨_, rfl⟩ | ⟨_, rfl⟩ | ⟨_, rfl⟩ <;> simp at ht
  all_goals first | subst ht; rfl | (rcases ht with rfl | rfl <;> rfl)

/-- `x + …` is rejected, whatever the dots stand for. -/
example (more : List String) : parseTokens (tableOf goodGrammar) 31 ("x" :: "+" :: more) = .ok none :=
  c96_error goodGrammar_built goodGrammar_parser goodGrammar_trim goodGrammar_unknown ["x"] (fuel := 31) (by decide) more
    (.ok ())

example (fuel : Nat) (n : Node String String) : parseTokens (tableOf goodGrammar) fuel ["x", ";", "+"] ≠ .ok (some n) :=
  c96_rejected goodGrammar_built goodGrammar_parser goodGrammar_unknown (by simp) fuel n

end Pango.Props
