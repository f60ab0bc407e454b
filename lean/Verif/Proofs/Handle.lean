import Verif.Proofs.Slr
import Verif.Spec.Slr

/-!
# Handles

The part of the body of a viable item that has been read is the end of the string that was read.
-/

namespace Pango.Parse

open Pango Pango.Spec

variable {V T : Type} {g : Grammar V T}

/-- Not an epsilon. -/
def notEps : Sym V T → Bool
  | .eps => false
  | _ => true

/-- The part of the body in front of the cursor, without epsilons. -/
def Item.read (i : Item V T) : List (Sym V T) := (i.body.take i.cursor).filter notEps

theorem filter_notEps {β : Body V T} (h : Sym.eps ∉ β) : β.filter notEps = β := by
  rw [List.filter_eq_self]
  intro x hx
  cases x with
  | eps => exact absurd hx h
  | _ => rfl

theorem filter_replicate_eps (n : Nat) : (List.replicate n (Sym.eps : Sym V T)).filter notEps = [] := by
  rw [List.filter_eq_nil_iff]
  intro x hx
  rw [List.eq_of_mem_replicate hx]
  simp [notEps]

theorem fresh_read {β : Body V T} {i : Item V T} (h : Fresh β i) : i.read = [] := by
  obtain ⟨rfl, rest, h1, _⟩ := h
  unfold Item.read
  rw [h1, List.take_left' (by simp), filter_replicate_eps]

theorem advanced_read {i j : Item V T} {x : Sym V T} (h : Advanced i x j) (hx : x ≠ .eps) :
    j.read = i.read ++ [x] := by
  obtain ⟨h1, pre, k, rest, h2, _, h3, h4⟩ := h
  unfold Item.read
  rw [h1, h3, h4, h2, List.take_left' rfl]
  have : pre ++ x :: (List.replicate k .eps ++ rest) = (pre ++ x :: List.replicate k .eps) ++ rest := by simp
  rw [this, List.take_left' (by simp; omega), List.filter_append, List.filter_cons, filter_replicate_eps]
  cases x with
  | eps => exact absurd rfl hx
  | _ => rfl

/-- Where the items of a variable come from. -/
def Source (g : Grammar V T) (γ : List (Sym V T)) (v : V) : Prop :=
  (γ = [] ∧ v = g.start) ∨ ∃ h i, Viable g γ (h, i) ∧ Reads i (.var v)

theorem viable_split {γ : List (Sym V T)} {p : V × Item V T} (hv : Viable g γ p) :
    ∃ γ', γ = γ' ++ p.2.read ∧ Source g γ' p.1 := by
  induction hv with
  | start hβ hf => exact ⟨[], by simp [fresh_read hf], .inl ⟨rfl, rfl⟩⟩
  | @expand γ h v i j β hv hr hβ hf _ => exact ⟨γ, by simp [fresh_read hf], .inr ⟨h, i, hv, hr⟩⟩
  | @read γ h i j x hv ha ih =>
    obtain ⟨γ', h1, h2⟩ := ih
    refine ⟨γ', ?_, h2⟩
    have hx : x ≠ .eps := by
      rintro rfl
      exact (Viable_ok hv).noEps (advanced_iff.1 ha).1
    simp only
    rw [advanced_read ha hx, h1, List.append_assoc]

theorem complete_iff {p : V × Item V T} (h : ItemOk g p) : Complete p.2 ↔ p.2.cursorSymbol = none := by
  unfold Complete Item.cursorSymbol
  rw [List.getElem?_eq_none_iff]
  have := h.le
  omega

theorem complete_read {i : Item V T} (h : Complete i) (he : Sym.eps ∉ i.body) : i.read = i.body := by
  unfold Item.read
  rw [h, List.take_length, filter_notEps he]

theorem inFollow_iff {v : V} {t : T} : InFollow g v (.term t) ↔ Fol g t v := derives_follow

theorem notLast_iff {v : V} : (∃ h β, (h, β) ∈ g.rules ∧ NotLast β v) ↔ Followed g v := by
  constructor
  · rintro ⟨h, β, hr, pre, rest, rfl, hne⟩
    cases rest with
    | nil => exact absurd rfl hne
    | cons x post => exact ⟨h, pre, x, post, hr⟩
  · rintro ⟨h, pre, x, post, hr⟩
    exact ⟨h, _, hr, pre, x :: post, rfl, by simp⟩

theorem Entered.followable {v : V} (h : Entered g v) : Followable g v := by
  induction h with
  | notLast hr hn => exact .behind (notLast_iff.1 ⟨_, _, hr, hn⟩)
  | up hr hn _ ih =>
    obtain ⟨pre, rest, rfl, _⟩ := hn
    cases rest with
    | nil => exact .last hr ih
    | cons x post => exact .behind ⟨_, _, _, _, hr⟩

theorem entered_iff {v : V} : Entered g v ↔ Followable g v := by
  refine ⟨Entered.followable, fun h => ?_⟩
  induction h with
  | behind h =>
    obtain ⟨_, _, h1, h2⟩ := notLast_iff.2 h
    exact .notLast h1 h2
  | last hr _ ih => exact .up hr ⟨_, [], rfl, .nil⟩ ih

theorem surelyFollowed_iff {v : V} : SurelyFollowed g v ↔ SureEntry g v ∨ ∃ t, Fol g t v := by
  constructor
  · rintro (⟨t, h⟩ | h | ⟨h, pre, hr, h'⟩)
    · exact .inr ⟨t, inFollow_iff.1 h⟩
    · obtain ⟨_, _, h1, h2⟩ := notLast_iff.2 h
      exact .inl (.notLast h1 h2)
    · obtain ⟨_, _, h1, h2⟩ := notLast_iff.2 h'
      exact .inl (.up hr ⟨_, [], rfl, .nil⟩ h1 h2)
  · rintro (h | ⟨t, h⟩)
    · cases h with
      | notLast h1 h2 => exact .inr (.inl (notLast_iff.1 ⟨_, _, h1, h2⟩))
      | up h1 h2 h3 h4 =>
        obtain ⟨pre, rest, rfl, _⟩ := h2
        cases rest with
        | nil => exact .inr (.inr ⟨_, pre, h1, notLast_iff.1 ⟨_, _, h3, h4⟩⟩)
        | cons x post => exact .inr (.inl ⟨_, _, _, _, h1⟩)
    · exact .inl ⟨t, inFollow_iff.2 h⟩

theorem Fol.followable {t : T} {v : V} (h : Fol g t v) : Followable g v := by
  induction h with
  | @here h v pre rest hr hs =>
    cases rest with
    | nil => cases hs
    | cons x post => exact .behind ⟨_, _, _, _, hr⟩
  | @up h v pre rest hr _ _ ih =>
    cases rest with
    | nil => exact .last hr ih
    | cons x post => exact .behind ⟨_, _, _, _, hr⟩

theorem _root_.Pango.Spec.Followed.surely {v : V} (h : Followed g v) : SurelyFollowed g v := .inr (.inl h)

theorem _root_.Pango.Spec.SurelyFollowed.followable {v : V} (h : SurelyFollowed g v) : Followable g v := by
  rcases h with ⟨t, h⟩ | h | ⟨h, pre, hr, h'⟩
  · exact (inFollow_iff.1 h).followable
  · exact .behind h
  · exact .last hr (.behind h')

theorem Entered.occurs {v : V} (h : Entered g v) : Occurs g v := by
  cases h with
  | notLast hr hn =>
    obtain ⟨pre, rest, rfl, _⟩ := hn
    exact ⟨_, _, hr, by simp⟩
  | up hr hn _ =>
    obtain ⟨pre, rest, rfl, _⟩ := hn
    exact ⟨_, _, hr, by simp⟩

theorem _root_.Pango.Spec.Followable.occurs {v : V} (h : Followable g v) : Occurs g v := (entered_iff.2 h).occurs

variable [DecidableEq V] [DecidableEq T]

omit [DecidableEq T] in
theorem FollowOk.surely {follow : List (V × List (Sym V T))} (fo : FollowOk g follow)
    (h : SurelyFollowed g g.start) : Entry g follow := by
  rcases surelyFollowed_iff.1 h with h | ⟨t, h⟩
  · exact fo.sure _ h
  · exact fo.isSome h

/-- Askings in a state and needs behind a string. -/
theorem needs_iff {c : Cfsm V T} (ok : CfsmOk g c) {entry : Prop} {γ : List (Sym V T)} {s : CState V T}
    (hs : Reached c γ s) {p : V × Item V T} {k : Option T} :
    Needs g entry γ p k ↔ p ∈ s.items ∧ ∃ a, Ask g entry s p k a := by
  have hmem := reached_viable ok hs
  constructor
  · intro h
    cases h with
    | shift hv hr =>
      refine ⟨(hmem _).2 hv, ?_⟩
      obtain ⟨⟨x, d⟩, hd, hx⟩ := List.mem_map.1 ((ok.read s (reached_mem hs) _).2 ⟨_, (hmem _).2 hv, reads_iff.1 hr⟩)
      simp only at hx
      subst hx
      exact ⟨_, .shift (reads_iff.1 hr) hd⟩
    | reduce hv hc hf =>
      exact ⟨(hmem _).2 hv, _, .reduce ((complete_iff (Viable_ok hv)).1 hc) (inFollow_iff.1 hf)⟩
    | accept hv hc he =>
      exact ⟨(hmem _).2 hv, _, .accept ((complete_iff (Viable_ok hv)).1 hc) he⟩
  · rintro ⟨hp, a, h⟩
    have hv := (hmem _).1 hp
    cases h with
    | shift h1 _ => exact .shift hv (reads_iff.2 h1)
    | reduce h1 h2 => exact .reduce hv ((complete_iff (Viable_ok hv)).2 h1) (inFollow_iff.2 h2)
    | accept h1 h2 => exact .accept hv ((complete_iff (Viable_ok hv)).2 h1) h2

variable [TerminalEq T] [LawfulTerminalEq T]

/-- The table exists exactly if every entry is needed by one item. -/
theorem slrNew_at (wf : WellFormed g) (ord : HashOrder) {fuel : Nat} (hf : tableFuel g ≤ fuel) :
    ∃ c follow, g.followSet ((ord.sub 1).sub 0) fuel = .ok follow ∧ CfsmOk g c ∧ FollowOk g follow ∧
      (((∀ γ p p' k k', Needs g (Entry g follow) γ p k → Needs g (Entry g follow) γ p' k' → keyEq k k' = true →
          p = p' ∧ k = k') ∧ ∃ tbl, slrNew g ord fuel = .ok tbl ∧ SlrOk g c (Entry g follow) tbl) ∨
      (¬ (∀ γ p p' k k', Needs g (Entry g follow) γ p k → Needs g (Entry g follow) γ p' k' → keyEq k k' = true →
          p = p' ∧ k = k') ∧ slrNew g ord fuel = .panic)) := by
  obtain ⟨c, follow, _, hfs, ok, fo, r, h1, h2, h3⟩ := slrTable_ok wf ord hf
  refine ⟨c, follow, hfs, ok, fo, ?_⟩
  have hiff : r.isSome ↔ ∀ γ p p' k k', Needs g (Entry g follow) γ p k → Needs g (Entry g follow) γ p' k' →
      keyEq k k' = true → p = p' ∧ k = k' := by
    rw [h2]
    constructor
    · intro h γ p p' k k' hn hn' hk
      have hex : ∃ s, Reached c γ s := by
        have hv : Viable g γ p := by cases hn <;> assumption
        exact ok.exists_reached hv
      obtain ⟨s, hs⟩ := hex
      obtain ⟨h4, a, h5⟩ := (needs_iff ok hs).1 hn
      obtain ⟨h4', a', h5'⟩ := (needs_iff ok hs).1 hn'
      exact h s (reached_mem hs) p h4 p' h4' k k' a a' h5 h5' hk
    · intro h s hs p hp p' hp' k k' a a' ha ha' hk
      obtain ⟨γ, hγ⟩ := ok.reached hs
      exact h γ p p' k k' ((needs_iff ok hγ).2 ⟨hp, a, ha⟩) ((needs_iff ok hγ).2 ⟨hp', a', ha'⟩) hk
  cases r with
  | none => exact .inr ⟨fun h => by simpa using hiff.2 h, by simp [slrNew, h1]⟩
  | some tbl => exact .inl ⟨hiff.1 rfl, tbl, by simp [slrNew, h1], h3 tbl rfl⟩

/-- The same without the map of follow sets. -/
theorem slrNew_iff (wf : WellFormed g) (ord : HashOrder) {fuel : Nat} (hf : tableFuel g ≤ fuel) :
    ∃ c follow, CfsmOk g c ∧ FollowOk g follow ∧
      (((∀ γ p p' k k', Needs g (Entry g follow) γ p k → Needs g (Entry g follow) γ p' k' → keyEq k k' = true →
          p = p' ∧ k = k') ∧ ∃ tbl, slrNew g ord fuel = .ok tbl ∧ SlrOk g c (Entry g follow) tbl) ∨
      (¬ (∀ γ p p' k k', Needs g (Entry g follow) γ p k → Needs g (Entry g follow) γ p' k' → keyEq k k' = true →
          p = p' ∧ k = k') ∧ slrNew g ord fuel = .panic)) := by
  obtain ⟨c, follow, _, h⟩ := slrNew_at wf ord hf
  exact ⟨c, follow, h⟩

/-- What is known of every table, whatever the bound on the number of iterations was. -/
theorem slrNew_ok (wf : WellFormed g) {ord : HashOrder} {fuel : Nat} {tbl : Table V T}
    (h : slrNew g ord fuel = .ok tbl) :
    ∃ c follow, FollowOk g follow ∧ SlrOk g c (Entry g follow) tbl ∧
      ∀ γ p p' k k', Needs g (Entry g follow) γ p k → Needs g (Entry g follow) γ p' k' → keyEq k k' = true →
        p = p' ∧ k = k' := by
  have h1 := (slrNew_mono (n' := fuel + tableFuel g) (by omega)).ok h
  obtain ⟨c, follow, _, fo, ⟨h2, tbl', h3, ok⟩ | ⟨_, h3⟩⟩ := slrNew_iff wf ord (fuel := fuel + tableFuel g) (by omega)
  · rw [h1] at h3
    cases h3
    exact ⟨c, follow, fo, ok, h2⟩
  · rw [h1] at h3
    cases h3

end Pango.Parse
