import Verif.Proofs.Plugged
import Verif.Proofs.Rename
import Verif.Spec.Nested

/-!
# Lemmas about lists in brackets
-/

namespace Pango.Spec

open Pango.Parse

variable {V T V' T' : Type} {f : V → V'} {k : T → T'} {g : Grammar V T}

theorem CanEnd.rename {v : V} (h : CanEnd g v) : CanEnd (g.rename f k) (f v) := by
  induction h with
  | start => exact .start
  | @last h v pre h1 _ ih =>
    refine .last (pre := pre.map (Sym.rename f k)) ?_ ih
    have := rename_rule (f := f) (k := k) h1
    simpa [Sym.rename] using this

section
variable {f' : V' → V} {k' : T' → T} (hf : ∀ v, f' (f v) = v) (hk : ∀ t, k' (k t) = t)
include hf hk

theorem TableEntry.undo {γ' : List (Sym V' T')} {p : Option (V' × Item V' T')} {o : Option T'}
    (h : TableEntry (g.rename f k) γ' p o) :
    ∃ γ q o', γ' = γ.map (Sym.rename f k) ∧ p = q.map (fun q => (f q.1, renameItem f k q.2)) ∧ o = o'.map k ∧
      TableEntry g γ q o' := by
  cases h with
  | shift h1 h2 =>
    obtain ⟨γ, _, _, rfl, _⟩ := h1.renamed
    obtain ⟨v, i, h3, h4⟩ := h1.undo hf hk
    obtain ⟨rfl, rfl⟩ := Prod.mk.injEq .. ▸ h3
    obtain ⟨y, h5, h6⟩ := h2.undo hf hk
    cases y with
    | term t => cases h5; exact ⟨γ, some (v, i), some t, rfl, rfl, rfl, .shift h4 h6⟩
    | var _ => cases h5
    | eps => cases h5
  | reduce h1 h2 h3 =>
    obtain ⟨γ, _, _, rfl, _⟩ := h1.renamed
    obtain ⟨v, i, h4, h5⟩ := h1.undo hf hk
    obtain ⟨rfl, rfl⟩ := Prod.mk.injEq .. ▸ h4
    obtain ⟨u, rfl, h6⟩ := h3.undo hf hk
    exact ⟨γ, some (v, i), some u, rfl, rfl, rfl, .reduce h5 h2.undo h6⟩
  | reduceEnd h1 h2 h3 =>
    obtain ⟨γ, _, _, rfl, _⟩ := h1.renamed
    obtain ⟨v, i, h4, h5⟩ := h1.undo hf hk
    obtain ⟨rfl, rfl⟩ := Prod.mk.injEq .. ▸ h4
    have h6 := h3.rename (f := f') (k := k')
    rw [rename_undo hf hk, hf] at h6
    exact ⟨γ, some (v, i), none, rfl, rfl, rfl, .reduceEnd h5 h2.undo h6⟩
  | accept h1 => exact ⟨[.var g.start], none, none, h1, rfl, rfl, .accept rfl⟩

end

theorem TableEntry.rename {γ : List (Sym V T)} {p : Option (V × Item V T)} {o : Option T} (h : TableEntry g γ p o) :
    TableEntry (g.rename f k) (γ.map (Sym.rename f k)) (p.map fun q => (f q.1, renameItem f k q.2)) (o.map k) := by
  cases h with
  | shift h1 h2 => exact .shift h1.rename h2.rename
  | reduce h1 h2 h3 => exact .reduce h1.rename h2.rename h3.rename
  | reduceEnd h1 h2 h3 => exact .reduceEnd h1.rename h2.rename h3.rename
  | accept h1 => subst h1; exact .accept rfl

/-- Names do not matter for the table. -/
theorem oneEntry_rename [TerminalEq T] [TerminalEq T'] [Inhabited V] [Inhabited T] (hr : Renaming f k) :
    OneEntryEach (g.rename f k) ↔ OneEntryEach g := by
  obtain ⟨f', hf⟩ := undo_of_inj default hr.vars
  obtain ⟨k', hk⟩ := undo_of_inj default hr.terms
  have item : ∀ {p p' : Option (V × Item V T)}, p.map (fun q => (f q.1, renameItem f k q.2)) =
      p'.map (fun q => (f q.1, renameItem f k q.2)) → p = p' := by
    intro p p' h
    have := congrArg (Option.map fun q => (f' q.1, renameItem f' k' q.2)) h
    simpa [Option.map_map, Function.comp_def, hf, renameItem_undo hf hk] using this
  have key : ∀ {o o' : Option T}, o.map k = o'.map k → o = o' := by
    intro o o' h
    have := congrArg (Option.map k') h
    simpa [Option.map_map, Function.comp_def, hk] using this
  constructor
  · intro h γ p p' o o' h1 h2 h3
    obtain ⟨h4, h5⟩ := h _ _ _ _ _ h1.rename h2.rename (by rw [keyEq_rename hr.kinds]; exact h3)
    exact ⟨item h4, key h5⟩
  · intro h γ p p' o o' h1 h2 h3
    obtain ⟨γ1, q, u, rfl, rfl, rfl, h4⟩ := h1.undo hf hk
    obtain ⟨γ2, q', u', h5, rfl, rfl, h6⟩ := h2.undo hf hk
    have := congrArg (List.map (Sym.rename f' k')) h5
    rw [rename_undo_list hf hk, rename_undo_list hf hk] at this
    subst this
    obtain ⟨rfl, rfl⟩ := h _ _ _ _ _ h4 h6 (by rw [keyEq_rename hr.kinds] at h3; exact h3)
    exact ⟨rfl, rfl⟩

end Pango.Spec
